import Verif.Proofs.Annotate
import Verif.Proofs.Remove
import Verif.Spec.Climb
import Verif.Model.Climb

/-!
# Closures that edit the tree while climbing
-/

namespace Lumberjack
namespace Tree

open Relation

/-- Only the parents of the nodes of the path matter. -/
theorem Anc.congr_on {t t' : Tree} {l : List Nat} :
    ∀ {n : Nat}, (∀ q ∈ n :: l, ∀ a, t'.IsChild a q ↔ t.IsChild a q) → t.Anc n l → t'.Anc n l := by
  induction l with
  | nil => intro n h ha p; rw [h n (by simp)]; exact ha p
  | cons p l ih =>
    intro n h ha
    exact ⟨(h n (by simp) p).2 ha.1, ih (fun q hq => h q (List.mem_cons_of_mem _ hq)) ha.2⟩

theorem pathUp_iff {t : Tree} (S : t.Shape) {n : Nat} (hn : t.Live n) {l : List Nat} :
    t.PathUp n l ↔ t.Anc n l := by
  have key : ∀ (l : List Nat) (n : Nat), t.PathUp n l → t.Anc n l := by
    intro l
    induction l with
    | nil =>
      intro n h
      have : n = t.root := by simpa [PathUp] using h.2
      subst this
      exact S.root_top
    | cons p l ih =>
      intro n h
      have h1 := List.isChain_cons_cons.1 h.1
      exact ⟨h1.1, ih p ⟨h1.2, by have := h.2; rwa [List.getLast?_cons_cons] at this⟩⟩
  have key2 : ∀ (l : List Nat) (n : Nat), t.Dom t.root n → t.Anc n l → t.PathUp n l := by
    intro l
    induction l with
    | nil =>
      intro n hn h
      rcases Dom.cases_parent hn with e | ⟨d, _, hd⟩
      · subst e; exact ⟨by simp, by simp⟩
      · exact absurd hd (h d)
    | cons p l ih =>
      intro n hn h
      have : t.Dom t.root p := by
        rcases Dom.cases_parent hn with e | ⟨d, h1, hd⟩
        · subst e; exact absurd h.1 (S.root_top p)
        · rwa [S.isChild_unique h.1 hd]
      have h2 := ih p this h.2
      exact ⟨List.isChain_cons_cons.2 ⟨h.1, h2.1⟩, by rw [List.getLast?_cons_cons]; exact h2.2⟩
  exact ⟨key l n, key2 l n (S.reach n hn)⟩

/-- The body of the loop of `map_climber_path`. -/
def climbBody {σ : Type} (f : σ → Tree → Nat → Nat → Res (σ × Tree × Bool)) (n : Nat)
    (x : (σ × Tree) × Option (Nat × Nat)) : Res (((σ × Tree) × Option (Nat × Nat)) ⊕ (σ × Tree)) :=
  match x.1.2.climberNext x.2 with
  | (some (p, _), cur') => do
    let (s', t', stop) ← f x.1.1 x.1.2 p n
    if stop then return .inr (s', t') else return .inl ((s', t'), cur')
  | (none, _) => .ok (.inr x.1)

theorem mapClimberPath_body {σ : Type} (fuel : Nat) (f : σ → Tree → Nat → Nat → Res (σ × Tree × Bool)) (s : σ) (t : Tree) :
    mapClimberPath fuel f s t = forM' (fun (s : σ × Tree) n =>
      loopM (climbBody f n) fuel (s, s.2.climberNew n)) t.terminals (s, t) := rfl

section
variable {σ : Type} {I : Tree → Prop} {f : σ → Tree → Nat → Nat → Res (σ × Tree × Bool)}

/-- Invariants that say enough about the structure. -/
def Sound (I : Tree → Prop) : Prop := ∀ t, I t → t.graph.OK ∧ t.Shape

theorem KeepsAbove.anc (hk : KeepsAbove I f) (hI : Sound I) {s s' : σ} {t t' : Tree} {p n : Nat} {b : Bool} {l : List Nat}
    (ht : I t) (hp : t.IsNt p) (hf : f s t p n = .ok (s', t', b)) (ha : t.Anc p l) :
    I t' ∧ ∀ q ∈ l, t'.IsNt q ∧ ∀ a, t'.IsChild a q ↔ t.IsChild a q := by
  obtain ⟨h1, h2⟩ := hk _ _ _ _ _ _ _ ht hp hf
  obtain ⟨G, S⟩ := hI t ht
  refine ⟨h1, fun q hq => h2 q ?_ (ha.mem hq).to_reflTransGen⟩
  rintro rfl
  exact S.acyclic G q (ha.mem hq)

/-- One terminal. -/
theorem climb_edit (hk : KeepsAbove I f) (hI : Sound I) {n : Nat} : ∀ (l : List Nat) (fuel p e : Nat) (x : σ × Tree),
    I x.2 → x.2.IsNt p → x.2.Anc p l → l.length + 1 < fuel →
    loopM (climbBody f n) fuel (x, some (p, e)) = visitPath f n (p :: l) x ∧
      ∀ y, visitPath f n (p :: l) x = .ok y → I y.2 := by
  intro l
  induction l with
  | nil =>
    intro fuel p e x hx hp ha hfu
    obtain ⟨k, rfl⟩ : ∃ k, fuel = k + 1 + 1 := ⟨fuel - 2, by simp at hfu; omega⟩
    rw [visitPath]
    cases hf : f x.1 x.2 p n with
    | panic => simp only [loopM, climbBody, climberNext, hf]; exact ⟨rfl, fun y h => by cases h⟩
    | diverge => simp only [loopM, climbBody, climberNext, hf]; exact ⟨rfl, fun y h => by cases h⟩
    | ok y =>
      obtain ⟨s', t', b⟩ := y
      obtain ⟨h1, h2⟩ := hk.anc hI hx hp hf ha
      have hn : x.2.parent p = Option.none := parent_none.2 ha
      cases b with
      | true =>
        rw [loopM_succ_inr (b := (s', t'))]
        · refine ⟨rfl, fun y h => ?_⟩
          simp only [Res.ok_bind, if_true, Res.pure_eq, Res.ok.injEq] at h
          subst h; exact h1
        · simp only [climbBody, climberNext, hf]; rfl
      | false =>
        rw [loopM_succ_inl (s' := ((s', t'), Option.none)), loopM_succ_inr (b := (s', t'))]
        · refine ⟨rfl, fun y h => ?_⟩
          simp only [Res.ok_bind, visitPath, Res.pure_eq] at h
          simp at h
          subst h; exact h1
        · rfl
        · simp only [climbBody, climberNext, hf, hn]; rfl
  | cons q l ih =>
    intro fuel p e x hx hp ha hfu
    obtain ⟨k, rfl⟩ : ∃ k, fuel = k + 1 := ⟨fuel - 1, by omega⟩
    rw [visitPath]
    cases hf : f x.1 x.2 p n with
    | panic => simp only [loopM, climbBody, climberNext, hf]; exact ⟨rfl, fun y h => by cases h⟩
    | diverge => simp only [loopM, climbBody, climberNext, hf]; exact ⟨rfl, fun y h => by cases h⟩
    | ok y =>
      obtain ⟨s', t', b⟩ := y
      obtain ⟨h1, h2⟩ := hk.anc hI hx hp hf ha
      obtain ⟨G, S⟩ := hI _ hx
      obtain ⟨G', S'⟩ := hI _ h1
      cases b with
      | true =>
        rw [loopM_succ_inr (b := (s', t'))]
        · refine ⟨rfl, fun y h => ?_⟩
          simp only [Res.ok_bind, if_true, Res.pure_eq, Res.ok.injEq] at h
          subst h; exact h1
        · simp only [climbBody, climberNext, hf]; rfl
      | false =>
        obtain ⟨e', he'⟩ := S.parent_of_isChild ha.1
        rw [loopM_succ_inl (s' := ((s', t'), some (q, e')))]
        · have ha' : t'.Anc q l := Anc.congr_on (fun r hr => (h2 r hr).2) ha.2
          have hq : t'.IsNt q := (h2 q (by simp)).1
          exact ih k q e' (s', t') h1 hq ha' (by simpa using hfu)
        · simp only [climbBody, climberNext, hf, he']; rfl

/-- All terminals: the outcome of the visits is the outcome of the method. -/
theorem forM_visits (hk : KeepsAbove I f) (hI : Sound I) : ∀ (ns : List Nat) (x : σ × Tree), I x.2 →
    ∃ r K, Visits f ns x r ∧ ∀ fuel, K ≤ fuel → forM' (fun (s : σ × Tree) n =>
      loopM (climbBody f n) fuel (s, s.2.climberNew n)) ns x = r := by
  intro ns
  induction ns with
  | nil => intro x _; exact ⟨.ok x, 0, .done x, fun _ _ => rfl⟩
  | cons n ns ih =>
    intro x hx
    obtain ⟨G, S⟩ := hI _ hx
    by_cases hn : x.2.Live n
    · obtain ⟨l, hl⟩ := S.exists_anc hn
      have hp := (pathUp_iff S hn).2 hl
      have hone : ∀ fuel, l.length + 2 ≤ fuel →
          loopM (climbBody f n) fuel (x, x.2.climberNew n) = visitPath f n l x ∧
          ∀ y, visitPath f n l x = .ok y → I y.2 := by
        intro fuel hfu
        cases l with
        | nil =>
          obtain ⟨k, rfl⟩ : ∃ k, fuel = k + 1 := ⟨fuel - 1, by omega⟩
          have : x.2.climberNew n = Option.none := parent_none.2 hl
          rw [this, loopM_succ_inr (b := x) rfl]
          refine ⟨rfl, fun y h => ?_⟩
          simp only [visitPath, Res.ok.injEq] at h
          subst h; exact hx
        | cons p l =>
          obtain ⟨e, he⟩ := S.parent_of_isChild hl.1
          rw [climberNew, he]
          exact climb_edit hk hI l fuel p e x hx (S.parent_isNt G hl.1) hl.2 (by simp at hfu; omega)
      cases hv : visitPath f n l x with
      | panic =>
        refine ⟨.panic, l.length + 2, .panics x n ns l hp hv, fun fuel hfu => ?_⟩
        rw [forM'_cons, (hone fuel hfu).1, hv]; rfl
      | diverge =>
        refine ⟨.diverge, l.length + 2, .diverges x n ns l hp hv, fun fuel hfu => ?_⟩
        rw [forM'_cons, (hone fuel hfu).1, hv]; rfl
      | ok y =>
        obtain ⟨r, K, h1, h2⟩ := ih y ((hone _ le_rfl).2 y hv)
        refine ⟨r, max (l.length + 2) K, .next x y n ns l r hp hv h1, fun fuel hfu => ?_⟩
        rw [forM'_cons, (hone fuel (by omega)).1, hv]
        exact h2 fuel (by omega)
    · have hno : x.2.climberNew n = Option.none := by
        apply parent_none.2
        intro p hp
        exact hn (isChild_live G hp).2
      obtain ⟨r, K, h1, h2⟩ := ih x hx
      refine ⟨r, K + 1, .gone x n ns r hn h1, fun fuel hfu => ?_⟩
      obtain ⟨k, rfl⟩ : ∃ k, fuel = k + 1 := ⟨fuel - 1, by omega⟩
      rw [forM'_cons, hno, loopM_succ_inr (b := x) rfl]
      exact h2 _ (by omega)

theorem mapClimberPath_edits (hk : KeepsAbove I f) (hI : Sound I) (s : σ) {t : Tree} (ht : I t) :
    ∃ r K, Visits f t.terminals (s, t) r ∧ ∀ fuel, K ≤ fuel → mapClimberPath fuel f s t = r :=
  forM_visits hk hI _ _ ht

/-- There is only one outcome. -/
theorem Visits.unique (hk : KeepsAbove I f) (hI : Sound I) : ∀ {ns : List Nat} {x : σ × Tree} {r r' : Res (σ × Tree)},
    I x.2 → Visits f ns x r → Visits f ns x r' → r = r' := by
  have inv : ∀ {n : Nat} {l : List Nat} {x y : σ × Tree}, I x.2 → x.2.PathUp n l → x.2.Live n →
      visitPath f n l x = .ok y → I y.2 := by
    intro n l x y hx hp hn hv
    obtain ⟨G, S⟩ := hI _ hx
    have hl := (pathUp_iff S hn).1 hp
    cases l with
    | nil =>
      simp only [visitPath, Res.ok.injEq] at hv
      subst hv; exact hx
    | cons p l => exact (climb_edit hk hI l _ p 0 x hx (S.parent_isNt G hl.1) hl.2 (Nat.lt_succ_self _)).2 y hv
  have live : ∀ {n : Nat} {l : List Nat} {x : σ × Tree}, I x.2 → x.2.PathUp n l → x.2.Live n := by
    intro n l x hx hp
    obtain ⟨G, S⟩ := hI _ hx
    cases l with
    | nil =>
      have : n = x.2.root := by simpa [PathUp] using hp.2
      subst this; exact S.root_live
    | cons p l => exact (isChild_live G (List.isChain_cons_cons.1 hp.1).1).2
  have same : ∀ {n : Nat} {l l' : List Nat} {x : σ × Tree}, I x.2 → x.2.PathUp n l → x.2.PathUp n l' → l = l' := by
    intro n l l' x hx hp hp'
    obtain ⟨G, S⟩ := hI _ hx
    have hn := live hx hp
    exact Anc.unique S ((pathUp_iff S hn).1 hp) ((pathUp_iff S hn).1 hp')
  intro ns x r r' hx h
  induction h with
  | done x => intro h'; cases h'; rfl
  | gone x n ns r hn _ ih =>
    intro h'
    cases h' with
    | gone _ _ _ _ _ h' => exact ih hx h'
    | next _ _ _ _ _ _ hp _ _ => exact absurd (live hx hp) hn
    | panics _ _ _ _ hp _ => exact absurd (live hx hp) hn
    | diverges _ _ _ _ hp _ => exact absurd (live hx hp) hn
  | next x y n ns l r hp hv _ ih =>
    intro h'
    cases h' with
    | gone _ _ _ _ hn h' => exact absurd (live hx hp) hn
    | next _ y' _ _ l' _ hp' hv' h' =>
      have := same hx hp hp'
      subst this
      rw [hv] at hv'
      simp only [Res.ok.injEq] at hv'
      subst hv'
      exact ih (inv hx hp (live hx hp) hv) h'
    | panics _ _ _ l' hp' hv' =>
      have := same hx hp hp'
      subst this
      rw [hv] at hv'; cases hv'
    | diverges _ _ _ l' hp' hv' =>
      have := same hx hp hp'
      subst this
      rw [hv] at hv'; cases hv'
  | panics x n ns l hp hv =>
    intro h'
    cases h' with
    | gone _ _ _ _ hn h' => exact absurd (live hx hp) hn
    | next _ y' _ _ l' _ hp' hv' h' =>
      have := same hx hp hp'
      subst this
      rw [hv] at hv'; cases hv'
    | panics _ _ _ l' hp' hv' => rfl
    | diverges _ _ _ l' hp' hv' =>
      have := same hx hp hp'
      subst this
      rw [hv] at hv'; cases hv'
  | diverges x n ns l hp hv =>
    intro h'
    cases h' with
    | gone _ _ _ _ hn h' => exact absurd (live hx hp) hn
    | next _ y' _ _ l' _ hp' hv' h' =>
      have := same hx hp hp'
      subst this
      rw [hv] at hv'; cases hv'
    | panics _ _ _ l' hp' hv' =>
      have := same hx hp hp'
      subst this
      rw [hv] at hv'; cases hv'
    | diverges _ _ _ l' hp' hv' => rfl

end

end Tree
end Lumberjack
