import Verif.Proofs.NodeEdit
import Verif.Proofs.Num
import Verif.Model.TreeMod
import Verif.Spec.Annotate

/-!
# Lemmas about annotating terminals
-/

namespace Lumberjack
namespace Tree

open Relation

theorem natToStr_inj {a b : Nat} (h : natToStr a = natToStr b) : a = b := by
  have h1 := parseDigits_toDigits a
  have h2 := parseDigits_toDigits b
  unfold natToStr at h
  rw [h, h2] at h1
  simpa using h1.symm

/-- A change of terminals as a change of nodes. -/
def onTerm (g : Nat → Terminal → Terminal) (n : Nat) : Node → Node
  | .term x => .term (g n x)
  | .nt x => .nt x

theorem onTerm_kind (g : Nat → Terminal → Terminal) : KeepsKind (onTerm g) := by
  intro n nd; cases nd <;> rfl

theorem termEdit_iff {t t' : Tree} {g : Nat → Terminal → Terminal} :
    TermEdit t t' g ↔ NodeEdit t t' (onTerm g) := by
  constructor
  · intro h
    refine ⟨h.graph, h.root, h.nTerm, h.disc, h.len, fun n => ?_⟩
    cases hn : t.graph.node? n with
    | none => rw [h.none n hn]; rfl
    | some nd =>
      cases nd with
      | term x => rw [h.term n x hn]; rfl
      | nt x => rw [h.nt n x hn]; rfl
  · intro h
    refine ⟨h.graph, h.root, h.nTerm, h.disc, h.len, ?_, ?_, ?_⟩
    · intro n hn; rw [h.node, hn]; rfl
    · intro n x hn; rw [h.node, hn]; rfl
    · intro n x hn; rw [h.node, hn]; rfl

theorem TermEdit.wf {t t' : Tree} {g : Nat → Terminal → Terminal} (h : TermEdit t t' g)
    (hs : ∀ n x, (g n x).span = x.span) (W : t.WF) : t'.WF :=
  (termEdit_iff.1 h).wf (onTerm_kind g) (by intro n nd; cases nd <;> simp [onTerm, Node.span, hs]) W

theorem SameButTermFeatures.of {t t' : Tree} {fs : Nat → Terminal → Option Features}
    (h : TermEdit t t' (fun n x => { x with features := fs n x })) : SameButTermFeatures t t' := by
  classical
  refine ⟨fun n => match t.graph.node? n with
    | some (.term x) => fs n x
    | _ => none, ⟨h.graph, h.root, h.nTerm, h.disc, h.len, h.none, h.nt, ?_⟩⟩
  intro n x hx
  rw [h.term n x hx]
  simp only [hx]

/-- The proper ancestors of a node. -/
noncomputable def ancList (t : Tree) (n : Nat) : List Nat :=
  open Classical in if h : ∃ l, t.Anc n l then h.choose else []

theorem ancList_anc {t : Tree} (S : t.Shape) {n : Nat} (hn : t.Live n) : t.Anc n (t.ancList n) := by
  unfold ancList
  have h := S.exists_anc hn
  rw [dif_pos h]
  exact h.choose_spec

theorem Anc.congr {t t' : Tree} (h : t'.IsChild = t.IsChild) {l : List Nat} :
    ∀ {n : Nat}, t.Anc n l → t'.Anc n l := by
  induction l with
  | nil => intro n ha p; rw [h]; exact ha p
  | cons a l ih => intro n ha; exact ⟨by rw [h]; exact ha.1, ih ha.2⟩

theorem Anc.dom_of_find {t : Tree} {l : List Nat} {P : Nat → Bool} :
    ∀ {n : Nat}, t.Anc n l → ∀ {a : Nat}, l.find? P = some a → ∀ b ∈ l, P b = true → t.Dom b a := by
  induction l with
  | nil => intro n _ a h; simp at h
  | cons p l ih =>
    intro n hl a h b hb hP
    rw [List.find?_cons] at h
    cases hp : P p with
    | true =>
      rw [hp] at h
      simp only [Option.some.injEq] at h
      subst h
      rcases List.mem_cons.1 hb with rfl | hb
      · exact .refl
      · exact (hl.2.mem hb).to_reflTransGen
    | false =>
      rw [hp] at h
      rcases List.mem_cons.1 hb with rfl | hb
      · rw [hp] at hP; simp at hP
      · exact ih hl.2 h b hb hP

theorem closest_find {t : Tree} (W : t.WF) {f : Tree → Nat → Bool} {n : Nat} {l : List Nat}
    (hl : t.Anc n l) {a : Nat} : l.find? (f t) = some a ↔ t.Closest f n a := by
  have G := W.graph
  have S := W.shape
  have hmem : ∀ b, b ∈ l ↔ b ≠ n ∧ t.Dom b n := by
    intro b
    rw [hl.mem_iff S]
    constructor
    · intro h; exact ⟨by rintro rfl; exact S.acyclic G b h, h.to_reflTransGen⟩
    · rintro ⟨h1, h2⟩
      rcases Relation.reflTransGen_iff_eq_or_transGen.1 h2 with h | h
      · exact absurd h.symm h1
      · exact h
  constructor
  · intro h
    have h1 := List.mem_of_find?_eq_some h
    have h2 := List.find?_some h
    refine ⟨⟨((hmem a).1 h1).1, ((hmem a).1 h1).2, h2⟩, fun b b1 b2 b3 => ?_⟩
    exact hl.dom_of_find h b ((hmem b).2 ⟨b1, b2⟩) b3
  · rintro ⟨⟨h1, h2, h3⟩, h4⟩
    cases hf : l.find? (f t) with
    | none =>
      exact absurd h3 (by have := List.find?_eq_none.1 hf a ((hmem a).2 ⟨h1, h2⟩); simpa using this)
    | some b =>
      have h5 := List.mem_of_find?_eq_some hf
      have h6 := List.find?_some hf
      have hba := h4 b ((hmem b).1 h5).1 ((hmem b).1 h5).2 h6
      have hab := hl.dom_of_find hf a ((hmem a).2 ⟨h1, h2⟩) h3
      rw [S.dom_antisymm G hba hab]

theorem closest_none {t : Tree} (W : t.WF) {f : Tree → Nat → Bool} {n : Nat} {l : List Nat}
    (hl : t.Anc n l) : l.find? (f t) = none ↔ ¬ ∃ a, t.Closest f n a := by
  constructor
  · rintro h ⟨a, ha⟩
    rw [(closest_find W hl).2 ha] at h; simp at h
  · intro h
    cases hf : l.find? (f t) with
    | none => rfl
    | some b => exact absurd ⟨b, (closest_find W hl).1 hf⟩ h

/-- `map_climber_path` with a closure that acts on the first ancestor matching `f` and stops. -/
theorem mapClimberPath_spec {σ : Type} {t : Tree} (G : t.graph.OK) (S : t.Shape)
    {f : Tree → Nat → Bool} {act : σ → Tree → Nat → Nat → Res (σ × Tree)}
    {cl : σ → Tree → Nat → Nat → Res (σ × Tree × Bool)}
    (hcl : ∀ s t1 p n, f t1 p = true → ∀ s' t', act s t1 p n = .ok (s', t') →
      cl s t1 p n = .ok (s', t', true))
    (hcl' : ∀ s t1 p n, f t1 p = false → cl s t1 p n = .ok (s, t1, false))
    (P : List Nat → σ → Tree → Prop)
    (hst : ∀ as s t1, P as s t1 → t1.Shape ∧ t1.IsChild = t.IsChild ∧ ∀ p, f t1 p = f t p)
    (hstep : ∀ n as s t1 l, P (n :: as) s t1 → t.Anc n l → t.Live n →
      (∀ p, l.find? (f t) = some p → ∃ s' t', act s t1 p n = .ok (s', t') ∧ P as s' t') ∧
      (l.find? (f t) = none → P as s t1))
    (hlive : ∀ n ∈ t.terminals, t.Live n) (s : σ) (h0 : P t.terminals s t) :
    ∃ s' t', mapClimberPath t.climbFuel cl s t = .ok (s', t') ∧ P [] s' t' := by
  unfold mapClimberPath
  have := forM'_rule (f := fun (s : σ × Tree) terminal =>
    loopM (fun (x : (σ × Tree) × Option (Nat × Nat)) =>
      match x.1.2.climberNext x.2 with
      | (some (p, _), cur') => do
        let (s', t', stop) ← cl x.1.1 x.1.2 p terminal
        if stop then return .inr (s', t') else return .inl ((s', t'), cur')
      | (none, _) => .ok (.inr x.1)) t.climbFuel (s, s.2.climberNew terminal))
    (fun as s => (∀ n ∈ as, t.Live n) ∧ P as s.1 s.2) ?_ t.terminals (s, t) ⟨hlive, h0⟩
  · obtain ⟨s', h1, h2⟩ := this
    exact ⟨s'.1, s'.2, h1, h2.2⟩
  · rintro n as ⟨s, t1⟩ ⟨hl, hP⟩
    obtain ⟨S1, hch, hf⟩ := hst _ _ _ hP
    have hn := hl n (by simp)
    obtain ⟨l, ha⟩ := S.exists_anc hn
    have hlen : l.length < t.climbFuel := by
      have := ha.length_lt G S hn; unfold climbFuel; omega
    have ha1 : t1.Anc n l := ha.congr hch
    obtain ⟨k1, k2⟩ := hstep n as s t1 l hP ha hn
    have loop : ∀ (l : List Nat) (m fuel : Nat), t1.Anc m l → l.length < fuel →
        (∀ p, l.find? (f t) = some p → ∀ s' t', act s t1 p n = .ok (s', t') →
          loopM (fun (x : (σ × Tree) × Option (Nat × Nat)) =>
            match x.1.2.climberNext x.2 with
            | (some (p, _), cur') => do
              let (s', t', stop) ← cl x.1.1 x.1.2 p n
              if stop then return .inr (s', t') else return .inl ((s', t'), cur')
            | (none, _) => .ok (.inr x.1)) fuel ((s, t1), t1.parent m) = .ok (s', t')) ∧
        (l.find? (f t) = none →
          loopM (fun (x : (σ × Tree) × Option (Nat × Nat)) =>
            match x.1.2.climberNext x.2 with
            | (some (p, _), cur') => do
              let (s', t', stop) ← cl x.1.1 x.1.2 p n
              if stop then return .inr (s', t') else return .inl ((s', t'), cur')
            | (none, _) => .ok (.inr x.1)) fuel ((s, t1), t1.parent m) = .ok (s, t1)) := by
      intro l
      induction l with
      | nil =>
        intro m fuel ha hfu
        obtain ⟨k, rfl⟩ : ∃ k, fuel = k + 1 := ⟨fuel - 1, by omega⟩
        refine ⟨fun p hp => by simp at hp, fun _ => ?_⟩
        rw [loopM_succ_inr (b := (s, t1))]
        simp only [climberNext_nil ha]
      | cons p l ih =>
        intro m fuel ha hfu
        obtain ⟨k, rfl⟩ : ∃ k, fuel = k + 1 := ⟨fuel - 1, by omega⟩
        obtain ⟨e, he⟩ := climberNext_cons S1 ha.1
        cases hp : f t p with
        | true =>
          refine ⟨?_, fun h => by simp [hp] at h⟩
          intro q hq s' t' hact
          simp only [List.find?_cons, hp, Option.some.injEq] at hq
          subst hq
          rw [loopM_succ_inr (b := (s', t'))]
          simp only [he, hcl s t1 p n (by rw [hf, hp]) s' t' hact, Res.ok_bind, if_true, Res.pure_eq]
        | false =>
          have hstep : loopM (fun (x : (σ × Tree) × Option (Nat × Nat)) =>
            match x.1.2.climberNext x.2 with
            | (some (p, _), cur') => do
              let (s', t', stop) ← cl x.1.1 x.1.2 p n
              if stop then return .inr (s', t') else return .inl ((s', t'), cur')
            | (none, _) => .ok (.inr x.1)) (k + 1) ((s, t1), t1.parent m) =
            loopM (fun (x : (σ × Tree) × Option (Nat × Nat)) =>
            match x.1.2.climberNext x.2 with
            | (some (p, _), cur') => do
              let (s', t', stop) ← cl x.1.1 x.1.2 p n
              if stop then return .inr (s', t') else return .inl ((s', t'), cur')
            | (none, _) => .ok (.inr x.1)) k ((s, t1), t1.parent p) := by
            apply loopM_succ_inl
            simp only [he, hcl' s t1 p n (by rw [hf, hp]), Res.ok_bind, Res.pure_eq]
            simp
          rw [hstep]
          simp only [List.find?_cons, hp]
          exact ih p k ha.2 (by simpa using hfu)
    obtain ⟨l1, l2⟩ := loop l n t.climbFuel ha1 hlen
    cases hfind : l.find? (f t) with
    | some p =>
      obtain ⟨s', t', h1, h2⟩ := k1 p hfind
      exact ⟨(s', t'), l1 p hfind s' t' h1, fun m hm => hl m (by simp [hm]), h2⟩
    | none =>
      exact ⟨(s, t1), l2 hfind, fun m hm => hl m (by simp [hm]), k2 hfind⟩

/-- `g` applied to all terminals but those in `as`. -/
def Progress (t t1 : Tree) (g : Nat → Terminal → Terminal) (as : List Nat) : Prop :=
  as.Nodup ∧ (∀ n ∈ as, t.IsTerm n) ∧ TermEdit t t1 (fun n x => if n ∈ as then x else g n x)

theorem Progress.start (t : Tree) (g : Nat → Terminal → Terminal) : Progress t t g t.terminals := by
  refine ⟨terminals_nodup, fun n hn => mem_terminals.1 hn, termEdit_iff.2 ((NodeEdit.refl t).congr ?_)⟩
  intro n nd hn
  cases nd with
  | nt x => rfl
  | term x => simp only [onTerm]; rw [if_pos (mem_terminals.2 ⟨x, hn⟩)]

theorem Progress.skip {t t1 : Tree} {g : Nat → Terminal → Terminal} {n : Nat} {as : List Nat}
    (h : Progress t t1 g (n :: as)) (hg : ∀ x, g n x = x) : Progress t t1 g as := by
  obtain ⟨h1, h2, h3⟩ := h
  refine ⟨h1.of_cons, fun m hm => h2 m (by simp [hm]), ?_⟩
  have : (fun m x => if m ∈ n :: as then x else g m x) = (fun m x => if m ∈ as then x else g m x) := by
    funext m x
    by_cases e : m = n
    · subst e; simp [hg]
    · simp [e]
  rw [this] at h3
  exact h3

theorem Progress.node {t t1 : Tree} {g : Nat → Terminal → Terminal} {n : Nat} {as : List Nat}
    (h : Progress t t1 g (n :: as)) : ∃ x, t.graph.node? n = some (.term x) ∧
      t1.graph.node? n = some (.term x) := by
  obtain ⟨h1, h2, h3⟩ := h
  obtain ⟨x, hx⟩ := h2 n (by simp)
  refine ⟨x, hx, ?_⟩
  have := h3.term n x hx
  simpa using this

theorem Progress.step {t t1 : Tree} {g : Nat → Terminal → Terminal} {n : Nat} {as : List Nat}
    (h : Progress t t1 g (n :: as)) {x : Terminal} (hx : t1.graph.node? n = some (.term x)) :
    Progress t (t1.setNode n (.term (g n x))) g as := by
  obtain ⟨h1, h2, h3⟩ := h
  refine ⟨h1.of_cons, fun m hm => h2 m (by simp [hm]), ?_⟩
  have hna : n ∉ as := (List.nodup_cons.1 h1).1
  refine termEdit_iff.2 (((termEdit_iff.1 h3).trans (NodeEdit.set hx (.term (g n x)))).congr ?_)
  intro m nd hm
  by_cases e : m = n
  · subst e
    obtain ⟨y, hy⟩ := h2 m (by simp)
    rw [hy] at hm
    have hxy := h3.term m y hy
    rw [hx] at hxy
    simp only [List.mem_cons, true_or, if_true, Option.some.injEq, Node.term.injEq] at hxy
    simp only [Option.some.injEq] at hm
    subst hm
    simp [onTerm, hna, hxy]
  · cases nd <;> simp [onTerm, e]

theorem Progress.finish {t t1 : Tree} {g : Nat → Terminal → Terminal} (h : Progress t t1 g []) :
    TermEdit t t1 g := by simpa using h.2.2

theorem Progress.stable {t t1 : Tree} (W : t.WF) {val : Nat → Option Str} {name : Str} {as : List Nat}
    {f : Tree → Nat → Bool} (hf : IgnoresTermFeatures f)
    (h : Progress t t1 (fun n x => match val n with
      | some v => withFeature name v x
      | none => x) as) :
    t1.Shape ∧ t1.IsChild = t.IsChild ∧ ∀ p, f t1 p = f t p := by
  have E := termEdit_iff.1 h.2.2
  refine ⟨E.shape (onTerm_kind _) W.shape, E.isChild, hf t t1 ?_⟩
  have : (fun n (x : Terminal) => if n ∈ as then x else match val n with
      | some v => withFeature name v x
      | none => x) = fun n x => { x with features := (if n ∈ as then x else match val n with
      | some v => withFeature name v x
      | none => x).features } := by
    funext n x
    split
    · rfl
    · cases val n <;> rfl
  have h3 := h.2.2
  rw [this] at h3
  exact SameButTermFeatures.of h3

theorem insertFeature_term {t : Tree} {n : Nat} {x : Terminal} {name v : Str}
    (hx : t.graph.node? n = some (.term x)) :
    t.insertFeature n name v = .ok (t.setNode n (.term (withFeature name v x))) := by
  unfold insertFeature Tree.node
  rw [hx]
  rfl

/-- The label of a node (empty if it does not exist). -/
def labelAt (t : Tree) (n : Nat) : Str := ((t.graph.node? n).map Node.label).getD []

theorem projectTagSet_spec {t : Tree} (W : t.WF) (name : Str) {f : Tree → Nat → Bool}
    (hf : IgnoresTermFeatures f) :
    ∃ t', t.projectTagSet name f = .ok t' ∧
      TermEdit t t' (fun n x => match ((t.ancList n).find? (f t)).map t.labelAt with
        | some v => withFeature name v x
        | none => x) := by
  unfold projectTagSet
  have key := mapClimberPath_spec (σ := Unit) W.graph W.shape (f := f)
    (act := fun _ t1 p n => do
      let nd ← t1.node p
      let t' ← t1.insertFeature n name nd.label
      return ((), t'))
    (cl := fun (_ : Unit) t p terminal =>
      if f t p then do
        let nd ← t.node p
        let t' ← t.insertFeature terminal name nd.label
        return ((), t', true)
      else
        .ok ((), t, false)) ?_ ?_
    (fun as _ t1 => Progress t t1 (fun n x =>
      match ((t.ancList n).find? (f t)).map t.labelAt with
        | some v => withFeature name v x
        | none => x) as) ?_ ?_ ?_ () (Progress.start t _)
  · obtain ⟨s', t', h1, h2⟩ := key
    refine ⟨t', ?_, h2.finish⟩
    rw [h1]; rfl
  · intro s t1 p n hp s' t' ha
    rw [if_pos hp]
    obtain ⟨nd, h1, h2⟩ := Res.bind_eq_ok.1 ha
    obtain ⟨t2, h3, h4⟩ := Res.bind_eq_ok.1 h2
    simp only [Res.pure_eq, Res.ok.injEq, Prod.mk.injEq] at h4
    rw [h1, Res.ok_bind, h3, Res.ok_bind, ← h4.2]
    rfl
  · intro s t1 p n hp
    rw [if_neg (by simp [hp])]
  · intro as s t1 h; exact h.stable W hf
  · intro n as s t1 l hP ha hn
    obtain ⟨x, hx, hx1⟩ := hP.node
    have hal : t.ancList n = l := (ancList_anc W.shape hn).unique W.shape ha
    constructor
    · intro p hp
      obtain ⟨nd, hnd⟩ := ha.live W.graph (List.mem_of_find?_eq_some hp)
      have hnt : ∃ y, nd = .nt y := by
        cases nd with
        | nt y => exact ⟨y, rfl⟩
        | term y =>
          have hcl := (closest_find W ha).1 hp
          rcases Relation.ReflTransGen.cases_head hcl.1.2.1 with h | ⟨c, hc, _⟩
          · exact absurd h hcl.1.1
          · exact absurd hc (W.shape.term_leaf p c ⟨y, hnd⟩)
      obtain ⟨y, rfl⟩ := hnt
      have hnd1 := hP.2.2.nt p y hnd
      refine ⟨(), t1.setNode n (.term (withFeature name y.label x)), ?_, ?_⟩
      · simp only [Tree.node, hnd1, Res.ofOption_some, Res.ok_bind]
        rw [insertFeature_term hx1]
        rfl
      · have := hP.step hx1
        simp only [hal, hp, Option.map_some] at this
        have hl : t.labelAt p = y.label := by simp [labelAt, hnd, Node.label]
        rw [hl] at this
        exact this
    · intro hp
      refine hP.skip fun x => ?_
      simp only [hal, hp, Option.map_none]
  · intro n hn
    obtain ⟨x, hx⟩ := mem_terminals.1 hn
    exact ⟨_, hx⟩

/-- The effect of `project_ids` with the matched ancestors numbered by `keys`. -/
noncomputable def idVal (t : Tree) (f : Tree → Nat → Bool) (keys : List Nat) (n : Nat) : Option Str :=
  ((t.ancList n).find? (f t)).map (fun p => natToStr (keys.idxOf p))

theorem Progress.congr {t t1 : Tree} {g g' : Nat → Terminal → Terminal} {as : List Nat}
    (h : Progress t t1 g as) (he : ∀ n, t.IsTerm n → n ∉ as → ∀ x, g n x = g' n x) :
    Progress t t1 g' as := by
  refine ⟨h.1, h.2.1, ⟨h.2.2.graph, h.2.2.root, h.2.2.nTerm, h.2.2.disc, h.2.2.len, h.2.2.none,
    h.2.2.nt, ?_⟩⟩
  intro n x hx
  rw [h.2.2.term n x hx]
  split
  · rfl
  · rename_i hn; rw [he n ⟨x, hx⟩ hn]

theorem projectIds_spec {t : Tree} (W : t.WF) (name : Str) {f : Tree → Nat → Bool}
    (hf : IgnoresTermFeatures f) :
    ∃ (t' : Tree) (keys : List Nat), t.projectIds name f = .ok t' ∧ keys.Nodup ∧
      (∀ a, a ∈ keys ↔ ∃ n, t.IsTerm n ∧ (t.ancList n).find? (f t) = some a) ∧
      (∀ (k k' a a' : Nat), keys[k]? = some a → keys[k']? = some a' → k < k' →
        ∃ n, t.IsTerm n ∧ (t.ancList n).find? (f t) = some a ∧
          ∀ m, t.IsTerm m → (t.ancList m).find? (f t) = some a' → n < m) ∧
      TermEdit t t' (fun n x => match idVal t f keys n with
        | some v => withFeature name v x
        | none => x) := by
  unfold projectIds
  have key := mapClimberPath_spec (σ := List Nat) W.graph W.shape (f := f)
    (act := fun keys t1 p n => do
      let keys' := if p ∈ keys then keys else keys ++ [p]
      let t' ← t1.insertFeature n name (natToStr (keys'.idxOf p))
      return (keys', t'))
    (cl := fun (keys : List Nat) t p terminal =>
      if f t p then do
        let keys' := if p ∈ keys then keys else keys ++ [p]
        let t' ← t.insertFeature terminal name (natToStr (keys'.idxOf p))
        return (keys', t', true)
      else
        .ok (keys, t, false)) ?_ ?_
    (fun as (keys : List Nat) t1 => keys.Nodup ∧
      (∀ a, a ∈ keys ↔ ∃ n, t.IsTerm n ∧ n ∉ as ∧ (t.ancList n).find? (f t) = some a) ∧
      (as.Pairwise (· < ·) ∧ (∀ n ∈ as, ∀ m, t.IsTerm m → m ∉ as → m < n) ∧
        ∀ (k k' a a' : Nat), keys[k]? = some a → keys[k']? = some a' → k < k' →
          ∃ n, t.IsTerm n ∧ n ∉ as ∧ (t.ancList n).find? (f t) = some a ∧
            ∀ m, t.IsTerm m → m ∉ as → (t.ancList m).find? (f t) = some a' → n < m) ∧
      Progress t t1 (fun n x =>
      match idVal t f keys n with
        | some v => withFeature name v x
        | none => x) as) ?_ ?_ ?_ [] ⟨List.nodup_nil, ?_, ⟨terminals_sorted, ?_, ?_⟩, Progress.start t _⟩
  · obtain ⟨keys, t', h1, h2, h3, ⟨_, _, h5⟩, h4⟩ := key
    refine ⟨t', keys, ?_, h2, ?_, ?_, h4.finish⟩
    · rw [h1]; rfl
    · intro a; rw [h3]; simp
    · intro k k' a a' hk hk' hlt
      obtain ⟨n, n1, _, n3, n4⟩ := h5 k k' a a' hk hk' hlt
      exact ⟨n, n1, n3, fun m m1 m2 => n4 m m1 (by simp) m2⟩
  · intro s t1 p n hp s' t' ha
    rw [if_pos hp]
    obtain ⟨t2, h3, h4⟩ := Res.bind_eq_ok.1 ha
    simp only [Res.pure_eq, Res.ok.injEq, Prod.mk.injEq] at h4
    simp only [h3, Res.ok_bind, ← h4.2, ← h4.1, Res.pure_eq]
  · intro s t1 p n hp
    rw [if_neg (by simp [hp])]
  · intro as s t1 h; exact h.2.2.2.stable W hf
  · intro n as keys t1 l hP ha hn
    obtain ⟨hnd, hkeys, ⟨hs, hbefore, hord⟩, hP⟩ := hP
    have hbefore' : ∀ a ∈ as, ∀ m, t.IsTerm m → m ∉ as → m < a := by
      intro a haa m hm hmas
      by_cases e : m = n
      · subst e; exact (List.pairwise_cons.1 hs).1 a haa
      · exact hbefore a (by simp [haa]) m hm (by simp [e, hmas])
    have hord' : ∀ (k k' a a' : Nat), keys[k]? = some a → keys[k']? = some a' → k < k' →
          ∃ n, t.IsTerm n ∧ n ∉ as ∧ (t.ancList n).find? (f t) = some a ∧
            ∀ m, t.IsTerm m → m ∉ as → (t.ancList m).find? (f t) = some a' → n < m := by
      intro k k' a a' hk hk' hlt
      obtain ⟨n0, n1, n2, n3, n4⟩ := hord k k' a a' hk hk' hlt
      refine ⟨n0, n1, fun h => n2 (by simp [h]), n3, fun m m1 m2 m3 => ?_⟩
      by_cases e : m = n
      · subst e; exact hbefore m (by simp) n0 n1 n2
      · exact n4 m m1 (by simp [e, m2]) m3
    obtain ⟨x, hx, hx1⟩ := hP.node
    have hal : t.ancList n = l := (ancList_anc W.shape hn).unique W.shape ha
    have hnas : n ∉ as := (List.nodup_cons.1 hP.1).1
    constructor
    · intro p hp
      have hnew : ∀ a, a ∈ (if p ∈ keys then keys else keys ++ [p]) ↔
          ∃ n, t.IsTerm n ∧ n ∉ as ∧ (t.ancList n).find? (f t) = some a := by
        intro a
        have h1 : a ∈ (if p ∈ keys then keys else keys ++ [p]) ↔ a ∈ keys ∨ a = p := by
          split
          · constructor
            · exact .inl
            · rintro (h | rfl) <;> assumption
          · simp
        rw [h1, hkeys]
        constructor
        · rintro (⟨m, m1, m2, m3⟩ | rfl)
          · exact ⟨m, m1, fun h => m2 (by simp [h]), m3⟩
          · exact ⟨n, ⟨x, hx⟩, hnas, by rw [hal]; exact hp⟩
        · rintro ⟨m, m1, m2, m3⟩
          by_cases e : m = n
          · subst e; rw [hal, hp] at m3; simp at m3; exact .inr m3.symm
          · exact .inl ⟨m, m1, by simp [e, m2], m3⟩
      have hP' : Progress t t1 (fun n x =>
          match idVal t f (if p ∈ keys then keys else keys ++ [p]) n with
            | some v => withFeature name v x
            | none => x) (n :: as) := by
        refine hP.congr fun m hm hmn y => ?_
        have : idVal t f (if p ∈ keys then keys else keys ++ [p]) m = idVal t f keys m := by
          unfold idVal
          cases hq : (t.ancList m).find? (f t) with
          | none => rfl
          | some q =>
            have : q ∈ keys := (hkeys q).2 ⟨m, hm, hmn, hq⟩
            split
            · rfl
            · simp [List.idxOf_append, this]
        rw [this]
      refine ⟨_, t1.setNode n (.term (withFeature name
        (natToStr ((if p ∈ keys then keys else keys ++ [p]).idxOf p)) x)), ?_, ?_, hnew,
        ⟨(List.pairwise_cons.1 hs).2, hbefore', ?_⟩, ?_⟩
      · show (t1.insertFeature n name _ >>= fun t' => _) = _
        rw [insertFeature_term hx1]
        rfl
      · split
        · exact hnd
        · rename_i h; exact List.Nodup.append hnd (by simp) (by simpa using h)
      · split
        · exact hord'
        · rename_i hpk
          intro k k' a a' hk hk' hlt
          have hk'l := (List.getElem?_eq_some_iff.1 hk').1
          rw [List.length_append, List.length_singleton] at hk'l
          have hkl : k < keys.length := by omega
          rw [List.getElem?_append_left hkl] at hk
          by_cases e : k' < keys.length
          · rw [List.getElem?_append_left e] at hk'
            exact hord' k k' a a' hk hk' hlt
          · have ek : k' = keys.length := by omega
            subst ek
            rw [List.getElem?_concat_length] at hk'
            cases hk'
            obtain ⟨m0, m1, m2, m3⟩ := (hkeys a).1 (List.mem_of_getElem? hk)
            refine ⟨m0, m1, fun h => m2 (by simp [h]), m3, fun m k1 k2 k3 => ?_⟩
            by_cases e : m = n
            · subst e; exact hbefore m (by simp) m0 m1 m2
            · exact absurd ((hkeys _).2 ⟨m, k1, by simp [e, k2], k3⟩) hpk
      · have := hP'.step hx1
        simp only [idVal, hal, hp, Option.map_some] at this
        exact this
    · intro hp
      refine ⟨hnd, ?_, ⟨(List.pairwise_cons.1 hs).2, hbefore', hord'⟩, hP.skip fun x => ?_⟩
      · intro a
        rw [hkeys]
        constructor
        · rintro ⟨m, m1, m2, m3⟩
          exact ⟨m, m1, fun h => m2 (by simp [h]), m3⟩
        · rintro ⟨m, m1, m2, m3⟩
          refine ⟨m, m1, ?_, m3⟩
          have : m ≠ n := by rintro rfl; rw [hal, hp] at m3; simp at m3
          simp [this, m2]
      · simp only [idVal, hal, hp, Option.map_none]
  · intro n hn
    obtain ⟨x, hx⟩ := mem_terminals.1 hn
    exact ⟨_, hx⟩
  · intro a
    simp only [List.not_mem_nil, false_iff, not_exists, not_and]
    intro n h1 h2
    exact absurd (mem_terminals.2 h1) h2
  · intro n _ m hm hnm
    exact absurd (mem_terminals.2 hm) hnm
  · intro k k' a a' hk
    rw [List.getElem?_nil] at hk
    cases hk

theorem annotateParentTag_spec {t : Tree} (W : t.WF) (name : Str) (hr : t.IsNt t.root) :
    ∃ t', t.annotateParentTag name = .ok (t', .ok ()) ∧
      TermEdit t t' (fun n x => match ((t.ancList n).head?).map t.labelAt with
        | some v => withFeature name v x
        | none => x) := by
  unfold annotateParentTag
  have := forE_rule (f := fun (t : Tree) n =>
    match t.parent n with
    | none => do
      let _ ← t.node n
      return (t, .error Err.terminalNoParent)
    | some (p, _) => do
      let pn ← t.node p
      let t' ← t.insertFeature n name pn.label
      return (t', .ok ()))
    (fun as t1 => Progress t t1 (fun n x => match ((t.ancList n).head?).map t.labelAt with
        | some v => withFeature name v x
        | none => x) as) ?_ t.terminals t (Progress.start t _)
  · obtain ⟨t', h1, h2⟩ := this
    exact ⟨t', h1, h2.finish⟩
  · intro n as t1 hP
    obtain ⟨x, hx, hx1⟩ := hP.node
    have E := termEdit_iff.1 hP.2.2
    have S1 := E.shape (onTerm_kind _) W.shape
    have hal := ancList_anc W.shape (n := n) ⟨_, hx⟩
    cases hl : t.ancList n with
    | nil =>
      rw [hl] at hal
      have hnr : n ≠ t.root := by
        rintro rfl
        obtain ⟨y, hy⟩ := hr
        rw [hy] at hx; simp at hx
      obtain ⟨p, hp⟩ := W.shape.exists_parent (n := n) ⟨_, hx⟩ hnr
      exact absurd hp (hal p)
    | cons p l =>
      rw [hl] at hal
      have hc : t1.IsChild p n := by rw [E.isChild]; exact hal.1
      obtain ⟨e, he⟩ := S1.parent_of_isChild hc
      obtain ⟨y, hy⟩ := W.shape.parent_isNt W.graph hal.1
      have hy1 := hP.2.2.nt p y hy
      refine ⟨t1.setNode n (.term (withFeature name y.label x)), ?_, ?_⟩
      · simp only [he, Tree.node, hy1, Res.ofOption_some, Res.ok_bind]
        rw [insertFeature_term hx1]
        rfl
      · have := hP.step hx1
        simp only [hl, List.head?_cons, Option.map_some] at this
        have hlab : t.labelAt p = y.label := by simp [labelAt, hy, Node.label]
        rw [hlab] at this
        exact this

theorem projectNtIndices_spec {t : Tree} (W : t.WF) (f : Tree → Nat → Bool) :
    ∃ l, t.projectNtIndices f = .ok l ∧ l.length = t.nTerminals ∧
      ∀ n i, t.TermAt n i → l[i]? = some (((t.ancList n).find? (f t)).getD t.root) := by
  unfold projectNtIndices
  have hperm : ∀ n, n ∈ t.sortIndices t.terminals ↔ t.IsTerm n := fun n => by
    rw [(sortIndices_perm _).mem_iff, mem_terminals]
  have := forM'_rule (f := fun (indices : List Nat) terminal => do
    let m ← t.closestMatch f terminal
    match m with
    | some p => do
      let nd ← t.node terminal
      Res.assert (nd.span.start < indices.length)
      return indices.set nd.span.start p
    | none => return indices)
    (fun as l => as.Nodup ∧ (∀ n ∈ as, t.IsTerm n) ∧ l.length = t.nTerminals ∧
      ∀ n i, t.TermAt n i → l[i]? = some (if n ∈ as then t.root else
        ((t.ancList n).find? (f t)).getD t.root)) ?_ (t.sortIndices t.terminals)
        (List.replicate t.nTerminals t.root)
        ⟨(sortIndices_perm _).nodup_iff.2 terminals_nodup, fun n hn => (hperm n).1 hn, by simp, ?_⟩
  · obtain ⟨l, h1, _, _, h2, h3⟩ := this
    exact ⟨l, h1, h2, by simpa using h3⟩
  · rintro n as l ⟨h1, h2, h3, h4⟩
    have hT := h2 n (by simp)
    obtain ⟨x, hx⟩ := hT
    have hn : t.Live n := ⟨_, hx⟩
    have hal := ancList_anc W.shape hn
    have hcm := closestMatch_eq W.graph W.shape f hn hal
    obtain ⟨i, hi, hti⟩ := W.sentence.pos n ⟨x, hx⟩
    have hxs : x.span.start = i := by
      obtain ⟨y, hy, hs⟩ := hti
      rw [hx] at hy
      simp only [Option.some.injEq, Node.term.injEq] at hy
      subst hy; rw [hs]; rfl
    have hna := (List.nodup_cons.1 h1).1
    cases hfind : (t.ancList n).find? (f t) with
    | none =>
      rw [hfind] at hcm
      refine ⟨l, by rw [hcm]; rfl, h1.of_cons, fun m hm => h2 m (by simp [hm]), h3, ?_⟩
      intro m j hmj
      rw [h4 m j hmj]
      by_cases e : m = n
      · subst e; simp [hna, hfind]
      · simp [e]
    | some p =>
      rw [hfind] at hcm
      refine ⟨l.set i p, ?_, h1.of_cons, fun m hm => h2 m (by simp [hm]), by simpa using h3, ?_⟩
      · rw [hcm]
        simp only [Res.ok_bind, Tree.node, hx, Res.ofOption_some]
        have : (Node.term x).span.start = i := hxs
        rw [this, h3, decide_eq_true hi]
        rfl
      · intro m j hmj
        by_cases e : m = n
        · subst e
          have : i = j := by rw [← hti.startOf, hmj.startOf]
          subst this
          rw [List.getElem?_set_self (by rw [h3]; exact hi)]
          simp [hna, hfind]
        · have : i ≠ j := by rintro rfl; exact e (W.sentence.inj m n i hmj hti)
          rw [List.getElem?_set_ne this, h4 m j hmj]
          simp [e]
  · intro n i hi
    have hlt : i < t.nTerminals := by
      obtain ⟨j, hj, hj2⟩ := W.sentence.pos n (by obtain ⟨x, hx, _⟩ := hi; exact ⟨x, hx⟩)
      rw [← hi.startOf, hj2.startOf]; exact hj
    obtain ⟨x, hx, _⟩ := hi
    rw [if_pos ((hperm n).2 ⟨x, hx⟩)]
    simp [hlt]

/-- The effect of `annotate_pos` on the terminals in `ns`. -/
def posEdit (ns : List Nat) (tags : List Str) (n : Nat) (x : Terminal) : Terminal :=
  if n ∈ ns then match tags[ns.idxOf n]? with
    | some p => { x with pos := p }
    | none => x
  else x

theorem annotatePosLoop_spec (ns : List Nat) : ∀ (tags : List Str) (t : Tree), ns.Nodup →
    (∀ n ∈ ns, t.IsTerm n) →
    ∃ t', annotatePosLoop ns tags t = .ok (t', if ns.length ≤ tags.length
      then .ok (tags.drop ns.length) else .error .notEnoughPos) ∧
      TermEdit t t' (posEdit ns tags) := by
  induction ns with
  | nil =>
    intro tags t _ _
    refine ⟨t, by simp [annotatePosLoop], termEdit_iff.2 ((NodeEdit.refl t).congr ?_)⟩
    intro n nd _
    cases nd <;> simp [onTerm, posEdit]
  | cons n ns ih =>
    intro tags t hnd hT
    rw [List.nodup_cons] at hnd
    cases tags with
    | nil =>
      refine ⟨t, by simp [annotatePosLoop], termEdit_iff.2 ((NodeEdit.refl t).congr ?_)⟩
      intro n nd _
      cases nd <;> simp [onTerm, posEdit]
    | cons tag tags =>
      obtain ⟨x, hx⟩ := hT n (by simp)
      have E := NodeEdit.set hx (.term { x with pos := tag })
      obtain ⟨t', h1, h2⟩ := ih tags (t.setNode n (.term { x with pos := tag })) hnd.2 (by
        intro m hm
        have hmn : m ≠ n := by rintro rfl; exact hnd.1 hm
        obtain ⟨y, hy⟩ := hT m (by simp [hm])
        exact ⟨y, by rw [E.node, hy]; simp [hmn]⟩)
      refine ⟨t', ?_, ?_⟩
      · simp only [annotatePosLoop, Tree.node, hx, Res.ofOption_some, Res.ok_bind, Node.terminal, h1]
        simp
      · refine termEdit_iff.2 ((E.trans (termEdit_iff.1 h2)).congr ?_)
        intro m nd hm
        by_cases e : m = n
        · subst e
          rw [hx] at hm
          simp only [Option.some.injEq] at hm
          subst hm
          simp [onTerm, posEdit, hnd.1]
        · simp only [e, if_false]
          cases nd with
          | nt y => rfl
          | term y =>
            simp only [onTerm, posEdit, List.mem_cons, e, false_or]
            have : (n :: ns).idxOf m = ns.idxOf m + 1 := List.idxOf_cons_ne _ (Ne.symm e)
            rw [this, List.getElem?_cons_succ]

theorem annotatePos_spec (t : Tree) (tags : List Str) :
    ∃ t', t.annotatePos tags = .ok (t', if t.terminals.length < tags.length then .error .tooManyPos
      else if tags.length < t.terminals.length then .error .notEnoughPos else .ok ()) ∧
      TermEdit t t' (posEdit t.terminals tags) := by
  obtain ⟨t', h1, h2⟩ := annotatePosLoop_spec t.terminals tags t terminals_nodup
    (fun n hn => mem_terminals.1 hn)
  refine ⟨t', ?_, h2⟩
  unfold annotatePos
  rw [h1, Res.ok_bind]
  by_cases h : t.terminals.length ≤ tags.length
  · simp only [h, if_true]
    by_cases h3 : t.terminals.length < tags.length
    · rw [if_pos h3]
      obtain ⟨a, l, hl⟩ : ∃ a l, tags.drop t.terminals.length = a :: l := by
        cases hd : tags.drop t.terminals.length with
        | nil => rw [List.drop_eq_nil_iff] at hd; omega
        | cons a l => exact ⟨a, l, rfl⟩
      simp [hl]
    · rw [if_neg h3, if_neg (by omega)]
      have : tags.drop t.terminals.length = [] := List.drop_eq_nil_iff.2 (by omega)
      simp [this]
  · simp only [h, if_false]
    rw [if_neg (by omega), if_pos (by omega)]
    rfl

/-! ## Any closure that keeps the edges -/

theorem parent_congr_edges {t t' : Tree} (h : t'.graph.edges = t.graph.edges) (n : Nat) : t'.parent n = t.parent n := by
  unfold Tree.parent Graph.inEdges
  rw [h]

theorem visitPath_edges {σ : Type} {f : σ → Tree → Nat → Nat → Res (σ × Tree × Bool)} (hk : KeepsEdges f) {n : Nat} :
    ∀ (l : List Nat) (x y : σ × Tree), visitPath f n l x = .ok y → y.2.graph.edges = x.2.graph.edges := by
  intro l
  induction l with
  | nil => intro x y h; simp only [visitPath, Res.ok.injEq] at h; rw [h]
  | cons p l ih =>
    intro x y h
    rw [visitPath, Res.bind_eq_ok] at h
    obtain ⟨⟨s, t, b⟩, h1, h2⟩ := h
    have h3 := hk _ _ _ _ _ _ _ h1
    cases b with
    | true => simp at h2; rw [← h2]; exact h3
    | false => simp at h2; rw [ih _ _ h2]; exact h3

theorem climb_visit {σ : Type} {t : Tree} (S : t.Shape) {f : σ → Tree → Nat → Nat → Res (σ × Tree × Bool)}
    (hk : KeepsEdges f) {n : Nat} : ∀ (l : List Nat) (m fuel : Nat) (x : σ × Tree), t.Anc m l → l.length < fuel →
    x.2.graph.edges = t.graph.edges →
    loopM (fun (x : (σ × Tree) × Option (Nat × Nat)) =>
      match x.1.2.climberNext x.2 with
      | (some (p, _), cur') => do
        let (s', t', stop) ← f x.1.1 x.1.2 p n
        if stop then return .inr (s', t') else return .inl ((s', t'), cur')
      | (none, _) => .ok (.inr x.1)) fuel (x, t.parent m) = visitPath f n l x := by
  intro l
  induction l with
  | nil =>
    intro m fuel x ha hfu he
    obtain ⟨k, rfl⟩ : ∃ k, fuel = k + 1 := ⟨fuel - 1, by omega⟩
    have : t.parent m = Option.none := by
      have := climberNext_nil ha
      cases hp : t.parent m with
      | none => rfl
      | some q => rw [hp] at this; simp [climberNext] at this
    rw [this, loopM_succ_inr (b := x)]
    · rfl
    · rfl
  | cons p l ih =>
    intro m fuel x ha hfu he
    obtain ⟨k, rfl⟩ : ∃ k, fuel = k + 1 := ⟨fuel - 1, by omega⟩
    obtain ⟨e, hpe⟩ : ∃ e, t.parent m = some (p, e) := by
      obtain ⟨e, he'⟩ := climberNext_cons S ha.1
      cases hp : t.parent m with
      | none => rw [hp] at he'; simp [climberNext] at he'
      | some q => rw [hp] at he'; simp [climberNext] at he'; exact ⟨e, by rw [he'.1]⟩
    rw [hpe, visitPath]
    cases hf : f x.1 x.2 p n with
    | panic => simp only [loopM, climberNext, hf]; rfl
    | diverge => simp only [loopM, climberNext, hf]; rfl
    | ok y =>
      obtain ⟨s', t', b⟩ := y
      have h3 := hk _ _ _ _ _ _ _ hf
      cases b with
      | true =>
        rw [loopM_succ_inr (b := (s', t'))]
        · rfl
        · simp only [climberNext, hf]; rfl
      | false =>
        rw [loopM_succ_inl (s' := ((s', t'), t.parent p))]
        · rw [ih p k (s', t') ha.2 (by simpa using hfu) (h3.trans he)]; rfl
        · simp only [climberNext, hf, Res.ok_bind, parent_congr_edges he]
          rfl

theorem mapClimberPath_visits {σ : Type} {t : Tree} (G : t.graph.OK) (S : t.Shape)
    {f : σ → Tree → Nat → Nat → Res (σ × Tree × Bool)} (hk : KeepsEdges f) (s : σ) (hlive : ∀ n ∈ t.terminals, t.Live n) :
    mapClimberPath t.climbFuel f s t = visitPaths f (t.terminals.map fun n => (n, t.ancList n)) (s, t) := by
  unfold mapClimberPath
  have key : ∀ (ts : List Nat) (x : σ × Tree), (∀ n ∈ ts, t.Live n) → x.2.graph.edges = t.graph.edges →
      forM' (fun (s : σ × Tree) terminal =>
        loopM (fun (x : (σ × Tree) × Option (Nat × Nat)) =>
          match x.1.2.climberNext x.2 with
          | (some (p, _), cur') => do
            let (s', t', stop) ← f x.1.1 x.1.2 p terminal
            if stop then return .inr (s', t') else return .inl ((s', t'), cur')
          | (none, _) => .ok (.inr x.1)) t.climbFuel (s, s.2.climberNew terminal)) ts x =
      visitPaths f (ts.map fun n => (n, t.ancList n)) x := by
    intro ts
    induction ts with
    | nil => intro x _ _; rfl
    | cons n ts ih =>
      intro x hl he
      have hn := hl n (by simp)
      have ha := ancList_anc S hn
      rw [forM'_cons, List.map_cons, visitPaths]
      have hlen : (t.ancList n).length < t.climbFuel := by
        have := ha.length_lt G S hn; unfold climbFuel; omega
      rw [climberNew, parent_congr_edges he, climb_visit S hk _ n _ x ha hlen he]
      cases hv : visitPath f n (t.ancList n) x with
      | panic => rfl
      | diverge => rfl
      | ok y =>
        simp only [Res.ok_bind]
        exact ih y (fun m hm => hl m (by simp [hm])) ((visitPath_edges hk _ _ _ hv).trans he)
  exact key _ _ hlive rfl

end Tree
end Lumberjack
