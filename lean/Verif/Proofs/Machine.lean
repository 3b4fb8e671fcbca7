import Verif.Model.Machine
import Verif.Spec.Machine
import Verif.Props.Encoding

/-!
# Lemmas about machine integers
-/

namespace Lumberjack
namespace Machine

theorem isize_ok (b : Build) {i : Int} (h1 : -(2 ^ 63) ≤ i) (h2 : i < 2 ^ 63) : isize b i = .ok i := by
  unfold isize; rw [if_pos ⟨h1, h2⟩]

theorem isize_checked {i : Int} (h : 2 ^ 63 ≤ i) : isize .checked i = .panic := by
  unfold isize; rw [if_neg (by omega)]

theorem isize_wrapping {i : Int} (h1 : 2 ^ 63 ≤ i) (h2 : i < 2 ^ 64) :
    isize .wrapping i = .ok (i - 2 ^ 64) := by
  unfold isize wrap
  rw [if_neg (by omega)]
  have : i % 2 ^ 64 = i := Int.emod_eq_of_lt (by omega) h2
  simp only [this]
  rw [if_neg (by omega)]

theorem wrap_of_lt {n : Nat} (h : n < 2 ^ 63) : wrap n = n := by
  unfold wrap
  have : (n : Int) % 2 ^ 64 = n := Int.emod_eq_of_lt (by omega) (by omega)
  rw [this, if_pos (by omega)]

/-- `SumsFit` from a given count on. -/
def FitsFrom : Int → RelEncoding → Prop
  | _, [] => True
  | c, x :: rest => (∀ o l, x.1 = some (.regular o l) → o + c < 2 ^ 63) ∧ FitsFrom (fixedStep c x) rest

theorem fitsFrom_iff (e : RelEncoding) : ∀ c, FitsFrom c e ↔
    ∀ (pre : RelEncoding) (o : Int) (l : Str) (leaf : Option Str),
      pre ++ [(some (.regular o l), leaf)] <+: e → o + pre.foldl fixedStep c < 2 ^ 63 := by
  induction e with
  | nil => intro c; simp [FitsFrom]
  | cons x e ih =>
    intro c
    rw [FitsFrom, ih]
    constructor
    · rintro ⟨h1, h2⟩ pre o l leaf hp
      cases pre with
      | nil =>
        simp only [List.nil_append, List.cons_prefix_cons] at hp
        exact h1 o l (by rw [← hp.1])
      | cons y pre =>
        simp only [List.cons_append, List.cons_prefix_cons] at hp
        obtain ⟨rfl, hp⟩ := hp
        exact h2 pre o l leaf hp
    · intro h
      refine ⟨fun o l hx => ?_, fun pre o l leaf hp => ?_⟩
      · obtain ⟨r, leaf⟩ := x
        dsimp only at hx
        subst hx
        exact h [] o l leaf (by simp)
      · exact h (x :: pre) o l leaf (by simpa using hp)

theorem sumsFit_iff (e : RelEncoding) : SumsFit e ↔ FitsFrom 0 e := (fitsFrom_iff e 0).symm

theorem fixedStep_nonneg {c : Int} (hc : 0 ≤ c) (x) : 0 ≤ fixedStep c x := by
  obtain ⟨r, leaf⟩ := x
  rcases r with _ | ⟨o, l⟩ | l <;> simp only [fixedStep]
  · exact hc
  · split <;> omega
  · omega

theorem releaseStep_range {c : Int} (hc : 0 ≤ c ∧ c < 2 ^ 63) (x) :
    0 ≤ releaseStep c x ∧ releaseStep c x < 2 ^ 63 := by
  obtain ⟨r, leaf⟩ := x
  rcases r with _ | ⟨o, l⟩ | l <;> simp only [releaseStep]
  · exact hc
  · split <;> omega
  · omega

theorem fit_tail {x} {e : RelEncoding} (h : OffsetsFit (x :: e)) : OffsetsFit e :=
  fun o l leaf hm => h o l leaf (List.mem_cons_of_mem _ hm)

/-! ## Sums in range -/

theorem fixLoop_fits (b : Build) (e : RelEncoding) : ∀ (c : Int) (acc : AbsEncoding), 0 ≤ c →
    OffsetsFit e → FitsFrom c e → fixLoop b e c acc = .ok (Lumberjack.fixLoop e c acc) := by
  induction e with
  | nil => intros; rfl
  | cons x e ih =>
    intro c acc hc ho hf
    have hn := fixedStep_nonneg hc x
    obtain ⟨h1, h2⟩ := hf
    obtain ⟨r, leaf⟩ := x
    rcases r with _ | ⟨o, l⟩ | l
    · exact ih _ _ hn (fit_tail ho) h2
    · have hr : IsizeRange o := ho o l leaf (by simp)
      have hlt := h1 o l rfl
      simp only [fixLoop, Lumberjack.fixLoop, isize_ok b (i := o + c) (by have := hr.1; omega) hlt, Res.ok_bind]
      exact ih _ _ hn (fit_tail ho) h2
    · exact ih _ _ hn (fit_tail ho) h2

theorem tryFromRelLoop_fits (b : Build) (e : RelEncoding) : ∀ (c : Int) (acc : AbsEncoding), 0 ≤ c →
    OffsetsFit e → FitsFrom c e →
    tryFromRelLoop b e c acc = .ok (Lumberjack.tryFromRelLoop e c acc) ∧
    unwrapOrFix b (Lumberjack.tryFromRelLoop e c acc) = .ok (Lumberjack.tryFromRelLoop e c acc).unwrapOrFix := by
  induction e with
  | nil => intros; exact ⟨rfl, rfl⟩
  | cons x e ih =>
    intro c acc hc ho hf
    have hn := fixedStep_nonneg hc x
    obtain ⟨h1, h2⟩ := hf
    obtain ⟨r, leaf⟩ := x
    rcases r with _ | ⟨o, l⟩ | l
    · exact ih _ _ hn (fit_tail ho) h2
    · have hr : IsizeRange o := ho o l leaf (by simp)
      have hlt := h1 o l rfl
      simp only [tryFromRelLoop, Lumberjack.tryFromRelLoop,
        isize_ok b (i := o + c) (by have := hr.1; omega) hlt, Res.ok_bind]
      by_cases h : o + c < 1
      · rw [if_pos h, if_pos h]
        refine ⟨rfl, ?_⟩
        have e2 : fixedStep c (some (.regular o l), leaf) = 2 := by simp [fixedStep, h]
        rw [e2] at h2
        exact fixLoop_fits b e 2 _ (by omega) (fit_tail ho) h2
      · rw [if_neg h, if_neg h]
        have e2 : fixedStep c (some (.regular o l), leaf) = o + c := by simp [fixedStep, h]
        rw [e2] at h2 hn
        exact ih _ _ hn (fit_tail ho) h2
    · exact ih _ _ hn (fit_tail ho) h2

/-! ## Sums out of range, with checks -/

theorem fixLoop_panics (e : RelEncoding) : ∀ (c : Int) (acc : AbsEncoding), 0 ≤ c →
    OffsetsFit e → ¬ FitsFrom c e → fixLoop .checked e c acc = .panic := by
  induction e with
  | nil => intro c acc _ _ h; exact absurd trivial h
  | cons x e ih =>
    intro c acc hc ho hf
    have hn := fixedStep_nonneg hc x
    obtain ⟨r, leaf⟩ := x
    rw [FitsFrom] at hf
    rcases r with _ | ⟨o, l⟩ | l
    · exact ih _ _ hn (fit_tail ho) (fun h => hf ⟨by simp, h⟩)
    · have hr : IsizeRange o := ho o l leaf (by simp)
      by_cases hlt : o + c < 2 ^ 63
      · simp only [fixLoop, isize_ok .checked (i := o + c) (by have := hr.1; omega) hlt, Res.ok_bind]
        exact ih _ _ hn (fit_tail ho) (fun h => hf ⟨by intro o' l' he; cases he; exact hlt, h⟩)
      · simp only [fixLoop, isize_checked (i := o + c) (by omega), Res.panic_bind]
    · exact ih _ _ hn (fit_tail ho) (fun h => hf ⟨by simp, h⟩)

theorem convert_panics (e : RelEncoding) : ∀ (c : Int) (acc : AbsEncoding), 0 ≤ c →
    OffsetsFit e → ¬ FitsFrom c e →
    (tryFromRelLoop .checked e c acc >>= unwrapOrFix .checked) = .panic := by
  induction e with
  | nil => intro c acc _ _ h; exact absurd trivial h
  | cons x e ih =>
    intro c acc hc ho hf
    have hn := fixedStep_nonneg hc x
    obtain ⟨r, leaf⟩ := x
    rw [FitsFrom] at hf
    rcases r with _ | ⟨o, l⟩ | l
    · exact ih _ _ hn (fit_tail ho) (fun h => hf ⟨by simp, h⟩)
    · have hr : IsizeRange o := ho o l leaf (by simp)
      by_cases hlt : o + c < 2 ^ 63
      · have h2 : ¬ FitsFrom (fixedStep c (some (.regular o l), leaf)) e :=
          fun h => hf ⟨by intro o' l' he; cases he; exact hlt, h⟩
        simp only [tryFromRelLoop, isize_ok .checked (i := o + c) (by have := hr.1; omega) hlt, Res.ok_bind]
        by_cases h : o + c < 1
        · rw [if_pos h]
          have e2 : fixedStep c (some (.regular o l), leaf) = 2 := by simp [fixedStep, h]
          rw [e2] at h2
          exact fixLoop_panics e 2 _ (by omega) (fit_tail ho) h2
        · rw [if_neg h]
          have e2 : fixedStep c (some (.regular o l), leaf) = o + c := by simp [fixedStep, h]
          rw [e2] at h2 hn
          exact ih _ _ hn (fit_tail ho) h2
      · simp only [tryFromRelLoop, isize_checked (i := o + c) (by omega), Res.panic_bind]
    · exact ih _ _ hn (fit_tail ho) (fun h => hf ⟨by simp, h⟩)

/-! ## Release builds -/

/-- The entries with the counts of a release build, from a given count on. -/
def released (c : Int) (e : RelEncoding) : AbsEncoding :=
  (List.range e.length).map (fun i =>
    (((e[i]?).bind (·.1)).map fun r => (⟨((e.take (i + 1)).foldl releaseStep c).toNat, r.lab⟩ : AbsAncestor),
      (e[i]?).bind (·.2)))

theorem released_cons (c : Int) (x) (e : RelEncoding) : released c (x :: e) =
    (x.1.map fun r => (⟨(releaseStep c x).toNat, r.lab⟩ : AbsAncestor), x.2) :: released (releaseStep c x) e := by
  simp [released, List.range_succ_eq_map, Function.comp_def]

/-- The sum of a release build, and what becomes of it. -/
theorem release_sum {c o : Int} (hc : 0 ≤ c ∧ c < 2 ^ 63) (ho : IsizeRange o) (l leaf) :
    ∃ s, isize .wrapping (o + c) = .ok s ∧
      (s < 1 → releaseStep c (some (.regular o l), leaf) = 2) ∧
      (¬ s < 1 → s = o + c ∧ releaseStep c (some (.regular o l), leaf) = o + c) := by
  obtain ⟨h1, h2⟩ := ho
  by_cases h : o + c < 2 ^ 63
  · refine ⟨_, isize_ok _ (by omega) h, fun hs => ?_, fun hs => ⟨rfl, ?_⟩⟩ <;> simp only [releaseStep]
    · rw [if_neg (by omega)]
    · rw [if_pos (by omega)]
  · refine ⟨_, isize_wrapping (by omega) (by omega), fun _ => ?_, fun hs => by omega⟩
    simp only [releaseStep]; rw [if_neg (by omega)]

theorem fixLoop_release (e : RelEncoding) : ∀ (c : Int) (acc : AbsEncoding), 0 ≤ c ∧ c < 2 ^ 63 →
    OffsetsFit e → fixLoop .wrapping e c acc = .ok (acc ++ released c e) := by
  induction e with
  | nil => intros; simp [fixLoop, released]
  | cons x e ih =>
    intro c acc hc ho
    have hn := releaseStep_range hc x
    rw [released_cons]
    obtain ⟨r, leaf⟩ := x
    rcases r with _ | ⟨o, l⟩ | l
    · rw [fixLoop, ih _ _ hc (fit_tail ho)]; simp [releaseStep]
    · obtain ⟨s, hs, h2, h3⟩ := release_sum hc (ho o l leaf (by simp)) l leaf
      rw [fixLoop, hs, Res.ok_bind]
      by_cases h : s < 1
      · rw [h2 h] at hn ⊢
        simp only [if_pos h]
        rw [ih _ _ hn (fit_tail ho)]; simp [RelAncestor.lab]
      · obtain ⟨rfl, h4⟩ := h3 h
        rw [h4] at hn ⊢
        simp only [if_neg h]
        rw [ih _ _ hn (fit_tail ho)]; simp [RelAncestor.lab]
    · rw [fixLoop, ih _ _ (by omega) (fit_tail ho)]; simp [releaseStep, RelAncestor.lab]

theorem convert_release (e : RelEncoding) : ∀ (c : Int) (acc : AbsEncoding), 0 ≤ c ∧ c < 2 ^ 63 →
    OffsetsFit e → (tryFromRelLoop .wrapping e c acc >>= unwrapOrFix .wrapping) = .ok (acc ++ released c e) := by
  induction e with
  | nil => intros; simp [tryFromRelLoop, unwrapOrFix, released]
  | cons x e ih =>
    intro c acc hc ho
    have hn := releaseStep_range hc x
    rw [released_cons]
    obtain ⟨r, leaf⟩ := x
    rcases r with _ | ⟨o, l⟩ | l
    · rw [tryFromRelLoop, ih _ _ hc (fit_tail ho)]; simp [releaseStep]
    · obtain ⟨s, hs, h2, h3⟩ := release_sum hc (ho o l leaf (by simp)) l leaf
      rw [tryFromRelLoop, hs, Res.ok_bind]
      by_cases h : s < 1
      · rw [h2 h] at hn ⊢
        rw [if_pos h]
        simp only [Res.pure_eq, Res.ok_bind, unwrapOrFix]
        rw [fixLoop_release e _ _ hn (fit_tail ho)]; simp [RelAncestor.lab]
      · obtain ⟨rfl, h4⟩ := h3 h
        rw [h4] at hn ⊢
        rw [if_neg h, ih _ _ hn (fit_tail ho)]; simp [RelAncestor.lab]
    · rw [tryFromRelLoop, ih _ _ (by omega) (fit_tail ho)]; simp [releaseStep, RelAncestor.lab]

/-! ## From absolute to relative -/

theorem relFromAbsLoop_fits (b : Build) (e : AbsEncoding) : ∀ (p : Int) (acc : RelEncoding),
    0 ≤ p → p < 2 ^ 63 → CountsFit e →
    relFromAbsLoop b e p acc = .ok (Lumberjack.relFromAbsLoop e p acc) := by
  induction e with
  | nil => intros; rfl
  | cons x e ih =>
    intro p acc h0 h1 hc
    have ht : CountsFit e := fun y hy => hc y (List.mem_cons_of_mem _ hy)
    obtain ⟨r, leaf⟩ := x
    rcases r with _ | a
    · exact ih _ _ h0 h1 ht
    · have ha : a.common < 2 ^ 63 := hc (some a, leaf) (by simp) a rfl
      simp only [relFromAbsLoop, Lumberjack.relFromAbsLoop, wrap_of_lt ha]
      rw [isize_ok b (by omega) (by omega), Res.ok_bind]
      exact ih _ _ (by omega) (by omega) ht

/-! ## Offsets read from text -/

theorem parseIsize_range {s : Str} {i : Int} (h : parseIsize s = some i) : IsizeRange i := by
  unfold IsizeRange
  unfold parseIsize at h
  split at h
  · split at h
    · simp at h
    · split at h
      · split at h
        · simp only [Option.some.injEq] at h; omega
        · simp at h
      · simp at h
  · split at h
    · split at h
      · simp only [Option.some.injEq] at h; omega
      · simp at h
    · simp at h

theorem parse_range {s : Str} {o : Int} {l : Str} (h : RelAncestor.parse s = .ok (.regular o l)) :
    IsizeRange o := by
  unfold RelAncestor.parse at h
  split at h
  · split at h
    · simp at h
    · split at h
      · split at h
        · rename_i hp
          simp only [Except.ok.injEq, RelAncestor.regular.injEq] at h
          rw [← h.1]
          exact parseIsize_range hp
        · simp at h
      · simp at h
  · simp at h

theorem splitAncestor_range {s : Str} {o : Int} {l : Str} {leaf : Option Str}
    (h : Conllx.splitAncestor RelAncestor.parse s = .ok (some (.regular o l), leaf)) : IsizeRange o := by
  unfold Conllx.splitAncestor at h
  split at h
  · simp at h
  · dsimp only at h
    split at h
    · simp at h
    · split at h
      · rename_i hp
        simp only [Except.ok.injEq, Prod.mk.injEq, Option.some.injEq] at h
        rw [h.1] at hp
        exact parse_range hp
      · simp at h

/-- Offsets read from tags are in the range of `isize`. -/
theorem readTokens_range {key : Str} (toks : List Conllx.Token) : ∀ {i : Nat} {enc : RelEncoding} {tms : List Terminal},
    Conllx.readTokens key RelAncestor.parse toks i = .ok (enc, tms) → OffsetsFit enc := by
  induction toks with
  | nil =>
    intro i enc tms h
    simp only [Conllx.readTokens, Except.ok.injEq, Prod.mk.injEq] at h
    rw [← h.1]
    intro o l leaf hm
    simp at hm
  | cons tok toks ih =>
    intro i enc tms h
    simp only [Conllx.readTokens] at h
    split at h
    · simp at h
    · split at h
      · simp at h
      · rename_i entry hs
        split at h
        · simp at h
        · rename_i enc' tms' hr
          simp only [Except.ok.injEq, Prod.mk.injEq] at h
          rw [← h.1]
          intro o l leaf hm
          rcases List.mem_cons.1 hm with hm | hm
          · rw [← hm] at hs
            exact splitAncestor_range hs
          · exact ih hr o l leaf hm

/-! ## Converting there and back -/

theorem relFromAbs_fits (e : AbsEncoding) : ∀ (p : Int), 0 ≤ p → p < 2 ^ 63 → CountsFit e → AbsPositive e →
    OffsetsFit (Lumberjack.relFromAbsLoop e p []) ∧ FitsFrom p (Lumberjack.relFromAbsLoop e p []) := by
  induction e with
  | nil =>
    intro p _ _ _ _
    exact ⟨fun o l leaf hm => by simp [Lumberjack.relFromAbsLoop] at hm, trivial⟩
  | cons x e ih =>
    intro p h0 h1 hc hp
    have ht : CountsFit e := fun y hy => hc y (List.mem_cons_of_mem _ hy)
    have hp' : AbsPositive e := fun y hy => hp y (List.mem_cons_of_mem _ hy)
    obtain ⟨r, leaf⟩ := x
    rcases r with _ | a
    · rw [Lumberjack.relFromAbsLoop, Props.relFromAbsLoop_acc]
      obtain ⟨i1, i2⟩ := ih p h0 h1 ht hp'
      refine ⟨?_, by simp, i2⟩
      intro o l leaf' hm
      rcases List.mem_append.1 hm with hm | hm
      · simp at hm
      · exact i1 o l leaf' hm
    · have ha : a.common < 2 ^ 63 := hc (some a, leaf) (by simp) a rfl
      have ha1 : 1 ≤ a.common := hp (some a, leaf) (by simp) a rfl
      rw [Lumberjack.relFromAbsLoop, Props.relFromAbsLoop_acc]
      obtain ⟨i1, i2⟩ := ih a.common (by omega) (by omega) ht hp'
      constructor
      · intro o l leaf' hm
        rcases List.mem_append.1 hm with hm | hm
        · rw [List.nil_append, List.mem_singleton] at hm
          by_cases h : a.common = 1
          · simp [h] at hm
          · simp only [if_neg h, Prod.mk.injEq, Option.some.injEq, RelAncestor.regular.injEq] at hm
            unfold IsizeRange
            omega
        · exact i1 o l leaf' hm
      · by_cases h : a.common = 1
        · rw [if_pos h]
          refine ⟨by simp, ?_⟩
          simpa [fixedStep, h] using i2
        · rw [if_neg h]
          refine ⟨fun o l he => ?_, ?_⟩
          · simp only [Option.some.injEq, RelAncestor.regular.injEq] at he
            omega
          · have : fixedStep p (some (.regular ((a.common : Int) - p) a.label), leaf) = a.common := by
              simp only [fixedStep]; rw [if_neg (by omega)]; omega
            rw [this]
            exact i2

end Machine
end Lumberjack
