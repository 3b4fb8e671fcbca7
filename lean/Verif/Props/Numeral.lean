import Verif.Spec.Numeral
import Verif.Proofs.Num
import Verif.Proofs.PtbParse

/-!
# Numbers and ancestors as text (C37, C50)
-/

namespace Lumberjack

theorem parseDigits_iff (ds : Str) : ∀ (a n : Nat), parseDigits a ds = some n ↔
    (∀ c ∈ ds, '0' ≤ c ∧ c ≤ '9') ∧ n = ds.foldl (fun v c => 10 * v + (c.toNat - '0'.toNat)) a := by
  induction ds with
  | nil => intro a n; simp [parseDigits, eq_comm]
  | cons c ds ih =>
    intro a n
    simp only [parseDigits, digitVal]
    by_cases hc : '0' ≤ c ∧ c ≤ '9'
    · rw [if_pos hc]
      simp only [ih, List.foldl_cons, List.mem_cons, forall_eq_or_imp, hc, and_self, true_and]
      rw [Nat.mul_comm]
    · rw [if_neg hc]
      simp only [List.mem_cons, forall_eq_or_imp, hc, false_and, reduceCtorEq]

theorem decimal_iff (ds : Str) (n : Nat) : Decimal ds n ↔ ds ≠ [] ∧ parseDigits 0 ds = some n := by
  rw [parseDigits_iff]; rfl

theorem decimal_head {c : Char} {ds : Str} {n : Nat} (h : Decimal (c :: ds) n) : c ≠ '+' ∧ c ≠ '-' := by
  have := h.2.1 c List.mem_cons_self
  constructor <;> (rintro rfl; revert this; decide)

theorem stripPlus_cons {c : Char} {ds : Str} (h : c ≠ '+') : stripPlus (c :: ds) = c :: ds := by
  unfold stripPlus
  split
  · rename_i heq; exact absurd (List.cons.inj heq).1 h
  · rfl

theorem unsigned_iff (s : Str) (n : Nat) : (Decimal s n ∨ ∃ ds, s = '+' :: ds ∧ Decimal ds n) ↔
    stripPlus s ≠ [] ∧ parseDigits 0 (stripPlus s) = some n := by
  rw [← decimal_iff]
  cases s with
  | nil => simp [Decimal, stripPlus]
  | cons c ds =>
    by_cases hc : c = '+'
    · subst hc
      constructor
      · rintro (h | ⟨ds', h1, h2⟩)
        · exact absurd rfl (decimal_head h).1
        · rw [← (List.cons.inj h1).2] at h2; exact h2
      · intro h; exact .inr ⟨ds, rfl, h⟩
    · rw [stripPlus_cons hc]
      constructor
      · rintro (h | ⟨ds', h1, -⟩)
        · exact h
        · exact absurd (List.cons.inj h1).1 hc
      · exact .inl

theorem parseUsize_iff (s : Str) (n : Nat) : parseUsize s = some n ↔ Numeral s n := by
  unfold Numeral
  rw [unsigned_iff]
  unfold parseUsize
  split
  · rename_i h; simp [h]
  · rename_i h
    cases hp : parseDigits 0 (stripPlus s) with
    | none => simp
    | some m =>
      simp only [ne_eq, h, not_false_eq_true, Option.some.injEq, true_and]
      split
      · rename_i hm
        constructor
        · intro he; cases he; exact ⟨rfl, hm⟩
        · rintro ⟨rfl, -⟩; rfl
      · rename_i hm
        constructor
        · intro he; cases he
        · rintro ⟨rfl, h2⟩; exact absurd h2 hm

theorem parseIsize_iff (s : Str) (i : Int) : parseIsize s = some i ↔ IntNumeral s i := by
  unfold IntNumeral
  by_cases hs : ∃ ds, s = '-' :: ds
  · obtain ⟨ds, rfl⟩ := hs
    have h1 : ¬ ∃ n : Nat, (Decimal ('-' :: ds) n ∨ ∃ ds', '-' :: ds = '+' :: ds' ∧ Decimal ds' n) ∧ i = n ∧ i < 2 ^ 63 := by
      rintro ⟨n, h | ⟨ds', h, -⟩, -⟩
      · exact (decimal_head h).2 rfl
      · exact absurd (List.cons.inj h).1 (by decide)
    rw [or_iff_right h1]
    cases ds with
    | nil =>
      simp only [parseIsize, reduceCtorEq, false_iff]
      rintro ⟨ds, n, h, h2, -⟩
      rw [← (List.cons.inj h).2] at h2
      exact h2.1 rfl
    | cons d ds =>
      have hred : parseIsize ('-' :: d :: ds) = match parseDigits 0 (d :: ds) with
        | some n => if n ≤ 2 ^ 63 then some (-(n : Int)) else none
        | none => none := rfl
      rw [hred]
      have key : ∀ ds' n, '-' :: d :: ds = '-' :: ds' ∧ Decimal ds' n ∧ i = -(n : Int) ∧ -(2 ^ 63) ≤ i →
          parseDigits 0 (d :: ds) = some n ∧ i = -(n : Int) ∧ -(2 ^ 63) ≤ i := by
        rintro ds' n ⟨h1, h2, h3⟩
        rw [← (List.cons.inj h1).2] at h2
        exact ⟨((decimal_iff _ _).1 h2).2, h3⟩
      cases hp : parseDigits 0 (d :: ds) with
      | none =>
        simp only [reduceCtorEq, false_iff]
        rintro ⟨ds', n, h⟩
        have := (key ds' n h).1
        rw [hp] at this; cases this
      | some m =>
        simp only []
        constructor
        · intro h
          split at h
          · rename_i hm
            simp only [Option.some.injEq] at h
            exact ⟨_, m, rfl, (decimal_iff _ _).2 ⟨by simp, hp⟩, h.symm, by omega⟩
          · cases h
        · rintro ⟨ds', n, h⟩
          obtain ⟨h1, h2, h3⟩ := key ds' n h
          rw [hp] at h1
          cases h1
          rw [if_pos (by omega), h2]
  · have hred : parseIsize s = match parseUsize s with
      | some n => if n < 2 ^ 63 then some (n : Int) else none
      | none => none := by
      unfold parseIsize
      split
      · exact absurd ⟨_, rfl⟩ hs
      · rfl
    rw [hred]
    have h2 : ¬ ∃ (ds : Str) (n : Nat), s = '-' :: ds ∧ Decimal ds n ∧ i = -(n : Int) ∧ -(2 ^ 63) ≤ i := by
      rintro ⟨ds, n, h, -⟩; exact hs ⟨ds, h⟩
    rw [or_iff_left h2]
    constructor
    · intro h
      cases hp : parseUsize s with
      | none => rw [hp] at h; cases h
      | some n =>
        rw [hp] at h
        simp only [] at h
        split at h
        · rename_i hn
          simp only [Option.some.injEq] at h
          exact ⟨n, ((parseUsize_iff s n).1 hp).1, h.symm, by omega⟩
        · cases h
    · rintro ⟨n, h1, rfl, h3⟩
      have : parseUsize s = some n := (parseUsize_iff s n).2 ⟨h1, by omega⟩
      rw [this]
      simp only []
      rw [if_pos (by omega)]

theorem first_occurrence {c : Char} {s : Str} (h : c ∈ s) : ∃ p r, s = p ++ c :: r ∧ c ∉ p := by
  induction s with
  | nil => simp at h
  | cons x s ih =>
    by_cases hx : x = c
    · exact ⟨[], s, by rw [hx]; rfl, by simp⟩
    · rcases List.mem_cons.1 h with h | h
      · exact absurd h.symm hx
      · obtain ⟨p, r, rfl, hp⟩ := ih h
        exact ⟨x :: p, r, rfl, by simp [hp, Ne.symm hx]⟩

theorem tagged_iff (s label number : Str) : Tagged s label number ↔ ∃ rest, splitOn '+' s = label :: number :: rest := by
  constructor
  · rintro ⟨h1, h2, rfl | ⟨rest, rfl⟩⟩
    · exact ⟨[], by rw [splitOn_append h1, splitOn_of_not_mem h2]⟩
    · exact ⟨splitOn '+' rest, by rw [splitOn_append h1, splitOn_append h2]⟩
  · rintro ⟨rest, h⟩
    have key : ∀ (s : Str), ∃ p r, splitOn '+' s = p :: r ∧ '+' ∉ p ∧ (r = [] → s = p) ∧
        (r ≠ [] → ∃ s', s = p ++ '+' :: s' ∧ splitOn '+' s' = r) := by
      intro s
      by_cases hm : '+' ∈ s
      · obtain ⟨p, s', rfl, hp⟩ := first_occurrence hm
        refine ⟨p, splitOn '+' s', splitOn_append hp s', hp, fun h => absurd h (splitOn_ne_nil _ _), fun _ => ⟨s', rfl, rfl⟩⟩
      · exact ⟨s, [], splitOn_of_not_mem hm, hm, fun _ => rfl, fun h => absurd rfl h⟩
    obtain ⟨p, r, h1, h2, -, h4⟩ := key s
    rw [h] at h1
    obtain ⟨rfl, rfl⟩ := List.cons.inj h1
    obtain ⟨s', rfl, h5⟩ := h4 (by simp)
    obtain ⟨p', r', k1, k2, k3, k4⟩ := key s'
    rw [h5] at k1
    obtain ⟨rfl, rfl⟩ := List.cons.inj k1
    refine ⟨h2, k2, ?_⟩
    by_cases hr : rest = []
    · exact .inl (by rw [k3 hr])
    · obtain ⟨s'', rfl, -⟩ := k4 hr
      exact .inr ⟨s'', rfl⟩

namespace Props

/-- C37, C50: numbers of type `usize` are read as decimal numbers below `2 ^ 64`, possibly with a plus. -/
theorem C50_numbers (s : Str) (n : Nat) : parseUsize s = some n ↔ Numeral s n := parseUsize_iff s n

/-- C37: the texts that are read as an absolute ancestor, and as which. -/
theorem C37_absolute_accepts (s : Str) (a : AbsAncestor) : AbsAncestor.parse s = .ok a ↔
    ∃ number, Tagged s a.label number ∧ Numeral number a.common := by
  unfold AbsAncestor.parse
  constructor
  · intro h
    split at h
    · rename_i label offset rest hs
      split at h
      · rename_i n hn
        simp only [Except.ok.injEq] at h
        subst h
        exact ⟨offset, (tagged_iff _ _ _).2 ⟨rest, hs⟩, (parseUsize_iff _ _).1 hn⟩
      · cases h
    · cases h
  · rintro ⟨number, h1, h2⟩
    obtain ⟨rest, hs⟩ := (tagged_iff _ _ _).1 h1
    rw [hs]
    simp only [(parseUsize_iff _ _).2 h2]

/-- C37: the texts that are read as a relative ancestor, and as which. -/
theorem C37_relative_accepts (s : Str) :
    (∀ o l, RelAncestor.parse s = .ok (.regular o l) ↔ l ≠ [] ∧ ∃ number, Tagged s l number ∧ IntNumeral number o) ∧
    (∀ l, RelAncestor.parse s = .ok (.root l) ↔ s = l ∧ l ≠ [] ∧ '+' ∉ l) := by
  constructor
  · intro o l
    unfold RelAncestor.parse
    constructor
    · intro h
      split at h
      · rename_i label rest hs
        split at h
        · cases h
        · rename_i hne
          split at h
          · rename_i offset rest'
            split at h
            · rename_i n hn
              simp only [Except.ok.injEq, RelAncestor.regular.injEq] at h
              obtain ⟨rfl, rfl⟩ := h
              exact ⟨hne, offset, (tagged_iff _ _ _).2 ⟨_, hs⟩, (parseIsize_iff _ _).1 hn⟩
            · cases h
          · cases h
      · cases h
    · rintro ⟨h0, number, h1, h2⟩
      obtain ⟨rest, hs⟩ := (tagged_iff _ _ _).1 h1
      rw [hs]
      simp only [h0, if_false, (parseIsize_iff _ _).2 h2]
  · intro l
    unfold RelAncestor.parse
    constructor
    · intro h
      split at h
      · rename_i label rest hs
        split at h
        · cases h
        · rename_i hne
          split at h
          · split at h <;> cases h
          · simp only [Except.ok.injEq, RelAncestor.root.injEq] at h
            subst h
            by_cases hm : '+' ∈ s
            · obtain ⟨p, s', rfl, hp⟩ := first_occurrence hm
              rw [splitOn_append hp] at hs
              exact absurd (List.cons.inj hs).2 (splitOn_ne_nil _ _)
            · rw [splitOn_of_not_mem hm] at hs
              have := (List.cons.inj hs).1
              subst this
              exact ⟨rfl, hne, hm⟩
      · cases h
    · rintro ⟨rfl, h1, h2⟩
      rw [splitOn_of_not_mem h2]
      simp [h1]

example : AbsAncestor.parse "NP+12+x".toList = .ok ⟨12, "NP".toList⟩ :=
  (C37_absolute_accepts _ _).2 ⟨"12".toList, ⟨by decide, by decide, .inr ⟨"x".toList, rfl⟩⟩,
    .inl ⟨by decide, by decide, rfl⟩, by decide⟩

example : RelAncestor.parse "NP+-2".toList = .ok (.regular (-2) "NP".toList) :=
  ((C37_relative_accepts _).1 _ _).2 ⟨by decide, "-2".toList, ⟨by decide, by decide, .inl rfl⟩,
    .inr ⟨"2".toList, 2, rfl, ⟨by decide, by decide, rfl⟩, rfl, by decide⟩⟩

/-- C50: one plus is allowed before a number, and no minus. -/
theorem C50_signs : parseUsize "+7".toList = some 7 ∧ parseUsize "++7".toList = none ∧ parseUsize "-7".toList = none ∧
    parseUsize "+".toList = none ∧ parseUsize "18446744073709551616".toList = none := by decide +kernel

end Props
end Lumberjack
