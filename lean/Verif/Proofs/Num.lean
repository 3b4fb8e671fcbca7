import Verif.Model.Encode
import Verif.Proofs.Str

/-!
# Lemmas about numbers as text
-/

namespace Lumberjack

theorem digitVal_digitChar {d : Nat} (h : d < 10) : digitVal d.digitChar = some d := by
  have : d ∈ List.range 10 := by simpa using h
  revert d
  decide

theorem parseDigits_append (a : Nat) (xs ys : Str) :
    parseDigits a (xs ++ ys) = (parseDigits a xs).bind (fun b => parseDigits b ys) := by
  induction xs generalizing a with
  | nil => rfl
  | cons x xs ih =>
    simp only [List.cons_append, parseDigits]
    cases digitVal x with
    | none => rfl
    | some d => exact ih _

theorem parseDigits_toDigits (n : Nat) : parseDigits 0 (Nat.toDigits 10 n) = some n := by
  induction n using Nat.strongRecOn with
  | _ n ih =>
    by_cases h : n < 10
    · rw [Nat.toDigits_of_lt_base h]
      simp only [parseDigits, digitVal_digitChar h]
      simp
    · rw [Nat.toDigits_of_base_le (by omega) (by omega), parseDigits_append, ih _ (by omega)]
      have hm : n % 10 < 10 := Nat.mod_lt _ (by omega)
      simp only [Option.bind_some, parseDigits, digitVal_digitChar hm, Option.some.injEq]
      omega

theorem isDigit_of_mem_natToStr {n : Nat} {c : Char} (h : c ∈ Tree.natToStr n) :
    c.isDigit = true :=
  Nat.isDigit_of_mem_toDigits (by omega) (by omega) h

theorem natToStr_ne_nil (n : Nat) : Tree.natToStr n ≠ [] := Nat.toDigits_ne_nil

theorem not_mem_natToStr {n : Nat} {c : Char} (hc : c.isDigit = false) : c ∉ Tree.natToStr n :=
  fun h => by rw [isDigit_of_mem_natToStr h] at hc; simp at hc

theorem natToStr_cons (n : Nat) : ∃ c cs, Tree.natToStr n = c :: cs ∧ c.isDigit = true := by
  cases h : Tree.natToStr n with
  | nil => exact absurd h (natToStr_ne_nil n)
  | cons c cs => exact ⟨c, cs, rfl, isDigit_of_mem_natToStr (n := n) (by simp [h])⟩

theorem parseUsize_digits {n : Nat} (h : n < 2 ^ 64) : parseUsize (Tree.natToStr n) = some n := by
  obtain ⟨c, cs, hc, hd⟩ := natToStr_cons n
  have hp : parseDigits 0 (Tree.natToStr n) = some n := parseDigits_toDigits n
  rw [hc] at hp ⊢
  have hplus : c ≠ '+' := by rintro rfl; revert hd; decide
  have : stripPlus (c :: cs) = c :: cs := by
    unfold stripPlus
    split
    · rename_i rest heq; simp only [List.cons.injEq] at heq; exact absurd heq.1 hplus
    · rfl
  simp only [parseUsize, this, hp, h, if_true]
  simp

theorem parseIsize_nat {n : Nat} (h : n < 2 ^ 63) : parseIsize (Tree.natToStr n) = some (n : Int) := by
  have hu := parseUsize_digits (n := n) (by omega)
  obtain ⟨c, cs, hc, hd⟩ := natToStr_cons n
  rw [hc] at hu ⊢
  have hminus : c ≠ '-' := by rintro rfl; revert hd; decide
  unfold parseIsize
  split
  · rename_i rest heq; simp only [List.cons.injEq] at heq; exact absurd heq.1 hminus
  · simp only [hu, h, if_true]

theorem parseIsize_neg {n : Nat} (h : n + 1 ≤ 2 ^ 63) :
    parseIsize ('-' :: Tree.natToStr (n + 1)) = some (Int.negSucc n) := by
  obtain ⟨c, cs, hc, hd⟩ := natToStr_cons (n + 1)
  have hp : parseDigits 0 (Tree.natToStr (n + 1)) = some (n + 1) := parseDigits_toDigits (n + 1)
  rw [hc] at hp ⊢
  simp only [parseIsize, hp, h, if_true]
  rfl

theorem parseIsize_intToStr {i : Int} (h1 : -(2 ^ 63) ≤ i) (h2 : i < 2 ^ 63) :
    parseIsize (intToStr i) = some i := by
  cases i with
  | ofNat n =>
    simp only [Int.ofNat_eq_natCast] at h2
    exact parseIsize_nat (by omega)
  | negSucc n => exact parseIsize_neg (by omega)

theorem not_mem_intToStr {i : Int} {c : Char} (hc : c.isDigit = false) (hm : c ≠ '-') :
    c ∉ intToStr i := by
  cases i with
  | ofNat n => exact not_mem_natToStr hc
  | negSucc n =>
    simp only [intToStr, List.mem_cons, not_or]
    exact ⟨hm, not_mem_natToStr hc⟩

end Lumberjack
