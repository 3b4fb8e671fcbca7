import Verif.Model.Encode

/-!
# Specification vocabulary for numbers as text
-/

namespace Lumberjack

/-- At least one decimal digit, with the given value. -/
def Decimal (ds : Str) (n : Nat) : Prop :=
  ds ≠ [] ∧ (∀ c ∈ ds, '0' ≤ c ∧ c ≤ '9') ∧ n = ds.foldl (fun v c => 10 * v + (c.toNat - '0'.toNat)) 0

/-- A text `str::parse::<usize>` accepts on a 64-bit target: digits, possibly with a plus before them. -/
def Numeral (s : Str) (n : Nat) : Prop := (Decimal s n ∨ ∃ ds, s = '+' :: ds ∧ Decimal ds n) ∧ n < 2 ^ 64

/-- A text `str::parse::<isize>` accepts on a 64-bit target: digits, possibly with a sign before them. -/
def IntNumeral (s : Str) (i : Int) : Prop :=
  (∃ n : Nat, (Decimal s n ∨ ∃ ds, s = '+' :: ds ∧ Decimal ds n) ∧ i = n ∧ i < 2 ^ 63) ∨
  ∃ (ds : Str) (n : Nat), s = '-' :: ds ∧ Decimal ds n ∧ i = -(n : Int) ∧ -(2 ^ 63) ≤ i

/-- The text is a label without `+`, a `+` and the given text, which ends at the next `+`, if there is one. -/
def Tagged (s label number : Str) : Prop :=
  '+' ∉ label ∧ '+' ∉ number ∧ (s = label ++ '+' :: number ∨ ∃ rest, s = label ++ '+' :: (number ++ '+' :: rest))

end Lumberjack
