import Verif.Model.Encode

/-!
# Specification vocabulary for tag-sequence encodings
-/

namespace Lumberjack

/-- The number of common ancestors a prefix of a relative encoding arrives at: a root entry sets the
count to one, a regular entry adds its offset, an entry without ancestor leaves it. -/
def runningCount (l : RelEncoding) : Int :=
  l.foldl (fun c e => match e.1 with
    | some (.regular o _) => c + o
    | some (.root _) => 1
    | none => c) 0

/-- One step of the repaired running count: a count that would be less than one is replaced by two. -/
def fixedStep (c : Int) (x : Option RelAncestor × Option Str) : Int :=
  match x.1 with
  | some (.regular o _) => if o + c < 1 then 2 else o + c
  | some (.root _) => 1
  | none => c

/-- The repaired running count after all entries. -/
def fixedCount (l : RelEncoding) : Int := l.foldl fixedStep 0

/-- The label of a relative ancestor. -/
def RelAncestor.lab : RelAncestor → Str
  | .regular _ l => l
  | .root l => l

/-- Every regular entry of the encoding arrives at a positive count. -/
def PositiveRun (e : RelEncoding) : Prop :=
  ∀ (pre : RelEncoding) (o : Int) (l : Str) (leaf : Option Str),
    pre ++ [(some (.regular o l), leaf)] <+: e →
      1 ≤ runningCount (pre ++ [(some (.regular o l), leaf)])

/-- Every ancestor of the absolute encoding is at a count of at least one. -/
def AbsPositive (e : AbsEncoding) : Prop := ∀ x ∈ e, ∀ a, x.1 = some a → 1 ≤ a.common

/-- Number range of Rust's `isize` on a 64-bit target. -/
def IsizeRange (i : Int) : Prop := -(2 ^ 63) ≤ i ∧ i < 2 ^ 63

/-- Number range of Rust's `usize` on a 64-bit target. -/
def UsizeRange (n : Nat) : Prop := n < 2 ^ 64

end Lumberjack
