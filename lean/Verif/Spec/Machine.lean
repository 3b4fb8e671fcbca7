import Verif.Spec.Encoding
import Verif.Spec.Bracket

/-!
# Specification vocabulary for counts of machine size
-/

namespace Lumberjack

/-- All offsets are numbers of type `isize`, as they are in every value of the Rust type. -/
def OffsetsFit (e : RelEncoding) : Prop :=
  ∀ o l leaf, (some (.regular o l), leaf) ∈ e → IsizeRange o

/-- No sum of a (repaired) count and the next offset reaches `2 ^ 63`. -/
def SumsFit (e : RelEncoding) : Prop :=
  ∀ (pre : RelEncoding) (o : Int) (l : Str) (leaf : Option Str),
    pre ++ [(some (.regular o l), leaf)] <+: e → o + fixedCount pre < 2 ^ 63

/-- One step of the count a release build computes: what is less than one, or too large, becomes two. -/
def releaseStep (c : Int) (x : Option RelAncestor × Option Str) : Int :=
  match x.1 with
  | some (.regular o _) => if 1 ≤ o + c ∧ o + c < 2 ^ 63 then o + c else 2
  | some (.root _) => 1
  | none => c

/-- The count a release build arrives at after all entries. -/
def releaseCount (l : RelEncoding) : Int := l.foldl releaseStep 0

/-- All counts of an absolute encoding are numbers an `isize` can hold. -/
def CountsFit (e : AbsEncoding) : Prop := ∀ x ∈ e, ∀ a, x.1 = some a → a.common < 2 ^ 63

/-- All counts are numbers of type `usize`, as they are in every value of the Rust type. -/
def CountsUsize (e : AbsEncoding) : Prop := ∀ x ∈ e, ∀ a, x.1 = some a → a.common < 2 ^ 64

namespace Bracketed

/-- The concatenation of the lines has as many opening as closing brackets. -/
def EvenLines (ls : List Str) : Prop := ls.flatten.count '(' = ls.flatten.count ')'

/-- The lines up to the first point where as many brackets were closed as were opened. In contrast to a
`Group`, more brackets may have been closed than were opened before. -/
structure EvenGroup (ls : List Str) : Prop where
  first : ∃ l, ls.head? = some l ∧ ¬ Skipped l
  proper : ∀ p, p <+: ls → p ≠ [] → p ≠ ls → ¬ EvenLines p
  closed : EvenLines ls

/-- The lines of a file as such groups, with skipped lines between them, and possibly lines that are never
even at the end; the texts of the groups are given. -/
inductive EvenGroups : List Str → List Str → Prop where
  | tail {ls : List Str} : (∀ l, ls.head? = some l → ¬ Skipped l) → (∀ p, p <+: ls → p ≠ [] → ¬ EvenLines p) →
      EvenGroups ls []
  | skip {l : Str} {ls ts : List Str} : Skipped l → EvenGroups ls ts → EvenGroups (l :: ls) ts
  | group {g ls ts : List Str} : EvenGroup g → EvenGroups ls ts → EvenGroups (g ++ ls) (g.flatten :: ts)

/-- There are fewer than `2 ^ 64` brackets of either kind in the lines. -/
def FewBrackets (ls : List Str) : Prop := ls.flatten.count '(' < 2 ^ 64 ∧ ls.flatten.count ')' < 2 ^ 64

end Bracketed

end Lumberjack
