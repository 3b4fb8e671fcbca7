import Verif.Spec.Bracket

/-!
# Reading and writing PTB text again
-/

namespace Lumberjack
namespace Brackets

open Bracketed

/-- The tag of an inner node after reading and writing it: the first dash is doubled. -/
def doubled (tag : Str) : Str :=
  match after '-' tag with
  | some a => before '-' tag ++ '-' :: '-' :: a
  | none => tag

/-- The bracketing after reading and writing it: tags of words end at their first dash, the first dash of any other tag is
doubled. -/
def grown : Brackets → Brackets
  | .nil => .nil
  | .leaf tag w r => .leaf (before '-' tag) w r.grown
  | .node tag k r => .node (doubled tag) k.grown r.grown

/-- No tag of a word starts with a dash. -/
def NoDashFirst : Brackets → Prop
  | .nil => True
  | .leaf tag _ r => tag.head? ≠ some '-' ∧ r.NoDashFirst
  | .node _ k r => k.NoDashFirst ∧ r.NoDashFirst

/-- No tag of an inner node has a dash. -/
def NoInnerDash : Brackets → Prop
  | .nil => True
  | .leaf _ _ r => r.NoInnerDash
  | .node tag k r => '-' ∉ tag ∧ k.NoInnerDash ∧ r.NoInnerDash

/-- The line written for a bracketing. -/
def line (b : Brackets) : Str := (b.text [' ']).flatten ++ ['\n']

end Brackets
end Lumberjack
