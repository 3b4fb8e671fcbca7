import Verif.Model.Features

/-!
# Specification vocabulary for feature sets
-/

namespace Lumberjack
namespace Features

/-- The entries are in strictly increasing key order (in particular keys are unique). -/
def Sorted (f : Features) : Prop := f.entries.Pairwise (fun a b => a.1 < b.1)

/-- The feature sets a user can obtain. -/
inductive Built : Features → Prop where
  | empty : Built Features.empty
  | ofList (l : List (Str × Option Str)) : Built (Features.ofList l)
  | parse (s : Str) : Built (Features.parse s)
  | insert {f : Features} (k : Str) (v : Option Str) : Built f → Built (f.insert k v).1
  | remove {f : Features} (k : Str) : Built f → Built (f.remove k).1

/-- A string free of the two separators of the textual form. -/
def Plain (s : Str) : Prop := '|' ∉ s ∧ ':' ∉ s

end Features
end Lumberjack
