import Verif.Model.Span

/-!
# Specification vocabulary for spans

A span denotes a finite set of sentence positions.
-/

namespace Lumberjack
namespace Span

/-- The set of positions a span denotes: those between its bounds that are not skipped. -/
def indices (s : Span) : Finset Nat := Finset.Ico s.start s.stop \ s.skips.getD ∅

/-- A well-formed span: non-empty, bounds tight (first and last position belong to it), skips
recorded only if there are any and only inside the bounds. -/
structure Valid (s : Span) : Prop where
  lt : s.start < s.stop
  nonempty : s.skips ≠ some ∅
  inside : ∀ sk, s.skips = some sk → ∀ k ∈ sk, s.start < k ∧ k + 1 < s.stop

/-- The spans a user of the crate can obtain: every constructor and every mutator that returns. -/
inductive Built : Span → Prop where
  | ofIdx (i : Nat) : Built (ofIdx i)
  | new {a b : Nat} {s : Span} : Span.new a b = .ok s → Built s
  | fromVec {v : List Nat} {s : Span} : Span.fromVec v = .ok (.ok s) → Built s
  | merge {a b s : Span} : Built a → Built b → a.mergeSpans b = .ok s → Built s
  | remove {a s : Span} {v : List Nat} {c : Continuity} :
      Built a → a.removeIndices v = .ok (s, c) → Built s
  | extend {a : Span} : Built a → Built a.extend

/-- A set of positions has a gap: some position outside the set lies between two members. -/
def HasGap (A : Finset Nat) : Prop := ∃ a ∈ A, ∃ b ∈ A, ∃ k, k ∉ A ∧ a < k ∧ k < b

end Span
end Lumberjack
