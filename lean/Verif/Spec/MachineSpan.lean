import Verif.Model.MachineSpan
import Verif.Spec.Span

/-!
# Spans of machine integers
-/

namespace Lumberjack
namespace Machine

/-- The spans that the functions of a build can make, where no index is the greatest machine integer. -/
inductive Made (b : Build) : Span → Prop where
  | ofIdx {i : Nat} {s : Span} : i + 1 < 2 ^ 64 → Span.ofIdx b i = .ok s → Made b s
  | new {l u : Nat} {s : Span} : u < 2 ^ 64 → Lumberjack.Span.new l u = .ok s → Made b s
  | fromVec {v : List Nat} {s : Span} : (∀ i ∈ v, i < 2 ^ 64) → Span.fromVec b v = .ok (.ok s) → Made b s
  | merge {a c s : Span} : Made b a → Made b c → Span.mergeSpans b a c = .ok s → Made b s
  | remove {a s : Span} {v : List Nat} {c : Continuity} : Made b a → Span.removeIndices b a v = .ok (s, c) → Made b s
  | extend {a s : Span} : Made b a → a.stop + 1 < 2 ^ 64 → Span.extend b a = .ok s → Made b s

end Machine
end Lumberjack
