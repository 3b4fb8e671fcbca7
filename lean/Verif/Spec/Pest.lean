import Verif.Model.Pest
import Verif.Spec.Bracket

/-!
# What the pairs of the grammar mean
-/

namespace Lumberjack
namespace Pest

/-- The bracketings a sequence of pairs stands for: the pair of `preterminal` has the pairs of the tag
and of the word inside, the pair of `nonterminal` that of the tag, followed by those of the children. -/
inductive Stand : List Pair → Brackets → Prop
  | nil : Stand [] .nil
  | leaf {x l w : Str} {qs : List Pair} {r : Brackets} : Stand qs r →
    Stand (.rule .preterminal x [.rule .nodeLabel l [], .rule .terminal w []] :: qs) (.leaf l w r)
  | node {x l : Str} {ks qs : List Pair} {k r : Brackets} : Stand ks k → Stand qs r →
    Stand (.rule .nonterminal x (.rule .nodeLabel l [] :: ks) :: qs) (.node l k r)

end Pest
end Lumberjack
