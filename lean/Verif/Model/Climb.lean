import Verif.Model.Tree

/-!
# The documented use of `map_climber_path` (tree.rs:454-478)
-/

namespace Lumberjack
namespace Tree

/-- tree.rs:460-476, the closure of the documentation's example `climb_map`: `rm` stands for `starts_with("A")`, `top`
for `starts_with("B")`, `name` for `"b_ancestor"`. -/
def climbMapStep (rm top : Str → Bool) (name : Str) (_ : Unit) (t : Tree) (ancestor terminal : Nat) :
    Res (Unit × Tree × Bool) := do
  let nd ← t.node ancestor
  if rm nd.label then do
    let (t', r) ← t.removeNode ancestor
    match r with
    | .ok _ => return ((), t', false)
    | .error _ => .panic
  else if top nd.label then do
    let t' ← t.insertFeature terminal name nd.label
    return ((), t', true)
  else return ((), t, false)

/-- tree.rs:459-477 `climb_map`; `fuel` as in `mapClimberPath`. -/
def climbMap (fuel : Nat) (rm top : Str → Bool) (name : Str) (t : Tree) : Res Tree := do
  let (_, t') ← mapClimberPath fuel (climbMapStep rm top name) () t
  return t'

end Tree
end Lumberjack
