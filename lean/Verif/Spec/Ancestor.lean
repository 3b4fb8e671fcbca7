import Verif.Model.Encode
import Verif.Spec.Chains

/-!
# Specification vocabulary for encodings of trees
-/

namespace Lumberjack

/-- The label of a node in an encoding: its own label, after the labels in its `unary_chain` feature
and `_`. -/
def NonTerminal.fullLabel (x : NonTerminal) : Str :=
  match (x.features.getD Features.empty).getVal Forest.chainKey with
  | some (some c) => c ++ '_' :: x.label
  | _ => x.label

/-- The labels in the `unary_chain` feature of a terminal. -/
def Terminal.chain (x : Terminal) : Option Str :=
  match (x.features.getD Features.empty).getVal Forest.chainKey with
  | some (some c) => some c
  | _ => none

/-- The text of an entry of an absolute encoding: the ancestor or `NONE`, then `~` and the chain of the
terminal if it has one. -/
def absText (e : Option AbsAncestor × Option Str) : Str :=
  (match e.1 with
    | some a => a.toStr
    | none => "NONE".toList) ++ (match e.2 with
    | some c => '~' :: c
    | none => [])

/-- The text of an entry of a relative encoding. -/
def relText (e : Option RelAncestor × Option Str) : Str :=
  (match e.1 with
    | some a => a.toStr
    | none => "NONE".toList) ++ (match e.2 with
    | some c => '~' :: c
    | none => [])

namespace Tree

/-- `a` is the lowest common ancestor of `n` and `m`, and they have `k` common ancestors. -/
structure LowestCommon (t : Tree) (n m a k : Nat) : Prop where
  left : t.Dom a n
  right : t.Dom a m
  lowest : ∀ p, t.Dom p n → t.Dom p m → t.Dom p a
  count : ∃ l : List Nat, l.Nodup ∧ l.length = k ∧ ∀ p, p ∈ l ↔ t.Dom p n ∧ t.Dom p m

end Tree

namespace Forest

/-- The encoding of a forest below `d` ancestors, the lowest of which has label `lab`; `last` is the
entry of its last terminal. -/
def encoding (d : Nat) (lab : Str) : Forest → Option AbsAncestor → AbsEncoding
  | nil, _ => []
  | leaf _ x r, last => (if r = nil then last else some ⟨d, lab⟩, x.chain) :: r.encoding d lab last
  | node _ x k r, last =>
    k.encoding (d + 1) x.fullLabel (if r = nil then last else some ⟨d, lab⟩) ++ r.encoding d lab last

end Forest
end Lumberjack
