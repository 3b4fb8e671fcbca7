import Verif.Spec.Negra

/-!
# The order of the nonterminal lines of the NEGRA format
-/

namespace Lumberjack
namespace Negra

/-- A lowest nonterminal: all its children are terminals. -/
def Lowest (t : Tree) (n : Nat) : Prop := t.IsNt n ∧ ∀ c, t.IsChild n c → t.IsTerm c

/-- The last of the lowest nonterminals below `a` does not begin after the last of those below `b`: whatever
lowest nonterminal there is below `a`, there is one below `b` that does not begin before it. -/
def NoLater (t : Tree) (a b : Nat) : Prop :=
  ∀ x, Lowest t x → t.Dom a x → ∃ y, Lowest t y ∧ t.Dom b y ∧ t.startOf x ≤ t.startOf y

/-- The nonterminals other than the root in the order in which they are complete: a nonterminal follows as soon
as all nonterminals below it are there, the lowest ones being taken by their first words. -/
structure InSequence (t : Tree) (nts : List Nat) : Prop extends BottomUp t nts where
  later : ∀ i j a b : Nat, nts[i]? = some a → nts[j]? = some b → i < j → NoLater t a b

end Negra
end Lumberjack
