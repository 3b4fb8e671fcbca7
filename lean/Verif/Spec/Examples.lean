import Verif.Model.Tree

/-!
# Concrete trees used to show that hypotheses are met
-/

namespace Lumberjack
namespace Examples

open Lumberjack.Tree

/-- A terminal. -/
def tm (form pos : String) (i : Nat) : Option Node := some (.term (Terminal.new form.toList pos.toList i))

/-- A nonterminal. -/
def nt (label : String) (s : Span) : Option Node := some (.nt (NonTerminal.new label.toList s))

/-- An unlabelled primary edge. -/
def pe (id src tgt : Nat) : EdgeRec := ⟨id, src, tgt, .primary none⟩

/-- `(ROOT (NP (D the) (N dog)) (V barks))`; node indices are not in sentence order. -/
def proj : Tree :=
  ⟨⟨[nt "ROOT" ⟨0, 3, none⟩, tm "barks" "V" 2, nt "NP" ⟨0, 2, none⟩, tm "dog" "N" 1, tm "the" "D" 0],
    [], [pe 3 2 4, pe 2 2 3, pe 1 0 2, pe 0 0 1], 4, []⟩, 3, 0, 0⟩

/-- A discontinuous tree: `A` covers positions 0 and 2, `B` is a unary node above position 1. -/
def disc : Tree :=
  ⟨⟨[tm "a" "X" 0, tm "b" "Y" 1, tm "c" "Z" 2, nt "A" ⟨0, 3, some {1}⟩, nt "ROOT" ⟨0, 4, none⟩,
      nt "B" ⟨1, 2, none⟩, tm "d" "W" 3],
    [], [⟨5, 4, 6, .primary none⟩, ⟨4, 5, 1, .primary (some "HD".toList)⟩, pe 3 4 5, pe 2 4 3, pe 1 3 2, pe 0 3 0], 6, []⟩, 4, 4, 1⟩

/-- `(ROOT (VP (NP (N a)) (V b)) (X c))`. -/
def nested : Tree :=
  ⟨⟨[tm "a" "N" 0, tm "b" "V" 1, tm "c" "X" 2, nt "NP" ⟨0, 1, none⟩, nt "VP" ⟨0, 2, none⟩, nt "ROOT" ⟨0, 3, none⟩],
    [], [pe 4 5 2, pe 3 5 4, pe 2 4 1, pe 1 4 3, pe 0 3 0], 5, []⟩, 3, 5, 0⟩

/-- `(ROOT (S (VP (NP (N a)) (V b))))`. -/
def chain : Tree :=
  ⟨⟨[tm "a" "N" 0, tm "b" "V" 1, nt "NP" ⟨0, 1, none⟩, nt "VP" ⟨0, 2, none⟩, nt "S" ⟨0, 2, none⟩, nt "ROOT" ⟨0, 2, none⟩],
    [], [pe 4 5 4, pe 3 4 3, pe 2 3 2, pe 1 3 1, pe 0 2 0], 5, []⟩, 2, 5, 0⟩

end Examples
end Lumberjack
