import Verif.Spec.Negra

/-!
# The NEGRA text of an ordered tree

Every phrase is marked by the position at which the last of the lowest phrases below it begins, and by its depth. Phrases
with the same position are above each other, so marks are distinct. Phrases are numbered by position, those with the same
position from the lowest to the highest.
-/

namespace Lumberjack
namespace Forest

open Negra

/-- Where the last of the lowest phrases begins. -/
def lastLow : Forest → Option Nat
  | nil => none
  | leaf _ _ r => r.lastLow
  | node _ x k r => some (match r.lastLow with
    | some m => max (k.lastLow.getD x.span.start) m
    | none => k.lastLow.getD x.span.start)

/-- The position of a phrase with children `k`: a lowest phrase has its first word. -/
def lowOf (x : NonTerminal) (k : Forest) : Nat := k.lastLow.getD x.span.start

/-- The marks of the phrases, `d` being the depth of the topmost ones. -/
def marks : Forest → Nat → List (Nat × Nat)
  | nil, _ => []
  | leaf _ _ r, d => r.marks d
  | node _ x k r, d => (lowOf x k, d) :: (k.marks (d + 1) ++ r.marks d)

/-- The phrase with the first mark gets its line before the one with the second mark. -/
def isBefore (a b : Nat × Nat) : Prop := a.1 < b.1 ∨ (a.1 = b.1 ∧ b.2 < a.2)

instance (a b : Nat × Nat) : Decidable (isBefore a b) := inferInstanceAs (Decidable (_ ∨ _))

/-- The number of the phrase with mark `m`: 0 for the root. -/
def numberOf (F : Forest) (m : Nat × Nat) : Nat :=
  if m.2 = 0 then 0 else 500 + ((F.marks 0).toFinset.filter fun a => isBefore a m).card

/-- The words with their rows, `p` being the number of the phrase above the topmost nodes and `d` their depth. -/
def wordRows (num : Nat × Nat → Nat) : Forest → Nat → Nat → List (Nat × TermRow)
  | nil, _, _ => []
  | leaf e x r, p, d =>
    (x.span.start, ⟨x.form, x.lem, x.pos, featOf x.features "morph".toList, ⟨e, p, none⟩⟩) :: r.wordRows num p d
  | node _ x k r, p, d => k.wordRows num (num (lowOf x k, d)) (d + 1) ++ r.wordRows num p d

/-- The rows of the phrases. -/
def phraseRows (num : Nat × Nat → Nat) : Forest → Nat → Nat → List NtRow
  | nil, _, _ => []
  | leaf _ _ r, p, d => r.phraseRows num p d
  | node e x k r, p, d =>
    ⟨num (lowOf x k, d), x.label, featOf x.features "node_annotation".toList, ⟨e, p, none⟩⟩ ::
      (k.phraseRows num (num (lowOf x k, d)) (d + 1) ++ r.phraseRows num p d)

/-- The features of the topmost phrase. -/
def topFeatures : Forest → Option Features
  | node _ x _ _ => x.features
  | _ => none

/-- What is below the topmost phrase. -/
def belowTop : Forest → Forest
  | node _ _ k _ => k
  | _ => nil

/-- The rows of the words from left to right: for every position the row of the word there. -/
def wordsInOrder (F : Forest) : List TermRow :=
  let rows := F.belowTop.wordRows F.numberOf 0 1
  (List.range (rows.map (·.1)).toFinset.card).filterMap fun i => rows.lookup i

/-- The rows of the phrases other than the root by their numbers: for every number the row that has it. -/
def phrasesInOrder (F : Forest) : List NtRow :=
  let rows := F.belowTop.phraseRows F.numberOf 0 1
  (List.range (rows.map (·.id)).toFinset.card).filterMap fun i => rows.find? fun r => r.id = 500 + i

/-- The NEGRA text, `counter` being used if there is no sentence id. -/
def exportText (counter : Nat) (F : Forest) : Str :=
  let id := (featOf F.topFeatures "sentence_id".toList).getD (Tree.natToStr counter)
  unlines (header id (featOf F.topFeatures "metadata".toList) ::
    (F.wordsInOrder.map (fun r => aligned widths r.columns) ++ F.phrasesInOrder.map (fun r => aligned widths r.columns) ++
      [footer id, []]))

end Forest
end Lumberjack
