import Verif.Spec.Sort
import Verif.Proofs.TreeQuery
import Mathlib.Data.List.Sort

/-!
# Sorting nodes
-/

namespace Lumberjack
namespace Tree

theorem cmpStr_le (a b : Str) : cmpStr a b ≠ .gt ↔ (a : List Char) ≤ b := by
  unfold cmpStr compareOfLessAndEq
  split
  · simp; exact le_of_lt (by assumption)
  · split
    · rename_i h; subst h; simp
    · rename_i h1 h2
      simp
      exact lt_of_le_of_ne (le_of_not_gt h1) (Ne.symm h2)

theorem cmp_span (x y : Span) : (x.cmp y = .lt ↔ x.start < y.start ∨ (x.start = y.start ∧
    (x.stop < y.stop ∨ (x.stop = y.stop ∧ x.nIndices < y.nIndices)))) ∧
    (x.cmp y = .eq ↔ x.start = y.start ∧ x.stop = y.stop ∧ x.nIndices = y.nIndices) := by
  unfold Span.cmp
  by_cases e1 : x.start = y.start
  · by_cases e2 : x.stop = y.stop
    · simp [e1, e2, Nat.compare_eq_lt]
    · simp [e1, e2, Nat.compare_eq_lt]
  · simp [e1, Nat.compare_eq_lt]

theorem lex3_le {α : Type} [LinearOrder α] {a a' b b' c c' : ℕ} {r r' : α} :
    (toLex (a, toLex (b, toLex (c, r))) : ℕ ×ₗ ℕ ×ₗ ℕ ×ₗ α) ≤ toLex (a', toLex (b', toLex (c', r'))) ↔
    (a < a' ∨ (a = a' ∧ (b < b' ∨ (b = b' ∧ c < c')))) ∨ (a = a' ∧ b = b' ∧ c = c') ∧ r ≤ r' := by
  simp only [Prod.Lex.le_iff, ofLex_toLex]
  by_cases h1 : a = a' <;> by_cases h2 : b = b' <;> by_cases h3 : c = c' <;> simp [h1, h2, h3]

/-- The part of the key after the span. -/
def keyTail (t : Tree) (n : Nat) : Node → ℕ ×ₗ ℕ ×ₗ List Char
  | .term x => toLex (0, toLex (0, x.form))
  | .nt x => toLex (1, toLex ((t.children n).length, x.label))

theorem sortKey_eq {t : Tree} {n : Nat} {nd : Node} (h : t.graph.node? n = some nd) :
    t.sortKey n = toLex (nd.span.start, toLex (nd.span.stop, toLex (nd.span.nIndices, t.keyTail n nd))) := by
  unfold sortKey keyTail
  rw [h]
  cases nd <;> rfl

theorem cmpNodes_key (t : Tree) {a b : Nat} (ha : t.Live a) (hb : t.Live b) :
    t.cmpNodes a b ≠ .gt ↔ t.sortKey a ≤ t.sortKey b := by
  obtain ⟨na, ha⟩ := ha
  obtain ⟨nb, hb⟩ := hb
  rw [sortKey_eq ha, sortKey_eq hb, lex3_le]
  unfold cmpNodes
  rw [ha, hb]
  obtain ⟨c1, c2⟩ := cmp_span na.span nb.span
  rw [← c1, ← c2]
  cases h : na.span.cmp nb.span with
  | lt => simp [h]
  | gt => simp [h]
  | eq =>
    simp only [h, reduceCtorEq, false_or, true_and]
    cases na with
    | term x =>
      cases nb with
      | term y =>
        simp only [keyTail, Prod.Lex.le_iff, ofLex_toLex, lt_irrefl, false_or, true_and]
        exact cmpStr_le _ _
      | nt y => simp [keyTail, Prod.Lex.le_iff]
    | nt x =>
      cases nb with
      | term y => simp [keyTail, Prod.Lex.le_iff]
      | nt y =>
        simp only [keyTail, Prod.Lex.le_iff, ofLex_toLex, lt_irrefl, false_or, true_and]
        by_cases hk : (t.children a).length = (t.children b).length
        · simp only [hk, lt_irrefl, false_or, true_and]
          rw [if_neg (by simp)]
          exact cmpStr_le _ _
        · rw [if_pos (by simpa [Nat.compare_eq_eq] using hk)]
          simp only [hk, false_and, or_false, ne_eq, Nat.compare_eq_gt]
          omega

end Tree
end Lumberjack
