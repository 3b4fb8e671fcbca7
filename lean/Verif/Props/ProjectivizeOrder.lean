import Verif.Proofs.ProjectivizeOrder
import Verif.Props.Projectivize
import Verif.Props.Equality
import Verif.Props.Bracket

/-!
# Projectivization and the order of hash sets (C60)
-/

namespace Lumberjack
namespace Props

open Lumberjack.Tree

/-- C60: whichever orders the hash sets have in two runs of `projectivize` on the same tree, the two
resulting trees have the same nodes (labels, features, spans) in the same slots and the same edges
with the same contents.  The two lists of moves have the same entries, and the entries for each node
come in the same order. -/
theorem C60_same_tree (t : Tree) (W : t.WF) (pick pick' : Tree → Finset Nat → Option Nat)
    (hp : IsOrder pick) (hp' : IsOrder pick') {t' u' : Tree} {log log' : List Move}
    (h : t.projectivize pick = .ok (t', some log)) (h' : t.projectivize pick' = .ok (u', some log')) :
    Twin t' u' ∧ log.Perm log' ∧
      ∀ c, log.filter (fun m => m.2.2 = c) = log'.filter (fun m => m.2.2 = c) := by
  obtain ⟨h1, h2⟩ := projectivize_order hp hp' W h h'
  refine ⟨h1, ?_, h2⟩
  rw [List.perm_iff_count]
  intro m
  have := h2 m.2.2
  have key : ∀ l : List Move, l.count m = (l.filter (fun x => x.2.2 = m.2.2)).count m := by
    intro l
    rw [List.count_filter (by simp)]
  rw [key log, key log', this]

/-- C60: both results stand for the same ordered tree. -/
theorem C60_same_forest (t : Tree) (W : t.WF) (pick pick' : Tree → Finset Nat → Option Nat)
    (hp : IsOrder pick) (hp' : IsOrder pick') {t' u' : Tree} {log log' : List Move}
    (h : t.projectivize pick = .ok (t', some log)) (h' : t.projectivize pick' = .ok (u', some log'))
    (f : Forest) : t'.Is f ↔ u'.Is f :=
  (projectivize_order hp hp' W h h').1.is f

theorem projectivize_wf {t t' : Tree} (W : t.WF) {pick : Tree → Finset Nat → Option Nat} (hp : IsOrder pick)
    {log : List Move} (h : t.projectivize pick = .ok (t', some log)) : t'.WF ∧ t'.isProjective = true := by
  have hpr : t.isProjective = false := by
    cases hp : t.isProjective with
    | false => rfl
    | true =>
      unfold projectivize at h
      simp only [hp, Bool.not_true] at h
      simp [Res.pure_eq] at h
  obtain ⟨t1, log1, h1, h2, _, h4⟩ := projectivize_spec hp W hpr
  rw [h1] at h
  simp only [Res.ok.injEq, Prod.mk.injEq, Option.some.injEq] at h
  obtain ⟨rfl, rfl⟩ := h
  refine ⟨h2, ?_⟩
  rw [isProjective_iff h2.count]
  intro n hn
  have := (disc_iff h2).1 hn
  exact this.2 (h4 n this.1.live')

/-- C60: comparing the two results gives true, and they are written as the same bracketed text, in each
of the bracketed formats. -/
theorem C60_same_text (t : Tree) (W : t.WF) (pick pick' : Tree → Finset Nat → Option Nat)
    (hp : IsOrder pick) (hp' : IsOrder pick') {t' u' : Tree} {log log' : List Move}
    (h : t.projectivize pick = .ok (t', some log)) (h' : t.projectivize pick' = .ok (u', some log')) :
    t'.eq u' = .ok true ∧
    ∀ f : Ptb.Format, ∃ s, Ptb.treeToString f t' = .ok (.ok s) ∧ Ptb.treeToString f u' = .ok (.ok s) := by
  obtain ⟨W1, p1⟩ := projectivize_wf W hp h
  obtain ⟨W2, p2⟩ := projectivize_wf W hp' h'
  obtain ⟨f, hf⟩ := W1.is_exists
  have hf' := (C60_same_forest t W pick pick' hp hp' h h' f).1 hf
  constructor
  · obtain ⟨b, h1, h2⟩ := C21_equality t' u' W1 W2 f f hf hf'
    rw [h1, h2.2 (.inr (Forest.Same.refl f))]
  · intro fmt
    obtain ⟨s, h1, h2⟩ := C44_text t' W1 p1 f hf fmt
    obtain ⟨s', h3, h4⟩ := C44_text u' W2 p2 f hf' fmt
    rw [h2] at h4
    simp only [List.cons.injEq, and_true] at h4
    exact ⟨s, h1, h4 ▸ h3⟩

/-- Another iteration order: largest element first. -/
def maxPick (_ : Tree) (s : Finset Nat) : Option Nat := if h : s.Nonempty then some (s.max' h) else none

theorem maxPick_order : IsOrder maxPick := by
  intro t s
  unfold maxPick
  constructor
  · intro h; exact ⟨_, s.max'_mem h, by rw [dif_pos h]⟩
  · rintro rfl; simp

/-- `A` covers positions 0 and 3, the positions in between are children of the root. -/
def wide : Tree :=
  ⟨⟨[Examples.tm "a" "X" 0, Examples.tm "b" "Y" 1, Examples.tm "c" "Z" 2, Examples.tm "d" "W" 3,
      Examples.nt "A" ⟨0, 4, some {1, 2}⟩, Examples.nt "ROOT" ⟨0, 4, none⟩],
    [], [Examples.pe 4 5 2, Examples.pe 3 5 1, Examples.pe 2 5 4, Examples.pe 1 4 3, Examples.pe 0 4 0], 5, []⟩, 4, 5, 1⟩

/-- The two orders really give different lists of moves and different edge lists. -/
example : wide.WF ∧ IsOrder minPick ∧ IsOrder maxPick ∧
    (do let r ← wide.projectivize minPick
        return (r.2, r.1.graph.edges)) =
      .ok (some [(5, .primary none, 1), (5, .primary none, 2)],
        [⟨4, 4, 2, .primary none⟩, ⟨3, 4, 1, .primary none⟩, Examples.pe 2 5 4, Examples.pe 1 4 3, Examples.pe 0 4 0]) ∧
    (do let r ← wide.projectivize maxPick
        return (r.2, r.1.graph.edges)) =
      .ok (some [(5, .primary none, 2), (5, .primary none, 1)],
        [⟨3, 4, 1, .primary none⟩, ⟨4, 4, 2, .primary none⟩, Examples.pe 2 5 4, Examples.pe 1 4 3, Examples.pe 0 4 0]) :=
  ⟨wf_of_check (by decide +kernel), minPick_order, maxPick_order, by decide +kernel, by decide +kernel⟩

end Props
end Lumberjack
