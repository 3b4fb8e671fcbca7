import Verif.Proofs.Filled
import Verif.Props.Undo

/-!
# Projectivization node by node (C91)
-/

namespace Lumberjack
namespace Props

open Lumberjack.Tree Lumberjack.Convert

/-- C91: `projectivize` fills the gaps of the nodes one after the other, in the order of a traversal from the left that
visits children before their parents. -/
theorem C91_exact (t : Tree) (W : t.WF) (pick : Tree → Finset Nat → Option Nat) (hpick : IsOrder pick) {t' : Tree}
    {log : Option (List Move)} (h : t.projectivize pick = .ok (t', log)) :
    ∃ l, PostOrder t [t.root] l ∧ FilledAll l t t' :=
  projectivize_filled hpick W h

/-- C91: this order exists, is unique, lists each node once and each node after all its children. -/
theorem C91_order (t : Tree) (W : t.WF) : ∃ l, PostOrder t [t.root] l ∧ (∀ l', PostOrder t [t.root] l' → l' = l) ∧
    l.Nodup ∧ (∀ n, n ∈ l ↔ t.Live n) ∧
    ∀ n pre post, l = pre ++ n :: post → ∀ c, t.IsChild n c → c ∈ pre := by
  obtain ⟨l, h1, h2, h3⟩ := postOrder_root W
  exact ⟨l, h1, fun l' h' => h'.unique h1, h2, h3, fun n pre post e c hc => h1.children_first e h2 hc⟩

/-- C91: and there is only one result, up to the indices and the order of edges. -/
theorem C91_unique (t : Tree) {l : List Nat} {u v : Tree} (h : FilledAll l t u) (h' : FilledAll l t v) :
    Regained u v :=
  h.unique (Regained.refl t) h'

/-- C91: so whatever tree comes from filling the gaps in this order is what `projectivize` returns, up to the indices and
the order of edges. -/
theorem C91_determined (t : Tree) (W : t.WF) (pick : Tree → Finset Nat → Option Nat) (hpick : IsOrder pick) {t' u : Tree}
    {log : Option (List Move)} (h : t.projectivize pick = .ok (t', log)) {l : List Nat} (hl : PostOrder t [t.root] l)
    (hu : FilledAll l t u) : Regained u t' := by
  obtain ⟨l', h1, h2⟩ := C91_exact t W pick hpick h
  rw [h1.unique hl] at h2
  exact C91_unique t hu h2

/-- C91: filling the gaps of one node: the branches in the range are children of the node afterwards, and all other nodes
have the parent they had. -/
theorem C91_parents {q : Nat} {t t' : Tree} (h : Filled q t t') :
    ∃ lo hi, t.LeastRange q lo hi ∧ (∀ i, t'.Covers q i ↔ lo ≤ i ∧ i ≤ hi) ∧
      (∀ c, t.TakenIn q lo hi c → ∀ p, t'.IsChild p c ↔ p = q) ∧
      ∀ c, ¬ t.TakenIn q lo hi c → ∀ p, t'.IsChild p c ↔ t.IsChild p c := by
  obtain ⟨lo, hi, h1, h2, h3⟩ := h.range
  have key : ∀ p c, t'.IsChild p c ↔ ∃ r ∈ t.graph.edges, r.tgt = c ∧ r.w.isPrimary = true ∧
      (t.TakenIn q lo hi c ∧ q = p ∨ ¬ t.TakenIn q lo hi c ∧ r.src = p) := by
    intro p c
    have hm : ∀ w, (p, c, w) ∈ (t'.graph.edges.map fun r => (r.src, r.tgt, r.w)) ↔ _ := fun w => h3.mem_iff
    constructor
    · rintro ⟨r, hr, rfl, rfl, hw⟩
      have := (hm r.w).1 (List.mem_map.2 ⟨r, hr, rfl⟩)
      obtain ⟨s, hs, e⟩ := List.mem_map.1 this
      simp only [Prod.mk.injEq] at e
      obtain ⟨e1, e2, e3⟩ := e
      refine ⟨s, hs, e2, e3 ▸ hw, ?_⟩
      by_cases hb : t.TakenIn q lo hi r.tgt
      · rw [if_pos ⟨e3 ▸ hw, e2 ▸ hb⟩] at e1
        exact .inl ⟨hb, e1⟩
      · rw [if_neg fun h => hb (e2 ▸ h.2)] at e1
        exact .inr ⟨hb, e1⟩
    · rintro ⟨s, hs, rfl, hw, hp⟩
      obtain ⟨r, hr, e⟩ := List.mem_map.1 ((hm s.w).2 (List.mem_map.2 ⟨s, hs, by
        rcases hp with ⟨h, rfl⟩ | ⟨h, rfl⟩
        · rw [if_pos ⟨hw, h⟩]
        · rw [if_neg fun h' => h h'.2]⟩))
      simp only [Prod.mk.injEq] at e
      exact ⟨r, hr, e.1, e.2.1, e.2.2 ▸ hw⟩
  refine ⟨lo, hi, h1, h2, fun c hc p => ?_, fun c hc p => ?_⟩
  · rw [key]
    constructor
    · rintro ⟨r, _, _, _, ⟨_, h⟩ | ⟨h, _⟩⟩
      · exact h.symm
      · exact absurd hc h
    · rintro rfl
      obtain ⟨p', ⟨r, hr, _, hr2, hr3⟩, _⟩ := hc.1
      exact ⟨r, hr, hr2, hr3, .inl ⟨hc, rfl⟩⟩
  · rw [key]
    constructor
    · rintro ⟨r, hr, e1, e2, ⟨h, _⟩ | ⟨_, h⟩⟩
      · exact absurd h hc
      · exact ⟨r, hr, h, e1, e2⟩
    · rintro ⟨r, hr, e1, e2, e3⟩
      exact ⟨r, hr, e2, e3, .inr ⟨hc, e1⟩⟩

/-- Two nodes, `A` (5) over positions 0 and 2 and `B` (6) over 1 and 3, attached to the root in either order. -/
def crossedPair (first second : Nat) : Tree :=
  ⟨{ nodes := [Examples.tm "a" "X" 0, Examples.tm "b" "X" 1, Examples.tm "c" "X" 2, Examples.tm "d" "X" 3,
       Examples.nt "S" ⟨0, 4, none⟩, Examples.nt "A" ⟨0, 3, some {1}⟩, Examples.nt "B" ⟨1, 4, some {2}⟩],
     freeNodes := [],
     edges := [Examples.pe 5 4 second, Examples.pe 4 4 first, Examples.pe 3 5 0, Examples.pe 2 5 2, Examples.pe 1 6 1,
       Examples.pe 0 6 3],
     edgeSlots := 6, freeEdges := [] }, 4, 4, 2⟩

theorem crossedPair_wf : (crossedPair 5 6).WF ∧ (crossedPair 6 5).WF :=
  ⟨wf_of_check (by decide +kernel), wf_of_check (by decide +kernel)⟩

/-- Whether `crossedPair 5 6` and `crossedPair 6 5` compare equal, before and after `projectivize`. -/
def crossedPairEqual : Res (Bool × Bool) := do
  let a ← (crossedPair 5 6).projectivize minPick
  let b ← (crossedPair 6 5).projectivize minPick
  let x ← (crossedPair 5 6).eq (crossedPair 6 5)
  let y ← a.1.eq b.1
  return (x, y)

/-- C91: the order matters: two trees that compare equal, and differ only in the order in which two nodes were attached
to the root, no longer compare equal after `projectivize`. -/
theorem C91_order_matters : crossedPairEqual = .ok (true, false) := by decide +kernel

-- the hypotheses of `C91_exact`, `C91_parents` and `C91_unique` are met by trees in which nodes are moved
example : ∃ l t', PostOrder woven [woven.root] l ∧ FilledAll l woven t' ∧ ∃ n, woven.Live n ∧ ¬ woven.Gapless n := by
  have hgap : ∃ n, woven.Live n ∧ ¬ woven.Gapless n := by
    refine ⟨7, ⟨_, rfl⟩, fun h => ?_⟩
    have hl : ∀ i, woven.Covers 7 i ↔ i = 1 ∨ i = 3 := by
      intro i
      obtain ⟨_, h⟩ := woven_wf.span_spec (n := 7) rfl
      rw [← h i, show (Node.span _).indices = ({1, 3} : Finset Nat) by decide +kernel]
      simp
    have := (hl 2).1 (h 1 3 2 ((hl 1).2 (.inl rfl)) ((hl 3).2 (.inr rfl)) (by omega) (by omega))
    omega
  obtain ⟨t1, log1, h1, _⟩ := C22_projectivize woven woven_wf minPick minPick_order hgap
  obtain ⟨l, h2, h3⟩ := C91_exact woven woven_wf minPick minPick_order h1
  exact ⟨l, t1, h2, h3, hgap⟩

end Props
end Lumberjack
