import Verif.Proofs.Undo
import Verif.Props.Projectivize
import Verif.Props.Iso

/-!
# Projectivization can be taken back (C83)
-/

namespace Lumberjack
namespace Props

open Lumberjack.Tree Lumberjack.Convert

/-- C83: the list returned by `projectivize` is enough to take it back: going through it from the last entry to the
first, reattaching each node to the parent named and giving the new edge the content named never fails and ends with
the tree as it was, up to the indices and the order of edges. -/
theorem C83_undo (t : Tree) (W : t.WF) (pick : Tree → Finset Nat → Option Nat) (hpick : IsOrder pick) {t' : Tree}
    {log : List Move} (h : t.projectivize pick = .ok (t', some log)) :
    ∃ u, t'.undo log = .ok u ∧ u.WF ∧ Regained t u := by
  have hgap : ∃ n, t.Live n ∧ ¬ t.Gapless n := by
    by_contra hc
    rw [C22_projective_unchanged t W pick (fun n hn => by_contra fun hg => hc ⟨n, hn, hg⟩)] at h
    simp at h
  obtain ⟨t1, log1, h1, W', _⟩ := C22_projectivize t W pick hpick hgap
  rw [h1] at h
  simp only [Res.ok.injEq, Prod.mk.injEq, Option.some.injEq] at h
  obtain ⟨rfl, rfl⟩ := h
  exact undo_spec (C23_moves t W pick hpick h1) W' (Regained.refl _)

/-- C83: so the tree compares equal to what it was, stands for the same nested constituents, and has its gaps
again. -/
theorem C83_undo_equal (t : Tree) (W : t.WF) (pick : Tree → Finset Nat → Option Nat) (hpick : IsOrder pick) {t' u : Tree}
    {log : List Move} (h : t.projectivize pick = .ok (t', some log)) (hu : t'.undo log = .ok u) :
    t.eq u = .ok true ∧ (∀ f, u.Is f ↔ t.Is f) ∧ u.isProjective = false := by
  obtain ⟨u', h1, h2, h3⟩ := C83_undo t W pick hpick h
  rw [hu] at h1
  cases h1
  obtain ⟨k1, k2, _, k3, _⟩ := C74_same_queries t u id h3.iso W h2
  refine ⟨k1, k2, k3.trans ?_⟩
  cases hp : t.isProjective with
  | false => rfl
  | true =>
    unfold projectivize at h
    simp [hp, Res.pure_eq] at h

/-- C83: and the same is written for it as before, in whatever format. -/
theorem C83_undo_written (t : Tree) (W : t.WF) (pick : Tree → Finset Nat → Option Nat) (hpick : IsOrder pick)
    {t' u : Tree} {log : List Move} (h : t.projectivize pick = .ok (t', some log)) (hu : t'.undo log = .ok u)
    (out : OutFormat) (hout : out = .negra → t.IsNt t.root ∧ t.OneSecondary ∧ t.SecondaryNt)
    (pick₁ pick₂ : Tree → Finset Nat → Option Nat) (c : Nat) :
    convertTree pick₁ (plain out) none c t = convertTree pick₂ (plain out) none c u := by
  obtain ⟨u', h1, h2, h3⟩ := C83_undo t W pick hpick h
  rw [hu] at h1
  cases h1
  exact C74_written t u id h3.iso W h2 out hout pick₁ pick₂ c

/-- The root (5) has the children `A` (6), which covers positions 0 and 4, `B` (7), which covers 1 and 3, and the
terminal 2 at position 2. Projectivization attaches `B` and the terminal to `A`, and then the terminal to `B`. -/
def woven : Tree :=
  ⟨{ nodes := [Examples.tm "a" "X" 0, Examples.tm "b" "X" 1, Examples.tm "c" "X" 2, Examples.tm "d" "X" 3,
       Examples.tm "e" "X" 4, Examples.nt "S" ⟨0, 5, none⟩, Examples.nt "A" ⟨0, 5, some {1, 2, 3}⟩,
       Examples.nt "B" ⟨1, 4, some {2}⟩],
     freeNodes := [],
     edges := [Examples.pe 0 5 7, Examples.pe 1 5 6, Examples.pe 2 5 2, Examples.pe 3 6 0, Examples.pe 4 6 4,
       Examples.pe 5 7 1, Examples.pe 6 7 3],
     edgeSlots := 7, freeEdges := [] }, 5, 5, 2⟩

theorem woven_wf : woven.WF := wf_of_check (by decide +kernel)

/-- The moves of `woven` and the parent of the terminal 2 after projectivization, after taking it back, and after taking
it back in the wrong order. -/
def wovenParents : Res (List (Nat × Nat) × List (Option Nat)) := do
  let r ← woven.projectivize minPick
  let u ← r.1.undo (r.2.getD [])
  let v ← r.1.undo (r.2.getD []).reverse
  return ((r.2.getD []).map fun (m : Move) => (m.1, m.2.2),
    [(r.1.parent 2).map (·.1), (u.parent 2).map (·.1), (v.parent 2).map (·.1)])

/-- C83: a node can be named more than once, and taking the list back from the first entry to the last can leave a node
where it never was before. -/
theorem C83_order_matters : wovenParents = .ok ([(5, 7), (5, 2), (6, 2)], [some 7, some 5, some 6]) := by
  decide +kernel

/-- The example of a tree with a gap: node 5 goes from the root (node 4) down to node 3 and comes back. -/
example : ((do let r ← Examples.disc.projectivize minPick
               let u ← r.1.undo (r.2.getD [])
               return ((r.1.parent 5).map (·.1), (u.parent 5).map (·.1),
                 decide (u.graph.nodes = Examples.disc.graph.nodes))) : Res (Option Nat × Option Nat × Bool)) =
    .ok (some 3, some 4, true) := by decide +kernel

example : ∃ t' log u, Examples.disc.projectivize minPick = .ok (t', some log) ∧ t'.undo log = .ok u ∧
    Examples.disc.eq u = .ok true := by
  have hgap : ∃ n, Examples.disc.Live n ∧ ¬ Examples.disc.Gapless n := by
    have h := (disc_iff disc_wf).1 (⟨_, rfl, by decide⟩ : Examples.disc.Disc 3)
    exact ⟨3, h.1.live', h.2⟩
  obtain ⟨t', log, h, _⟩ := C22_projectivize _ disc_wf minPick minPick_order hgap
  obtain ⟨u, hu, _⟩ := C83_undo _ disc_wf minPick minPick_order h
  exact ⟨t', log, u, h, hu, (C83_undo_equal _ disc_wf minPick minPick_order h hu).1⟩

end Props
end Lumberjack
