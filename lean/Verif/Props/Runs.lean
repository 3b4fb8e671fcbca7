import Verif.Proofs.Runs
import Verif.Proofs.Check
import Verif.Spec.Examples

/-!
# Inserting nodes above runs of terminals (C28)
-/

namespace Lumberjack
namespace Props

open Lumberjack.Tree

/-- C28: `insert_intermediate(f)`, for a function looking at the node only, on a well-formed tree
whose root is a nonterminal, inserts exactly one node labelled `f(p)` above each maximal run of
adjacent terminal children of each node `p` to which `f` gives a label, and changes nothing else
(see `Inserted` for the edge labels).  Proviso: `f` gives no label to the inserted node, or the
terminal child of `p` that is first in the sentence is the one with the least index. -/
theorem C28_insert_intermediate (t : Tree) (W : t.WF) (hroot : t.IsNt t.root) (f : Tree → Nat → Option Str)
    (hf : NodeFn f) (hH : ∀ p l, f t p = some l → Silent f l ∨ t.FirstLeast p) :
    ∃ t', t.insertIntermediate f = .ok (t', .ok ()) ∧
      Inserted t (fun p c => (∃ l, f t p = some l) ∧ t.IsChild p c ∧ t.IsTerm c) (fun p => (f t p).getD []) t' :=
  insertIntermediate_spec W hf hroot hH

/-- C28: spelled out for one terminal child of a node with a label. -/
theorem C28_one_node_per_run (t : Tree) (W : t.WF) (hroot : t.IsNt t.root) (f : Tree → Nat → Option Str)
    (hf : NodeFn f) (hH : ∀ p l, f t p = some l → Silent f l ∨ t.FirstLeast p) :
    ∃ t', t.insertIntermediate f = .ok (t', .ok ()) ∧
      ∀ p l c, f t p = some l → t.IsChild p c → t.IsTerm c →
        ∃ n, ¬ t.Live n ∧ t'.IsChild p n ∧ (∃ s, t'.graph.node? n = some (.nt (NonTerminal.new l s))) ∧
          ∀ d, t'.IsChild n d ↔ t.Run (fun e => t.IsChild p e ∧ t.IsTerm e) c d := by
  obtain ⟨t', h1, I⟩ := insertIntermediate_spec W hf hroot hH
  refine ⟨t', h1, fun p l c hl hc hct => ?_⟩
  have hset : ∀ x, (∃ l, f t p = some l) ∧ t.IsChild p x ∧ t.IsTerm x ↔ t.IsChild p x ∧ t.IsTerm x :=
    fun x => ⟨fun h => h.2, fun h => ⟨⟨l, hl⟩, h⟩⟩
  obtain ⟨n, n1, n2⟩ := I.cover p c ⟨⟨l, hl⟩, hc, hct⟩
  obtain ⟨p', c', g1, g2, g3, ⟨s, g4⟩, g5⟩ := I.new n (isChild_live I.wf.graph n2).1 n1
  have hrun := (g5 c).1 n2
  have hpp : p' = p := W.shape.isChild_unique (hrun.right W.sentence).2.1 hc
  subst hpp
  refine ⟨n, n1, g2, ⟨s, ?_⟩, fun d => ?_⟩
  · rw [g4, hl]; rfl
  · rw [g5, ← Run.congr hset]
    exact ⟨fun h => hrun.comm.trans h, fun h => hrun.trans h⟩

/-- C28: on a tree that is a single terminal the result is `Err` and the tree is unchanged. -/
theorem C28_root_terminal (t : Tree) (W : t.WF) (hroot : t.IsTerm t.root) (f : Tree → Nat → Option Str) :
    t.insertIntermediate f = .ok (t, .error .terminalNoParent) := by
  have hone : ∀ m, t.IsTerm m → m = t.root := fun m hm => W.shape.dom_term hroot (W.shape.reach m hm.live)
  unfold insertIntermediate
  cases hl : t.terminals with
  | nil => exact absurd (mem_terminals.2 hroot) (by rw [hl]; simp)
  | cons m l =>
    have := hone m (mem_terminals.1 (by rw [hl]; simp))
    subst this
    have hpar : t.parent t.root = none := parent_none.2 W.shape.root_top
    obtain ⟨x, hx⟩ := hroot
    have : intermediateStep f (t, ∅) t.root = .ok ((t, insert t.root ∅), .error .terminalNoParent) := by
      unfold intermediateStep
      simp only [Finset.notMem_empty, if_false, hpar, node_eq hx, Res.ok_bind]
      rfl
    rw [forE, this]; rfl

/-- C28: without the proviso there can be two nodes above one run: the function giving every node
the label `X` is asked again about the node it caused. -/
theorem C28_duplicate : ∃ (t : Tree) (f : Tree → Nat → Option Str) (t' : Tree) (n m : Nat), t.WF ∧ t.IsNt t.root ∧ NodeFn f ∧
    t.insertIntermediate f = .ok (t', .ok ()) ∧ ¬ t.Live n ∧ ¬ t.Live m ∧ t'.IsChild n m := by
  refine ⟨Examples.proj, fun _ _ => some "X".toList, _, 6, 7, wf_of_check (by decide +kernel), ⟨_, rfl⟩, fun _ _ _ _ => rfl, rfl, ?_, ?_, ?_⟩
  · rintro ⟨_, h⟩; cases h
  · rintro ⟨_, h⟩; cases h
  · exact mem_children_fst.1 (by decide +kernel)

/-- Labels `A` and `ROOT` nodes with `X`. -/
def markX (t : Tree) (n : Nat) : Option Str :=
  match t.graph.node? n with
  | some (.nt x) => if x.label = "ROOT".toList ∨ x.label = "A".toList then some "X".toList else none
  | _ => none

theorem markX_fn : NodeFn markX := by
  intro t t' n h
  unfold markX
  rw [h]

theorem markX_silent : Silent markX "X".toList := by
  intro t n s h
  unfold markX
  rw [h]
  exact if_neg (by show ¬ ("X".toList = "ROOT".toList ∨ "X".toList = "A".toList); decide)

example : Examples.disc.WF ∧ Examples.disc.IsNt Examples.disc.root ∧ NodeFn markX ∧
    (∀ p l, markX Examples.disc p = some l → Silent markX l ∨ Examples.disc.FirstLeast p) ∧
    ∃ t', Examples.disc.insertIntermediate markX = .ok (t', .ok ()) ∧
      ((t'.children 3).map (·.1)).length = 2 ∧ (t'.parent 0).map (·.1) ≠ (t'.parent 2).map (·.1) := by
  refine ⟨wf_of_check (by decide +kernel), ⟨_, rfl⟩, markX_fn, fun p l h => .inl ?_, _, rfl, by decide +kernel, by decide +kernel⟩
  have : l = "X".toList := by
    unfold markX at h
    split at h
    · split at h
      · exact (Option.some.inj h).symm
      · simp at h
    · simp at h
  rw [this]; exact markX_silent

end Props
end Lumberjack
