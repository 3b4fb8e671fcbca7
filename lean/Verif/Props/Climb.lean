import Verif.Proofs.ClimbMap
import Verif.Proofs.Check

/-!
# C82: editing while climbing
-/

namespace Lumberjack
namespace Props

open Lumberjack.Tree Relation

/-- C82: for a closure that may change the tree, but leaves the parents of the nodes above the current one alone,
`map_climber_path` returns (with the number of steps bounded by nothing but the visits themselves), having visited the
terminals `t` had at the start in the order of their indices: each that is still there with the nodes that are above
it when its turn comes. Edits at or below the current node are not reflected in the path of the current visit; they
are in those of later terminals. -/
theorem C82_path (t : Tree) {σ : Type} (I : Tree → Prop) (hI : ∀ t, I t → t.graph.OK ∧ t.Shape)
    (f : σ → Tree → Nat → Nat → Res (σ × Tree × Bool)) (hf : KeepsAbove I f) (s : σ) (ht : I t) :
    ∃ (ns : List Nat) (r : Res (σ × Tree)) (K : Nat), ns.Pairwise (· < ·) ∧ (∀ n, n ∈ ns ↔ t.IsTerm n) ∧
      Visits f ns (s, t) r ∧ (∀ r', Visits f ns (s, t) r' → r' = r) ∧
      ∀ fuel, K ≤ fuel → mapClimberPath fuel f s t = r := by
  obtain ⟨r, K, h1, h2⟩ := mapClimberPath_edits hf hI s ht
  exact ⟨t.terminals, r, K, terminals_sorted, fun n => mem_terminals, h1, fun r' h' => (h1.unique hf hI ht h').symm, h2⟩

/-- C82: removing the current node, inserting a node above or below it and moving it elsewhere leave the parents of
the nodes above it alone. -/
theorem C82_edits (t : Tree) (W : t.WF) (p q : Nat) (hp : t.IsNt p) (hq : q ≠ p) (hd : t.Dom q p) :
    (∀ t' nd, t.removeNode p = .ok (t', .ok nd) → t'.IsNt q ∧ ∀ a, t'.IsChild a q ↔ t.IsChild a q) ∧
    (∀ label t' ins, t.insertUnaryAbove p label = .ok (t', ins) → t'.IsNt q ∧ ∀ a, t'.IsChild a q ↔ t.IsChild a q) ∧
    (∀ label t' ins, t.insertUnaryBelow p label = .ok (t', .ok ins) →
      t'.IsNt q ∧ ∀ a, t'.IsChild a q ↔ t.IsChild a q) := by
  have hnt := isNt_of_above W hq hd
  obtain ⟨x, hx⟩ := hp
  have hnc : ¬ t.IsChild p q := by
    intro hc
    exact hq (W.shape.dom_antisymm W.graph hd (Dom.single hc))
  obtain ⟨y, hy⟩ := hnt
  refine ⟨fun t' nd h => (removeNode_above W ⟨x, hx⟩ h).2 q hq hd, ?_, ?_⟩
  · intro label t' ins h
    obtain ⟨t1, i1, h1, h2, h3, h4, h5, _⟩ := C17_insert_unary_above t W p _ label hx
    rw [h] at h1
    simp only [Res.ok.injEq, Prod.mk.injEq] at h1
    obtain ⟨rfl, rfl⟩ := h1
    have hqi : q ≠ ins := by rintro rfl; exact h2 ⟨_, hy⟩
    refine ⟨⟨y, (h4 q hqi).trans hy⟩, fun a => ?_⟩
    rw [h5]
    simp [hq, hqi]
  · intro label t' ins h
    obtain ⟨t1, i1, h1, h2, h3, h4, h5, _⟩ := C17_insert_unary_below t W p x label hx
    rw [h] at h1
    simp only [Res.ok.injEq, Prod.mk.injEq, Except.ok.injEq] at h1
    obtain ⟨rfl, rfl⟩ := h1
    have hqi : q ≠ ins := by rintro rfl; exact h2 ⟨_, hy⟩
    refine ⟨⟨y, (h4 q hqi).trans hy⟩, fun a => ?_⟩
    rw [h5]
    simp only [hqi, and_false, hnc, or_false, and_iff_left_iff_imp]
    rintro h' rfl
    exact hnc h'

/-- C82: moving the current node below another nonterminal leaves the parents of the nodes above it alone. -/
theorem C82_move (t t' : Tree) (W : t.WF) (r : EdgeRec) (hr : r ∈ t.graph.edges) (hw : r.w.isPrimary = true) (q c : Nat)
    (v : Nat × Edge) (hc : ¬ t.Dom r.tgt c) (hcn : t.IsNt c) (hs : r.src = c ∨ ∃ s, s ≠ r.tgt ∧ t.IsChild r.src s)
    (hq : q ≠ r.tgt) (h : t.reattachNode c r.id = .ok (t', .ok v)) :
    ∀ a, t'.IsChild a q ↔ t.IsChild a q := by
  obtain ⟨t1, e1, h1, _, _, _, h5, _⟩ := C14_reattach t W r c hr hw hcn hc hs
  rw [h] at h1
  simp only [Res.ok.injEq, Prod.mk.injEq] at h1
  obtain ⟨rfl, _⟩ := h1
  intro a
  rw [h5]
  simp [hq]

/-- C82: the documentation's example. If the root has no label in `rm`, `climb_map` returns; exactly the nonterminals
with a label in `rm` that have a terminal below them with no stopping node in between are removed, everything else
stays, and each terminal gets the label of the closest stopping node above it, if there is one. -/
theorem C82_climb_map (t : Tree) (W : t.WF) (rm top : Str → Bool) (name : Str) (hroot : ¬ HasLabel rm t t.root) :
    ∃ (t' : Tree) (val : Nat → Option Str) (K : Nat), (∀ fuel, K ≤ fuel → climbMap fuel rm top name t = .ok t') ∧
      Pruned t t' (fun a => ∃ n, t.IsTerm n ∧ GoneOn t rm top n a) (fun n x => match val n with
        | some v => withFeature name v x
        | none => x) ∧
      ∀ n, t.IsTerm n →
        (∀ a x, t.Closest (hasLabel (stopAt rm top)) n a → t.graph.node? a = some (.nt x) → val n = some x.label) ∧
        ((¬ ∃ a, t.Closest (hasLabel (stopAt rm top)) n a) → val n = none) := by
  obtain ⟨r, K, h1, h2⟩ := mapClimberPath_edits (climbMapStep_keeps rm top name) sound_wf () W
  obtain ⟨t', rfl, h3⟩ := climbMap_visits (name := name) W hroot t.terminals [] t r (fun n hn => mem_terminals.1 hn)
    (show t.terminals.Nodup from terminals_sorted.imp (fun h => Nat.ne_of_lt h)) ((Pruned.start W).congr (by simp) (by simp)) h1
  refine ⟨t', fun n => ((t.ancList n).find? (hasLabel (stopAt rm top) t)).map t.labelAt, K, ?_, h3.congr ?_ ?_, ?_⟩
  · intro fuel hfu
    unfold climbMap
    rw [h2 fuel hfu]
    rfl
  · intro a
    simp [mem_terminals]
  · intro n x hx
    have : n ∈ [] ++ t.terminals := by simpa using mem_terminals.2 ⟨x, hx⟩
    simp only [this, if_true]
    rfl
  · rintro n ⟨y, hy⟩
    have hal := ancList_anc W.shape (n := n) ⟨_, hy⟩
    constructor
    · intro a x ha hx
      simp only [(closest_find W hal).2 ha]
      simp [labelAt, hx, Node.label]
    · intro h
      simp only [(closest_none W hal).2 h]
      rfl

/-- C82: if the root is to be removed and still has several children, the example panics. -/
theorem C82_climb_map_root_refuted : ∃ (t : Tree) (rm : Str → Bool), t.WF ∧ HasLabel rm t t.root ∧
    climbMap 10 rm (fun _ => false) "b".toList t = .panic :=
  ⟨Examples.nested, fun l => l.head? = some 'R', nested_wf, ⟨_, rfl, rfl⟩, by decide +kernel⟩

/-- In `(ROOT (VP (NP a) b) c)`, with `NP` removed and `VP` stopping. -/
example : ¬ HasLabel (fun l => l.head? = some 'N') Examples.nested Examples.nested.root ∧
    (∃ t', climbMap 10 (fun l => l.head? = some 'N') (fun l => l.head? = some 'V') "b".toList Examples.nested = .ok t' ∧
      t'.graph.contains 3 = false ∧ t'.parent 0 = some (4, 5) ∧
      (t'.graph.node? 0).bind Node.features = some ⟨[("b".toList, some "VP".toList)]⟩ ∧
      (t'.graph.node? 2).bind Node.features = none) := by
  refine ⟨?_, ?_⟩
  · rintro ⟨x, hx, h⟩
    have : x.label = "ROOT".toList := by
      have h2 : Examples.nested.graph.node? Examples.nested.root = some (.nt ⟨"ROOT".toList, none, ⟨0, 3, none⟩⟩) := rfl
      rw [h2] at hx
      simp only [Option.some.injEq, Node.nt.injEq] at hx
      rw [← hx]
    rw [this] at h
    exact absurd h (by decide)
  · exact ⟨_, rfl, by decide +kernel⟩

/-- The closure of the example meets the hypotheses of `C82_path`. -/
example := C82_path Examples.nested WF (fun _ W => ⟨W.graph, W.shape⟩)
  (climbMapStep (fun l => l.head? = some 'N') (fun l => l.head? = some 'V') "b".toList) (climbMapStep_keeps _ _ _) () nested_wf

/-- `VP` is a nonterminal with `ROOT` above it. -/
example := C82_edits Examples.nested nested_wf 4 5 ⟨_, rfl⟩ (by decide)
  (Dom.single ⟨Examples.pe 3 5 4, by decide, rfl, rfl, rfl⟩)

/-- Moving `barks` below `NP` leaves the parent of `NP` alone. -/
example : ∃ t' v, Examples.proj.reattachNode 2 0 = .ok (t', .ok v) ∧ ∀ a, t'.IsChild a 2 ↔ Examples.proj.IsChild a 2 := by
  refine ⟨_, _, rfl, C82_move _ _ proj_wf (Examples.pe 0 0 1) (by decide) rfl 2 2 _ ?_ ⟨_, rfl⟩
    (.inr ⟨2, by decide, ⟨Examples.pe 1 0 2, by decide, rfl, rfl, rfl⟩⟩) (by decide) rfl⟩
  intro h
  rcases ReflTransGen.cases_head h with e | ⟨c, hc, _⟩
  · exact absurd e (by decide)
  · exact proj_wf.shape.term_leaf 1 c ⟨_, rfl⟩ hc

end Props
end Lumberjack
