import Verif.Proofs.Calls
import Verif.Proofs.Check
import Verif.Props.Chains

/-!
# Restoring from chains without value (C27)
-/

namespace Lumberjack
namespace Props

open Lumberjack.Tree

/-- The node has the `unary_chain` feature, but without a value. -/
def NoValue (nd : Node) : Prop := (nd.features.getD Features.empty).getVal Forest.chainKey = some none

theorem restoreNode_result {t t' : Tree} {d : Str} {n : Nat} {nd : Node} {r : Except Err Unit} (hn : t.graph.node? n = some nd)
    (h : t.restoreNode d n = .ok (t', r)) : (NoValue nd → r = .error .chainNoValue) ∧ (¬ NoValue nd → r = .ok ()) := by
  have hrem : (nd.featuresMut.remove unaryKey).2 = (nd.features.getD Features.empty).getVal Forest.chainKey := rfl
  unfold restoreNode at h
  rw [node_eq hn] at h
  simp only [Res.ok_bind, hrem] at h
  unfold NoValue
  generalize (nd.features.getD Features.empty).getVal Forest.chainKey = v at h
  match v, h with
  | none, h =>
    simp only [Res.pure_eq, Res.ok.injEq, Prod.mk.injEq] at h
    simp [h.2.symm]
  | some none, h =>
    simp only [Res.pure_eq, Res.ok.injEq, Prod.mk.injEq] at h
    simp [h.2.symm]
  | some (some c), h =>
    obtain ⟨⟨t2, i⟩, _, h⟩ := Res.bind_eq_ok.1 h
    simp only [Res.pure_eq, Res.ok.injEq, Prod.mk.injEq] at h
    simp [h.2.symm]

theorem restore_result {t : Tree} (d : Str) : ∀ (l : List Nat), l.Pairwise (· < ·) → ∀ t1 : Tree, t1.Core →
    (∀ n ∈ l, t1.Live n ∧ t1.graph.node? n = t.graph.node? n) →
    ∃ t' r, forE (restoreNode d) l t1 = .ok (t', r) ∧
      ((r = .ok () ∧ ∀ n ∈ l, ∀ nd, t.graph.node? n = some nd → ¬ NoValue nd) ∨
       (r = .error .chainNoValue ∧ ∃ n ∈ l, ∃ nd, t.graph.node? n = some nd ∧ NoValue nd ∧
         (∀ m ∈ l, m < n → ∀ nd, t.graph.node? m = some nd → ¬ NoValue nd) ∧
         ∀ m ∈ l, n < m → t'.graph.node? m = t.graph.node? m)) := by
  intro l
  induction l with
  | nil => intro _ t1 _ _; exact ⟨t1, .ok (), rfl, .inl ⟨rfl, by simp⟩⟩
  | cons n l ih =>
    intro hs t1 C h
    obtain ⟨hs1, hs2⟩ := List.pairwise_cons.1 hs
    obtain ⟨⟨nd, hn⟩, hn0⟩ := h n (by simp)
    have hn' : t.graph.node? n = some nd := hn0 ▸ hn
    obtain ⟨t2, r, k1, k2, _, k4, k5, _⟩ := restoreNode_any C d hn
    obtain ⟨r1, r2⟩ := restoreNode_result hn k1
    have hrest : ∀ m ∈ l, t2.Live m ∧ t2.graph.node? m = t.graph.node? m := by
      intro m hm
      obtain ⟨h1, h2⟩ := h m (by simp [hm])
      exact ⟨k5 m h1, (k4 m h1 (Nat.ne_of_gt (hs1 m hm))).trans h2⟩
    by_cases hv : NoValue nd
    · rw [r1 hv] at k1
      refine ⟨t2, .error .chainNoValue, by simp only [forE, k1, Res.ok_bind], .inr ⟨rfl, n, by simp, nd, hn', hv, ?_, ?_⟩⟩
      · intro m hm hlt
        rcases List.mem_cons.1 hm with rfl | hm
        · omega
        · have := hs1 m hm; omega
      · intro m hm hlt
        rcases List.mem_cons.1 hm with rfl | hm
        · omega
        · exact (hrest m hm).2
    · rw [r2 hv] at k1
      obtain ⟨t3, r3, g1, g2⟩ := ih hs2 t2 k2 hrest
      refine ⟨t3, r3, by simp only [forE, k1, Res.ok_bind]; exact g1, ?_⟩
      rcases g2 with ⟨e, g2⟩ | ⟨e, m, hm, md, q1, q2, q3, q4⟩
      · refine .inl ⟨e, fun m hm => ?_⟩
        rcases List.mem_cons.1 hm with rfl | hm
        · intro md hmd
          rw [hn'] at hmd; cases hmd
          exact hv
        · exact g2 m hm
      · refine .inr ⟨e, m, by simp [hm], md, q1, q2, fun k hk hlt => ?_, fun k hk hlt => ?_⟩
        · rcases List.mem_cons.1 hk with rfl | hk
          · intro kd hkd
            rw [hn'] at hkd; cases hkd
            exact hv
          · exact q3 k hk hlt
        · rcases List.mem_cons.1 hk with rfl | hk
          · have := hs1 m hm; omega
          · exact q4 k hk hlt

/-- C27: restoring fails exactly if a `unary_chain` feature has no value.  Then the nodes after the first such node, by
index, have not been looked at. -/
theorem C27_missing_value (t : Tree) (W : t.WF) (delim : Str) :
    ∃ t' r, t.restoreUnaryChains delim = .ok (t', r) ∧
      ((r = .ok () ∧ ∀ n nd, t.graph.node? n = some nd → ¬ NoValue nd) ∨
       (r = .error .chainNoValue ∧ ∃ n nd, t.graph.node? n = some nd ∧ NoValue nd ∧
         (∀ m nd, m < n → t.graph.node? m = some nd → ¬ NoValue nd) ∧
         ∀ m, t.Live m → n < m → t'.graph.node? m = t.graph.node? m)) := by
  obtain ⟨t', r, h1, h2⟩ := restore_result (t := t) delim t.graph.nodeIndices (Graph.nodeIndices_sorted _) t W.core
    (fun n hn => ⟨Graph.mem_nodeIndices.1 hn, rfl⟩)
  refine ⟨t', r, h1, ?_⟩
  rcases h2 with ⟨e, h⟩ | ⟨e, n, _, nd, q1, q2, q3, q4⟩
  · exact .inl ⟨e, fun n nd hn => h n (Graph.mem_nodeIndices.2 ⟨nd, hn⟩) nd hn⟩
  · exact .inr ⟨e, n, nd, q1, q2, fun m md hlt hm => q3 m (Graph.mem_nodeIndices.2 ⟨md, hm⟩) hlt md hm,
      fun m hm hlt => q4 m (Graph.mem_nodeIndices.2 hm) hlt⟩

/-- `(ROOT (N a) (V b) (X c))` where the first word has the chain `NP`, the second one a chain without value and the
third one the chain `XP`. -/
def valueless : Tree :=
  ⟨⟨[some (.term { Terminal.new "a".toList "N".toList 0 with features := some ⟨[("unary_chain".toList, some "NP".toList)]⟩ }),
      some (.term { Terminal.new "b".toList "V".toList 1 with features := some ⟨[("unary_chain".toList, none)]⟩ }),
      some (.term { Terminal.new "c".toList "X".toList 2 with features := some ⟨[("unary_chain".toList, some "XP".toList)]⟩ }),
      Examples.nt "ROOT" ⟨0, 3, none⟩], [], [Examples.pe 2 3 2, Examples.pe 1 3 1, Examples.pe 0 3 0], 3, []⟩, 3, 3, 0⟩

/-- C27: the tree is not left as it was then: the first word is below a new node, the third one still has its chain. -/
theorem C27_err_changes : ∃ t' : Tree, valueless.WF ∧ valueless.restoreUnaryChains "_".toList = .ok (t', .error .chainNoValue) ∧
    t'.graph.nodes.length = 5 ∧ t'.graph.node? 4 = some (.nt (NonTerminal.new "NP".toList ⟨0, 1, none⟩)) ∧
    t'.IsChild 4 0 ∧ t'.graph.node? 2 = valueless.graph.node? 2 :=
  ⟨_, wf_of_check (by decide +kernel), rfl, by decide +kernel, by decide +kernel, mem_children_fst.1 (by decide +kernel), by decide +kernel⟩

end Props
end Lumberjack
