import Verif.Spec.Tree
import Verif.Proofs.Res

/-!
# Effects of the graph operations
-/

namespace Lumberjack
namespace Graph

theorem node?_eq {g : Graph} {n : Nat} {nd : Node} :
    g.node? n = some nd ↔ g.nodes[n]? = some (some nd) := by
  unfold node?
  cases h : g.nodes[n]? with
  | none => simp
  | some x => simp

theorem node?_none {g : Graph} {n : Nat} :
    g.node? n = none ↔ g.nodes[n]? = none ∨ g.nodes[n]? = some none := by
  unfold node?
  cases h : g.nodes[n]? with
  | none => simp
  | some x => simp

theorem lt_of_node? {g : Graph} {n : Nat} {nd : Node} (h : g.node? n = some nd) :
    n < g.nodes.length := by
  rw [node?_eq] at h
  exact (List.getElem?_eq_some_iff.1 h).1

theorem Live.lt {g : Graph} {n : Nat} (h : g.Live n) : n < g.nodes.length := by
  obtain ⟨nd, h⟩ := h
  exact lt_of_node? h

theorem contains_iff {g : Graph} {n : Nat} : g.contains n = true ↔ g.Live n := by
  unfold contains Live
  rw [Option.isSome_iff_exists]

theorem node?_of_ge {g : Graph} {n : Nat} (h : g.nodes.length ≤ n) : g.node? n = none := by
  rw [node?_none]
  left
  exact List.getElem?_eq_none h

theorem mem_nodeIndices {g : Graph} {n : Nat} : n ∈ g.nodeIndices ↔ g.Live n := by
  unfold nodeIndices
  rw [List.mem_filter, List.mem_range, contains_iff]
  exact ⟨fun h => h.2, fun h => ⟨h.lt, h⟩⟩

theorem nodeIndices_nodup (g : Graph) : g.nodeIndices.Nodup := List.nodup_range.filter _

theorem nodeIndices_sorted (g : Graph) : g.nodeIndices.Pairwise (· < ·) :=
  List.Pairwise.filter _ List.pairwise_lt_range

/-! ## `set_node` -/

theorem node?_set {g : Graph} {n k : Nat} {x : Option Node} (hn : n < g.nodes.length) :
    ({ g with nodes := g.nodes.set n x } : Graph).node? k = if k = n then x else g.node? k := by
  unfold node?
  simp only [List.getElem?_set]
  split
  · rename_i h; subst h; simp
  · rename_i h; rw [if_neg (Ne.symm h)]

theorem node?_setNode {g : Graph} {n : Nat} (hn : g.Live n) (nd : Node) (k : Nat) :
    (g.setNode n nd).node? k = if k = n then some nd else g.node? k := node?_set hn.lt

@[simp] theorem setNode_edges (g : Graph) (n : Nat) (nd : Node) : (g.setNode n nd).edges = g.edges :=
  rfl
@[simp] theorem setNode_length (g : Graph) (n : Nat) (nd : Node) :
    (g.setNode n nd).nodes.length = g.nodes.length := by simp [setNode]

theorem setNode_live {g : Graph} {n : Nat} (hn : g.Live n) (nd : Node) (k : Nat) :
    (g.setNode n nd).Live k ↔ g.Live k := by
  unfold Live
  rw [node?_setNode hn]
  split
  · rename_i h; subst h; simp only [Option.some.injEq, exists_eq', true_iff]; exact hn
  · rfl

theorem OK.setNode {g : Graph} (h : g.OK) {n : Nat} (hn : g.Live n) (nd : Node) :
    (g.setNode n nd).OK where
  ids_nodup := h.ids_nodup
  ids_lt := h.ids_lt
  freeEdges_nodup := h.freeEdges_nodup
  freeEdges := h.freeEdges
  freeNodes_nodup := h.freeNodes_nodup
  freeNodes i hi := by
    obtain ⟨h1, h2⟩ := h.freeNodes i hi
    refine ⟨by simpa using h1, ?_⟩
    rw [node?_setNode hn]
    split
    · rename_i e; subst e
      obtain ⟨_, hx⟩ := hn
      rw [hx] at h2; simp at h2
    · exact h2
  ends r hr := by
    rw [setNode_live hn, setNode_live hn]
    exact h.ends r hr

/-! ## `add_node` -/

theorem addNode_spec {g : Graph} (h : g.OK) (nd : Node) :
    let g' := (g.addNode nd).1
    let i := (g.addNode nd).2
    g.node? i = none ∧ (∀ k, g'.node? k = if k = i then some nd else g.node? k) ∧
    g'.edges = g.edges ∧ g'.OK ∧ i ≤ g.nodes.length ∧ g.nodes.length ≤ g'.nodes.length ∧
    g'.nodes.length ≤ g.nodes.length + 1 ∧ g'.edgeSlots = g.edgeSlots ∧ g'.freeEdges = g.freeEdges := by
  unfold addNode
  cases hf : g.freeNodes with
  | nil =>
    dsimp only
    have hnode : ∀ k, ({ g with nodes := g.nodes ++ [some nd] } : Graph).node? k =
        if k = g.nodes.length then some nd else g.node? k := by
      intro k
      unfold node?
      split
      · rename_i e; subst e; simp
      · rename_i e
        by_cases hk : k < g.nodes.length
        · simp [List.getElem?_append_left hk]
        · rw [List.getElem?_eq_none (by simp; omega), List.getElem?_eq_none (by omega)]
    have hlive : ∀ k, g.Live k → ({ g with nodes := g.nodes ++ [some nd] } : Graph).Live k := by
      intro k hk
      unfold Live
      rw [hnode]
      split
      · exact ⟨_, rfl⟩
      · exact hk
    refine ⟨node?_of_ge le_rfl, hnode, rfl, ⟨h.ids_nodup, h.ids_lt, h.freeEdges_nodup, h.freeEdges,
      List.nodup_nil, ?_, fun r hr => ⟨hlive _ (h.ends r hr).1, hlive _ (h.ends r hr).2⟩⟩, le_rfl,
      by simp, by simp, rfl, rfl⟩
    intro i hi
    simp at hi
  | cons i rest =>
    dsimp only
    have hi := h.freeNodes i (by simp [hf])
    have hnd := h.freeNodes_nodup
    rw [hf, List.nodup_cons] at hnd
    have hnode : ∀ k, ({ g with nodes := g.nodes.set i (some nd), freeNodes := rest } : Graph).node? k =
        if k = i then some nd else g.node? k := fun k => node?_set hi.1
    have hlive : ∀ k, g.Live k →
        ({ g with nodes := g.nodes.set i (some nd), freeNodes := rest } : Graph).Live k := by
      intro k hk
      unfold Live
      rw [hnode]
      split
      · exact ⟨_, rfl⟩
      · exact hk
    refine ⟨hi.2, hnode, rfl, ⟨h.ids_nodup, h.ids_lt, h.freeEdges_nodup, h.freeEdges, hnd.2, ?_,
      fun r hr => ⟨hlive _ (h.ends r hr).1, hlive _ (h.ends r hr).2⟩⟩, by omega, by simp, by simp,
      rfl, rfl⟩
    intro j hj
    obtain ⟨h1, h2⟩ := h.freeNodes j (by rw [hf]; simp [hj])
    refine ⟨by simpa using h1, ?_⟩
    rw [hnode, if_neg, h2]
    rintro rfl
    exact hnd.1 hj

/-! ## `add_edge` -/

theorem addEdge_spec {g : Graph} (h : g.OK) {a b : Nat} (ha : g.Live a) (hb : g.Live b) (w : Edge) :
    ∃ g' e, g.addEdge a b w = .ok (g', e) ∧ g'.edges = ⟨e, a, b, w⟩ :: g.edges ∧
      g'.nodes = g.nodes ∧ g'.freeNodes = g.freeNodes ∧ (∀ r ∈ g.edges, r.id ≠ e) ∧ g'.OK := by
  unfold addEdge
  rw [contains_iff.2 ha, contains_iff.2 hb]
  simp only [Bool.and_self, Res.assert_true, Res.ok_bind]
  cases hf : g.freeEdges with
  | nil =>
    refine ⟨_, _, rfl, rfl, rfl, rfl, fun r hr => ?_, ?_⟩
    · exact ne_of_lt (h.ids_lt r hr)
    · refine ⟨?_, ?_, by simp, by simp, h.freeNodes_nodup, h.freeNodes, ?_⟩
      · simp only [List.map_cons, List.nodup_cons]
        refine ⟨?_, h.ids_nodup⟩
        intro hm
        obtain ⟨r, hr, he⟩ := List.mem_map.1 hm
        have := h.ids_lt r hr
        omega
      · intro r hr
        rcases List.mem_cons.1 hr with rfl | hr
        · simp
        · have := h.ids_lt r hr
          dsimp only
          omega
      · intro r hr
        rcases List.mem_cons.1 hr with rfl | hr
        · exact ⟨ha, hb⟩
        · exact h.ends r hr
  | cons i rest =>
    have hi := h.freeEdges i (by simp [hf])
    have hnd := h.freeEdges_nodup
    rw [hf, List.nodup_cons] at hnd
    refine ⟨_, _, rfl, rfl, rfl, rfl, hi.2, ?_⟩
    refine ⟨?_, ?_, hnd.2, ?_, h.freeNodes_nodup, h.freeNodes, ?_⟩
    · simp only [List.map_cons, List.nodup_cons]
      refine ⟨?_, h.ids_nodup⟩
      intro hm
      obtain ⟨r, hr, he⟩ := List.mem_map.1 hm
      exact hi.2 r hr he
    · intro r hr
      rcases List.mem_cons.1 hr with rfl | hr
      · exact hi.1
      · exact h.ids_lt r hr
    · intro j hj
      obtain ⟨h1, h2⟩ := h.freeEdges j (by rw [hf]; simp [hj])
      refine ⟨h1, fun r hr => ?_⟩
      rcases List.mem_cons.1 hr with rfl | hr
      · dsimp only
        rintro rfl
        exact hnd.1 hj
      · exact h2 r hr
    · intro r hr
      rcases List.mem_cons.1 hr with rfl | hr
      · exact ⟨ha, hb⟩
      · exact h.ends r hr

theorem addEdge_panic {g : Graph} {a b : Nat} (h : ¬ (g.Live a ∧ g.Live b)) (w : Edge) :
    g.addEdge a b w = .panic := by
  unfold addEdge
  have : (g.contains a && g.contains b) = false := by
    rw [← Bool.not_eq_true, Bool.and_eq_true, contains_iff, contains_iff]
    exact h
  rw [this]
  rfl

/-! ## Edge lookup and removal -/

theorem OK.edge_ext {g : Graph} (h : g.OK) {r s : EdgeRec} (hr : r ∈ g.edges) (hs : s ∈ g.edges)
    (he : r.id = s.id) : r = s := List.inj_on_of_nodup_map h.ids_nodup hr hs he

theorem edge?_eq {g : Graph} (h : g.OK) {e : Nat} {r : EdgeRec} :
    g.edge? e = some r ↔ r ∈ g.edges ∧ r.id = e := by
  unfold edge?
  constructor
  · intro hf
    exact ⟨List.mem_of_find?_eq_some hf, by simpa using List.find?_some hf⟩
  · rintro ⟨h1, h2⟩
    cases hf : g.edges.find? (fun r => r.id = e) with
    | none =>
      rw [List.find?_eq_none] at hf
      exact absurd h2 (by simpa using hf r h1)
    | some s =>
      have h3 := List.mem_of_find?_eq_some hf
      have h4 : s.id = e := by simpa using List.find?_some hf
      rw [h.edge_ext h3 h1 (h4.trans h2.symm)]

theorem edge?_none {g : Graph} {e : Nat} : g.edge? e = none ↔ ∀ r ∈ g.edges, r.id ≠ e := by
  unfold edge?
  simp

theorem OK.filter {g : Graph} (h : g.OK) (p : EdgeRec → Bool) (fr : List Nat) (hfr : fr.Nodup)
    (hmem : ∀ i ∈ fr, i ∈ g.freeEdges ∨ ∃ r ∈ g.edges, r.id = i ∧ p r = false) :
    ({ g with edges := g.edges.filter p, freeEdges := fr } : Graph).OK where
  ids_nodup := h.ids_nodup.sublist (List.Sublist.map _ List.filter_sublist)
  ids_lt r hr := h.ids_lt r (List.mem_of_mem_filter hr)
  freeEdges_nodup := hfr
  freeEdges i hi := by
    rcases hmem i hi with hi | ⟨r, hr, hid, hp⟩
    · obtain ⟨h1, h2⟩ := h.freeEdges i hi
      exact ⟨h1, fun r hr => h2 r (List.mem_of_mem_filter hr)⟩
    · refine ⟨hid ▸ h.ids_lt r hr, fun s hs he => ?_⟩
      obtain ⟨hs1, hs2⟩ := List.mem_filter.1 hs
      have := h.edge_ext hs1 hr (he.trans hid.symm)
      subst this
      rw [hp] at hs2
      simp at hs2
  freeNodes_nodup := h.freeNodes_nodup
  freeNodes := h.freeNodes
  ends r hr := h.ends r (List.mem_of_mem_filter hr)

theorem removeEdge_spec {g : Graph} (h : g.OK) {e : Nat} {r : EdgeRec} (hr : r ∈ g.edges)
    (he : r.id = e) :
    ∃ g', g.removeEdge e = some (g', r.w) ∧ g'.edges = g.edges.filter (fun r => r.id ≠ e) ∧
      g'.nodes = g.nodes ∧ g'.freeNodes = g.freeNodes ∧ g'.OK := by
  unfold removeEdge
  rw [(edge?_eq h).2 ⟨hr, he⟩]
  refine ⟨_, rfl, rfl, rfl, rfl, h.filter _ _ ?_ ?_⟩
  · rw [List.nodup_cons]
    exact ⟨fun hm => (h.freeEdges e hm).2 r hr he, h.freeEdges_nodup⟩
  · intro i hi
    rcases List.mem_cons.1 hi with rfl | hi
    · exact .inr ⟨r, hr, he, by simp [he]⟩
    · exact .inl hi

/-! ## `remove_node` -/

theorem removeNode_spec {g : Graph} (h : g.OK) {n : Nat} {nd : Node} (hn : g.node? n = some nd) :
    ∃ g', g.removeNode n = some (g', nd) ∧
      g'.edges = g.edges.filter (fun r => r.src ≠ n ∧ r.tgt ≠ n) ∧
      (∀ k, g'.node? k = if k = n then none else g.node? k) ∧
      g'.nodes.length = g.nodes.length ∧ g'.OK := by
  unfold removeNode
  rw [hn]
  have hlt := lt_of_node? hn
  have hnode : ∀ k, ({ g with nodes := g.nodes.set n none } : Graph).node? k =
      if k = n then none else g.node? k := fun k => node?_set hlt
  refine ⟨_, rfl, rfl, hnode, by simp, ?_⟩
  set fr := (((g.inEdges n).filter (fun r => r.src ≠ n)).map (·.id)).reverse ++
    (((g.outEdges n).map (·.id)).reverse ++ g.freeEdges) with hfr
  have hids : ∀ l : List EdgeRec, List.Sublist l g.edges → (l.map (·.id)).Nodup :=
    fun l hl => h.ids_nodup.sublist (hl.map _)
  have hin : List.Sublist ((g.inEdges n).filter (fun r => decide (r.src ≠ n))) g.edges :=
    List.filter_sublist.trans List.filter_sublist
  have hout : List.Sublist (g.outEdges n) g.edges := List.filter_sublist
  have hnd : fr.Nodup := by
    rw [hfr, List.nodup_append', List.nodup_append']
    refine ⟨List.nodup_reverse.2 (hids _ hin), ⟨List.nodup_reverse.2 (hids _ hout), h.freeEdges_nodup, ?_⟩, ?_⟩
    · intro i h1 h2
      simp only [List.mem_reverse, List.mem_map] at h1
      obtain ⟨r, hr, rfl⟩ := h1
      exact (h.freeEdges _ h2).2 r (hout.subset hr) rfl
    · intro i h1 h2
      simp only [List.mem_reverse, List.mem_map] at h1
      obtain ⟨r, hr, rfl⟩ := h1
      rcases List.mem_append.1 h2 with h2 | h2
      · simp only [List.mem_reverse, List.mem_map] at h2
        obtain ⟨s, hs, he⟩ := h2
        have := h.edge_ext (hin.subset hr) (hout.subset hs) he.symm
        subst this
        simp only [List.mem_filter, decide_eq_true_eq] at hr
        simp only [outEdges, List.mem_filter, decide_eq_true_eq] at hs
        exact hr.2 hs.2
      · exact (h.freeEdges _ h2).2 r (hin.subset hr) rfl
  have hOK := h.filter (fun r => decide (r.src ≠ n ∧ r.tgt ≠ n)) fr hnd (by
    intro i hi
    rw [hfr, List.mem_append, List.mem_append, List.mem_reverse, List.mem_reverse, List.mem_map,
      List.mem_map] at hi
    rcases hi with ⟨r, hr, rfl⟩ | ⟨r, hr, rfl⟩ | hi
    · right
      refine ⟨r, hin.subset hr, rfl, ?_⟩
      simp only [inEdges, List.mem_filter, decide_eq_true_eq] at hr
      simp [hr.1.2]
    · right
      refine ⟨r, hout.subset hr, rfl, ?_⟩
      simp only [outEdges, List.mem_filter, decide_eq_true_eq] at hr
      simp [hr.2]
    · exact .inl hi)
  refine ⟨hOK.ids_nodup, hOK.ids_lt, hOK.freeEdges_nodup, hOK.freeEdges, ?_, ?_, ?_⟩
  · rw [List.nodup_cons]
    refine ⟨fun hm => ?_, h.freeNodes_nodup⟩
    have := (h.freeNodes n hm).2
    rw [hn] at this
    simp at this
  · intro i hi
    rcases List.mem_cons.1 hi with rfl | hi
    · exact ⟨by simpa using hlt, (hnode i).trans (if_pos rfl)⟩
    · obtain ⟨h1, h2⟩ := h.freeNodes i hi
      refine ⟨by simpa using h1, (hnode i).trans ?_⟩
      split
      · rfl
      · exact h2
  · intro r hr
    simp only [List.mem_filter, decide_eq_true_eq] at hr
    obtain ⟨⟨x, hx⟩, ⟨y, hy⟩⟩ := h.ends r hr.1
    exact ⟨⟨x, (hnode _).trans (by rw [if_neg hr.2.1, hx])⟩,
      ⟨y, (hnode _).trans (by rw [if_neg hr.2.2, hy])⟩⟩

/-! ## `set_edge` -/

theorem OK.setEdge {g : Graph} (h : g.OK) (e : Nat) (w : Edge) : (g.setEdge e w).OK := by
  have hids : (g.setEdge e w).edges.map (·.id) = g.edges.map (·.id) := by
    simp only [Graph.setEdge, List.map_map]
    apply List.map_congr_left
    intro r _
    simp only [Function.comp]
    split <;> rfl
  have hmem : ∀ r ∈ (g.setEdge e w).edges, ∃ s ∈ g.edges, s.id = r.id ∧ s.src = r.src ∧ s.tgt = r.tgt := by
    intro r hr
    obtain ⟨s, hs, rfl⟩ := List.mem_map.1 hr
    exact ⟨s, hs, by split <;> rfl, by split <;> rfl, by split <;> rfl⟩
  refine ⟨hids ▸ h.ids_nodup, ?_, h.freeEdges_nodup, ?_, h.freeNodes_nodup, h.freeNodes, ?_⟩
  · intro r hr
    obtain ⟨s, hs, h1, _, _⟩ := hmem r hr
    exact h1 ▸ h.ids_lt s hs
  · intro i hi
    refine ⟨(h.freeEdges i hi).1, fun r hr => ?_⟩
    obtain ⟨s, hs, h1, _, _⟩ := hmem r hr
    exact h1 ▸ (h.freeEdges i hi).2 s hs
  · intro r hr
    obtain ⟨s, hs, _, h2, h3⟩ := hmem r hr
    rw [← h2, ← h3]
    exact h.ends s hs

theorem IsChild.live {g : Graph} (h : g.OK) {p c : Nat} (hc : g.IsChild p c) : g.Live p ∧ g.Live c := by
  obtain ⟨r, hr, rfl, rfl, _⟩ := hc
  exact h.ends r hr

theorem isChild_congr {g g' : Graph} (h : g'.edges = g.edges) {p c : Nat} :
    g'.IsChild p c ↔ g.IsChild p c := by unfold IsChild; rw [h]

end Graph
end Lumberjack
