import Verif.Proofs.Edit

/-!
# Removing nonterminals
-/

namespace Lumberjack
namespace Tree

open Relation

variable {t t' : Tree}

/-! ## Transfer of well-formedness when a nonterminal is cut out or added -/

namespace Cut

variable {n : Nat}

theorem sentence_down (h : Cut t t' n) (hnt : t.IsNt n) (Z : t.Sentence)
    (hk : t'.nTerminals = t.nTerminals) : t'.Sentence where
  pos m hm := by
    obtain ⟨h1, h2⟩ := (h.isTerm m).1 hm
    obtain ⟨i, h3, h4⟩ := Z.pos m h2
    exact ⟨i, by rw [hk]; exact h3, (h.termAt m i).2 ⟨h1, h4⟩⟩
  occupied i hi := by
    rw [hk] at hi
    obtain ⟨m, hm⟩ := Z.occupied i hi
    refine ⟨m, (h.termAt m i).2 ⟨?_, hm⟩⟩
    rintro rfl
    exact not_isTerm_isNt hm.isTerm hnt
  inj a b i ha hb := Z.inj a b i ((h.termAt a i).1 ha).2 ((h.termAt b i).1 hb).2

theorem sentence_up (h : Cut t t' n) (hnt : t.IsNt n) (Z : t'.Sentence)
    (hk : t'.nTerminals = t.nTerminals) : t.Sentence := by
  have hne : ∀ m, t.IsTerm m → m ≠ n := by
    rintro m hm rfl
    exact not_isTerm_isNt hm hnt
  constructor
  · intro m hm
    obtain ⟨i, h3, h4⟩ := Z.pos m ((h.isTerm m).2 ⟨hne m hm, hm⟩)
    exact ⟨i, by rw [← hk]; exact h3, ((h.termAt m i).1 h4).2⟩
  · intro i hi
    rw [← hk] at hi
    obtain ⟨m, hm⟩ := Z.occupied i hi
    exact ⟨m, ((h.termAt m i).1 hm).2⟩
  · intro a b i ha hb
    exact Z.inj a b i ((h.termAt a i).2 ⟨hne a ha.isTerm, ha⟩) ((h.termAt b i).2 ⟨hne b hb.isTerm, hb⟩)

theorem spans_down (h : Cut t t' n) (hself : ¬ t.IsChild n n) (hnt : t.IsNt n) (P : t.SpansOK) :
    t'.SpansOK := by
  intro m x hx
  obtain ⟨h1, _⟩ := (h.isNt m).1 ⟨x, hx⟩
  rw [h.node m h1] at hx
  obtain ⟨h2, h3⟩ := P m x hx
  exact ⟨h2, fun i => by rw [h3, h.covers_nt hself hnt h1]⟩

theorem spans_up (h : Cut t t' n) (hself : ¬ t.IsChild n n) (hnt : t.IsNt n) (P : t'.SpansOK)
    (hn : t.SpanRight n) : t.SpansOK := by
  intro m x hx
  by_cases e : m = n
  · subst e
    obtain ⟨h1, h2⟩ := hn _ hx
    exact ⟨h1, fun i => by rw [Span.contains_iff]; exact h2 i⟩
  · rw [← h.node m e] at hx
    obtain ⟨h2, h3⟩ := P m x hx
    exact ⟨h2, fun i => by rw [h3, h.covers_nt hself hnt e]⟩

theorem discSet_eq (h : Cut t t' n) : t'.discSet = t.discSet.erase n := by
  ext m
  rw [mem_discSet, Finset.mem_erase, mem_discSet]
  unfold Disc
  by_cases e : m = n
  · subst e; simp [h.dead]
  · simp [h.node m e, e]

theorem count_down (h : Cut t t' n) (C : t.CountOK)
    (hd : t'.numDisc = if t.Disc n then t.numDisc - 1 else t.numDisc) : t'.CountOK := by
  rw [countOK_iff] at C ⊢
  rw [hd, h.discSet_eq, C]
  by_cases hn : t.Disc n
  · rw [if_pos hn, Finset.card_erase_of_mem (mem_discSet.2 hn)]
  · rw [if_neg hn, Finset.erase_eq_of_notMem (fun h => hn (mem_discSet.1 h))]

theorem count_up (h : Cut t t' n) (C : t'.CountOK)
    (hd : t.numDisc = if t.Disc n then t'.numDisc + 1 else t'.numDisc) : t.CountOK := by
  rw [countOK_iff] at C ⊢
  rw [hd, C, h.discSet_eq]
  by_cases hn : t.Disc n
  · rw [if_pos hn, Finset.card_erase_of_mem (mem_discSet.2 hn)]
    have : 0 < t.discSet.card := Finset.card_pos.2 ⟨n, mem_discSet.2 hn⟩
    omega
  · rw [if_neg hn, Finset.erase_eq_of_notMem (fun h => hn (mem_discSet.1 h))]

end Cut

/-! ## Adding several edges -/

theorem addEdges_spec {g : Graph} (p : Nat) (cs : List (Nat × Nat)) (G : g.OK) (hp : g.Live p)
    (hc : ∀ c ∈ cs, g.Live c.1) :
    ∃ g' new, forM' (fun (g : Graph) (c : Nat × Nat) => do
        let (g', _) ← g.addEdge p c.1 (.primary none)
        return g') cs g = .ok g' ∧ g'.edges = new ++ g.edges ∧ g'.nodes = g.nodes ∧
      g'.freeNodes = g.freeNodes ∧ g'.OK ∧ new.map (·.tgt) = (cs.map (·.1)).reverse ∧
      (∀ r ∈ new, r.src = p ∧ r.w = .primary none) ∧ ∀ r ∈ new, ∀ s ∈ g.edges, s.id ≠ r.id := by
  induction cs generalizing g with
  | nil => exact ⟨g, [], rfl, rfl, rfl, rfl, G, rfl, by simp, by simp⟩
  | cons c cs ih =>
    obtain ⟨g1, e, h1, h2, h3, h4, h5, h6⟩ := Graph.addEdge_spec G hp (hc c (by simp)) (.primary none)
    have hl : ∀ m, g1.Live m ↔ g.Live m := fun m => by unfold Graph.Live Graph.node?; rw [h3]
    obtain ⟨g2, new, k1, k2, k3, k4, k5, k6, k7, k8⟩ := ih h6 ((hl p).2 hp)
      (fun c' hc' => (hl _).2 (hc c' (by simp [hc'])))
    refine ⟨g2, new ++ [⟨e, p, c.1, .primary none⟩], ?_, by rw [k2, h2]; simp, k3.trans h3,
      k4.trans h4, k5, by simp [k6], ?_, ?_⟩
    · rw [forM'_cons, h1]
      exact k1
    · intro r hr
      rcases List.mem_append.1 hr with hr | hr
      · exact k7 r hr
      · simp only [List.mem_singleton] at hr
        subst hr
        exact ⟨rfl, rfl⟩
    · intro r hr s hs
      rcases List.mem_append.1 hr with hr | hr
      · exact k8 r hr s (by rw [h2]; simp [hs])
      · simp only [List.mem_singleton] at hr
        subst hr
        exact h5 s hs

/-! ## `remove_nonterminal` -/

/-- The removal at the end: the node goes, with all its edges. -/
theorem finishRemove_spec (G : t.graph.OK) {n : Nat} {nd : Node} (hn : t.graph.node? n = some nd)
    (hd : nd.span.skips.isSome = true → 0 < t.numDisc) :
    ∃ t', t.finishRemove n = .ok (t', .ok nd) ∧ t'.graph.OK ∧
      t'.graph.edges = t.graph.edges.filter (fun r => r.src ≠ n ∧ r.tgt ≠ n) ∧
      (∀ k, t'.graph.node? k = if k = n then none else t.graph.node? k) ∧
      t'.root = t.root ∧ t'.nTerminals = t.nTerminals ∧
      t'.numDisc = (if nd.span.skips.isSome then t.numDisc - 1 else t.numDisc) ∧
      t'.graph.nodes.length = t.graph.nodes.length := by
  obtain ⟨g', h1, h2, h3, h4, h5⟩ := Graph.removeNode_spec G hn
  unfold finishRemove
  rw [h1]
  simp only [Res.ofOption_some, Res.ok_bind]
  by_cases hs : nd.span.skips.isSome = true
  · rw [if_pos hs, Res.sub_of_le (hd hs)]
    simp only [Res.ok_bind, Res.pure_eq]
    exact ⟨_, rfl, h5, h2, h3, rfl, rfl, by rw [if_pos hs], h4⟩
  · rw [if_neg hs]
    simp only [Res.pure_eq]
    exact ⟨_, rfl, h5, h2, h3, rfl, rfl, by rw [if_neg hs], h4⟩

theorem isNt_disc {n : Nat} {x : NonTerminal} (hx : t.graph.node? n = some (.nt x)) :
    t.Disc n ↔ x.span.skips.isSome = true := by
  unfold Disc; rw [hx]; simp

theorem CountOK.pos (C : t.CountOK) {n : Nat} (h : t.Disc n) : 0 < t.numDisc := by
  rw [countOK_iff] at C
  rw [C]
  exact Finset.card_pos.2 ⟨n, mem_discSet.2 h⟩

/-- What `remove_node` does to a nonterminal below another node, whether or not the spans are
right. -/
theorem removeNonterminal_cut (G : t.graph.OK) (S : t.Shape) (Z : t.Sentence) (C : t.CountOK) {n p : Nat} {x : NonTerminal}
    (hx : t.graph.node? n = some (.nt x)) (hp : t.IsChild p n) :
    ∃ t', t.removeNonterminal n = .ok (t', .ok (.nt x)) ∧ (t'.graph.OK ∧ t'.Shape ∧ t'.Sentence ∧ t'.CountOK) ∧ Cut t t' n ∧
      t'.root = t.root ∧ t'.nTerminals = t.nTerminals ∧
      (∀ r ∈ t.graph.edges, r.src ≠ n → r.tgt ≠ n → r ∈ t'.graph.edges) ∧
      (∀ r ∈ t'.graph.edges, r ∈ t.graph.edges ∨
        (r.src = p ∧ t.IsChild n r.tgt ∧ r.w = .primary none)) ∧
      t'.graph.nodes.length = t.graph.nodes.length := by
  have hpn : p ≠ n := by
    rintro rfl
    exact S.not_isChild_self G p hp
  have hkids : ∀ c ∈ t.children n, t.graph.Live c.1 := fun c hc =>
    (isChild_live G (isChild_of_mem_children hc)).2
  obtain ⟨g1, new, h1, h2, h3, h4, h5, h6, h7, h8⟩ := addEdges_spec p (t.children n) G
    (isChild_live G hp).1 hkids
  have hnode1 : ∀ m, ({ t with graph := g1 } : Tree).graph.node? m = t.graph.node? m := fun m => by
    unfold Graph.node?; simp only [h3]
  obtain ⟨t', k1, k2, k3, k4, k5, k6, k7, k8⟩ := finishRemove_spec (t := { t with graph := g1 }) h5
    ((hnode1 n).trans hx) (fun h => C.pos ((isNt_disc hx).2 h))
  have hnewtgt : ∀ c, c ∈ new.map (·.tgt) ↔ t.IsChild n c := by
    intro c
    rw [h6, List.mem_reverse, mem_children_fst]
  have hpe : t'.primEdges = (new.filter (fun r => r.src ≠ n ∧ r.tgt ≠ n)) ++
      t.primEdges.filter (fun r => r.src ≠ n ∧ r.tgt ≠ n) := by
    unfold primEdges
    rw [k3]
    simp only [h2]
    rw [List.filter_append, List.filter_append, List.filter_filter, List.filter_filter]
    congr 1
    · apply List.filter_congr
      intro r hr
      simp [(h7 r hr).2, Edge.isPrimary]
    · rw [List.filter_filter]
      apply List.filter_congr
      intro r _
      exact Bool.and_comm _ _
  have hsplice : Splice t.IsChild t'.IsChild n := by
    intro a b
    rw [isChild_prim, hpe]
    constructor
    · rintro ⟨r, hr, rfl, rfl⟩
      rcases List.mem_append.1 hr with hr | hr
      · rw [List.mem_filter] at hr
        obtain ⟨hr1, hr2⟩ := hr
        simp only [ne_eq, decide_not, Bool.decide_and, Bool.and_eq_true, Bool.not_eq_true', decide_eq_false_iff_not] at hr2
        refine ⟨hr2.1, hr2.2, .inr ⟨by rw [(h7 r hr1).1]; exact hp, ?_⟩⟩
        exact (hnewtgt _).1 (List.mem_map.2 ⟨r, hr1, rfl⟩)
      · rw [List.mem_filter] at hr
        obtain ⟨hr1, hr2⟩ := hr
        simp only [ne_eq, decide_not, Bool.decide_and, Bool.and_eq_true, Bool.not_eq_true', decide_eq_false_iff_not] at hr2
        exact ⟨hr2.1, hr2.2, .inl (isChild_prim.2 ⟨r, hr1, rfl, rfl⟩)⟩
    · rintro ⟨ha, hb, hab | ⟨han, hnb⟩⟩
      · obtain ⟨r, hr, rfl, rfl⟩ := isChild_prim.1 hab
        exact ⟨r, List.mem_append.2 (.inr (List.mem_filter.2 ⟨hr, by simp [ha, hb]⟩)), rfl, rfl⟩
      · obtain ⟨r, hr, rfl⟩ := List.mem_map.1 ((hnewtgt b).2 hnb)
        have hsrc := (h7 r hr).1
        rw [S.isChild_unique han hp] at ha ⊢
        exact ⟨r, List.mem_append.2 (.inl (List.mem_filter.2 ⟨hr, by simp [hb, hsrc, ha]⟩)), hsrc, rfl⟩
  have hcut : Cut t t' n := by
    refine ⟨hsplice, ⟨_, hx⟩, by rw [k4]; simp, fun m hm => ?_⟩
    rw [k4, if_neg hm]; exact hnode1 m
  have hu : t'.Uniq := by
    apply uniq_of_nodup
    rw [hpe, List.map_append, List.nodup_append]
    refine ⟨?_, ?_, ?_⟩
    · have : (new.map (·.tgt)).Nodup := by
        rw [h6, List.nodup_reverse]; exact children_nodup G S n
      exact this.sublist (List.Sublist.map _ List.filter_sublist)
    · exact (nodup_of_uniq G S.unique).sublist (List.Sublist.map _ List.filter_sublist)
    · rintro a ha b hb rfl
      obtain ⟨r, hr, rfl⟩ := List.mem_map.1 ha
      obtain ⟨s, hs, e⟩ := List.mem_map.1 hb
      rw [List.mem_filter] at hr hs
      have h9 : t.IsChild n r.tgt := (hnewtgt _).1 (List.mem_map.2 ⟨r, hr.1, rfl⟩)
      have h10 : t.IsChild s.src r.tgt := isChild_prim.2 ⟨s, hs.1, rfl, e⟩
      have := S.isChild_unique h10 h9
      simp [this] at hs
  have hnr : n ≠ t.root := by rintro rfl; exact S.root_top p hp
  have S' : t'.Shape := by
    refine hcut.shape_down G S hu (.inl ⟨hnr, k5⟩) ?_
    intro m hm hmn
    obtain ⟨c, hc⟩ := S.nt_child m hm
    by_cases e : c = n
    · subst e
      obtain ⟨c', hc'⟩ := S.nt_child c ⟨x, hx⟩
      refine ⟨c', (hsplice m c').2 ⟨hmn, ?_, .inr ⟨hc, hc'⟩⟩⟩
      rintro rfl
      exact S.not_isChild_self G c' hc'
    · exact ⟨c, (hsplice m c).2 ⟨hmn, e, .inl hc⟩⟩
  refine ⟨t', ?_, ⟨k2, S', hcut.sentence_down ⟨x, hx⟩ Z k6,
    hcut.count_down C ?_⟩, hcut, k5, k6, ?_, ?_, ?_⟩
  · obtain ⟨e, he⟩ := S.parent_of_isChild hp
    unfold removeNonterminal
    rw [node_eq hx, he]
    simp only [Res.ok_bind, Node.isTerminal, Bool.not_false, Res.assert_true]
    exact Res.bind_eq_ok.2 ⟨g1, h1, k1⟩
  · rw [k7]
    show (if x.span.skips.isSome then _ else _) = _
    by_cases hs : x.span.skips.isSome = true
    · rw [if_pos hs, if_pos ((isNt_disc hx).2 hs)]
    · rw [if_neg hs, if_neg (fun h => hs ((isNt_disc hx).1 h))]
  · intro r hr h1 h2'
    rw [k3]
    simp only [h2]
    exact List.mem_filter.2 ⟨List.mem_append.2 (.inr hr), by simp [h1, h2']⟩
  · intro r hr
    rw [k3] at hr
    simp only [h2] at hr
    rcases List.mem_append.1 (List.mem_filter.1 hr).1 with h | h
    · exact .inr ⟨(h7 r h).1, (hnewtgt _).1 (List.mem_map.2 ⟨r, h, rfl⟩), (h7 r h).2⟩
    · exact .inl h
  · rw [k8]; simp only [h3]

/-- What `remove_node` does to a nonterminal below another node. -/
theorem removeNonterminal_inner (W : t.WF) {n p : Nat} {x : NonTerminal}
    (hx : t.graph.node? n = some (.nt x)) (hp : t.IsChild p n) :
    ∃ t', t.removeNonterminal n = .ok (t', .ok (.nt x)) ∧ t'.WF ∧ Cut t t' n ∧
      t'.root = t.root ∧ t'.nTerminals = t.nTerminals ∧
      (∀ r ∈ t.graph.edges, r.src ≠ n → r.tgt ≠ n → r ∈ t'.graph.edges) ∧
      (∀ r ∈ t'.graph.edges, r ∈ t.graph.edges ∨
        (r.src = p ∧ t.IsChild n r.tgt ∧ r.w = .primary none)) ∧
      t'.graph.nodes.length = t.graph.nodes.length := by
  obtain ⟨t', h1, ⟨h2, h3, h4, h5⟩, h6, h7⟩ := removeNonterminal_cut W.graph W.shape W.sentence W.count hx hp
  exact ⟨t', h1, ⟨h2, h3, h4, h6.spans_down (W.shape.not_isChild_self W.graph n) ⟨x, hx⟩ W.spans, h5⟩, h6, h7⟩

/-- What `remove_node` does to a root with a single child. -/
theorem removeNonterminal_root (W : t.WF) {c : Nat} {x : NonTerminal}
    (hx : t.graph.node? t.root = some (.nt x)) (hc : t.IsChild t.root c)
    (honly : ∀ c', t.IsChild t.root c' → c' = c) :
    ∃ t', t.removeNonterminal t.root = .ok (t', .ok (.nt x)) ∧ t'.WF ∧ Cut t t' t.root ∧
      t'.root = c ∧ t'.nTerminals = t.nTerminals ∧
      t'.graph.edges = t.graph.edges.filter (fun r => r.src ≠ t.root ∧ r.tgt ≠ t.root) ∧
      t'.graph.nodes.length = t.graph.nodes.length := by
  have S := W.shape
  have G := W.graph
  obtain ⟨t', k1, k2, k3, k4, k5, k6, k7, k8⟩ := finishRemove_spec (t := { t with root := c })
    (n := t.root) G hx (fun h => W.count.pos ((isNt_disc hx).2 h))
  have hpe : t'.primEdges = t.primEdges.filter (fun r => r.src ≠ t.root ∧ r.tgt ≠ t.root) := by
    unfold primEdges
    rw [k3]
    simp only
    rw [List.filter_filter, List.filter_filter]
    apply List.filter_congr
    intro r _
    exact Bool.and_comm _ _
  have hsplice : Splice t.IsChild t'.IsChild t.root := by
    intro a b
    rw [isChild_prim, hpe]
    constructor
    · rintro ⟨r, hr, rfl, rfl⟩
      rw [List.mem_filter] at hr
      obtain ⟨hr1, hr2⟩ := hr
      simp only [ne_eq, decide_not, Bool.decide_and, Bool.and_eq_true, Bool.not_eq_true', decide_eq_false_iff_not] at hr2
      exact ⟨hr2.1, hr2.2, .inl (isChild_prim.2 ⟨r, hr1, rfl, rfl⟩)⟩
    · rintro ⟨ha, hb, hab | ⟨han, _⟩⟩
      · obtain ⟨r, hr, rfl, rfl⟩ := isChild_prim.1 hab
        exact ⟨r, List.mem_filter.2 ⟨hr, by simp [ha, hb]⟩, rfl, rfl⟩
      · exact absurd han (S.root_top a)
  have hcut : Cut t t' t.root := by
    refine ⟨hsplice, ⟨_, hx⟩, by rw [k4]; simp, fun m hm => ?_⟩
    rw [k4, if_neg hm]
  have hu : t'.Uniq := by
    apply uniq_of_nodup
    rw [hpe]
    exact (nodup_of_uniq G S.unique).sublist (List.Sublist.map _ List.filter_sublist)
  have S' : t'.Shape := by
    refine hcut.shape_down G S hu (.inr ⟨rfl, by rw [k5]; exact hc, fun c' h => by rw [k5]; exact honly c' h⟩) ?_
    intro m hm hmn
    obtain ⟨c', hc'⟩ := S.nt_child m hm
    refine ⟨c', (hsplice m c').2 ⟨hmn, ?_, .inl hc'⟩⟩
    rintro rfl
    exact S.root_top m hc'
  refine ⟨t', ?_, ⟨k2, S', hcut.sentence_down ⟨x, hx⟩ W.sentence k6,
    hcut.spans_down (S.not_isChild_self G _) ⟨x, hx⟩ W.spans,
    hcut.count_down W.count ?_⟩, hcut, k5, k6, k3, k8⟩
  · have hkids : ∃ e, t.children t.root = [(c, e)] := by
      have hnd := children_nodup G S t.root
      obtain ⟨ce, hce, he⟩ := List.mem_map.1 (mem_children_fst.2 hc)
      have hall : ∀ q ∈ t.children t.root, q.1 = c := fun q hq => honly _ (isChild_of_mem_children hq)
      cases hk : t.children t.root with
      | nil => rw [hk] at hce; simp at hce
      | cons q qs =>
        cases qs with
        | nil =>
          have := hall q (by rw [hk]; simp)
          exact ⟨q.2, by rw [← this]⟩
        | cons q2 qs =>
          rw [hk] at hnd
          have h1 := hall q (by rw [hk]; simp)
          have h2 := hall q2 (by rw [hk]; simp)
          simp [h1, h2] at hnd
    obtain ⟨e, he⟩ := hkids
    unfold removeNonterminal
    rw [node_eq hx, parent_none.2 S.root_top, he]
    simp only [Res.ok_bind, Node.isTerminal, Bool.not_false, Res.assert_true]
    exact k1
  · rw [k7]
    show (if x.span.skips.isSome then _ else _) = _
    by_cases hs : x.span.skips.isSome = true
    · rw [if_pos hs, if_pos ((isNt_disc hx).2 hs)]
    · rw [if_neg hs, if_neg (fun h => hs ((isNt_disc hx).1 h))]

/-- A root with several children is not removed. -/
theorem removeNonterminal_root_err (W : t.WF) {c c' : Nat} {x : NonTerminal}
    (hx : t.graph.node? t.root = some (.nt x)) (hc : t.IsChild t.root c) (hc' : t.IsChild t.root c')
    (hne : c ≠ c') : t.removeNonterminal t.root = .ok (t, .error .rootMultiple) := by
  have hm := mem_children_fst.2 hc
  have hm' := mem_children_fst.2 hc'
  unfold removeNonterminal
  rw [node_eq hx, parent_none.2 W.shape.root_top]
  simp only [Res.ok_bind, Node.isTerminal, Bool.not_false, Res.assert_true]
  cases hk : t.children t.root with
  | nil => rw [hk] at hm; simp at hm
  | cons q qs =>
    cases qs with
    | nil =>
      rw [hk] at hm hm'
      simp at hm hm'
      exact absurd (hm.trans hm'.symm) hne
    | cons q2 qs => rfl

theorem removeNode_nt {n : Nat} {x : NonTerminal} (hx : t.graph.node? n = some (.nt x)) :
    t.removeNode n = t.removeNonterminal n := by
  unfold removeNode
  rw [Graph.contains_iff.2 ⟨_, hx⟩, node_eq hx]
  rfl

theorem removeNode_term {n : Nat} {x : Terminal} (hx : t.graph.node? n = some (.term x)) :
    t.removeNode n = t.removeTerminal n := by
  unfold removeNode
  rw [Graph.contains_iff.2 ⟨_, hx⟩, node_eq hx]
  rfl

end Tree
end Lumberjack
