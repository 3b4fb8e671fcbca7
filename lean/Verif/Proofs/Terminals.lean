import Verif.Proofs.NodeEdit

/-!
# Moving and inserting terminals
-/

namespace Lumberjack
namespace Tree

open Relation

variable {t t' : Tree}

/-- Changing the positions of terminals. -/
theorem NodeEdit.termAt_map {f : Nat → Node → Node} (h : NodeEdit t t' f) (hf : KeepsKind f)
    (Z : t.Sentence) (π : Nat → Nat → Nat)
    (hπ : ∀ n p x, t.TermAt n p → t.graph.node? n = some (.term x) →
      f n (.term x) = .term { x with span := Span.ofIdx (π n p) }) (n q : Nat) :
    t'.TermAt n q ↔ ∃ p, t.TermAt n p ∧ q = π n p := by
  constructor
  · intro hq
    have hT := (h.isTerm hf n).1 hq.isTerm
    obtain ⟨p, _, hp⟩ := Z.pos n hT
    obtain ⟨x, hx⟩ := hT
    obtain ⟨y, hy, hs⟩ := hq
    rw [h.node, hx, Option.map_some, hπ n p x hp hx] at hy
    simp only [Option.some.injEq, Node.term.injEq] at hy
    subst hy
    exact ⟨p, hp, (ofIdx_inj hs).symm⟩
  · rintro ⟨p, hp, rfl⟩
    obtain ⟨x, hx⟩ := hp.isTerm
    exact ⟨_, by rw [h.node, hx, Option.map_some, hπ n p x hp hx], rfl⟩

theorem NodeEdit.content_of {f : Nat → Node → Node} (h : NodeEdit t t' f)
    (hc : ∀ n nd, t.graph.node? n = some nd →
      (f n nd).replaceSpan (Span.ofIdx 0) = nd.replaceSpan (Span.ofIdx 0)) (n : Nat) :
    t'.content n = t.content n := by
  unfold Tree.content
  rw [h.node]
  cases hn : t.graph.node? n with
  | none => rfl
  | some nd => simp [hc n nd hn]

/-- Where `move_terminal` from `o` to `i` puts the other terminals. -/
def moveShift (o i p : Nat) : Nat :=
  if o ≤ p ∧ p ≤ i then p - 1 else if i ≤ p ∧ p ≤ o then p + 1 else p

theorem moveTerminal_spec (W : t.WF) {n o i : Nat} (hn : t.TermAt n o) (hi : i < t.nTerminals) :
    ∃ t', t.moveTerminal n i = .ok t' ∧ t'.WF ∧ t'.TermAt n i ∧
      (∀ a p, a ≠ n → t.TermAt a p → t'.TermAt a (if o = i then p else moveShift o i p)) ∧
      (∀ a, t'.content a = t.content a) ∧ t'.graph.edges = t.graph.edges ∧ t'.root = t.root ∧
      t'.nTerminals = t.nTerminals := by
  obtain ⟨x, hx, hs⟩ := hn
  have hn : t.TermAt n o := ⟨x, hx, hs⟩
  have Z := W.sentence
  by_cases hoi : o = i
  · subst hoi
    refine ⟨t, ?_, W, hn, fun a p _ h => by simpa using h, fun _ => rfl, rfl, rfl, rfl⟩
    unfold moveTerminal
    rw [node_eq hx]
    simp only [Res.ok_bind]
    rw [if_pos (by show x.span.start = o; rw [hs]; rfl)]
    rfl
  have ho : o < t.nTerminals := by
    obtain ⟨q, hq, hq'⟩ := Z.pos n ⟨x, hx⟩
    rw [hn.pos_unique hq']; exact hq
  -- the loop over the other terminals
  obtain ⟨t1, h1, h2⟩ := forM'_nodes (t := t) (step := moveStep o i)
    (l := t.terminals.filter (· ≠ n)) (terminals_nodup.filter _)
    (fun _ nd => match nd with
      | .term y => .term { y with span := Span.ofIdx (moveShift o i y.idx) }
      | nd => nd)
    (by
      intro t1 a nd ha hat hat1
      rw [List.mem_filter, mem_terminals] at ha
      have hane : a ≠ n := by simpa using ha.2
      obtain ⟨p, hpN, hp⟩ := Z.pos a ha.1
      obtain ⟨y, hy, hys⟩ := hp
      have hp : t.TermAt a p := ⟨y, hy, hys⟩
      rw [hat] at hy
      simp only [Option.some.injEq] at hy
      subst hy
      have hidx : y.idx = p := by unfold Terminal.idx; rw [hys]; rfl
      have hpo : p ≠ o := by
        rintro rfl; exact hane (Z.inj a n p hp hn)
      unfold moveStep
      rw [node_eq hat1]
      simp only [Res.ok_bind, Node.terminal, Res.ofOption_some, hidx]
      have hedit : ∀ q, moveShift o i p = q → NodeEdit t1 (t1.setNode a (.term (y.setIdx q)))
          (fun k nd => if k = a then (match nd with
            | .term y => .term { y with span := Span.ofIdx (moveShift o i y.idx) }
            | nd => nd) else nd) := by
        rintro q rfl
        refine (NodeEdit.set hat1 _).congr ?_
        intro k nd hk
        by_cases e : k = a
        · subst e
          rw [hat1] at hk
          simp only [Option.some.injEq] at hk
          subst hk
          simp only [if_true, hidx]
          rfl
        · simp [e]
      by_cases c1 : o ≤ p ∧ p ≤ i
      · rw [if_pos c1, Res.sub_of_le (by omega)]
        exact ⟨_, rfl, hedit (p - 1) (by unfold moveShift; rw [if_pos c1])⟩
      · rw [if_neg c1]
        by_cases c2 : i ≤ p ∧ p ≤ o
        · rw [if_pos c2]
          exact ⟨_, rfl, hedit (p + 1) (by unfold moveShift; rw [if_neg c1, if_pos c2])⟩
        · rw [if_neg c2]
          refine ⟨t1, rfl, (NodeEdit.refl t1).congr ?_⟩
          intro k nd hk
          by_cases e : k = a
          · subst e
            rw [hat1] at hk
            simp only [Option.some.injEq] at hk
            subst hk
            simp only [if_true, hidx]
            have : moveShift o i p = p := by unfold moveShift; rw [if_neg c1, if_neg c2]
            rw [this, ← hys]
          · simp [e])
    (fun a ha => (mem_terminals.1 (List.mem_filter.1 ha).1).live)
  have hx1 : t1.graph.node? n = some (.term x) := by
    rw [h2.node, hx]; simp
  have h3 := h2.trans (NodeEdit.set hx1 (.term { x with span := Span.ofIdx i }))
  set t2 := t1.setNode n (.term { x with span := Span.ofIdx i }) with ht2
  have h4 : NodeEdit t t2 (fun k y => if k = n then (match y with
      | .term y => .term { y with span := Span.ofIdx i }
      | nd => nd) else
      (match y with
      | .term y => .term { y with span := Span.ofIdx (moveShift o i y.idx) }
      | nd => nd)) := by
    refine h3.congr ?_
    intro k nd hk
    by_cases e : k = n
    · subst e
      rw [hx] at hk
      simp only [Option.some.injEq] at hk
      subst hk
      simp
    · simp only [e, if_false]
      cases nd with
      | nt y => simp
      | term y =>
        rw [if_pos]
        rw [List.mem_filter, mem_terminals]
        exact ⟨⟨y, hk⟩, by simpa using e⟩
  have hkind : KeepsKind (fun k y => if k = n then (match y with
      | .term y => .term { y with span := Span.ofIdx i }
      | nd => nd) else
      (match y with
      | .term y => .term { y with span := Span.ofIdx (moveShift o i y.idx) }
      | nd => nd)) := by
    intro k nd
    simp only
    cases nd <;> by_cases e : k = n <;> simp [e, Node.isTerminal]
  have hpos : ∀ a q, t2.TermAt a q ↔ ∃ p, t.TermAt a p ∧ q = if a = n then i else moveShift o i p := by
    refine h4.termAt_map hkind Z (fun a p => if a = n then i else moveShift o i p) ?_
    intro a p y hp hy
    simp only
    obtain ⟨z, hz, hzs⟩ := hp
    rw [hy] at hz
    simp only [Option.some.injEq, Node.term.injEq] at hz
    subst hz
    by_cases e : a = n
    · simp [e]
    · have : y.idx = p := by unfold Terminal.idx; rw [hzs]; rfl
      simp [e, this]
  have Z2 : t2.Sentence := by
    have hk : t2.nTerminals = t.nTerminals := h4.nTerm
    constructor
    · intro a ha
      obtain ⟨p, hpN, hp⟩ := Z.pos a ((h4.isTerm hkind a).1 ha)
      refine ⟨_, ?_, (hpos a _).2 ⟨p, hp, rfl⟩⟩
      rw [hk]
      by_cases e : a = n
      · rw [if_pos e]; exact hi
      · rw [if_neg e]
        have hpo : p ≠ o := by rintro rfl; exact e (Z.inj a n p hp hn)
        unfold moveShift
        split
        · omega
        · split <;> omega
    · intro j hj
      rw [hk] at hj
      by_cases ej : j = i
      · exact ⟨n, (hpos n j).2 ⟨o, hn, by rw [if_pos rfl]; exact ej⟩⟩
      · -- the position `j` came from
        obtain ⟨p, hpN, hpo, hpj⟩ : ∃ p, p < t.nTerminals ∧ p ≠ o ∧ moveShift o i p = j := by
          unfold moveShift
          by_cases c1 : o ≤ j ∧ j < i
          · exact ⟨j + 1, by omega, by omega, by rw [if_pos (by omega)]; omega⟩
          · by_cases c2 : i < j ∧ j ≤ o
            · exact ⟨j - 1, by omega, by omega, by
                rw [if_neg (by omega), if_pos (by omega)]; omega⟩
            · exact ⟨j, by omega, by omega, by rw [if_neg (by omega), if_neg (by omega)]⟩
        obtain ⟨a, ha⟩ := Z.occupied p hpN
        have hane : a ≠ n := by rintro rfl; exact hpo (ha.pos_unique hn)
        exact ⟨a, (hpos a j).2 ⟨p, ha, by rw [if_neg hane]; exact hpj.symm⟩⟩
    · intro a b q ha hb
      obtain ⟨p, hp, e1⟩ := (hpos a q).1 ha
      obtain ⟨p', hp', e2⟩ := (hpos b q).1 hb
      have hne : ∀ a p, t.TermAt a p → a ≠ n → p ≠ o := by
        intro a p h hne e; subst e; exact hne (Z.inj _ _ _ h hn)
      by_cases ea : a = n <;> by_cases eb : b = n
      · rw [ea, eb]
      · rw [if_pos ea] at e1
        rw [if_neg eb] at e2
        have := hne b p' hp' eb
        unfold moveShift at e2
        exfalso
        split at e2
        · omega
        · split at e2 <;> omega
      · rw [if_neg ea] at e1
        rw [if_pos eb] at e2
        have := hne a p hp ea
        unfold moveShift at e1
        exfalso
        split at e1
        · omega
        · split at e1 <;> omega
      · rw [if_neg ea] at e1
        rw [if_neg eb] at e2
        have h5 := hne a p hp ea
        have h6 := hne b p' hp' eb
        have : p = p' := by
          unfold moveShift at e1 e2
          split at e1 <;> split at e2 <;> (try split at e1) <;> (try split at e2) <;> omega
        subst this
        exact Z.inj a b p hp hp'
  obtain ⟨t3, k1, k2, k3⟩ := resetNtSpans_wf (h4.ok W.graph) (h4.shape hkind W.shape) Z2
  refine ⟨t3, ?_, k3, ?_, ?_, ?_, ?_, ?_, ?_⟩
  · unfold moveTerminal
    rw [node_eq hx]
    simp only [Res.ok_bind]
    have hst : (Node.term x).span.start = o := by show x.span.start = o; rw [hs]; rfl
    rw [hst, if_neg hoi]
    simp only [Node.isTerminal, hi, decide_true, Res.assert_true, Res.ok_bind, h1, node_eq hx1]
    have : (Node.term x).setSpan (Span.ofIdx i) = .ok (.term { x with span := Span.ofIdx i }) := by
      simp [Node.setSpan, Span.ofIdx, Span.nIndices]
    rw [this]
    exact k1
  · exact (k2.termAt n i).2 ((hpos n i).2 ⟨o, hn, by rw [if_pos rfl]⟩)
  · intro a p ha hp
    rw [if_neg hoi]
    exact (k2.termAt a _).2 ((hpos a _).2 ⟨p, hp, by rw [if_neg ha]⟩)
  · intro a
    rw [k2.content]
    refine h4.content_of ?_ a
    intro k nd _
    cases nd <;> by_cases e : k = n <;> simp [e, Node.replaceSpan]
  · rw [k2.edges, h4.edges]
  · rw [k2.root, h4.root]
  · rw [k2.nTerm, h4.nTerm]

/-! ## Adding a leaf -/

theorem addLeaf_spec (G : t.graph.OK) (S : t.Shape) {p : Nat} (hp : t.IsNt p) (x : Terminal) :
    ∃ g1 new g2 e, t.graph.addNode (.term x) = (g1, new) ∧
      g1.addEdge p new (.primary none) = .ok (g2, e) ∧ g2.OK ∧
      ({ t with graph := g2 } : Tree).Shape ∧ Cut { t with graph := g2 } t new ∧
      (∀ a b, ({ t with graph := g2 } : Tree).IsChild a b ↔ t.IsChild a b ∨ (a = p ∧ b = new)) ∧
      g2.edges = ⟨e, p, new, .primary none⟩ :: t.graph.edges ∧ t.graph.node? new = none ∧
      (∀ m, g2.node? m = if m = new then some (.term x) else t.graph.node? m) := by
  obtain ⟨hfree, hnode1, hedges1, G1, _, _, _, _, _⟩ := Graph.addNode_spec G (.term x)
  set g1 := (t.graph.addNode (.term x)).1 with hg1
  set new := (t.graph.addNode (.term x)).2 with hnew
  have hdead : ¬ t.Live new := by rintro ⟨x, hx⟩; rw [hfree] at hx; simp at hx
  have hpnew : p ≠ new := by rintro e; exact hdead (e ▸ hp.live)
  obtain ⟨g2, e, k1, k2, k3, k4, k5, k6⟩ := Graph.addEdge_spec G1 (a := p) (b := new)
    (by
      obtain ⟨y, hy⟩ := hp
      exact ⟨.nt y, by rw [hnode1, if_neg hpnew]; exact hy⟩)
    ⟨_, by rw [hnode1, if_pos rfl]⟩ (.primary none)
  rw [hedges1] at k2
  have hnode : ∀ m, g2.node? m = if m = new then some (.term x) else t.graph.node? m := fun m => by
    rw [← hnode1]; unfold Graph.node?; rw [k3]
  have hnochild : ∀ a b, t.IsChild a b → a ≠ new ∧ b ≠ new := by
    intro a b h
    obtain ⟨h1, h2⟩ := isChild_live G h
    exact ⟨fun e => hdead (e ▸ h1), fun e => hdead (e ▸ h2)⟩
  set t2 : Tree := { t with graph := g2 } with ht2
  have hpe : t2.primEdges = ⟨e, p, new, .primary none⟩ :: t.primEdges := by
    unfold primEdges
    rw [show t2.graph.edges = _ from k2]; rfl
  have hch : ∀ a b, t2.IsChild a b ↔ t.IsChild a b ∨ (a = p ∧ b = new) := by
    intro a b
    rw [isChild_prim, hpe]
    simp only [List.mem_cons, exists_eq_or_imp, ← isChild_prim]
    constructor
    · rintro (⟨rfl, rfl⟩ | h)
      · exact .inr ⟨rfl, rfl⟩
      · exact .inl h
    · rintro (h | ⟨rfl, rfl⟩)
      · exact .inr h
      · exact .inl ⟨rfl, rfl⟩
  have hcut : Cut t2 t new := by
    refine ⟨?_, ⟨_, by rw [show t2.graph = g2 from rfl, hnode, if_pos rfl]⟩, hfree, fun m hm => by
      rw [show t2.graph = g2 from rfl, hnode, if_neg hm]⟩
    intro a b
    rw [hch, hch, hch]
    constructor
    · intro h; exact ⟨(hnochild _ _ h).1, (hnochild _ _ h).2, .inl (.inl h)⟩
    · rintro ⟨h1, h2, (h | ⟨_, h⟩) | ⟨_, h | ⟨h, _⟩⟩⟩
      · exact h
      · exact absurd h h2
      · exact absurd rfl (hnochild _ _ h).1
      · exact absurd h.symm hpnew
  have hself : ¬ t2.IsChild new new := by
    rw [hch]
    rintro (h | ⟨h, _⟩)
    · exact (hnochild _ _ h).1 rfl
    · exact hpnew h.symm
  have hu : t2.Uniq := by
    apply uniq_of_nodup
    rw [hpe, List.map_cons, List.nodup_cons]
    refine ⟨?_, nodup_of_uniq G S.unique⟩
    intro hm
    obtain ⟨r, hr, e⟩ := List.mem_map.1 hm
    exact (hnochild _ _ (isChild_prim.2 ⟨r, hr, rfl, e⟩)).2 rfl
  have S' : t2.Shape := by
    refine hcut.shape_up k6 S hu hself ?_ ?_ (.inl ⟨rfl, p, hpnew, (hch _ _).2 (.inr ⟨rfl, rfl⟩)⟩)
    · intro m b hm hb
      rcases (hch m b).1 hb with h | ⟨rfl, rfl⟩
      · exact S.term_leaf m b ((hcut.isTerm m).2 ⟨(hnochild _ _ h).1, hm⟩) h
      · exact not_isTerm_isNt ((hcut.isTerm m).2 ⟨hpnew, hm⟩) hp
    · rintro ⟨y, hy⟩
      rw [show t2.graph = g2 from rfl, hnode, if_pos rfl] at hy
      simp at hy
  exact ⟨g1, new, g2, e, rfl, k1, k6, S', hcut, hch, k2, hfree, hnode⟩

/-! ## `insert_terminal` -/

theorem insertTerminal_spec (W : t.WF) {p i : Nat} (hp : t.IsNt p) (x : Terminal)
    (hx : x.span = Span.ofIdx i) (hi : i ≤ t.nTerminals) :
    ∃ t' new, t.insertTerminal p x = .ok (t', new) ∧ t'.WF ∧ ¬ t.Live new ∧
      t'.graph.node? new = some (.term x) ∧ t'.nTerminals = t.nTerminals + 1 ∧ t'.root = t.root ∧
      (∀ a q, a ≠ new → (t'.TermAt a q ↔ ∃ q', t.TermAt a q' ∧ q = if i ≤ q' then q' + 1 else q')) ∧
      (∀ a, a ≠ new → t'.content a = t.content a) ∧
      (∃ e, t'.graph.edges = ⟨e, p, new, .primary none⟩ :: t.graph.edges) ∧
      (∀ a b, t'.IsChild a b ↔ t.IsChild a b ∨ (a = p ∧ b = new)) := by
  have Z := W.sentence
  obtain ⟨t1, h1, h2⟩ := forM'_nodes (t := t) (step := insertStep i)
    (l := t.terminals) terminals_nodup
    (fun _ nd => match nd with
      | .term y => .term { y with span := Span.ofIdx (if i ≤ y.idx then y.idx + 1 else y.idx) }
      | nd => nd)
    (by
      intro t1 a nd ha hat hat1
      rw [mem_terminals] at ha
      obtain ⟨p, hpN, y, hy, hys⟩ := Z.pos a ha
      rw [hat] at hy
      simp only [Option.some.injEq] at hy
      subst hy
      have hidx : y.idx = p := by unfold Terminal.idx; rw [hys]; rfl
      unfold insertStep
      rw [node_eq hat1]
      simp only [Res.ok_bind, Node.terminal, Res.ofOption_some, hidx]
      by_cases c : p ≥ i
      · rw [if_pos c]
        refine ⟨_, rfl, (NodeEdit.set hat1 _).congr ?_⟩
        intro k nd hk
        by_cases e : k = a
        · subst e
          rw [hat1] at hk
          simp only [Option.some.injEq] at hk
          subst hk
          simp only [if_true, hidx]
          rw [if_pos c]
          rfl
        · simp [e]
      · rw [if_neg c]
        refine ⟨_, rfl, (NodeEdit.refl t1).congr ?_⟩
        intro k nd hk
        by_cases e : k = a
        · subst e
          rw [hat1] at hk
          simp only [Option.some.injEq] at hk
          subst hk
          simp only [if_true, hidx]
          rw [if_neg c, ← hys]
        · simp [e])
    (fun a ha => (mem_terminals.1 ha).live)
  have h4 : NodeEdit t t1 (fun _ nd => match nd with
      | .term y => .term { y with span := Span.ofIdx (if i ≤ y.idx then y.idx + 1 else y.idx) }
      | nd => nd) := by
    refine h2.congr ?_
    intro k nd hk
    cases nd with
    | nt y => simp
    | term y =>
      simp only
      rw [if_pos (mem_terminals.2 ⟨y, hk⟩)]
  have hkind : KeepsKind (fun (_ : Nat) nd => match nd with
      | .term y => .term { y with span := Span.ofIdx (if i ≤ y.idx then y.idx + 1 else y.idx) }
      | nd => nd) := by
    intro k nd
    cases nd <;> simp [Node.isTerminal]
  have hpos : ∀ a q, t1.TermAt a q ↔ ∃ p, t.TermAt a p ∧ q = if i ≤ p then p + 1 else p := by
    refine h4.termAt_map hkind Z (fun a p => if i ≤ p then p + 1 else p) ?_
    intro a p y hp hy
    simp only
    obtain ⟨z, hz, hzs⟩ := hp
    rw [hy] at hz
    simp only [Option.some.injEq, Node.term.injEq] at hz
    subst hz
    have : y.idx = p := by unfold Terminal.idx; rw [hzs]; rfl
    simp [this]
  have G1 := h4.ok W.graph
  have S1 := h4.shape hkind W.shape
  obtain ⟨g1, new, g2, e, k1, k2, k3, k4, k5, k6, k7, k8, k9⟩ :=
    addLeaf_spec G1 S1 ((h4.isNt hkind p).2 hp) x
  set t2 : Tree := { t1 with graph := g2 } with ht2
  have hnewpos : t2.TermAt new i := ⟨x, by
    show g2.node? new = _
    rw [k9, if_pos rfl], hx⟩
  obtain ⟨t3, q1, q2, q3, q4⟩ := resetNtSpans_spec (t := t2) k3 k4 (by
    intro a ha
    by_cases ea : a = new
    · subst ea; exact ⟨i, hnewpos⟩
    · have : t1.IsTerm a := (k5.isTerm a).2 ⟨ea, ha⟩
      obtain ⟨q, _, hq⟩ := Z.pos a ((h4.isTerm hkind a).1 this)
      exact ⟨_, ((k5.termAt a _).1 ((hpos a _).2 ⟨q, hq, rfl⟩)).2⟩)
  have hdead : ¬ t.Live new := by
    intro h
    obtain ⟨y, hy⟩ := (h4.live new).2 h
    rw [k8] at hy; simp at hy
  have hpos3 : ∀ a q, a ≠ new →
      (t3.TermAt a q ↔ ∃ q', t.TermAt a q' ∧ q = if i ≤ q' then q' + 1 else q') := by
    intro a q ha
    rw [q2.termAt, ← hpos, k5.termAt]
    simp [ha]
  have hposnew : ∀ q, t3.TermAt new q ↔ q = i := by
    intro q
    rw [q2.termAt]
    constructor
    · intro h; exact h.pos_unique hnewpos
    · rintro rfl; exact hnewpos
  set t4 : Tree := { t3 with nTerminals := t3.nTerminals + 1 } with ht4
  have hN : t3.nTerminals = t.nTerminals := q2.nTerm.trans h4.nTerm
  have S3 := q2.shape k4
  have Z4 : t4.Sentence := by
    constructor
    · intro a ha
      by_cases ea : a = new
      · subst ea
        exact ⟨i, by show i < t3.nTerminals + 1; omega, (hposnew i).2 rfl⟩
      · have ha1 : t1.IsTerm a := (k5.isTerm a).2 ⟨ea, (q2.isTerm a).1 ha⟩
        obtain ⟨q, hqN, hq⟩ := Z.pos a ((h4.isTerm hkind a).1 ha1)
        refine ⟨if i ≤ q then q + 1 else q, ?_, (hpos3 a _ ea).2 ⟨q, hq, rfl⟩⟩
        show _ < t3.nTerminals + 1
        split <;> omega
    · intro j hj
      have hj' : j < t.nTerminals + 1 := by rw [← hN]; exact hj
      by_cases ej : j = i
      · exact ⟨new, (hposnew j).2 ej⟩
      · obtain ⟨q, hqN, hqj⟩ : ∃ q, q < t.nTerminals ∧ j = if i ≤ q then q + 1 else q := by
          by_cases c : j < i
          · exact ⟨j, by omega, by rw [if_neg (by omega)]⟩
          · exact ⟨j - 1, by omega, by rw [if_pos (by omega)]; omega⟩
        obtain ⟨a, ha⟩ := Z.occupied q hqN
        have hane : a ≠ new := by rintro rfl; exact hdead ha.isTerm.live
        exact ⟨a, (hpos3 a j hane).2 ⟨q, ha, hqj⟩⟩
    · intro a b j ha hb
      by_cases ea : a = new <;> by_cases eb : b = new
      · rw [ea, eb]
      · rw [ea] at ha
        have e1 := (hposnew j).1 ha
        obtain ⟨q, _, e2⟩ := (hpos3 b j eb).1 hb
        split at e2 <;> omega
      · rw [eb] at hb
        have e1 := (hposnew j).1 hb
        obtain ⟨q, _, e2⟩ := (hpos3 a j ea).1 ha
        split at e2 <;> omega
      · obtain ⟨q, hq, e1⟩ := (hpos3 a j ea).1 ha
        obtain ⟨q', hq', e2⟩ := (hpos3 b j eb).1 hb
        have : q = q' := by split at e1 <;> split at e2 <;> omega
        subst this
        exact Z.inj a b q hq hq'
  refine ⟨t4, new, ?_, ⟨q2.ok k3, ⟨S3.1, S3.2, S3.3, S3.4, S3.5, S3.6⟩, Z4, q3, q4⟩, hdead, ?_, ?_, ?_, hpos3, ?_, ?_, ?_⟩
  · obtain ⟨y, hy⟩ := hp
    unfold insertTerminal
    rw [node_eq hy]
    simp only [Res.ok_bind, Node.isTerminal, Bool.not_false, Res.assert_true, hx, Span.ofIdx_start,
      hi, decide_true, h1, k1, k2]
    exact Res.bind_eq_ok.2 ⟨t3, q1, rfl⟩
  · refine q2.term new x ?_
    show g2.node? new = _
    rw [k9, if_pos rfl]
  · show t3.nTerminals + 1 = _; rw [hN]
  · exact q2.root.trans h4.root
  · intro a ha
    have c1 : t4.content a = t2.content a := q2.content a
    have c2 : t2.content a = t1.content a := content_eq (by
      show g2.node? a = _
      rw [k9, if_neg ha])
    rw [c1, c2]
    refine h4.content_of ?_ a
    intro k nd _
    cases nd <;> simp [Node.replaceSpan]
  · exact ⟨e, by rw [show t4.graph.edges = _ from q2.edges]; rw [show t2.graph.edges = _ from k7, h4.edges]⟩
  · intro a b
    have c1 : t4.IsChild a b ↔ t2.IsChild a b := by
      have := q2.isChild
      show t3.IsChild a b ↔ _
      rw [this]
    rw [c1, k6, h4.isChild]

/-! ## `push_terminal` -/

/-- The root's span is the whole sentence. -/
theorem Core.root_span (C : t.Core) {x : NonTerminal} (hx : t.graph.node? t.root = some (.nt x)) :
    0 < t.nTerminals ∧ x.span = ⟨0, t.nTerminals, none⟩ := by
  obtain ⟨hv, hc⟩ := C.spanRight _ _ hx
  have hv : x.span.Valid := hv
  have hc : ∀ i, i ∈ x.span.indices ↔ t.Covers t.root i := hc
  have hall : ∀ i, t.Covers t.root i ↔ i < t.nTerminals := by
    intro i
    constructor
    · rintro ⟨m, _, hm⟩
      obtain ⟨j, hj, hj'⟩ := C.sentence.pos m hm.isTerm
      rw [hm.pos_unique hj']; exact hj
    · intro hi
      obtain ⟨m, hm⟩ := C.sentence.occupied i hi
      exact ⟨m, C.shape.reach m hm.isTerm.live, hm⟩
  have hpos : 0 < t.nTerminals := by
    have := (hall _).1 ((hc _).1 hv.start_mem)
    omega
  refine ⟨hpos, hv.ext (Span.cont_valid hpos) ?_⟩
  ext i
  rw [hc, hall]; simp

theorem pushTerminal_spec (W : t.WF) (hr : t.IsNt t.root) (form pos : Str) :
    ∃ t' new, t.pushTerminal form pos = .ok (t', .ok new) ∧ t'.WF ∧ ¬ t.Live new ∧
      t'.graph.node? new = some (.term (Terminal.new form pos t.nTerminals)) ∧
      t'.nTerminals = t.nTerminals + 1 ∧ t'.root = t.root ∧
      (∀ a, a ≠ new → a ≠ t.root → t'.graph.node? a = t.graph.node? a) ∧
      (∀ a, a ≠ new → t'.content a = t.content a) ∧
      (∃ e, t'.graph.edges = ⟨e, t.root, new, .primary none⟩ :: t.graph.edges) ∧
      (∀ a b, t'.IsChild a b ↔ t.IsChild a b ∨ (a = t.root ∧ b = new)) := by
  have Z := W.sentence
  have S := W.shape
  obtain ⟨x, hx⟩ := hr
  obtain ⟨hN, hspan⟩ := W.core.root_span hx
  obtain ⟨g1, new, g2, e, k1, k2, k3, k4, k5, k6, k7, k8, k9⟩ :=
    addLeaf_spec W.graph S ⟨x, hx⟩ (Terminal.new form pos t.nTerminals)
  have hdead : ¬ t.Live new := by rintro ⟨y, hy⟩; rw [k8] at hy; simp at hy
  have hrn : t.root ≠ new := by rintro e; exact hdead (e ▸ ⟨_, hx⟩)
  set t2 : Tree := { t with graph := g2, nTerminals := t.nTerminals + 1 } with ht2
  have hx2 : t2.graph.node? t2.root = some (.nt x) := by
    show g2.node? t.root = _
    rw [k9, if_neg hrn]; exact hx
  set sp : Span := ⟨0, t.nTerminals + 1, none⟩ with hsp
  set t3 := t2.setNode t2.root (.nt { x with span := sp }) with ht3
  have hE : SpanEdit t2 t3 := SpanEdit.setNt hx2 sp t2.numDisc
  have k4' : t2.Shape := ⟨k4.1, k4.2, k4.3, k4.4, k4.5, k4.6⟩
  have k5' : Cut t2 t new := ⟨k5.1, k5.2, k5.3, k5.4⟩
  have hnewpos : t2.TermAt new t.nTerminals := ⟨_, by
    show g2.node? new = _
    rw [k9, if_pos rfl], rfl⟩
  have Z2 : t2.Sentence := by
    constructor
    · intro a ha
      by_cases ea : a = new
      · subst ea
        exact ⟨_, Nat.lt_succ_self _, hnewpos⟩
      · obtain ⟨i, hi, hi'⟩ := Z.pos a ((k5'.isTerm a).2 ⟨ea, ha⟩)
        exact ⟨i, Nat.lt_succ_of_lt hi, ((k5'.termAt a i).1 hi').2⟩
    · intro i hi
      rcases Nat.lt_succ_iff_lt_or_eq.1 hi with h | h
      · obtain ⟨a, ha⟩ := Z.occupied i h
        exact ⟨a, ((k5'.termAt a i).1 ha).2⟩
      · exact ⟨new, h ▸ hnewpos⟩
    · intro a b i ha hb
      have hlt : ∀ a, a ≠ new → t2.TermAt a i → t.TermAt a i ∧ i < t.nTerminals := by
        intro a h1 h2
        have h3 := (k5'.termAt a i).2 ⟨h1, h2⟩
        obtain ⟨j, hj, hj'⟩ := Z.pos a h3.isTerm
        exact ⟨h3, by rw [h3.pos_unique hj']; exact hj⟩
      by_cases ea : a = new <;> by_cases eb : b = new
      · rw [ea, eb]
      · rw [ea] at ha
        have := ha.pos_unique hnewpos
        have := (hlt b eb hb).2
        omega
      · rw [eb] at hb
        have := hb.pos_unique hnewpos
        have := (hlt a ea ha).2
        omega
      · exact Z.inj a b i (hlt a ea ha).1 (hlt b eb hb).1
  have hself : ¬ t2.IsChild new new := k4'.not_isChild_self k3 new
  have hnode3 : ∀ m, t3.graph.node? m =
      if m = t.root then some (.nt { x with span := sp }) else t2.graph.node? m := by
    intro m
    exact Graph.node?_setNode ⟨_, hx2⟩ _ m
  have P3 : t3.SpansOK := by
    intro m y hy
    rw [hnode3] at hy
    by_cases em : m = t.root
    · rw [if_pos em] at hy
      simp only [Option.some.injEq, Node.nt.injEq] at hy
      subst hy
      refine ⟨Span.cont_valid (Nat.succ_pos _), fun i => ?_⟩
      rw [Span.contains_iff, Span.cont_indices, hE.covers, em]
      constructor
      · intro hi
        rw [Finset.mem_Ico] at hi
        obtain ⟨a, ha⟩ := Z2.occupied i hi.2
        exact ⟨a, k4'.reach a ha.isTerm.live, ha⟩
      · rintro ⟨a, _, ha⟩
        obtain ⟨j, hj, hj'⟩ := Z2.pos a ha.isTerm
        rw [ha.pos_unique hj']
        exact Finset.mem_Ico.2 ⟨Nat.zero_le _, hj⟩
    · rw [if_neg em] at hy
      have hm : m ≠ new := by
        rintro rfl
        have : t2.graph.node? m = some (.term (Terminal.new form pos t.nTerminals)) := by
          show g2.node? m = _
          rw [k9, if_pos rfl]
        rw [this] at hy; simp at hy
      have hy' : t.graph.node? m = some (.nt y) := by
        have : t2.graph.node? m = t.graph.node? m := by
          show g2.node? m = _
          rw [k9, if_neg hm]
        rw [← this]; exact hy
      obtain ⟨h1, h2⟩ := W.spans m y hy'
      refine ⟨h1, fun i => ?_⟩
      rw [h2, hE.covers, k5'.covers hself hm]
      unfold Covers
      constructor
      · rintro ⟨k, _, h4, h5⟩; exact ⟨k, h4, h5⟩
      · rintro ⟨k, h4, h5⟩
        refine ⟨k, ?_, h4, h5⟩
        rintro rfl
        rcases h4.cases_parent with h6 | ⟨c, h6, h7⟩
        · exact hm h6.symm
        · rcases (k6 c k).1 h7 with h8 | ⟨h8, _⟩
          · exact hdead (isChild_live W.graph h8).2
          · subst h8
            exact em ((k4'.dom_antisymm k3 h6 (k4'.reach m ((k5'.live_iff m).1 ⟨_, hy'⟩).2)))
  have hdisc : t3.discSet = t.discSet := by
    ext m
    rw [mem_discSet, mem_discSet]
    unfold Disc
    rw [hnode3]
    by_cases em : m = t.root
    · subst em
      rw [if_pos rfl, hx]
      simp [hspan, hsp]
    · rw [if_neg em, show t2.graph.node? m = g2.node? m from rfl, k9]
      by_cases en : m = new
      · subst en
        simp [k8]
      · simp [en]
  refine ⟨t3, new, ?_, ⟨hE.ok k3, hE.shape k4', hE.sentence Z2, P3, ?_⟩, hdead, ?_, rfl, rfl, ?_, ?_, ?_, ?_⟩
  · unfold pushTerminal
    rw [node_eq hx]
    simp only [Res.ok_bind, Node.isTerminal, Bool.false_eq_true, if_false, k1, k2]
    refine Res.bind_eq_ok.2 ⟨.nt x, node_eq hx2, ?_⟩
    simp only [Node.extendSpan, Res.unwrap_ok, Res.ok_bind, hspan]
    rfl
  · have := W.count
    rw [countOK_iff] at this ⊢
    rw [hdisc, ← this]; rfl
  · rw [hnode3, if_neg (Ne.symm hrn)]
    show g2.node? new = _
    rw [k9, if_pos rfl]
  · intro a ha har
    rw [hnode3, if_neg har]
    show g2.node? a = _
    rw [k9, if_neg ha]
  · intro a ha
    rw [hE.content]
    refine content_eq ?_
    show g2.node? a = _
    rw [k9, if_neg ha]
  · exact ⟨e, k7⟩
  · intro a b
    rw [hE.isChild]
    exact k6 a b

end Tree
end Lumberjack
