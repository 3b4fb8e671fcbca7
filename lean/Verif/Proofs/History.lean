import Verif.Spec.History
import Verif.Props.TreeEdit

/-!
# One step of a history
-/

namespace Lumberjack
namespace Tree

variable {t t' : Tree}

/-- What every returning public operation does to nodes. -/
structure Stable (op : Op) (t t' : Tree) (v : Option Nat) : Prop where
  keep : ∀ n, t.Live n → op.target ≠ some n → t'.content n = t.content n
  fresh : ∀ n, v = some n → ¬ t.Live n ∧ t'.Live n
  only : ∀ n, t'.Live n → ¬ t.Live n → v = some n

theorem Stable.same (op : Op) (h : ∀ n, t'.content n = t.content n) : Stable op t t' none where
  keep n _ _ := h n
  fresh n hn := by simp at hn
  only n h1 h2 := by
    have := h n
    rw [content_none.2 h2] at this
    exact absurd h1 (content_none.1 this)

theorem Stable.add (op : Op) {new : Nat} (h1 : ¬ t.Live new) (h2 : t'.Live new)
    (h : ∀ n, n ≠ new → t'.content n = t.content n) : Stable op t t' (some new) where
  keep n hn _ := h n (by rintro rfl; exact h1 hn)
  fresh n hn := by simp only [Option.some.injEq] at hn; subst hn; exact ⟨h1, h2⟩
  only n h3 h4 := by
    by_contra hne
    have := h n (by rintro rfl; exact hne rfl)
    rw [content_none.2 h4] at this
    exact absurd h3 (content_none.1 this)

theorem Stable.err (op : Op) : Stable op t t none := Stable.same op (fun _ => rfl)

theorem Attr.apply_span (a : Attr) (nd : Node) : (a.apply nd).span = nd.span := by
  cases a <;> cases nd <;> rfl

theorem setEdge_prim {e : Nat} {w : Edge} (G : t.graph.OK) (l : Option Str) {r : EdgeRec}
    (hr : r ∈ t.graph.edges) (he : r.id = e) (hw : r.w = w) :
    ∀ a b, ({ t with graph := t.graph.setEdge e (w.setLabel l) } : Tree).IsChild a b ↔ t.IsChild a b := by
  have hp : (w.setLabel l).isPrimary = w.isPrimary := by cases w <;> rfl
  intro a b
  constructor
  · rintro ⟨s, hs, h1, h2, h3⟩
    obtain ⟨s', hs', rfl⟩ := List.mem_map.1 hs
    by_cases hid : s'.id = e
    · have := G.edge_ext hs' hr (hid.trans he.symm)
      subst this
      simp only [if_pos hid] at h1 h2 h3
      exact ⟨s', hs', h1, h2, by rw [hw, ← hp]; exact h3⟩
    · simp only [if_neg hid] at h1 h2 h3
      exact ⟨s', hs', h1, h2, h3⟩
  · rintro ⟨s, hs, h1, h2, h3⟩
    refine ⟨_, List.mem_map_of_mem hs, ?_⟩
    by_cases hid : s.id = e
    · have := G.edge_ext hs hr (hid.trans he.symm)
      subst this
      simp only [if_pos hid]
      exact ⟨h1, h2, by rw [hp, ← hw]; exact h3⟩
    · simp only [if_neg hid]
      exact ⟨h1, h2, h3⟩

theorem setEdgeLabel_wf (W : t.WF) {e : Nat} {l : Option Str} (h : t.setEdgeLabel e l = .ok t') :
    t'.WF ∧ ∀ n, t'.graph.node? n = t.graph.node? n := by
  unfold setEdgeLabel at h
  obtain ⟨w, h1, h⟩ := Res.bind_eq_ok.1 h
  simp only [Res.pure_eq, Res.ok.injEq] at h
  subst h
  unfold edge at h1
  rw [Res.ofOption_eq_ok, Option.map_eq_some_iff] at h1
  obtain ⟨r, hr, hw⟩ := h1
  obtain ⟨hr1, hr2⟩ := (Graph.edge?_eq W.graph).1 hr
  have hchild := setEdge_prim W.graph l hr1 hr2 hw
  have hc : ({ t with graph := t.graph.setEdge e (w.setLabel l) } : Tree).IsChild = t.IsChild := by
    funext a b; exact propext (hchild a b)
  have hdom := dom_congr hc
  have S := W.shape
  refine ⟨⟨W.graph.setEdge e _, ⟨S.root_live, ?_, ?_, ?_, ?_, ?_⟩, ⟨?_, ?_, ?_⟩, ?_, W.count⟩, fun _ => rfl⟩
  · intro p; rw [hc]; exact S.root_top p
  · intro r1 h1 r2 h2 h12 w1 w2
    have G' := W.graph.setEdge e (w.setLabel l)
    have hp : (w.setLabel l).isPrimary = w.isPrimary := by cases w <;> rfl
    apply G'.edge_ext h1 h2
    obtain ⟨s1, hs1, rfl⟩ := List.mem_map.1 h1
    obtain ⟨s2, hs2, rfl⟩ := List.mem_map.1 h2
    have key : ∀ s ∈ t.graph.edges,
        (if s.id = e then { s with w := w.setLabel l } else s).w.isPrimary = true →
        s.w.isPrimary = true := by
      intro s hs hsw
      by_cases hid : s.id = e
      · have := W.graph.edge_ext hs hr1 (hid.trans hr2.symm)
        subst this
        rw [if_pos hid] at hsw
        rw [hw, ← hp]; exact hsw
      · rw [if_neg hid] at hsw; exact hsw
    have ht : ∀ s : EdgeRec, (if s.id = e then { s with w := w.setLabel l } else s).tgt = s.tgt := by
      intro s; split <;> rfl
    have := S.unique s1 hs1 s2 hs2 (by rw [← ht s1, ← ht s2]; exact h12) (key s1 hs1 w1) (key s2 hs2 w2)
    rw [this]
  · intro n hn
    rw [hdom]; exact S.reach n hn
  · intro n c hn; rw [hc]; exact S.term_leaf n c hn
  · intro n hn; rw [hc]; exact S.nt_child n hn
  · exact W.sentence.pos
  · exact W.sentence.occupied
  · exact W.sentence.inj
  · intro n x hx
    obtain ⟨h1, h2⟩ := W.spans n x hx
    refine ⟨h1, fun i => ?_⟩
    rw [h2 i]
    unfold Covers
    rw [hdom]
    rfl

theorem editNode_edit {n : Nat} {a : Attr} (h : t.editNode n a = .ok t') :
    NodeEdit t t' (fun k nd => if k = n then a.apply nd else nd) ∧ t.Live n := by
  unfold editNode at h
  obtain ⟨nd, h1, h⟩ := Res.bind_eq_ok.1 h
  simp only [Res.pure_eq, Res.ok.injEq] at h
  subst h
  rw [node_ok] at h1
  refine ⟨(NodeEdit.set h1 (a.apply nd)).congr ?_, ⟨nd, h1⟩⟩
  intro k y hy
  by_cases e : k = n
  · subst e
    rw [h1] at hy
    simp only [Option.some.injEq] at hy
    subst hy
    simp
  · simp [e]

/-- One step: the effect on nodes, and the exact condition for well-formedness. -/
theorem op_step (W : t.WF) (op : Op) {v : Option Nat} (h : op.run t = .ok (t', v)) :
    Stable op t t' v ∧ (t'.WF ↔ op.Sound t) := by
  cases op with
  | insertTerminal p f po i =>
    obtain ⟨⟨t2, n⟩, h1, h2⟩ := Res.bind_eq_ok.1 h
    simp only [Res.pure_eq, Res.ok.injEq, Prod.mk.injEq] at h2
    obtain ⟨rfl, rfl⟩ := h2
    by_cases hp : ¬ t.IsNt p ∨ t.nTerminals < (Terminal.new f po i).span.start
    · rw [Props.C16_insert_panics t p _ hp] at h1; simp at h1
    · rw [not_or, not_not, not_lt] at hp
      obtain ⟨t3, new, k1, k2, k3, k4, k5, k6, k7, k8, _⟩ :=
        Props.C16_insert_terminal t W p i (Terminal.new f po i) hp.1 rfl hp.2
      rw [h1] at k1
      simp only [Res.ok.injEq, Prod.mk.injEq] at k1
      obtain ⟨rfl, rfl⟩ := k1
      exact ⟨Stable.add _ k3 ⟨_, k4⟩ k8, fun _ => trivial, fun _ => k2⟩
  | pushTerminal f po =>
    obtain ⟨⟨t2, r⟩, h1, h2⟩ := Res.bind_eq_ok.1 h
    simp only [Res.pure_eq, Res.ok.injEq, Prod.mk.injEq] at h2
    obtain ⟨rfl, rfl⟩ := h2
    rcases live_iff.1 W.shape.root_live with hr | hr
    · rw [Props.C16_push_terminal_root t f po hr] at h1
      simp only [Res.ok.injEq, Prod.mk.injEq] at h1
      obtain ⟨rfl, rfl⟩ := h1
      exact ⟨Stable.err _, fun _ => trivial, fun _ => W⟩
    · obtain ⟨t3, new, k1, k2, k3, k4, k5, k6, k7, k8, _⟩ := Props.C16_push_terminal t W f po hr
      rw [h1] at k1
      simp only [Res.ok.injEq, Prod.mk.injEq] at k1
      obtain ⟨rfl, rfl⟩ := k1
      exact ⟨Stable.add _ k3 ⟨_, k4⟩ k8, fun _ => trivial, fun _ => k2⟩
  | moveTerminal n i =>
    obtain ⟨t2, h1, h2⟩ := Res.bind_eq_ok.1 h
    simp only [Res.pure_eq, Res.ok.injEq, Prod.mk.injEq] at h2
    obtain ⟨rfl, rfl⟩ := h2
    have hno := (Props.C15_move_panics t W n i).not.1 (fun hh => hh ⟨_, h1⟩)
    rw [not_or, not_or, not_not] at hno
    obtain ⟨⟨nd, hnd⟩, h3, h4⟩ := hno
    cases nd with
    | nt x =>
      have hs : x.span.start = i := by
        by_contra hs; exact h3 ⟨x, hnd, hs⟩
      have : t.moveTerminal n i = .ok t := by
        unfold moveTerminal
        rw [node_eq hnd]
        simp only [Res.ok_bind]
        rw [if_pos (show (Node.nt x).span.start = i from hs)]; rfl
      rw [h1] at this
      simp only [Res.ok.injEq] at this
      subst this
      exact ⟨Stable.err _, fun _ => trivial, fun _ => W⟩
    | term x =>
      have hn : t.IsTerm n := ⟨x, hnd⟩
      obtain ⟨o, ho, hno⟩ := W.sentence.pos n hn
      have hi : i < t.nTerminals := by
        by_contra hi
        refine h4 ⟨o, hno, ?_, by omega⟩
        omega
      obtain ⟨t3, k1, k2, k3, k4, k5, _⟩ := Props.C15_move_terminal t W n i hn hi
      rw [h1] at k1
      simp only [Res.ok.injEq] at k1
      subst k1
      exact ⟨Stable.same _ k5, fun _ => trivial, fun _ => k2⟩
  | insertUnaryAbove n l =>
    obtain ⟨⟨t2, m⟩, h1, h2⟩ := Res.bind_eq_ok.1 h
    simp only [Res.pure_eq, Res.ok.injEq, Prod.mk.injEq] at h2
    obtain ⟨rfl, rfl⟩ := h2
    have hl : t.Live n := by
      by_contra hl
      unfold insertUnaryAbove at h1
      rw [node_panic hl] at h1; simp at h1
    obtain ⟨nd, hnd⟩ := hl
    obtain ⟨t3, ins, k1, k2, k3, k4, _, _, _, _, _, _, _, _, _, _, k5⟩ :=
      Props.C17_insert_unary_above t W n nd l hnd
    rw [h1] at k1
    simp only [Res.ok.injEq, Prod.mk.injEq] at k1
    obtain ⟨rfl, rfl⟩ := k1
    exact ⟨Stable.add _ k2 ⟨_, k3⟩ (fun a ha => content_eq (k4 a ha)), k5⟩
  | insertUnaryBelow n l =>
    obtain ⟨⟨t2, r⟩, h1, h2⟩ := Res.bind_eq_ok.1 h
    simp only [Res.pure_eq, Res.ok.injEq, Prod.mk.injEq] at h2
    obtain ⟨rfl, rfl⟩ := h2
    have hl : t.Live n := by
      by_contra hl
      unfold insertUnaryBelow at h1
      rw [node_panic hl] at h1; simp at h1
    rcases live_iff.1 hl with hn | ⟨x, hx⟩
    · rw [Props.C17_insert_unary_below_terminal t n l hn] at h1
      simp only [Res.ok.injEq, Prod.mk.injEq] at h1
      obtain ⟨rfl, rfl⟩ := h1
      refine ⟨Stable.err _, fun _ => ?_, fun _ => W⟩
      rintro ⟨y, hy, _⟩
      exact not_isTerm_isNt hn ⟨y, hy⟩
    · obtain ⟨t3, ins, k1, k2, k3, k4, _, _, _, _, _, _, _, _, _, _, k5⟩ :=
        Props.C17_insert_unary_below t W n x l hx
      rw [h1] at k1
      simp only [Res.ok.injEq, Prod.mk.injEq] at k1
      obtain ⟨rfl, rfl⟩ := k1
      exact ⟨Stable.add _ k2 ⟨_, k3⟩ (fun a ha => content_eq (k4 a ha)), k5⟩
  | removeNode n =>
    obtain ⟨⟨t2, r⟩, h1, h2⟩ := Res.bind_eq_ok.1 h
    simp only [Res.pure_eq, Res.ok.injEq, Prod.mk.injEq] at h2
    obtain ⟨rfl, rfl⟩ := h2
    have hl : t.Live n := by
      by_contra hl
      rw [(Props.C11_remove_total t W n).2 hl] at h1; simp at h1
    have hst : (∀ m, m ≠ n → t2.graph.node? m = t.graph.node? m) → ¬ t2.Live n →
        Stable (.removeNode n) t t2 none := by
      intro hm hd
      refine ⟨fun m _ hne => content_eq (hm m ?_), fun m hm => by simp at hm, ?_⟩
      · rintro rfl; exact hne rfl
      · rintro m ⟨y, hy⟩ hm2
        exfalso
        by_cases e : m = n
        · subst e; exact hd ⟨y, hy⟩
        · rw [hm m e] at hy; exact hm2 ⟨y, hy⟩
    rcases live_iff.1 hl with ⟨x, hx⟩ | ⟨x, hx⟩
    · by_cases hs : ∀ p s, t.IsChild p n → t.IsChild p s → s = n
      · rw [Props.C12_last_terminal t W n ⟨x, hx⟩ hs] at h1
        simp only [Res.ok.injEq, Prod.mk.injEq] at h1
        obtain ⟨rfl, rfl⟩ := h1
        exact ⟨Stable.err _, fun _ _ => hs, fun _ => W⟩
      · have hs' := hs
        push Not at hs'
        obtain ⟨p, s, k1, k2, k3⟩ := hs'
        obtain ⟨t3, k4, k5, k6, _⟩ := Props.C12_remove_terminal t W n p s x hx k1 k2 k3
        rw [h1] at k4
        simp only [Res.ok.injEq, Prod.mk.injEq] at k4
        obtain ⟨rfl, rfl⟩ := k4
        refine ⟨hst k6 k5, fun W' => ?_, fun hh => absurd (hh ⟨x, hx⟩) hs⟩
        exact absurd W' (Props.C12_remove_terminal_not_wf t t2 W n _ ⟨x, hx⟩ h1)
    · have hsound : (Op.removeNode n).Sound t := fun hn => absurd ⟨x, hx⟩ (fun h => not_isTerm_isNt hn h)
      by_cases hr : n = t.root
      · subst hr
        obtain ⟨c, hc⟩ := W.shape.nt_child _ ⟨x, hx⟩
        by_cases hu : ∀ c', t.IsChild t.root c' ↔ c' = c
        · obtain ⟨t3, k1, k2, _, k3, k4, _⟩ := Props.C11_remove_root t W c x hx hu
          rw [h1] at k1
          simp only [Res.ok.injEq, Prod.mk.injEq] at k1
          obtain ⟨rfl, rfl⟩ := k1
          exact ⟨hst k4 k3, fun _ => hsound, fun _ => k2⟩
        · obtain ⟨c', k1, k2⟩ : ∃ c', t.IsChild t.root c' ∧ c ≠ c' := by
            by_contra hno
            push Not at hno
            exact hu (fun c' => ⟨fun h => (hno c' h).symm, fun e => e ▸ hc⟩)
          rw [Props.C11_remove_root_multiple t W c c' hc k1 k2] at h1
          simp only [Res.ok.injEq, Prod.mk.injEq] at h1
          obtain ⟨rfl, rfl⟩ := h1
          exact ⟨Stable.err _, fun _ => hsound, fun _ => W⟩
      · obtain ⟨p, hp⟩ := W.shape.exists_parent hl hr
        obtain ⟨t3, k1, k2, k3, k4, _⟩ := Props.C11_remove_nonterminal t W n p x hx hp
        rw [h1] at k1
        simp only [Res.ok.injEq, Prod.mk.injEq] at k1
        obtain ⟨rfl, rfl⟩ := k1
        exact ⟨hst k4 k3, fun _ => hsound, fun _ => k2⟩
  | reattachNode q e =>
    obtain ⟨⟨t2, res⟩, h1, h2⟩ := Res.bind_eq_ok.1 h
    simp only [Res.pure_eq, Res.ok.injEq, Prod.mk.injEq] at h2
    obtain ⟨rfl, rfl⟩ := h2
    by_cases hno : ¬ t.Live q ∨ ∀ r ∈ t.graph.edges, r.id ≠ e
    · rw [Props.C14_reattach_panics t q e hno] at h1; simp at h1
    · rw [not_or, not_not] at hno
      obtain ⟨hq, hno⟩ := hno
      push Not at hno
      obtain ⟨r, hr, rfl⟩ := hno
      have he : t.graph.edge? r.id = some r := (Graph.edge?_eq W.graph).2 ⟨hr, rfl⟩
      have honly : ∀ r' ∈ t.graph.edges, r'.id = r.id → r' = r := fun r' hr' e' => W.graph.edge_ext hr' hr e'
      obtain ⟨E1, E2, E3⟩ := Props.C14_reattach_err t W r q hr hq
      by_cases hself : r.tgt = q
      · rw [E1 hself] at h1
        simp only [Res.ok.injEq, Prod.mk.injEq] at h1
        obtain ⟨rfl, rfl⟩ := h1
        refine ⟨Stable.err _, fun _ => ?_, fun _ => W⟩
        intro r' hr' e' _ hne
        rw [honly r' hr' e'] at hne
        exact absurd hself hne
      · cases hw : r.w with
        | secondary l =>
          obtain ⟨t3, e3, k1, k2, k3, _⟩ := Props.C54_reattach t W q r.id hq l r he hw hself
          rw [h1] at k1
          simp only [Res.ok.injEq, Prod.mk.injEq] at k1
          obtain ⟨rfl, rfl⟩ := k1
          refine ⟨Stable.same _ (fun n => content_eq (k3.2.2.1 n)), fun _ => ?_, fun _ => k2⟩
          intro r' hr' e' hpw
          rw [honly r' hr' e', hw] at hpw
          simp [Edge.isPrimary] at hpw
        | primary l =>
          have hw' : r.w.isPrimary = true := by rw [hw]; rfl
          have hp : t.reattachPrimary q r.id = .ok (t2, res) := by
            unfold reattachNode at h1
            rw [Graph.contains_iff.2 hq, he] at h1
            simp only [Res.assert_true, Res.ok_bind, Res.ofOption_some, if_neg hself] at h1
            rw [hw] at h1
            exact h1
          rcases reattachPrimary_any W.graph hp with ⟨er, rfl, ht⟩ | ⟨r', e2, k1, k2, rfl, k4, k5, k6, k7, k8, k9, k10, k11⟩
          · rw [ht] at hp ⊢
            refine ⟨Stable.err _, fun _ => ?_, fun _ => W⟩
            intro r' hr' e' _ _ hnt hsib
            have := honly r' hr' e'
            subst this
            by_cases hd : t.Dom r'.tgt q
            · exfalso
              -- the reattachment is not an error in this case
              have hs0 : ¬ ((t.siblings r'.tgt).length = 0 ∧ r'.src ≠ q) := by
                rintro ⟨h3, h4⟩
                obtain ⟨s, h5, h6⟩ := hsib.resolve_left h4
                have : s ∈ (t.siblings r'.tgt).map (·.1) :=
                  (mem_siblings W.shape).2 ⟨h5, r'.src, ⟨r', hr, rfl, rfl, hw'⟩, h6⟩
                rw [List.length_eq_zero_iff.1 h3] at this
                simp at this
              obtain ⟨z, hz⟩ := hnt
              unfold reattachPrimary at hp
              rw [he, node_eq hz] at hp
              simp only [Res.ofOption_some, Res.ok_bind, Node.isTerminal, Bool.false_eq_true, if_false] at hp
              rw [if_neg hs0] at hp
              obtain ⟨_, _, hp⟩ := Res.bind_eq_ok.1 hp
              obtain ⟨_, _, hp⟩ := Res.bind_eq_ok.1 hp
              obtain ⟨_, _, hp⟩ := Res.bind_eq_ok.1 hp
              obtain ⟨_, _, hp⟩ := Res.bind_eq_ok.1 hp
              obtain ⟨_, _, hp⟩ := Res.bind_eq_ok.1 hp
              simp at hp
            · obtain ⟨_, _, k1, _⟩ := reattachPrimary_spec W hr hw' hnt hd hsib
              rw [hp] at k1
              simp at k1
          · have := honly r' k1 k2
            subst this
            refine ⟨Stable.same _ k10, ?_⟩
            rw [reattachPrimary_wf_iff W hr hw' hp]
            constructor
            · intro hh r2 hr2 e3 _ _ _ _
              rw [honly r2 hr2 e3]; exact hh
            · intro hh
              refine hh r' hr rfl hw' hself k4 ?_
              rcases k5 with k5 | k5
              · exact .inl k5
              · right
                cases hl : t.siblings r'.tgt with
                | nil => rw [hl] at k5; simp at k5
                | cons y l =>
                  have : y.1 ∈ (t.siblings r'.tgt).map (·.1) := by rw [hl]; simp
                  obtain ⟨m1, p, m2, m3⟩ := (mem_siblings W.shape).1 this
                  rw [W.shape.isChild_unique m2 ⟨r', hr, rfl, rfl, hw'⟩] at m3
                  exact ⟨y.1, m1, m3⟩
  | addSecondaryEdge p c l =>
    obtain ⟨⟨t2, e⟩, h1, h2⟩ := Res.bind_eq_ok.1 h
    simp only [Res.pure_eq, Res.ok.injEq, Prod.mk.injEq] at h2
    obtain ⟨rfl, rfl⟩ := h2
    by_cases hl : t.Live p ∧ t.Live c
    · obtain ⟨t3, e3, k1, k2, k3, _⟩ := Props.C54_add t W p c hl.1 hl.2 l
      rw [h1] at k1
      simp only [Res.ok.injEq, Prod.mk.injEq] at k1
      obtain ⟨rfl, rfl⟩ := k1
      exact ⟨Stable.same _ (fun n => content_eq (k3.2.2.1 n)), fun _ => trivial, fun _ => k2⟩
    · unfold addSecondaryEdge at h1
      rw [Graph.addEdge_panic hl] at h1; simp at h1
  | removeSecondaryEdge e =>
    obtain ⟨⟨t2, r⟩, h1, h2⟩ := Res.bind_eq_ok.1 h
    simp only [Res.pure_eq, Res.ok.injEq, Prod.mk.injEq] at h2
    obtain ⟨rfl, rfl⟩ := h2
    cases he : t.edge e with
    | panic => rw [Props.C54_remove_absent t e he] at h1; simp at h1
    | diverge => unfold removeSecondaryEdge at h1; rw [he] at h1; simp at h1
    | ok w =>
      obtain ⟨k1, k2⟩ := Props.C54_remove t W e w he
      cases hw : w.isPrimary with
      | true =>
        rw [k1 hw] at h1
        simp only [Res.ok.injEq, Prod.mk.injEq] at h1
        obtain ⟨rfl, rfl⟩ := h1
        exact ⟨Stable.err _, fun _ => trivial, fun _ => W⟩
      | false =>
        obtain ⟨t3, k3, k4, k5, _⟩ := k2 hw
        rw [h1] at k3
        simp only [Res.ok.injEq, Prod.mk.injEq] at k3
        obtain ⟨rfl, rfl⟩ := k3
        exact ⟨Stable.same _ (fun n => content_eq (k5.2.2.1 n)), fun _ => trivial, fun _ => k4⟩
  | editNode n a =>
    obtain ⟨t2, h1, h2⟩ := Res.bind_eq_ok.1 h
    simp only [Res.pure_eq, Res.ok.injEq, Prod.mk.injEq] at h2
    obtain ⟨rfl, rfl⟩ := h2
    obtain ⟨hE, hl⟩ := editNode_edit h1
    have hs : ∀ k nd, ((fun k nd => if k = n then a.apply nd else nd) k nd : Node).span = nd.span := by
      intro k nd
      simp only
      split
      · exact a.apply_span nd
      · rfl
    have hk : KeepsKind (fun k nd => if k = n then a.apply nd else nd) := by
      intro k nd
      simp only
      split
      · cases a <;> cases nd <;> rfl
      · rfl
    refine ⟨⟨?_, fun m hm => by simp at hm, ?_⟩, fun _ => trivial, fun _ => hE.wf hk hs W⟩
    · intro m hm hne
      refine content_eq ?_
      rw [hE.node]
      have : m ≠ n := by rintro rfl; exact hne rfl
      simp [this]
    · intro m h3 h4
      exact absurd ((hE.live m).1 h3) h4
  | setEdgeLabel e l =>
    obtain ⟨t2, h1, h2⟩ := Res.bind_eq_ok.1 h
    simp only [Res.pure_eq, Res.ok.injEq, Prod.mk.injEq] at h2
    obtain ⟨rfl, rfl⟩ := h2
    obtain ⟨k1, k2⟩ := setEdgeLabel_wf W h1
    exact ⟨Stable.same _ (fun n => content_eq (k2 n)), fun _ => trivial, fun _ => k1⟩

end Tree
end Lumberjack
