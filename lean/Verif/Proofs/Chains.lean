import Verif.Proofs.Context
import Verif.Proofs.Filter
import Verif.Spec.Chains

/-!
# Unary chains
-/

namespace Lumberjack

namespace Forest

theorem width_append (f g : Forest) : (f.append g).width = f.width + g.width := by
  induction f with
  | nil => simp [append, width]
  | leaf e x r ih => simp [append, width, ih]; omega
  | node e x k r _ ih => simp [append, width, ih]; omega

theorem collapse_node (delim : Str) (e : Option Str) (x : NonTerminal) (k r : Forest) :
    (node e x k r).collapse delim = match k.collapse delim with
    | leaf _ y nil =>
      leaf none { y with features := addChain delim x.label y.features } (r.collapse delim)
    | node _ y k' nil =>
      node none { y with features := addChain delim x.label y.features } k' (r.collapse delim)
    | k' => node e x k' (r.collapse delim) := rfl

theorem width_collapse (delim : Str) (f : Forest) : (f.collapse delim).width = f.width := by
  induction f with
  | nil => rfl
  | leaf e x r ih => simp [collapse, width, ih]
  | node e x k r _ ih =>
    rw [collapse_node]
    split <;> simp [width, ih]

theorem collapse_node_many (delim : Str) (e : Option Str) (x : NonTerminal) (k r : Forest)
    (h : k.width ≠ 1) : (node e x k r).collapse delim = node e x (k.collapse delim) (r.collapse delim) := by
  have hw := width_collapse delim k
  rw [collapse_node]
  split
  · rename_i he; rw [he] at hw; simp [width] at hw; omega
  · rename_i he; rw [he] at hw; simp [width] at hw; omega
  · rfl

theorem collapse_append (delim : Str) (f g : Forest) :
    (f.append g).collapse delim = (f.collapse delim).append (g.collapse delim) := by
  induction f with
  | nil => rfl
  | leaf e x r ih => simp [append, collapse, ih]
  | node e x k r _ ih =>
    rw [append, collapse_node, collapse_node]
    split <;> simp [append, ih]

theorem collapse_plug (delim : Str) {g g' : Forest} (h : g.collapse delim = g'.collapse delim) (C : Ctx) :
    (C.plug g).collapse delim = (C.plug g').collapse delim := by
  induction C with
  | hole r => rw [Ctx.plug, Ctx.plug, collapse_append, collapse_append, h]
  | overLeaf e x C ih => simp only [Ctx.plug, collapse, ih]
  | overNode e x k C ih => simp only [Ctx.plug, collapse_node, ih]
  | inside e x C r ih => simp only [Ctx.plug, collapse_node, ih]

/-- Without unary nodes there is nothing to collapse. -/
theorem NoUnary.collapse {delim : Str} {f : Forest} (h : f.NoUnary) : f.collapse delim = f := by
  induction f with
  | nil => rfl
  | leaf e x r ih => rw [Forest.collapse, ih h]
  | node e x k r ihk ih =>
    obtain ⟨h1, h2, h3⟩ := h
    rw [collapse_node_many _ _ _ _ _ h1, ihk h2, ih h3]

end Forest

namespace Tree

open Relation

variable {t t' : Tree}

theorem Rep.width {f : Forest} : ∀ {ids : List Nat}, t.Rep ids f → f.width = ids.length := by
  induction f with
  | nil => intro ids h; rw [show ids = [] from h]; rfl
  | leaf e x r ih => rintro ids ⟨n, ns, rfl, h4, h5, h6⟩; simp [Forest.width, ih h6]
  | node e x k r _ ih => rintro ids ⟨n, ns, ks, rfl, h4, h5, h6, h7, h8⟩; simp [Forest.width, ih h8]

theorem Kids.only {n : Nat} {ks : List Nat} (h : t.Kids n ks) : ks.length = 1 ↔ ∃ c, t.OnlyChild n c := by
  constructor
  · intro hl
    obtain ⟨c, rfl⟩ := List.length_eq_one_iff.1 hl
    exact ⟨c, (h.1 c).1 (by simp), fun c' hc' => by simpa using (h.1 c').2 hc'⟩
  · rintro ⟨c, h1, h2⟩
    have hn := h.nodup
    have hall : ∀ a ∈ ks, a = c := fun a ha => h2 a ((h.1 a).1 ha)
    have hc : c ∈ ks := (h.1 c).2 h1
    have : ks = [c] := by
      cases ks with
      | nil => simp at hc
      | cons a l =>
        cases l with
        | nil => rw [hall a (by simp)]
        | cons b l =>
          exfalso
          have := hall a (by simp); have := hall b (by simp)
          simp_all
    rw [this]; rfl

theorem Rep.noUnary {f : Forest} (hu : ∀ n c, ¬ t.OnlyChild n c) : ∀ {ids : List Nat}, t.Rep ids f → f.NoUnary := by
  induction f with
  | nil => intro ids h; trivial
  | leaf e x r ih => rintro ids ⟨n, ns, rfl, h4, h5, h6⟩; exact ih h6
  | node e x k r ihk ih =>
    rintro ids ⟨n, ns, ks, rfl, h4, h5, h6, h7, h8⟩
    refine ⟨?_, ihk h7, ih h8⟩
    rw [h7.width]
    intro hl
    obtain ⟨c, hc⟩ := h6.only.1 hl
    exact hu n c hc

/-- `t'` keeps the edge by which `m` is attached. -/
theorem inLabel_congr (S : t.Shape) (S' : t'.Shape) {m : Nat}
    (h1 : ∀ r ∈ t.graph.edges, r.w.isPrimary = true → r.tgt = m → ∃ r' ∈ t'.graph.edges, r'.tgt = m ∧ r'.w = r.w)
    (h2 : ∀ p, t'.IsChild p m → ∃ q, t.IsChild q m) : t'.inLabel m = t.inLabel m := by
  unfold inLabel
  by_cases h : ∃ q, t.IsChild q m
  · obtain ⟨q, r, hr, _, rfl, hw⟩ := h
    obtain ⟨r', hr', ht, hw'⟩ := h1 r hr hw rfl
    rw [S.edgeLabel_of_edge hr hw, ← ht, S'.edgeLabel_of_edge hr' (by rw [hw']; exact hw), hw']
  · rw [edgeLabel_none (fun p hp => h ⟨p, hp⟩), edgeLabel_none (fun p hp => h (h2 p hp))]

/-- Taking out a nonterminal with a single child. -/
theorem removeUnary_spec (W : t.WF) {n c : Nat} {x : NonTerminal}
    (hx : t.graph.node? n = some (.nt x)) (hc : t.OnlyChild n c) :
    ∃ t', t.removeNode n = .ok (t', .ok (.nt x)) ∧ t'.WF ∧ Cut t t' n ∧
      t'.root = (if t.root = n then c else t.root) ∧ t'.nTerminals = t.nTerminals ∧
      t'.inLabel c = none ∧ (∀ m, m ≠ n → m ≠ c → t'.inLabel m = t.inLabel m) ∧
      t'.graph.nodes.length = t.graph.nodes.length := by
  have S := W.shape
  have G := W.graph
  by_cases hr : n = t.root
  · subst hr
    obtain ⟨t', h1, h2, h3, h4, h5, h6, h7⟩ := removeNonterminal_root W hx hc.1 hc.2
    refine ⟨t', (removeNode_nt hx).trans h1, h2, h3, by simp [h4], h5, ?_, ?_, h7⟩
    · rw [← h4]; exact inLabel_root h2.shape
    · intro m hm hmc
      refine inLabel_congr S h2.shape ?_ ?_
      · rintro r hr hw rfl
        refine ⟨r, ?_, rfl, rfl⟩
        rw [h6, List.mem_filter]
        refine ⟨hr, decide_eq_true ⟨fun e => hmc ?_, hm⟩⟩
        exact hc.2 _ ⟨r, hr, e, rfl, hw⟩
      · intro p hp
        obtain ⟨_, _, h | ⟨h, _⟩⟩ := (h3.splice p m).1 hp
        · exact ⟨p, h⟩
        · exact absurd h (S.root_top p)
  · obtain ⟨p, hp⟩ := S.exists_parent ⟨_, hx⟩ hr
    obtain ⟨t', h1, h2, h3, h4, h5, h6, h7, h8⟩ := removeNonterminal_inner W hx hp
    have hcn : c ≠ n := by rintro rfl; exact S.not_isChild_self G c hc.1
    have hpn : p ≠ n := by rintro rfl; exact S.not_isChild_self G p hp
    refine ⟨t', (removeNode_nt hx).trans h1, h2, h3, by rw [if_neg (Ne.symm hr), h4], h5, ?_, ?_, h8⟩
    · have hch : t'.IsChild p c := (h3.splice p c).2 ⟨hpn, hcn, .inr ⟨hp, hc.1⟩⟩
      obtain ⟨r, hr, rs, rt, hw⟩ := hch
      have hlab := h2.shape.edgeLabel_of_edge hr hw
      rw [rt] at hlab
      unfold inLabel
      rw [hlab]
      rcases h7 r hr with h | ⟨_, _, h⟩
      · have := S.isChild_unique ⟨r, h, rs, rt, hw⟩ hc.1
        exact absurd this hpn
      · rw [h]; rfl
    · intro m hm hmc
      refine inLabel_congr S h2.shape ?_ ?_
      · rintro r hr hw rfl
        refine ⟨r, h6 r hr (fun e => hmc ?_) hm, rfl, rfl⟩
        exact hc.2 _ ⟨r, hr, e, rfl, hw⟩
      · intro p hp
        obtain ⟨_, _, h | ⟨_, h⟩⟩ := (h3.splice p m).1 hp
        · exact ⟨p, h⟩
        · exact ⟨n, h⟩

theorem NodeEdit.inLabel {f : Nat → Node → Node} (h : NodeEdit t t' f) (m : Nat) : t'.inLabel m = t.inLabel m := by
  unfold Tree.inLabel edgeLabel; rw [h.edges]

/-- A node with changed features. -/
def withFeats (g : Option Features → Option Features) : Node → Node
  | .term x => .term { x with features := g x.features }
  | .nt x => .nt { x with features := g x.features }

theorem withFeats_span (g : Option Features → Option Features) (nd : Node) : (withFeats g nd).span = nd.span := by
  cases nd <;> rfl

theorem withFeats_kind (g : Option Features → Option Features) (nd : Node) :
    (withFeats g nd).isTerminal = nd.isTerminal := by
  cases nd <;> rfl

theorem pushChain_spec (W : t.WF) (delim : Str) {c : Nat} {nd : Node} (hc : t.graph.node? c = some nd)
    (label : Str) :
    ∃ t', t.pushChain delim c label = .ok t' ∧ t'.WF ∧
      NodeEdit t t' (fun k y => if k = c then withFeats (Forest.addChain delim label) nd else y) := by
  refine ⟨t.setNode c (withFeats (Forest.addChain delim label) nd), ?_, ?_, NodeEdit.set hc _⟩
  · unfold pushChain
    rw [node_eq hc]
    simp only [Res.ok_bind, Res.pure_eq]
    cases nd <;> rfl
  · have hE := NodeEdit.set (t := t) hc (withFeats (Forest.addChain delim label) nd)
    have hE' := hE.congr (g := fun k y => if k = c then withFeats (Forest.addChain delim label) y else y) (by
      intro n nd' hn
      by_cases e : n = c
      · subst e; rw [hc] at hn; simp only [Option.some.injEq] at hn; simp [hn]
      · simp [e])
    refine hE'.wf ?_ ?_ W
    · intro n nd; simp only; split
      · exact withFeats_kind _ _
      · rfl
    · intro n nd; split
      · exact withFeats_span _ _
      · rfl

/-- Equal spans of a node and its child: the child is the only one. -/
theorem span_eq_iff (W : t.WF) {n c : Nat} {nn cn : Node} (hn : t.graph.node? n = some nn)
    (hcn : t.graph.node? c = some cn) (hc : t.IsChild n c) : nn.span = cn.span ↔ t.OnlyChild n c := by
  obtain ⟨vn, kn⟩ := W.span_spec hn
  obtain ⟨vc, kc⟩ := W.span_spec hcn
  constructor
  · intro he
    refine ⟨hc, fun d hd => ?_⟩
    by_contra hne
    obtain ⟨dn, hdn⟩ := (isChild_live W.graph hd).2
    obtain ⟨vd, kd⟩ := W.span_spec hdn
    obtain ⟨m, m1, m2⟩ := (kd _).1 vd.start_mem
    have hcov : t.Covers n dn.span.start := ⟨m, .head hd m1, m2⟩
    rw [← kn, he, kc] at hcov
    obtain ⟨m', m3, m4⟩ := hcov
    have := W.sentence.inj _ _ _ m2 m4
    subst this
    have key : ∀ {a b}, t.IsChild n a → t.IsChild n b → a ≠ b → ¬ t.Dom a b := by
      intro a b ha hb hne hd
      rcases hd.cases_parent with e | ⟨p, hp, hp'⟩
      · exact hne e.symm
      · rw [W.shape.isChild_unique hp' hb] at hp
        exact W.shape.acyclic W.graph a (transGen_iff.2 ⟨n, hp, ha⟩)
    rcases W.shape.dom_linear m1 m3 with h | h
    · exact key hd hc hne h
    · exact key hc hd (Ne.symm hne) h
  · rintro ⟨_, ho⟩
    refine vn.ext vc (Finset.ext fun i => ?_)
    rw [kn, kc]
    constructor
    · rintro ⟨m, m1, m2⟩
      rcases m1.cases_child with e | ⟨d, hd, hd'⟩
      · subst e
        exact absurd hc (W.shape.term_leaf _ _ m2.isTerm)
      · rw [ho d hd] at hd'
        exact ⟨m, hd', m2⟩
    · rintro ⟨m, m1, m2⟩
      exact ⟨m, .head hc m1, m2⟩

/-- One step of collapsing. -/
theorem collapseStep_spec (W : t.WF) (delim : Str) {n c : Nat} {x : NonTerminal}
    (hx : t.graph.node? n = some (.nt x)) (hc : t.OnlyChild n c) (hnu : ∀ d, ¬ t.OnlyChild c d)
    {f : Forest} (hf : t.Is f) :
    ∃ t1 t', t.removeNode n = .ok (t1, .ok (.nt x)) ∧ t1.pushChain delim c x.label = .ok t' ∧ t'.WF ∧
      Splice t.IsChild t'.IsChild n ∧ t'.graph.node? n = none ∧
      (∀ m, m ≠ n → m ≠ c → t'.graph.node? m = t.graph.node? m) ∧
      t'.graph.node? c = (t.graph.node? c).map (withFeats (Forest.addChain delim x.label)) ∧
      t'.nTerminals = t.nTerminals ∧ t'.graph.nodes.length = t.graph.nodes.length ∧
      ∃ f', t'.Is f' ∧ f'.collapse delim = f.collapse delim := by
  have G := W.graph
  have S := W.shape
  obtain ⟨t1, h1, W1, h3, h4, h5, h6, h7, h8⟩ := removeUnary_spec W hx hc
  have hcn : c ≠ n := by rintro rfl; exact S.not_isChild_self G c hc.1
  obtain ⟨cn, hcn'⟩ := (isChild_live G hc.1).2
  have hcn1 : t1.graph.node? c = some cn := (h3.node c hcn).trans hcn'
  obtain ⟨t2, k1, W2, E⟩ := pushChain_spec W1 delim hcn1 x.label
  have hnode : ∀ m, m ≠ n → m ≠ c → t2.graph.node? m = t.graph.node? m := by
    intro m hm hmc
    rw [E.node, h3.node m hm]
    simp [hmc]
  have hnodec : t2.graph.node? c = some (withFeats (Forest.addChain delim x.label) cn) := by
    rw [E.node, hcn1]; simp
  have hsp : Splice t.IsChild t2.IsChild n := by rw [E.isChild]; exact h3.splice
  have hspan : (Node.nt x).span = cn.span := (span_eq_iff W hx hcn' hc.1).2 hc
  have hlab : ∀ m, m ≠ n → m ≠ c → t2.inLabel m = t.inLabel m := fun m hm hmc =>
    (E.inLabel m).trans (h7 m hm hmc)
  have hO : Outside t t2 n c := by
    have hne : ∀ m, ¬ t.Dom n m → m ≠ n ∧ m ≠ c := by
      intro m hm
      exact ⟨by rintro rfl; exact hm Dom.refl, by rintro rfl; exact hm (.single hc.1)⟩
    refine ⟨fun m _ hd => hnode m (hne m hd).1 (hne m hd).2, fun m _ hd => hlab m (hne m hd).1 (hne m hd).2,
      ?_, ?_, ?_, ?_⟩
    · intro m b _ hd
      rw [hsp]
      constructor
      · rintro ⟨_, h2, h3 | ⟨h3, h4⟩⟩
        · exact .inl ⟨h3, h2⟩
        · exact .inr ⟨hc.2 b h4, h3⟩
      · rintro (⟨h2, h3⟩ | ⟨rfl, h2⟩)
        · exact ⟨(hne m hd).1, h3, .inl h2⟩
        · exact ⟨(hne m hd).1, hcn, .inr ⟨h2, hc.1⟩⟩
    · rw [startOf_of_node? hnodec, startOf_of_node? hx, withFeats_span, hspan]
    · intro m _ hd hd'
      exact hd (.head hc.1 (hsp.dom_up hd'))
    · rw [E.root, h4]
  refine ⟨t1, t2, h1, k1, W2, hsp, ?_, hnode, by rw [hnodec, hcn']; rfl, E.nTerm.trans h5, E.len.trans h8, ?_⟩
  · rw [E.node, h3.dead]; rfl
  · obtain ⟨C, g, rfl, hg, hrep⟩ := Is.locate G S ⟨_, hx⟩ hf
    -- the subtree at `n`
    cases g with
    | nil => exact absurd hg (by simp [Rep])
    | leaf e y r =>
      obtain ⟨n', ns, q1, q2, _⟩ := hg
      simp only [List.cons.injEq] at q1
      rw [← q1.1, hx] at q2; simp at q2
    | node e y k r =>
      obtain ⟨n', ns, ks, q1, q2, q3, q4, q5, q6⟩ := hg
      simp only [List.cons.injEq] at q1
      obtain ⟨rfl, rfl⟩ := q1
      rw [hx] at q2
      simp only [Option.some.injEq, Node.nt.injEq] at q2
      subst q2
      have hr : r = .nil := by cases r <;> simp [Rep] at q6 ⊢
      subst hr
      have hks : ks = [c] := by
        have := q4.only.2 ⟨c, hc⟩
        obtain ⟨c', rfl⟩ := List.length_eq_one_iff.1 this
        rw [hc.2 c' ((q4.1 c').1 (by simp))]
      subst hks
      cases k with
      | nil => exact absurd q5 (by simp [Rep])
      | leaf e' y r' =>
        obtain ⟨c', ns, w1, w2, w3, w4⟩ := q5
        simp only [List.cons.injEq] at w1
        obtain ⟨rfl, rfl⟩ := w1
        have hr : r' = .nil := by cases r' <;> simp [Rep] at w4 ⊢
        subst hr
        rw [hcn'] at w2
        simp only [Option.some.injEq] at w2
        subst w2
        refine ⟨_, hrep t2 c (.leaf none { y with features := Forest.addChain delim x.label y.features } .nil) hO
          ⟨c, [], rfl, hnodec, (E.inLabel c).trans h6, rfl⟩, Forest.collapse_plug delim ?_ C⟩
        rfl
      | node e' y k' r' =>
        obtain ⟨c', ns, ks, w1, w2, w3, w4, w5, w6⟩ := q5
        simp only [List.cons.injEq] at w1
        obtain ⟨rfl, rfl⟩ := w1
        have hr : r' = .nil := by cases r' <;> simp [Rep] at w6 ⊢
        subst hr
        rw [hcn'] at w2
        simp only [Option.some.injEq] at w2
        subst w2
        have hbelow : ∀ a, t.IsChild c a → ∀ m, t.Dom a m → m ≠ n ∧ m ≠ c := by
          intro a ha m hm
          refine ⟨?_, ?_⟩
          · rintro rfl
            exact S.acyclic G m ((TransGen.single hc.1).trans (TransGen.head' ha hm))
          · rintro rfl
            exact S.acyclic G m (TransGen.head' ha hm)
        have hchild : ∀ m, m ≠ n → ¬ t.IsChild m n → ∀ b, t2.IsChild m b ↔ t.IsChild m b := by
          intro m hm hmn b
          rw [hsp]
          constructor
          · rintro ⟨_, _, h | ⟨h, _⟩⟩
            · exact h
            · exact absurd h hmn
          · intro h
            refine ⟨hm, ?_, .inl h⟩
            rintro rfl
            exact hmn h
        have hnc : ¬ t.IsChild c n := by
          intro h
          exact S.acyclic G n (TransGen.tail (TransGen.single hc.1) h)
        refine ⟨_, hrep t2 c (.node none { y with features := Forest.addChain delim x.label y.features } k' .nil) hO
          ⟨c, [], ks, rfl, hnodec, (E.inLabel c).trans h6, ⟨fun b => (w4.1 b).trans (hchild c hcn hnc b).symm, ?_⟩,
            w5.congr ?_, rfl⟩, Forest.collapse_plug delim ?_ C⟩
        · refine w4.2.imp_of_mem fun {a b} ha hb hab => ?_
          have ha' := hbelow a ((w4.1 a).1 ha) a Dom.refl
          have hb' := hbelow b ((w4.1 b).1 hb) b Dom.refl
          rw [startOf_congr (hnode a ha'.1 ha'.2), startOf_congr (hnode b hb'.1 hb'.2)]
          exact hab
        · intro a ha m hm
          have hm' := hbelow a ((w4.1 a).1 ha) m hm
          refine ⟨hnode m hm'.1 hm'.2, hlab m hm'.1 hm'.2, hchild m hm'.1 ?_⟩
          intro hmn
          have := hbelow a ((w4.1 a).1 ha) n (hm.tail hmn)
          exact this.1 rfl
        · have hw : k'.width ≠ 1 := by
            rw [w5.width]
            intro hl
            obtain ⟨d, hd⟩ := w4.only.1 hl
            exact hnu d hd
          rw [Forest.collapse_node_many delim _ _ _ _ hw, Forest.collapse_node,
            Forest.collapse_node_many delim _ _ _ _ hw]
          rfl

/-- What collapsing keeps. -/
structure CInv (delim : Str) (t0 : Tree) (f0 : Forest) (t : Tree) : Prop where
  wf : t.WF
  is : ∃ f, t.Is f ∧ f.collapse delim = f0.collapse delim
  kept : ∀ n nd, t.graph.node? n = some nd → ∃ nd0 g, t0.graph.node? n = some nd0 ∧ nd = withFeats g nd0
  term : ∀ n, t.IsTerm n ↔ t0.IsTerm n
  nterm : t.nTerminals = t0.nTerminals
  len : t.graph.nodes.length = t0.graph.nodes.length
  gone : ∀ n, t0.Live n → ¬ t.Live n → ∃ c, t0.OnlyChild n c
  back : ∀ n d, t.OnlyChild n d → ∃ d', t0.OnlyChild n d'
  forth : ∀ n d, t.Live n → t0.OnlyChild n d → ∃ d', t.OnlyChild n d'
  dom : ∀ a b, t.Live a → t.Live b → (t.Dom a b ↔ t0.Dom a b)

/-- No ancestor of `T` is unary. -/
def Clear (t : Tree) (T : Nat) : Prop := ∀ a, t.Dom a T → ∀ d, ¬ t.OnlyChild a d

theorem onlyChild_splice (S : t.Shape) {n c : Nat} (hc : t.OnlyChild n c)
    (h : Splice t.IsChild t'.IsChild n) (hcn : c ≠ n) {a d : Nat} (ho : t'.OnlyChild a d) :
    a ≠ n ∧ ∃ d', t.OnlyChild a d' := by
  obtain ⟨h1, h2⟩ := ho
  obtain ⟨han, _, hx⟩ := (h a d).1 h1
  refine ⟨han, ?_⟩
  by_cases hn : t.IsChild a n
  · refine ⟨n, hn, fun b hb => ?_⟩
    by_contra hbn
    have e1 := h2 b ((h a b).2 ⟨han, hbn, .inl hb⟩)
    have e2 := h2 c ((h a c).2 ⟨han, hcn, .inr ⟨hn, hc.1⟩⟩)
    rw [e1, ← e2] at hb
    exact han (S.isChild_unique hb hc.1)
  · have hd : t.IsChild a d := by
      rcases hx with hx | ⟨hx, _⟩
      · exact hx
      · exact absurd hx hn
    refine ⟨d, hd, fun b hb => h2 b ((h a b).2 ⟨han, ?_, .inl hb⟩)⟩
    rintro rfl
    exact hn hb

theorem splice_anc {n : Nat} (h : Splice t.IsChild t'.IsChild n) {l : List Nat} : ∀ {m : Nat},
    t.Anc m l → m ≠ n → n ∉ l → t'.Anc m l := by
  induction l with
  | nil =>
    intro m ha _ _ p hp
    obtain ⟨_, _, h1 | ⟨_, h1⟩⟩ := (h p m).1 hp
    · exact ha p h1
    · exact ha n h1
  | cons p l ih =>
    intro m ha hm hl
    simp only [List.mem_cons, not_or] at hl
    exact ⟨(h p m).2 ⟨Ne.symm hl.1, hm, .inl ha.1⟩, ih ha.2 (Ne.symm hl.1) hl.2⟩

theorem parent_of_anc (S : t.Shape) {m : Nat} : ∀ {l : List Nat}, t.Anc m l →
    (t.parent m).map (·.1) = l.head? := by
  intro l ha
  cases l with
  | nil => rw [parent_none.2 ha]; rfl
  | cons p l =>
    obtain ⟨e, he⟩ := S.parent_of_isChild ha.1
    rw [he]; rfl

/-- The body of the climbing loop of `collapse_unary_chains`. -/
def collapseStep (delim : Str) (s : Tree × Nat × Option (Nat × Nat)) :
    Res ((Tree × Nat × Option (Nat × Nat)) ⊕ Tree) :=
    match s.1.climberNext s.2.2 with
    | (some (n, _), cur') => do
      let nn ← s.1.node n
      let cn ← s.1.node s.2.1
      if nn.span = cn.span then do
        let (t', r) ← s.1.removeNode n
        let nd ← Res.unwrap r
        let t'' ← pushChain delim t' s.2.1 nd.label
        return .inl (t'', s.2.1, cur')
      else
        return .inl (s.1, n, cur')
    | (none, _) => .ok (.inr s.1)

theorem collapse_climb (delim : Str) {t0 : Tree} {f0 : Forest} {T : Nat} {done : List Nat} {l : List Nat} :
    ∀ {t : Tree} {cur : Nat} {cl : Option (Nat × Nat)} {fuel : Nat}, CInv delim t0 f0 t →
      t.Dom cur T → t.Live cur → t.IsTerm T → (∀ T' ∈ done, t.IsTerm T' ∧ t.Clear T') →
      t.Anc cur l → cl.map (·.1) = l.head? → l.length < fuel →
      (∀ a, t.Dom a T → t.Dom cur a → ∀ d, ¬ t.OnlyChild a d) →
      ∃ t', loopM (collapseStep delim) fuel (t, cur, cl) = .ok t' ∧ CInv delim t0 f0 t' ∧
        ∀ T' ∈ T :: done, t'.IsTerm T' ∧ t'.Clear T' := by
  induction l with
  | nil =>
    intro t cur cl fuel I hcur hlive hT hdone hanc hcl hfuel hclear
    obtain ⟨k, rfl⟩ : ∃ k, fuel = k + 1 := ⟨fuel - 1, by omega⟩
    have hcl' : cl = none := by simpa using hcl
    subst hcl'
    refine ⟨t, loopM_succ_inr rfl, I, ?_⟩
    intro T' hT'
    rcases List.mem_cons.1 hT' with rfl | hT'
    · refine ⟨hT, fun a ha => hclear a ha ?_⟩
      rw [I.wf.shape.root_of_no_parent hlive hanc]
      exact I.wf.shape.reach a (Dom.live_left I.wf.graph ha hT.live)
    · exact hdone T' hT'
  | cons n l ih =>
    intro t cur cl fuel I hcur hlive hT hdone hanc hcl hfuel hclear
    obtain ⟨k, rfl⟩ : ∃ k, fuel = k + 1 := ⟨fuel - 1, by omega⟩
    have W := I.wf
    have S := W.shape
    have G := W.graph
    obtain ⟨e, rfl⟩ : ∃ e, cl = some (n, e) := by
      cases cl with
      | none => simp at hcl
      | some q => simp at hcl; exact ⟨q.2, by rw [← hcl]⟩
    have hch : t.IsChild n cur := hanc.1
    obtain ⟨cn, hcn⟩ := hlive
    obtain ⟨x, hx⟩ := S.parent_isNt G hch
    by_cases hs : (Node.nt x).span = cn.span
    · have ho := (span_eq_iff W hx hcn hch).1 hs
      have hnc : cur ≠ n := by rintro rfl; exact S.not_isChild_self G cur hch
      obtain ⟨f, hf, hff⟩ := I.is
      obtain ⟨t1, t', h1, h2, W', h4, h5, h6, h7, h8, h9, f', h10, h11⟩ :=
        collapseStep_spec W delim hx ho (hclear cur hcur Dom.refl) hf
      have hstep : collapseStep delim (t, cur, some (n, e)) = .ok (.inl (t', cur, t.parent n)) := by
        unfold collapseStep
        simp only [climberNext, node_eq hx, node_eq hcn, Res.ok_bind]
        rw [if_pos hs]
        simp only [h1, Res.ok_bind, Res.unwrap_ok]
        exact Res.bind_eq_ok.2 ⟨t', h2, rfl⟩
      have hnt : ∀ m, t.IsTerm m → m ≠ n := by
        rintro m ⟨y, hy⟩ rfl
        rw [hx] at hy; simp at hy
      have hterm : ∀ m, t'.IsTerm m ↔ t.IsTerm m := by
        intro m
        by_cases hmn : m = n
        · subst hmn
          unfold IsTerm
          rw [h5, hx]; simp
        · by_cases hmc : m = cur
          · subst hmc
            unfold IsTerm
            rw [h7, hcn]
            cases cn <;> simp [withFeats]
          · unfold IsTerm; rw [h6 m hmn hmc]
      have hself := S.not_isChild_self G n
      have hlive' : ∀ m, t'.Live m ↔ m ≠ n ∧ t.Live m := by
        intro m
        by_cases hmn : m = n
        · subst hmn
          simp only [ne_eq, not_true, false_and, iff_false]
          rintro ⟨y, hy⟩
          rw [h5] at hy; simp at hy
        · by_cases hmc : m = cur
          · subst hmc
            simp only [ne_eq, hmn, not_false_iff, true_and]
            unfold Live Graph.Live
            rw [h7, hcn]; simp
          · unfold Live Graph.Live; rw [h6 m hmn hmc]; simp [hmn]
      have hn_l : n ∉ l := by
        have := hanc.nodup G S
        simp only [List.nodup_cons] at this
        exact this.2.1
      have hclear' : ∀ T', t.IsTerm T' → ∀ a, t'.Dom a T' → (∀ d, ¬ t.OnlyChild a d) → ∀ d, ¬ t'.OnlyChild a d := by
        intro T' _ a _ hh d hd
        obtain ⟨_, d', hd'⟩ := onlyChild_splice S ho h4 hnc hd
        exact hh d' hd'
      rw [loopM_succ_inl hstep]
      have hdom : ∀ {a b}, t'.Dom a b → t.Dom a b := fun h => h4.dom_up h
      refine ih ⟨W', ⟨f', h10, h11.trans hff⟩, ?_, fun m => (hterm m).trans (I.term m), h8.trans I.nterm,
        h9.trans I.len, ?_, ?_, ?_, ?_⟩ ((h4.dom_iff hself hnc (hnt T hT)).2 hcur) ?_ ((hterm T).2 hT) ?_ ?_ ?_
        (by simp at hfuel; omega) ?_
      · intro m nd hm
        by_cases hmn : m = n
        · subst hmn; rw [h5] at hm; simp at hm
        · by_cases hmc : m = cur
          · subst hmc
            rw [h7, hcn] at hm
            simp only [Option.map_some, Option.some.injEq] at hm
            obtain ⟨nd0, g, k1, k2⟩ := I.kept m cn hcn
            refine ⟨nd0, fun fs => Forest.addChain delim x.label (g fs), k1, ?_⟩
            rw [← hm, k2]
            cases nd0 <;> rfl
          · rw [h6 m hmn hmc] at hm
            exact I.kept m nd hm
      · intro m hm0 hm
        by_cases hmn : m = n
        · subst hmn; exact I.back m cur ho
        · refine I.gone m hm0 fun hl => hm ((hlive' m).2 ⟨hmn, hl⟩)
      · intro m d hd
        obtain ⟨_, d', hd'⟩ := onlyChild_splice S ho h4 hnc hd
        exact I.back m d' hd'
      · intro m d hm hd
        obtain ⟨hmn, hl⟩ := (hlive' m).1 hm
        obtain ⟨d', hd'⟩ := I.forth m d hl hd
        by_cases hd'n : d' = n
        · subst hd'n
          refine ⟨cur, (h4 m cur).2 ⟨hmn, hnc, .inr ⟨hd'.1, hch⟩⟩, fun c hc => ?_⟩
          obtain ⟨_, hcn', h | ⟨_, h⟩⟩ := (h4 m c).1 hc
          · exact absurd (hd'.2 c h) hcn'
          · exact ho.2 c h
        · refine ⟨d', (h4 m d').2 ⟨hmn, hd'n, .inl hd'.1⟩, fun c hc => ?_⟩
          obtain ⟨_, hcn', h | ⟨h, _⟩⟩ := (h4 m c).1 hc
          · exact hd'.2 c h
          · exact absurd (hd'.2 n h).symm hd'n
      · intro a b ha hb
        obtain ⟨han, hal⟩ := (hlive' a).1 ha
        obtain ⟨hbn, hbl⟩ := (hlive' b).1 hb
        exact (h4.dom_iff hself han hbn).trans (I.dom a b hal hbl)
      · exact ⟨withFeats _ cn, by rw [h7, hcn]; rfl⟩
      · intro T' hT'
        obtain ⟨g1, g2⟩ := hdone T' hT'
        exact ⟨(hterm T').2 g1, fun a ha => hclear' T' g1 a ha (g2 a (hdom ha))⟩
      · -- the ancestors of `cur` are now those of `n`
        cases l with
        | nil =>
          intro p hp
          obtain ⟨hpn, _, h | ⟨h, _⟩⟩ := (h4 p cur).1 hp
          · exact hpn (S.isChild_unique h hch)
          · exact hanc.2 p h
        | cons p l =>
          have hpn : p ≠ n := by rintro rfl; exact hn_l (by simp)
          exact ⟨(h4 p cur).2 ⟨hpn, hnc, .inr ⟨hanc.2.1, hch⟩⟩,
            splice_anc h4 hanc.2.2 hpn (fun h => hn_l (by simp [h]))⟩
      · exact parent_of_anc S hanc.2
      · intro a ha hca
        exact hclear' T hT a ha (hclear a (hdom ha) (hdom hca))
    · have hstep : collapseStep delim (t, cur, some (n, e)) = .ok (.inl (t, n, t.parent n)) := by
        unfold collapseStep
        simp only [climberNext, node_eq hx, node_eq hcn, Res.ok_bind]
        rw [if_neg hs]
        rfl
      rw [loopM_succ_inl hstep]
      refine ih I (.head hch hcur) ⟨_, hx⟩ hT hdone hanc.2 (parent_of_anc S hanc.2)
        (by simp at hfuel; omega) ?_
      intro a ha hna d hd
      rcases hna.cases_child with rfl | ⟨b, hb, hb'⟩
      · have : d = cur := (hd.2 cur hch).symm
        subst this
        exact hs ((span_eq_iff W hx hcn hch).2 hd)
      · refine hclear a ha ?_ d hd
        rcases S.dom_linear (hb'.trans ha) hcur with h | h
        · -- `b` is above `cur`, and both are children of `n`
          rcases h.cases_parent with e' | ⟨p, hp, hp'⟩
          · rw [e']; exact hb'
          · exfalso
            rw [S.isChild_unique hp' hch] at hp
            exact S.acyclic G n (TransGen.head' hb hp)
        · exact h.trans hb'

theorem collapseFrom_eq (delim : Str) (t : Tree) (T : Nat) :
    t.collapseFrom delim T = loopM (collapseStep delim) t.climbFuel (t, T, t.climberNew T) := rfl

/-- `collapse_unary_chains` as a function on forests. -/
theorem collapseUnaryChains_spec (W : t.WF) (delim : Str) {f : Forest} (hf : t.Is f) :
    ∃ t', t.collapseUnaryChains delim = .ok t' ∧ CInv delim t f t' ∧ ∀ n d, ¬ t'.OnlyChild n d := by
  unfold collapseUnaryChains
  have key := forM'_rule (f := collapseFrom delim)
    (fun as t1 => CInv delim t f t1 ∧ (∀ T ∈ as, t.IsTerm T) ∧ ∃ done : List Nat,
      (∀ T, t.IsTerm T → T ∈ as ∨ T ∈ done) ∧ ∀ T ∈ done, t1.IsTerm T ∧ t1.Clear T) ?_ t.terminals t
    ⟨⟨W, ⟨f, hf, rfl⟩, ?_, fun _ => Iff.rfl, rfl, rfl, fun n h h' => absurd h h', fun n d h => ⟨d, h⟩,
      fun n d _ h => ⟨d, h⟩, fun _ _ _ _ => Iff.rfl⟩, fun T hT => mem_terminals.1 hT, [],
      fun T hT => .inl (mem_terminals.2 hT), by simp⟩
  · obtain ⟨t', h1, I, _, done, h2, h3⟩ := key
    refine ⟨t', h1, I, ?_⟩
    intro n d hd
    have hn := (isChild_live I.wf.graph hd.1).1
    obtain ⟨nd, hnd⟩ := hn
    obtain ⟨v, c⟩ := I.wf.span_spec hnd
    obtain ⟨m, m1, m2⟩ := (c _).1 v.start_mem
    rcases h2 m ((I.term m).1 m2.isTerm) with h | h
    · simp at h
    · exact (h3 m h).2 n m1 d hd
  · rintro T as t1 ⟨I, h1, done, h2, h3⟩
    have hT : t1.IsTerm T := (I.term T).2 (h1 T (by simp))
    obtain ⟨l, hl⟩ := I.wf.shape.exists_anc hT.live
    have hlen := hl.length_lt I.wf.graph I.wf.shape hT.live
    obtain ⟨t2, k1, k2, k3⟩ := collapse_climb delim (T := T) (done := done) (fuel := t1.climbFuel)
      (cl := t1.climberNew T) I
      Dom.refl hT.live hT h3 hl (parent_of_anc I.wf.shape hl) (by unfold climbFuel; omega) (by
        intro a ha hTa d hd
        have := I.wf.shape.dom_term hT hTa
        subst this
        exact I.wf.shape.term_leaf _ _ hT hd.1)
    refine ⟨t2, k1, k2, fun T' hT' => h1 T' (by simp [hT']), T :: done, ?_, k3⟩
    intro T' hT'
    rcases h2 T' hT' with h | h
    · rcases List.mem_cons.1 h with rfl | h
      · exact .inr (by simp)
      · exact .inl h
    · exact .inr (by simp [h])
  · intro n nd hn
    exact ⟨nd, id, hn, by cases nd <;> rfl⟩

end Tree
end Lumberjack
