import Verif.Proofs.Equality

/-!
# Laying out a forest in a graph

`Lay t par f tops ids` says that the nodes `tops` (attached to `par`) and everything below them are
the forest `f`, using exactly the nodes `ids`.  A graph all of whose nodes are laid out this way is a
well-formed tree: used for trees built from scratch by parsers and decoders.
-/

namespace Lumberjack

namespace Forest

/-- First positions of the trees of the forest. -/
def starts : Forest → List Nat
  | .nil => []
  | .leaf _ x r => x.span.start :: r.starts
  | .node _ x _ r => x.span.start :: r.starts

/-- Below every inner node, children are ordered by first position. -/
def Ordered : Forest → Prop
  | .nil => True
  | .leaf _ _ r => r.Ordered
  | .node _ _ k r => k.starts.Pairwise (· < ·) ∧ k.Ordered ∧ r.Ordered

/-- Every inner node has children. -/
def Full : Forest → Prop
  | nil => True
  | leaf _ _ r => r.Full
  | node _ _ k r => k ≠ nil ∧ k.Full ∧ r.Full

theorem Good.full {f : Forest} (h : f.Good) : f.Full := by
  induction f with
  | nil => trivial
  | leaf e x r ih => exact ih h.2.2
  | node e x k r ihk ih => exact ⟨h.1, ihk h.2.2.2.2.1, ih h.2.2.2.2.2⟩

end Forest

namespace Tree

/-- `n` is attached to `par` by a primary edge with label `e`. -/
def Attach (t : Tree) (par : Option Nat) (n : Nat) (e : Option Str) : Prop :=
  match par with
  | none => e = none
  | some p => ∃ r ∈ t.graph.edges, r.src = p ∧ r.tgt = n ∧ r.w = .primary e

/-- See the head of the file. -/
def Lay (t : Tree) : Option Nat → Forest → List Nat → List Nat → Prop
  | _, .nil, tops, ids => tops = [] ∧ ids = []
  | par, .leaf e x r, tops, ids => ∃ n ns is, tops = n :: ns ∧ ids = n :: is ∧
      t.graph.node? n = some (.term x) ∧ t.Attach par n e ∧ (∀ c, ¬ t.IsChild n c) ∧
      t.Lay par r ns is
  | par, .node e x k r, tops, ids => ∃ n ns ks ik is, tops = n :: ns ∧ ids = n :: (ik ++ is) ∧
      t.graph.node? n = some (.nt x) ∧ t.Attach par n e ∧ (∀ c, t.IsChild n c ↔ c ∈ ks) ∧
      t.Lay (some n) k ks ik ∧ t.Lay par r ns is

variable {t : Tree}

theorem Lay.tops_sub {f : Forest} : ∀ {par : Option Nat} {tops ids : List Nat}, t.Lay par f tops ids →
    ∀ n ∈ tops, n ∈ ids := by
  induction f with
  | nil => rintro par tops ids ⟨rfl, rfl⟩; simp
  | leaf e x r ih =>
    rintro par tops ids ⟨n, ns, is, rfl, rfl, -, -, -, h⟩ m hm
    rcases List.mem_cons.1 hm with rfl | hm
    · exact List.mem_cons_self
    · exact List.mem_cons_of_mem _ (ih h m hm)
  | node e x k r ihk ih =>
    rintro par tops ids ⟨n, ns, ks, ik, is, rfl, rfl, -, -, -, -, h⟩ m hm
    rcases List.mem_cons.1 hm with rfl | hm
    · exact List.mem_cons_self
    · exact List.mem_cons_of_mem _ (List.mem_append_right _ (ih h m hm))

theorem Lay.nil_of_tops {f : Forest} {par : Option Nat} {ids : List Nat} (h : t.Lay par f [] ids) :
    f = .nil := by
  cases f with
  | nil => rfl
  | leaf e x r => obtain ⟨_, _, _, h, _⟩ := h; simp at h
  | node e x k r => obtain ⟨_, _, _, _, _, h, _⟩ := h; simp at h

/-- Children of laid-out nodes are laid-out nodes, not at the top, and have only one parent. -/
theorem Lay.child {f : Forest} : ∀ {par : Option Nat} {tops ids : List Nat}, t.Lay par f tops ids →
    ids.Nodup →
    (∀ p ∈ ids, ∀ c, t.IsChild p c → c ∈ ids ∧ c ∉ tops) ∧
    (∀ p ∈ ids, ∀ q ∈ ids, ∀ c, t.IsChild p c → t.IsChild q c → p = q) := by
  induction f with
  | nil => rintro par tops ids ⟨rfl, rfl⟩ -; simp
  | leaf e x r ih =>
    rintro par tops ids ⟨n, ns, is, rfl, rfl, -, -, hno, h⟩ hnd
    rw [List.nodup_cons] at hnd
    obtain ⟨h1, h2⟩ := ih h hnd.2
    constructor
    · intro p hp c hc
      rcases List.mem_cons.1 hp with rfl | hp
      · exact absurd hc (hno c)
      · obtain ⟨h3, h4⟩ := h1 p hp c hc
        refine ⟨List.mem_cons_of_mem _ h3, ?_⟩
        rw [List.mem_cons]; rintro (rfl | h5)
        · exact hnd.1 h3
        · exact h4 h5
    · intro p hp q hq c hc hc'
      rcases List.mem_cons.1 hp with rfl | hp
      · exact absurd hc (hno c)
      rcases List.mem_cons.1 hq with rfl | hq
      · exact absurd hc' (hno c)
      exact h2 p hp q hq c hc hc'
  | node e x k r ihk ih =>
    rintro par tops ids ⟨n, ns, ks, ik, is, rfl, rfl, -, -, hks, hk, h⟩ hnd
    rw [List.nodup_cons, List.nodup_append] at hnd
    obtain ⟨hn, hnk, hnr, hdis⟩ := hnd
    obtain ⟨h1, h2⟩ := ih h hnr
    obtain ⟨k1, k2⟩ := ihk hk hnk
    have top : ∀ c, t.IsChild n c → c ∈ ik := fun c hc => hk.tops_sub _ ((hks c).1 hc)
    have cls : ∀ p, p ∈ n :: (ik ++ is) → ∀ c, t.IsChild p c →
        (p = n ∧ c ∈ ks ∧ c ∈ ik) ∨ (p ∈ ik ∧ c ∈ ik ∧ c ∉ ks) ∨ (p ∈ is ∧ c ∈ is ∧ c ∉ ns) := by
      intro p hp c hc
      rcases List.mem_cons.1 hp with rfl | hp
      · exact .inl ⟨rfl, (hks c).1 hc, top c hc⟩
      · rcases List.mem_append.1 hp with hp | hp
        · exact .inr (.inl ⟨hp, k1 p hp c hc⟩)
        · exact .inr (.inr ⟨hp, h1 p hp c hc⟩)
    constructor
    · intro p hp c hc
      rcases cls p hp c hc with ⟨-, -, h3⟩ | ⟨-, h3, -⟩ | ⟨-, h3, h4⟩
      · refine ⟨List.mem_cons_of_mem _ (List.mem_append_left _ h3), ?_⟩
        rw [List.mem_cons]; rintro (rfl | h5)
        · exact hn (List.mem_append_left _ h3)
        · exact hdis _ h3 _ (h.tops_sub _ h5) rfl
      · refine ⟨List.mem_cons_of_mem _ (List.mem_append_left _ h3), ?_⟩
        rw [List.mem_cons]; rintro (rfl | h5)
        · exact hn (List.mem_append_left _ h3)
        · exact hdis _ h3 _ (h.tops_sub _ h5) rfl
      · refine ⟨List.mem_cons_of_mem _ (List.mem_append_right _ h3), ?_⟩
        rw [List.mem_cons]; rintro (rfl | h5)
        · exact hn (List.mem_append_right _ h3)
        · exact h4 h5
    · intro p hp q hq c hc hc'
      rcases cls p hp c hc with ⟨rfl, a2, a3⟩ | ⟨a1, a2, a3⟩ | ⟨a1, a2, a3⟩ <;>
      rcases cls q hq c hc' with ⟨rfl, b2, b3⟩ | ⟨b1, b2, b3⟩ | ⟨b1, b2, b3⟩
      · rfl
      · exact absurd a2 b3
      · exact absurd rfl (hdis _ a3 _ b2)
      · exact absurd b2 a3
      · exact k2 p a1 q b1 c hc hc'
      · exact absurd rfl (hdis _ a2 _ b2)
      · exact absurd rfl (hdis _ b3 _ a2)
      · exact absurd rfl (hdis _ b2 _ a2)
      · exact h2 p a1 q b1 c hc hc'

theorem Lay.reach {f : Forest} : ∀ {par : Option Nat} {tops ids : List Nat}, t.Lay par f tops ids →
    ∀ n ∈ ids, ∃ m ∈ tops, t.Dom m n := by
  induction f with
  | nil => rintro par tops ids ⟨rfl, rfl⟩; simp
  | leaf e x r ih =>
    rintro par tops ids ⟨n, ns, is, rfl, rfl, -, -, hno, h⟩ p hp
    rcases List.mem_cons.1 hp with rfl | hp
    · exact ⟨p, List.mem_cons_self, Dom.refl⟩
    · obtain ⟨m, hm, hd⟩ := ih h p hp
      exact ⟨m, List.mem_cons_of_mem _ hm, hd⟩
  | node e x k r ihk ih =>
    rintro par tops ids ⟨n, ns, ks, ik, is, rfl, rfl, -, -, hks, hk, h⟩ p hp
    rcases List.mem_cons.1 hp with rfl | hp
    · exact ⟨p, List.mem_cons_self, Dom.refl⟩
    rcases List.mem_append.1 hp with hp | hp
    · obtain ⟨m, hm, hd⟩ := ihk hk p hp
      exact ⟨n, List.mem_cons_self, Dom.head ((hks m).2 hm) hd⟩
    · obtain ⟨m, hm, hd⟩ := ih h p hp
      exact ⟨m, List.mem_cons_of_mem _ hm, hd⟩

theorem Lay.kind {f : Forest} : ∀ {par : Option Nat} {tops ids : List Nat}, t.Lay par f tops ids →
    f.Full → ∀ n ∈ ids, (t.IsTerm n ∧ ∀ c, ¬ t.IsChild n c) ∨ (t.IsNt n ∧ ∃ c, t.IsChild n c) := by
  induction f with
  | nil => rintro par tops ids ⟨rfl, rfl⟩; simp
  | leaf e x r ih =>
    rintro par tops ids ⟨n, ns, is, rfl, rfl, hn, -, hno, h⟩ hg p hp
    rcases List.mem_cons.1 hp with rfl | hp
    · exact .inl ⟨⟨x, hn⟩, hno⟩
    · exact ih h hg p hp
  | node e x k r ihk ih =>
    rintro par tops ids ⟨n, ns, ks, ik, is, rfl, rfl, hn, -, hks, hk, h⟩ hg p hp
    rcases List.mem_cons.1 hp with rfl | hp
    · refine .inr ⟨⟨x, hn⟩, ?_⟩
      cases ks with
      | nil => exact absurd hk.nil_of_tops hg.1
      | cons c ks => exact ⟨c, (hks c).2 List.mem_cons_self⟩
    rcases List.mem_append.1 hp with hp | hp
    · exact ihk hk hg.2.1 p hp
    · exact ih h hg.2.2 p hp

theorem Lay.covers {f : Forest} : ∀ {par : Option Nat} {tops ids : List Nat}, t.Shape →
    t.Lay par f tops ids → f.Good →
    (∀ i, i ∈ f.cov ↔ ∃ n ∈ tops, t.Covers n i) ∧
    (∀ n ∈ ids, ∀ x, t.graph.node? n = some (.nt x) →
      x.span.Valid ∧ ∀ i, x.span.contains i = true ↔ t.Covers n i) ∧
    (∀ n ∈ ids, ∀ x, t.graph.node? n = some (.term x) →
      x.span = Span.ofIdx x.span.start ∧ x.span.start ∈ f.cov) ∧
    (∀ n ∈ ids, ∀ m ∈ ids, ∀ i, t.TermAt n i → t.TermAt m i → n = m) := by
  induction f with
  | nil => rintro par tops ids - ⟨rfl, rfl⟩ -; simp [Forest.cov]
  | leaf e x r ih =>
    rintro par tops ids S ⟨n, ns, is, rfl, rfl, hn, -, hno, h⟩ ⟨g1, g2, g3⟩
    obtain ⟨i1, i2, i3, i4⟩ := ih S h g3
    have hta : ∀ i, t.TermAt n i ↔ i = x.span.start := by
      intro i; constructor
      · rintro ⟨y, hy, hs⟩
        rw [hn] at hy; simp at hy; subst hy; rw [hs]; rfl
      · rintro rfl; exact ⟨x, hn, g1⟩
    have hout : ∀ m ∈ is, ∀ i, t.TermAt m i → i ∈ r.cov := by
      rintro m hm i ⟨y, hy, hs⟩
      have := (i3 m hm y hy).2
      rw [hs] at this; exact this
    refine ⟨?_, ?_, ?_, ?_⟩
    · intro i
      simp only [Forest.cov, Finset.mem_insert, List.mem_cons, exists_eq_or_imp, i1,
        covers_term S ⟨x, hn⟩, hta]
    · intro m hm y hy
      rcases List.mem_cons.1 hm with rfl | hm
      · rw [hn] at hy; simp at hy
      · exact i2 m hm y hy
    · intro m hm y hy
      rcases List.mem_cons.1 hm with rfl | hm
      · rw [hn] at hy; simp at hy; subst hy; exact ⟨g1, Finset.mem_insert_self _ _⟩
      · exact ⟨(i3 m hm y hy).1, Finset.mem_insert_of_mem (i3 m hm y hy).2⟩
    · intro a ha b hb i hai hbi
      rcases List.mem_cons.1 ha with rfl | ha' <;> rcases List.mem_cons.1 hb with rfl | hb'
      · rfl
      · have := hout b hb' i hbi; rw [(hta i).1 hai] at this; exact absurd this g2
      · have := hout a ha' i hai; rw [(hta i).1 hbi] at this; exact absurd this g2
      · exact i4 a ha' b hb' i hai hbi
  | node e x k r ihk ih =>
    rintro par tops ids S ⟨n, ns, ks, ik, is, rfl, rfl, hn, -, hks, hk, h⟩ ⟨g1, g2, g3, g4, g5, g6⟩
    obtain ⟨i1, i2, i3, i4⟩ := ih S h g6
    obtain ⟨k1, k2, k3, k4⟩ := ihk S hk g5
    have hcov : ∀ i, t.Covers n i ↔ i ∈ k.cov := by
      intro i; rw [covers_nt ⟨x, hn⟩, k1]; simp only [hks]
    have hk' : ∀ m ∈ ik, ∀ i, t.TermAt m i → i ∈ k.cov := by
      rintro m hm i ⟨y, hy, hs⟩
      have := (k3 m hm y hy).2
      rw [hs] at this; exact this
    have hr' : ∀ m ∈ is, ∀ i, t.TermAt m i → i ∈ r.cov := by
      rintro m hm i ⟨y, hy, hs⟩
      have := (i3 m hm y hy).2
      rw [hs] at this; exact this
    have hnn : ∀ i, ¬ t.TermAt n i := fun i hi => not_isTerm_isNt hi.isTerm ⟨x, hn⟩
    refine ⟨?_, ?_, ?_, ?_⟩
    · intro i
      simp only [Forest.cov, Finset.mem_union, List.mem_cons, exists_eq_or_imp, i1, hcov]
    · intro m hm y hy
      rcases List.mem_cons.1 hm with rfl | hm
      · rw [hn] at hy; simp at hy; subst hy
        exact ⟨g2, fun i => by rw [hcov]; exact g3 i⟩
      · rcases List.mem_append.1 hm with hm | hm
        · exact k2 m hm y hy
        · exact i2 m hm y hy
    · intro m hm y hy
      rcases List.mem_cons.1 hm with rfl | hm
      · rw [hn] at hy; simp at hy
      · rcases List.mem_append.1 hm with hm | hm
        · exact ⟨(k3 m hm y hy).1, Finset.mem_union_left _ (k3 m hm y hy).2⟩
        · exact ⟨(i3 m hm y hy).1, Finset.mem_union_right _ (i3 m hm y hy).2⟩
    · intro a ha b hb i hai hbi
      rcases List.mem_cons.1 ha with rfl | ha
      · exact absurd hai (hnn i)
      rcases List.mem_cons.1 hb with rfl | hb
      · exact absurd hbi (hnn i)
      rcases List.mem_append.1 ha with ha | ha <;> rcases List.mem_append.1 hb with hb | hb
      · exact k4 a ha b hb i hai hbi
      · exact absurd (hr' b hb i hbi) (Finset.disjoint_left.1 g4 (hk' a ha i hai))
      · exact absurd (hr' a ha i hai) (Finset.disjoint_left.1 g4 (hk' b hb i hbi))
      · exact i4 a ha b hb i hai hbi

theorem Lay.starts {f : Forest} : ∀ {par : Option Nat} {tops ids : List Nat}, t.Lay par f tops ids →
    tops.map t.startOf = f.starts := by
  induction f with
  | nil => rintro par tops ids ⟨rfl, rfl⟩; rfl
  | leaf e x r ih =>
    rintro par tops ids ⟨n, ns, is, rfl, rfl, hn, -, hno, h⟩
    rw [List.map_cons, ih h, startOf_of_node? hn]; rfl
  | node e x k r ihk ih =>
    rintro par tops ids ⟨n, ns, ks, ik, is, rfl, rfl, hn, -, hks, hk, h⟩
    rw [List.map_cons, ih h, startOf_of_node? hn]; rfl

theorem Attach.inLabel (S : t.Shape) {p n : Nat} {e : Option Str} (h : t.Attach (some p) n e) :
    t.inLabel n = e := by
  obtain ⟨r, hr, -, rfl, hw⟩ := h
  unfold Tree.inLabel
  rw [S.edgeLabel_of_edge hr (by rw [hw]; rfl), hw]; rfl

theorem Lay.rep {f : Forest} : ∀ {par : Option Nat} {tops ids : List Nat}, t.Shape →
    t.Lay par f tops ids → (par = none → ∀ n ∈ tops, n = t.root) → f.Ordered → t.Rep tops f := by
  induction f with
  | nil => rintro par tops ids - ⟨rfl, rfl⟩ - -; rfl
  | leaf e x r ih =>
    rintro par tops ids S ⟨n, ns, is, rfl, rfl, hn, ha, hno, h⟩ hr ho
    refine ⟨n, ns, rfl, hn, ?_, ih S h (fun hp m hm => hr hp m (List.mem_cons_of_mem _ hm)) ho⟩
    cases par with
    | none => rw [hr rfl n List.mem_cons_self, inLabel_root S]; exact ha.symm
    | some p => exact ha.inLabel S
  | node e x k r ihk ih =>
    rintro par tops ids S ⟨n, ns, ks, ik, is, rfl, rfl, hn, ha, hks, hk, h⟩ hr ⟨ho1, ho2, ho3⟩
    refine ⟨n, ns, ks, rfl, hn, ?_, ⟨fun c => (hks c).symm, ?_⟩, ihk S hk (by simp) ho2,
      ih S h (fun hp m hm => hr hp m (List.mem_cons_of_mem _ hm)) ho3⟩
    · cases par with
      | none => rw [hr rfl n List.mem_cons_self, inLabel_root S]; exact ha.symm
      | some p => exact ha.inLabel S
    · have := hk.starts
      rw [← this, List.pairwise_map] at ho1; exact ho1

/-- A graph that is nothing but the layout of a full one-tree forest is a tree. -/
theorem shape_of_lay (G : t.graph.OK) {f : Forest} {ids : List Nat} (h : t.Lay none f [t.root] ids)
    (hnd : ids.Nodup) (hlive : ∀ n, t.Live n → n ∈ ids)
    (hsimple : ∀ r ∈ t.graph.edges, ∀ s ∈ t.graph.edges, r.src = s.src → r.tgt = s.tgt →
      r.w.isPrimary = true → s.w.isPrimary = true → r = s)
    (hfull : f.Full) : t.Shape := by
  obtain ⟨c1, c2⟩ := h.child hnd
  have hk := h.kind hfull
  have hroot : t.root ∈ ids := h.tops_sub _ List.mem_cons_self
  constructor
  · rcases hk _ hroot with ⟨h1, -⟩ | ⟨h1, -⟩
    · exact h1.live
    · exact h1.live
  · intro p hp
    exact (c1 p (hlive p (isChild_live G hp).1) _ hp).2 List.mem_cons_self
  · intro r hr s hs he hp hp'
    have h1 : t.IsChild r.src r.tgt := ⟨r, hr, rfl, rfl, hp⟩
    have h2 : t.IsChild s.src r.tgt := ⟨s, hs, rfl, he.symm, hp'⟩
    exact hsimple r hr s hs (c2 _ (hlive _ (isChild_live G h1).1) _ (hlive _ (isChild_live G h2).1)
      _ h1 h2) he hp hp'
  · intro n hn
    obtain ⟨m, hm, hd⟩ := h.reach n (hlive n hn)
    rw [List.mem_singleton] at hm; subst hm; exact hd
  · intro n c hn
    rcases hk n (hlive n hn.live) with ⟨-, h1⟩ | ⟨h1, -⟩
    · exact h1 c
    · exact absurd h1 (not_isTerm_isNt hn)
  · intro n hn
    rcases hk n (hlive n hn.live) with ⟨h1, -⟩ | ⟨-, h1⟩
    · exact absurd hn (not_isTerm_isNt h1)
    · exact h1

/-- A graph that is nothing but the layout of a good one-tree forest is a well-formed tree. -/
theorem wf_of_lay (G : t.graph.OK) {f : Forest} {ids : List Nat} (h : t.Lay none f [t.root] ids)
    (hnd : ids.Nodup) (hlive : ∀ n, t.Live n → n ∈ ids)
    (hsimple : ∀ r ∈ t.graph.edges, ∀ s ∈ t.graph.edges, r.src = s.src → r.tgt = s.tgt →
      r.w.isPrimary = true → s.w.isPrimary = true → r = s)
    (hgood : f.Good) (hcov : f.cov = Finset.range t.nTerminals) (hcount : t.CountOK) :
    t.WF ∧ (f.Ordered → t.Is f) := by
  have S : t.Shape := shape_of_lay G h hnd hlive hsimple hgood.full
  obtain ⟨v1, v2, v3, v4⟩ := h.covers S hgood
  refine ⟨⟨G, S, ⟨?_, ?_, ?_⟩, ?_, hcount⟩, ?_⟩
  · rintro n ⟨x, hx⟩
    obtain ⟨h1, h2⟩ := v3 n (hlive n ⟨_, hx⟩) x hx
    rw [hcov, Finset.mem_range] at h2
    exact ⟨_, h2, x, hx, h1⟩
  · intro i hi
    rw [← Finset.mem_range, ← hcov, v1] at hi
    obtain ⟨n, -, m, -, hm⟩ := hi
    exact ⟨m, hm⟩
  · intro n m i hn hm
    exact v4 n (hlive n hn.isTerm.live) m (hlive m hm.isTerm.live) i hn hm
  · intro n x hx
    exact v2 n (hlive n ⟨_, hx⟩) x hx
  · intro ho
    exact h.rep S (fun _ n hn => by simpa using hn) ho

end Tree
end Lumberjack
