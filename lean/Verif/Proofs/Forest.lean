import Verif.Spec.Forest
import Verif.Proofs.TreeQuery

/-!
# The forest a tree stands for
-/

namespace Lumberjack

theorem Forest.append_nil (f : Forest) : f.append .nil = f := by
  induction f with
  | nil => rfl
  | leaf e x r ih => simp [Forest.append, ih]
  | node e x k r _ ih => simp [Forest.append, ih]

theorem Forest.append_assoc (f g h : Forest) : (f.append g).append h = f.append (g.append h) := by
  induction f with
  | nil => rfl
  | leaf e x r ih => simp [Forest.append, ih]
  | node e x k r _ ih => simp [Forest.append, ih]

theorem Forest.leaves_append (f g : Forest) : (f.append g).leaves = f.leaves ++ g.leaves := by
  induction f with
  | nil => rfl
  | leaf e x r ih => simp [Forest.append, Forest.leaves, ih]
  | node e x k r _ ih => simp [Forest.append, Forest.leaves, ih]

namespace Tree

variable {t t' : Tree}

theorem startOf_of_node? {n : Nat} {nd : Node} (h : t.graph.node? n = some nd) :
    t.startOf n = nd.span.start := by unfold startOf; rw [h]

theorem WF.startOf_spec (W : t.WF) {a : Nat} (ha : t.Live a) :
    t.Covers a (t.startOf a) ∧ ∀ j, t.Covers a j → t.startOf a ≤ j := by
  obtain ⟨nd, hnd⟩ := ha
  obtain ⟨hv, hc⟩ := W.span_spec hnd
  rw [startOf_of_node? hnd]
  exact ⟨(hc _).1 hv.start_mem, fun j hj => Span.start_le_of_mem ((hc j).2 hj)⟩

theorem WF.startOf_inj_child (W : t.WF) {n a b : Nat} (ha : t.IsChild n a) (hb : t.IsChild n b)
    (h : t.startOf a = t.startOf b) : a = b := by
  have h1 := (W.startOf_spec (isChild_live W.graph ha).2).1
  have h2 := (W.startOf_spec (isChild_live W.graph hb).2).1
  rw [h] at h1
  rcases covers_disjoint W.shape W.sentence.inj h1 h2 with h | h
  · exact W.shape.siblings_not_dom W.graph ha hb h
  · exact (W.shape.siblings_not_dom W.graph hb ha h).symm

/-- The children of a node, sorted as the code does it. -/
def kidsOf (t : Tree) (n : Nat) : List Nat := t.sortIndices ((t.children n).map (·.1))

theorem WF.kidsOf (W : t.WF) (n : Nat) : t.Kids n (t.kidsOf n) := by
  have hl : ∀ a ∈ (t.children n).map (·.1), t.IsChild n a := fun a ha => mem_children_fst.1 ha
  refine ⟨fun c => ?_, ?_⟩
  · unfold Tree.kidsOf
    rw [(sortIndices_perm _).mem_iff, mem_children_fst]
  · exact sortIndices_strict (fun a ha => (isChild_live W.graph (hl a ha)).2)
      (children_nodup W.graph W.shape n)
      (fun a ha b hb => W.startOf_inj_child (hl a ha) (hl b hb))

theorem Kids.nodup {n : Nat} {ks : List Nat} (h : t.Kids n ks) : ks.Nodup :=
  h.2.imp (fun {a b} hab e => by subst e; omega)

theorem Kids.unique {n : Nat} {ks ks' : List Nat} (h : t.Kids n ks) (h' : t.Kids n ks') : ks = ks' := by
  refine eq_of_perm_sorted ?_ h.2 h'.2
  rw [List.perm_ext_iff_of_nodup h.nodup h'.nodup]
  intro c
  rw [h.1, h'.1]

theorem Kids.eq_kidsOf (W : t.WF) {n : Nat} {ks : List Nat} (h : t.Kids n ks) : ks = t.kidsOf n :=
  h.unique (W.kidsOf n)

theorem Rep.unique {f : Forest} : ∀ {ids : List Nat} {g : Forest}, t.Rep ids f → t.Rep ids g → f = g := by
  induction f with
  | nil =>
    intro ids g h1 h2
    cases g with
    | nil => rfl
    | leaf e x r => obtain ⟨n, ns, h3, _⟩ := h2; rw [show ids = [] from h1] at h3; simp at h3
    | node e x k r => obtain ⟨n, ns, ks, h3, _⟩ := h2; rw [show ids = [] from h1] at h3; simp at h3
  | leaf e x r ih =>
    intro ids g h1 h2
    obtain ⟨n, ns, rfl, h4, h5, h6⟩ := h1
    cases g with
    | nil => exact absurd h2 (by simp [Rep])
    | leaf e' x' r' =>
      obtain ⟨n', ns', k3, k4, k5, k6⟩ := h2
      simp only [List.cons.injEq] at k3
      obtain ⟨rfl, rfl⟩ := k3
      rw [h4] at k4
      simp only [Option.some.injEq, Node.term.injEq] at k4
      rw [ih h6 k6, ← h5, ← k5, k4]
    | node e' x' k' r' =>
      obtain ⟨n', ns', ks', k3, k4, _⟩ := h2
      simp only [List.cons.injEq] at k3
      obtain ⟨rfl, rfl⟩ := k3
      rw [h4] at k4; simp at k4
  | node e x k r ihk ihr =>
    intro ids g h1 h2
    obtain ⟨n, ns, ks, rfl, h4, h5, h6, h7, h8⟩ := h1
    cases g with
    | nil => exact absurd h2 (by simp [Rep])
    | leaf e' x' r' =>
      obtain ⟨n', ns', k3, k4, _⟩ := h2
      simp only [List.cons.injEq] at k3
      obtain ⟨rfl, rfl⟩ := k3
      rw [h4] at k4; simp at k4
    | node e' x' k' r' =>
      obtain ⟨n', ns', ks', k3, k4, k5, k6, k7, k8⟩ := h2
      simp only [List.cons.injEq] at k3
      obtain ⟨rfl, rfl⟩ := k3
      rw [h4] at k4
      simp only [Option.some.injEq, Node.nt.injEq] at k4
      have := h6.unique k6
      subst this
      rw [ihk h7 k7, ihr h8 k8, ← h5, ← k5, k4]

theorem Rep.append {f : Forest} : ∀ {ids ids' : List Nat} {g : Forest}, t.Rep ids f → t.Rep ids' g →
    t.Rep (ids ++ ids') (f.append g) := by
  induction f with
  | nil => intro ids ids' g h1 h2; rw [show ids = [] from h1]; exact h2
  | leaf e x r ih =>
    intro ids ids' g h1 h2
    obtain ⟨n, ns, rfl, h4, h5, h6⟩ := h1
    exact ⟨n, ns ++ ids', rfl, h4, h5, ih h6 h2⟩
  | node e x k r ihk ihr =>
    intro ids ids' g h1 h2
    obtain ⟨n, ns, ks, rfl, h4, h5, h6, h7, h8⟩ := h1
    exact ⟨n, ns ++ ids', ks, rfl, h4, h5, h6, h7, ihr h8 h2⟩

theorem Rep.exists_list {ids : List Nat} (h : ∀ n ∈ ids, ∃ f, t.Rep [n] f) : ∃ f, t.Rep ids f := by
  induction ids with
  | nil => exact ⟨.nil, rfl⟩
  | cons n ns ih =>
    obtain ⟨f, hf⟩ := h n List.mem_cons_self
    obtain ⟨g, hg⟩ := ih (fun m hm => h m (List.mem_cons_of_mem _ hm))
    exact ⟨f.append g, hf.append hg⟩

/-- Every node of a well-formed tree stands for a forest with one tree. -/
theorem WF.rep_exists (W : t.WF) : ∀ n, t.Live n → ∃ f, t.Rep [n] f := by
  refine W.shape.induction_up W.graph (fun n hn ih => ?_)
  rcases live_iff.1 hn with ⟨x, hx⟩ | ⟨x, hx⟩
  · exact ⟨.leaf (t.inLabel n) x .nil, n, [], rfl, hx, rfl, rfl⟩
  · have hk := W.kidsOf n
    obtain ⟨f, hf⟩ := Rep.exists_list (t := t) (ids := t.kidsOf n) (fun c hc => ih c ((hk.1 c).1 hc))
    exact ⟨.node (t.inLabel n) x f .nil, n, [], _, rfl, hx, rfl, hk, hf, rfl⟩

theorem WF.is_exists (W : t.WF) : ∃ f, t.Is f := W.rep_exists _ W.shape.root_live

theorem WF.rep_list (W : t.WF) {ids : List Nat} (h : ∀ n ∈ ids, t.Live n) : ∃ f, t.Rep ids f :=
  Rep.exists_list (fun n hn => W.rep_exists n (h n hn))

/-! ## Edge labels -/

theorem Shape.edgeLabel_of_edge (S : t.Shape) {r : EdgeRec} (hr : r ∈ t.graph.edges)
    (hp : r.w.isPrimary = true) : t.edgeLabel r.tgt = some r.w := by
  unfold edgeLabel
  cases h : t.graph.edges.find? (fun s => decide (s.tgt = r.tgt) && s.w.isPrimary) with
  | none => exact absurd (List.find?_eq_none.1 h r hr) (by simp [hp])
  | some s =>
    have h1 := List.find?_some h
    have h2 := List.mem_of_find?_eq_some h
    simp only [Bool.and_eq_true, decide_eq_true_eq] at h1
    rw [S.unique s h2 r hr h1.1 h1.2 hp]; rfl

theorem edgeLabel_none {n : Nat} (h : ∀ p, ¬ t.IsChild p n) : t.edgeLabel n = none := by
  unfold edgeLabel
  rw [List.find?_eq_none.2]
  · rfl
  · intro r hr hc
    simp only [Bool.and_eq_true, decide_eq_true_eq] at hc
    exact h r.src ⟨r, hr, rfl, hc.1, hc.2⟩

theorem edgeLabel_primary {n : Nat} {w : Edge} (h : t.edgeLabel n = some w) : ∃ l, w = .primary l := by
  unfold edgeLabel at h
  rw [Option.map_eq_some_iff] at h
  obtain ⟨r, h1, rfl⟩ := h
  have h1 := List.find?_some h1
  simp only [Bool.and_eq_true, decide_eq_true_eq] at h1
  cases hw : r.w with
  | primary l => exact ⟨l, rfl⟩
  | secondary l => rw [hw] at h1; simp [Edge.isPrimary] at h1

theorem inLabel_root (S : t.Shape) : t.inLabel t.root = none := by
  unfold inLabel; rw [edgeLabel_none S.root_top]; rfl

theorem edgeLabel_eq_of_inLabel {n : Nat} {p : Nat} (S : t.Shape) (h : t.IsChild p n) :
    t.edgeLabel n = some (.primary (t.inLabel n)) := by
  obtain ⟨r, hr, rfl, rfl, hw⟩ := h
  have := S.edgeLabel_of_edge hr hw
  obtain ⟨l, hl⟩ := edgeLabel_primary this
  unfold inLabel
  rw [this, hl]; rfl

/-! ## Covered positions -/

/-- The positions of the leaves. -/
def _root_.Lumberjack.Forest.cov : Forest → Finset Nat
  | .nil => ∅
  | .leaf _ x r => insert x.span.start r.cov
  | .node _ _ k r => k.cov ∪ r.cov

/-- Spans agree with the leaves, siblings are disjoint, inner nodes have children. -/
def _root_.Lumberjack.Forest.Good : Forest → Prop
  | .nil => True
  | .leaf _ x r => x.span = Span.ofIdx x.span.start ∧ x.span.start ∉ r.cov ∧ r.Good
  | .node _ x k r => k ≠ .nil ∧ x.span.Valid ∧ (∀ i, x.span.contains i = true ↔ i ∈ k.cov) ∧
      Disjoint k.cov r.cov ∧ k.Good ∧ r.Good

theorem _root_.Lumberjack.Forest.Good.cov_nonempty {f : Forest} (h : f.Good) (hf : f ≠ .nil) : f.cov.Nonempty := by
  induction f with
  | nil => exact absurd rfl hf
  | leaf e x r => exact ⟨_, Finset.mem_insert_self _ _⟩
  | node e x k r ihk _ => exact (ihk h.2.2.2.2.1 h.1).mono Finset.subset_union_left

theorem WF.rep_good (W : t.WF) {f : Forest} : ∀ {ids : List Nat}, t.Rep ids f →
    ids.Pairwise (fun a b => ¬ t.Dom a b ∧ ¬ t.Dom b a) →
    f.Good ∧ ∀ i, i ∈ f.cov ↔ ∃ n ∈ ids, t.Covers n i := by
  induction f with
  | nil => intro ids h _; rw [show ids = [] from h]; simp [Forest.Good, Forest.cov]
  | leaf e x r ih =>
    intro ids h hp
    obtain ⟨n, ns, rfl, h4, h5, h6⟩ := h
    rw [List.pairwise_cons] at hp
    obtain ⟨ih1, ih2⟩ := ih h6 hp.2
    obtain ⟨i, _, y, hy, hs⟩ := W.sentence.pos n ⟨x, h4⟩
    rw [h4] at hy
    simp only [Option.some.injEq, Node.term.injEq] at hy
    subst hy
    have hc : ∀ j, t.Covers n j ↔ j = x.span.start := by
      intro j
      rw [covers_term W.shape ⟨x, h4⟩, hs]
      constructor
      · intro hj; exact hj.pos_unique ⟨x, h4, hs⟩
      · rintro rfl; exact ⟨x, h4, hs⟩
    refine ⟨⟨by rw [hs]; rfl, ?_, ih1⟩, ?_⟩
    · intro hm
      obtain ⟨m, hm1, hm2⟩ := (ih2 _).1 hm
      rcases covers_disjoint W.shape W.sentence.inj ((hc _).2 rfl) hm2 with h | h
      · exact (hp.1 m hm1).1 h
      · exact (hp.1 m hm1).2 h
    · intro j
      simp only [Forest.cov, Finset.mem_insert, ih2, List.mem_cons, exists_eq_or_imp, hc]
  | node e x k r ihk ihr =>
    intro ids h hp
    obtain ⟨n, ns, ks, rfl, h4, h5, h6, h7, h8⟩ := h
    rw [List.pairwise_cons] at hp
    have hks : ks.Pairwise (fun a b => ¬ t.Dom a b ∧ ¬ t.Dom b a) := by
      refine h6.nodup.imp_of_mem (fun {a b} ha hb hab => ?_)
      have ha' := (h6.1 a).1 ha
      have hb' := (h6.1 b).1 hb
      exact ⟨fun h => hab (W.shape.siblings_not_dom W.graph ha' hb' h),
        fun h => hab (W.shape.siblings_not_dom W.graph hb' ha' h).symm⟩
    obtain ⟨ik1, ik2⟩ := ihk h7 hks
    obtain ⟨ir1, ir2⟩ := ihr h8 hp.2
    have hcov : ∀ i, i ∈ k.cov ↔ t.Covers n i := by
      intro i
      rw [ik2, covers_nt ⟨x, h4⟩]
      constructor
      · rintro ⟨c, hc, hi⟩; exact ⟨c, (h6.1 c).1 hc, hi⟩
      · rintro ⟨c, hc, hi⟩; exact ⟨c, (h6.1 c).2 hc, hi⟩
    have hne : k ≠ .nil := by
      rintro rfl
      obtain ⟨c, hc⟩ := W.shape.nt_child n ⟨x, h4⟩
      have := (h6.1 c).2 hc
      rw [show ks = [] from h7] at this
      simp at this
    refine ⟨⟨hne, (W.spans n x h4).1, fun i => ?_, ?_, ik1, ir1⟩, ?_⟩
    · rw [(W.spans n x h4).2, hcov]
    · rw [Finset.disjoint_left]
      intro i hi hi'
      obtain ⟨m, hm1, hm2⟩ := (ir2 _).1 hi'
      rcases covers_disjoint W.shape W.sentence.inj ((hcov i).1 hi) hm2 with h | h
      · exact (hp.1 m hm1).1 h
      · exact (hp.1 m hm1).2 h
    · intro j
      simp only [Forest.cov, Finset.mem_union, ir2, hcov, List.mem_cons, exists_eq_or_imp]

theorem Kids.pairwise (W : t.WF) {n : Nat} {ks : List Nat} (h : t.Kids n ks) :
    ks.Pairwise (fun a b => ¬ t.Dom a b ∧ ¬ t.Dom b a) := by
  refine h.nodup.imp_of_mem (fun {a b} ha hb hab => ?_)
  have ha' := (h.1 a).1 ha
  have hb' := (h.1 b).1 hb
  exact ⟨fun h => hab (W.shape.siblings_not_dom W.graph ha' hb' h),
    fun h => hab (W.shape.siblings_not_dom W.graph hb' ha' h).symm⟩

end Tree
end Lumberjack
