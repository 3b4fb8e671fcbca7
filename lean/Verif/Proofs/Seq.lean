import Verif.Proofs.Lay

/-!
# Projective forests

`Forest.Seq k f`: the leaves of `f` are at positions `k, k + 1, ...` from left to right, and every
span is the interval of the leaves below.
-/

namespace Lumberjack

namespace Forest

/-- See the head of the file. -/
def Seq : Nat → Forest → Prop
  | _, nil => True
  | k, leaf _ x r => x.span = ⟨k, k + 1, none⟩ ∧ r.Seq (k + 1)
  | k, node _ x ks r => ks ≠ nil ∧ x.span = ⟨k, k + ks.leaves.length, none⟩ ∧ ks.Seq k ∧
      r.Seq (k + ks.leaves.length)

theorem Seq.leaves_pos {f : Forest} : ∀ {k : Nat}, f.Seq k → f ≠ .nil → 0 < f.leaves.length := by
  induction f with
  | nil => intro k _ h; exact absurd rfl h
  | leaf e x r => intro k _ _; simp [leaves]
  | node e x ks r ihk =>
    intro k h _
    have := ihk h.2.2.1 h.1
    simp only [leaves, List.length_append]; omega

theorem contains_interval {a b i : Nat} : (⟨a, b, none⟩ : Span).contains i = true ↔ a ≤ i ∧ i < b := by
  simp [Span.contains]

theorem Seq.cov {f : Forest} : ∀ {k : Nat}, f.Seq k → f.cov = Finset.Ico k (k + f.leaves.length) := by
  induction f with
  | nil => intro k _; simp [Forest.cov, leaves]
  | leaf e x r ih =>
    rintro k ⟨h1, h2⟩
    ext i
    simp only [Forest.cov, h1, ih h2, leaves, List.length_cons, Finset.mem_insert, Finset.mem_Ico]
    omega
  | node e x ks r ihk ih =>
    rintro k ⟨h0, h1, h2, h3⟩
    ext i
    simp only [Forest.cov, ih h3, ihk h2, leaves, List.length_append, Finset.mem_union, Finset.mem_Ico]
    omega

theorem Seq.good {f : Forest} : ∀ {k : Nat}, f.Seq k → f.Good := by
  induction f with
  | nil => intro k _; trivial
  | leaf e x r ih =>
    rintro k ⟨h1, h2⟩
    refine ⟨by rw [h1]; rfl, ?_, ih h2⟩
    rw [h1, h2.cov, Finset.mem_Ico]; simp
  | node e x ks r ihk ih =>
    rintro k ⟨h0, h1, h2, h3⟩
    have hp := h2.leaves_pos h0
    refine ⟨h0, ?_, ?_, ?_, ihk h2, ih h3⟩
    · rw [h1]; exact ⟨by simp only; omega, by simp, by simp⟩
    · intro i; rw [h1, contains_interval, h2.cov, Finset.mem_Ico]
    · rw [h2.cov, h3.cov, Finset.disjoint_left]
      intro i hi hj
      rw [Finset.mem_Ico] at hi hj; omega

theorem Seq.starts {f : Forest} : ∀ {k : Nat}, f.Seq k → f.starts.Pairwise (· < ·) ∧ ∀ s ∈ f.starts, k ≤ s := by
  induction f with
  | nil => intro k _; simp [Forest.starts]
  | leaf e x r ih =>
    rintro k ⟨h1, h2⟩
    obtain ⟨i1, i2⟩ := ih h2
    simp only [Forest.starts, h1, List.pairwise_cons, List.mem_cons, forall_eq_or_imp]
    exact ⟨⟨fun a ha => by have := i2 a ha; omega, i1⟩, Nat.le_refl _, fun a ha => by have := i2 a ha; omega⟩
  | node e x ks r ihk ih =>
    rintro k ⟨h0, h1, h2, h3⟩
    have hp := h2.leaves_pos h0
    obtain ⟨i1, i2⟩ := ih h3
    simp only [Forest.starts, h1, List.pairwise_cons, List.mem_cons, forall_eq_or_imp]
    exact ⟨⟨fun a ha => by have := i2 a ha; omega, i1⟩, Nat.le_refl _, fun a ha => by have := i2 a ha; omega⟩

theorem Seq.ordered {f : Forest} : ∀ {k : Nat}, f.Seq k → f.Ordered := by
  induction f with
  | nil => intro k _; trivial
  | leaf e x r ih => rintro k ⟨h1, h2⟩; exact ih h2
  | node e x ks r ihk ih => rintro k ⟨h0, h1, h2, h3⟩; exact ⟨h2.starts.1, ihk h2, ih h3⟩

theorem start_le_of_cov {f : Forest} (h : f.Good) : ∀ i ∈ f.cov, ∃ s ∈ f.starts, s ≤ i := by
  induction f with
  | nil => simp [Forest.cov]
  | leaf e x r ih =>
    intro i hi
    rcases Finset.mem_insert.1 hi with rfl | hi
    · exact ⟨_, List.mem_cons_self, Nat.le_refl _⟩
    · obtain ⟨s, h1, h2⟩ := ih h.2.2 i hi
      exact ⟨s, List.mem_cons_of_mem _ h1, h2⟩
  | node e x ks r ihk ih =>
    intro i hi
    rcases Finset.mem_union.1 hi with hi | hi
    · exact ⟨_, List.mem_cons_self, Span.start_le_of_mem (Span.contains_iff.1 ((h.2.2.1 i).2 hi))⟩
    · obtain ⟨s, h1, h2⟩ := ih h.2.2.2.2.2 i hi
      exact ⟨s, List.mem_cons_of_mem _ h1, h2⟩

theorem start_mem_cov {f : Forest} (h : f.Good) : ∀ s ∈ f.starts, s ∈ f.cov := by
  induction f with
  | nil => simp [Forest.starts]
  | leaf e x r ih =>
    intro s hs
    rcases List.mem_cons.1 hs with rfl | hs
    · exact Finset.mem_insert_self _ _
    · exact Finset.mem_insert_of_mem (ih h.2.2 s hs)
  | node e x ks r ihk ih =>
    intro s hs
    rcases List.mem_cons.1 hs with rfl | hs
    · exact Finset.mem_union_left _ ((h.2.2.1 _).1 (Span.contains_iff.2 h.2.1.start_mem))
    · exact Finset.mem_union_right _ (ih h.2.2.2.2.2 s hs)

/-- All inner spans are without gaps. -/
def NoGap : Forest → Prop
  | nil => True
  | leaf _ _ r => r.NoGap
  | node _ x ks r => x.span.skips = none ∧ ks.NoGap ∧ r.NoGap

theorem seq_of_good {f : Forest} : ∀ {k m : Nat}, f.Good → f.Ordered → f.starts.Pairwise (· < ·) →
    f.NoGap → k ≤ m → f.cov = Finset.Ico k m → f.Seq k ∧ m = k + f.leaves.length := by
  have first : ∀ (f : Forest) (s : Nat) (ss : List Nat) (k m : Nat), f.starts = s :: ss → f.Good →
      f.starts.Pairwise (· < ·) → f.cov = Finset.Ico k m → s = k := by
    intro f s ss k m hs hg hp hc
    have h1 : s ∈ f.cov := start_mem_cov hg s (by rw [hs]; exact List.mem_cons_self)
    rw [hc, Finset.mem_Ico] at h1
    have h2 : k ∈ f.cov := by rw [hc, Finset.mem_Ico]; omega
    obtain ⟨s', h3, h4⟩ := start_le_of_cov hg k h2
    rw [hs] at h3 hp
    rcases List.mem_cons.1 h3 with rfl | h3
    · omega
    · have := (List.pairwise_cons.1 hp).1 s' h3; omega
  induction f with
  | nil =>
    intro k m _ _ _ _ hkm hc
    have : ¬ k < m := by
      intro h
      have : k ∈ Finset.Ico k m := by rw [Finset.mem_Ico]; omega
      rw [← hc] at this; simp [Forest.cov] at this
    exact ⟨trivial, by simp only [leaves, List.length_nil]; omega⟩
  | leaf e x r ih =>
    intro k m hg ho hp hn hkm hc
    have hx := first _ _ _ k m rfl hg hp hc
    have hr : r.cov = Finset.Ico (k + 1) m := by
      ext i
      have h1 : i ∈ (Forest.leaf e x r).cov ↔ i ∈ Finset.Ico k m := by rw [hc]
      have h2 := hg.2.1
      simp only [Forest.cov, Finset.mem_insert, hx] at h1
      rw [hx] at h2
      rw [Finset.mem_Ico] at h1 ⊢
      constructor
      · intro h
        have : i ≠ k := fun e => h2 (e ▸ h)
        have := h1.1 (.inr h); omega
      · intro h
        rcases h1.2 (by omega) with h | h
        · omega
        · exact h
    have hkm' : k + 1 ≤ m := by
      have : k ∈ (Forest.leaf e x r).cov := by rw [← hx]; exact Finset.mem_insert_self _ _
      rw [hc, Finset.mem_Ico] at this; omega
    obtain ⟨h1, h2⟩ := ih hg.2.2 ho (List.pairwise_cons.1 hp).2 hn hkm' hr
    refine ⟨⟨?_, h1⟩, ?_⟩
    · rw [hg.1, hx]; rfl
    · simp only [leaves, List.length_cons]; omega
  | node e x ks r ihk ih =>
    intro k m hg ho hp hn hkm hc
    have hx := first _ _ _ k m rfl hg hp hc
    obtain ⟨g1, g2, g3, g4, g5, g6⟩ := hg
    have hspan : x.span = ⟨k, x.span.stop, none⟩ := by
      rw [← hx, ← hn.1]
    have hks : ks.cov = Finset.Ico k x.span.stop := by
      ext i; rw [← g3 i, hspan, contains_interval, Finset.mem_Ico]
    have hlt := g2.lt
    rw [hx] at hlt
    have hstop : x.span.stop ≤ m := by
      have : x.span.stop - 1 ∈ (Forest.node e x ks r).cov :=
        Finset.mem_union_left _ (by rw [hks, Finset.mem_Ico]; omega)
      rw [hc, Finset.mem_Ico] at this; omega
    have hr : r.cov = Finset.Ico x.span.stop m := by
      ext i
      have h1 : i ∈ (Forest.node e x ks r).cov ↔ i ∈ Finset.Ico k m := by rw [hc]
      have h2 : i ∈ ks.cov → i ∉ r.cov := fun h => Finset.disjoint_left.1 g4 h
      simp only [Forest.cov, Finset.mem_union, hks] at h1
      rw [hks] at h2
      simp only [Finset.mem_Ico] at h1 h2 ⊢
      constructor
      · intro h
        have := h1.1 (.inr h)
        refine ⟨?_, this.2⟩
        by_contra hlt'
        exact h2 ⟨this.1, by omega⟩ h
      · intro h
        rcases h1.2 (by omega) with h | h
        · omega
        · exact h
    obtain ⟨k1, k2⟩ := ihk g5 ho.2.1 ho.1 hn.2.1 (by omega) hks
    obtain ⟨r1, r2⟩ := ih g6 ho.2.2 (List.pairwise_cons.1 hp).2 hn.2.2 hstop hr
    refine ⟨⟨g1, by rw [← k2]; exact hspan, k1, by rw [← k2]; exact r1⟩, ?_⟩
    simp only [leaves, List.length_append]; omega

end Forest

namespace Tree

variable {t : Tree}

theorem Rep.starts {f : Forest} : ∀ {ids : List Nat}, t.Rep ids f → ids.map t.startOf = f.starts := by
  induction f with
  | nil => intro ids h; rw [show ids = [] from h]; rfl
  | leaf e x r ih =>
    rintro ids ⟨n, ns, rfl, h1, -, h2⟩
    rw [List.map_cons, ih h2, startOf_of_node? h1]; rfl
  | node e x k r _ ih =>
    rintro ids ⟨n, ns, ks, rfl, h1, -, -, -, h2⟩
    rw [List.map_cons, ih h2, startOf_of_node? h1]; rfl

theorem Rep.ordered {f : Forest} : ∀ {ids : List Nat}, t.Rep ids f → f.Ordered := by
  induction f with
  | nil => intro ids h; trivial
  | leaf e x r ih => rintro ids ⟨n, ns, rfl, h1, -, h2⟩; exact ih h2
  | node e x k r ihk ih =>
    rintro ids ⟨n, ns, ks, rfl, h1, -, hk, h3, h2⟩
    refine ⟨?_, ihk h3, ih h2⟩
    rw [← h3.starts, List.pairwise_map]; exact hk.2

theorem Rep.noGap (h : ∀ n, ¬ t.Disc n) {f : Forest} : ∀ {ids : List Nat}, t.Rep ids f → f.NoGap := by
  induction f with
  | nil => intro ids _; trivial
  | leaf e x r ih => rintro ids ⟨n, ns, rfl, h1, -, h2⟩; exact ih h2
  | node e x k r ihk ih =>
    rintro ids ⟨n, ns, ks, rfl, h1, -, hk, h3, h2⟩
    refine ⟨?_, ihk h3, ih h2⟩
    cases hs : x.span.skips with
    | none => rfl
    | some sk => exact absurd ⟨x, h1, by rw [hs]; rfl⟩ (h n)

/-- A projective tree stands for a sequential forest. -/
theorem WF.is_seq (W : t.WF) (hp : t.isProjective = true) {f : Forest} (h : t.Is f) :
    f.Seq 0 ∧ f.leaves.length = t.nTerminals := by
  obtain ⟨h1, h2⟩ := W.is_good h
  rw [Finset.range_eq_Ico] at h2
  have h3 : f.starts = [t.startOf t.root] := by rw [← Rep.starts h]; rfl
  obtain ⟨h4, h5⟩ := Forest.seq_of_good h1 (Rep.ordered h) (by rw [h3]; simp)
    (Rep.noGap ((isProjective_iff W.count).1 hp) h) (Nat.zero_le _) h2
  exact ⟨h4, by omega⟩

theorem Lay.noGap {f : Forest} : ∀ {par : Option Nat} {tops ids : List Nat}, t.Lay par f tops ids → f.NoGap →
    ∀ n ∈ ids, ¬ t.Disc n := by
  induction f with
  | nil => rintro par tops ids ⟨rfl, rfl⟩ -; simp
  | leaf e x r ih =>
    rintro par tops ids ⟨n, ns, is, rfl, rfl, h1, -, -, h2⟩ hn m hm
    rcases List.mem_cons.1 hm with rfl | hm
    · rintro ⟨y, hy, -⟩; rw [h1] at hy; simp at hy
    · exact ih h2 hn m hm
  | node e x k r ihk ih =>
    rintro par tops ids ⟨n, ns, ks, ik, is, rfl, rfl, h1, -, -, h3, h2⟩ hn m hm
    rcases List.mem_cons.1 hm with rfl | hm
    · rintro ⟨y, hy, hs⟩; rw [h1] at hy; simp at hy; subst hy; rw [hn.1] at hs; simp at hs
    · rcases List.mem_append.1 hm with hm | hm
      · exact ihk h3 hn.2.1 m hm
      · exact ih h2 hn.2.2 m hm

theorem _root_.Lumberjack.Forest.Seq.noGap {f : Forest} : ∀ {k : Nat}, f.Seq k → f.NoGap := by
  induction f with
  | nil => intro k _; trivial
  | leaf e x r ih => rintro k ⟨h1, h2⟩; exact ih h2
  | node e x ks r ihk ih => rintro k ⟨h0, h1, h2, h3⟩; exact ⟨by rw [h1], ihk h2, ih h3⟩

/-- The layout of a sequential one-tree forest is a projective well-formed tree. -/
theorem wf_of_seq (G : t.graph.OK) {f : Forest} {ids : List Nat} (h : t.Lay none f [t.root] ids)
    (hnd : ids.Nodup) (hlive : ∀ n, t.Live n → n ∈ ids)
    (hsimple : ∀ r ∈ t.graph.edges, ∀ s ∈ t.graph.edges, r.src = s.src → r.tgt = s.tgt →
      r.w.isPrimary = true → s.w.isPrimary = true → r = s)
    (hseq : f.Seq 0) (hn : t.nTerminals = f.leaves.length) (hcount : t.numDisc = 0) :
    t.WF ∧ t.isProjective = true ∧ t.Is f := by
  have hd : ∀ n, ¬ t.Disc n := by
    intro n hn
    have hl : t.Live n := by obtain ⟨x, hx, -⟩ := hn; exact ⟨_, hx⟩
    exact h.noGap hseq.noGap n (hlive n hl) hn
  have hc : t.CountOK := by
    rw [countOK_iff, hcount, eq_comm, Finset.card_eq_zero]
    ext n; simp [mem_discSet, hd]
  obtain ⟨h1, h2⟩ := wf_of_lay G h hnd hlive hsimple hseq.good
    (by rw [hseq.cov, Finset.range_eq_Ico, hn, Nat.zero_add]) hc
  exact ⟨h1, (isProjective_iff hc).2 hd, h2 hseq.ordered⟩

end Tree
end Lumberjack
