import Verif.Proofs.RewriteAny
import Verif.Proofs.RewriteGather

/-!
# Moving words to the root of a tree with gaps
-/

namespace Lumberjack
namespace Tree

open Relation

variable {t t' : Tree} {M : Nat → Prop} {P : Terminal → Bool}

theorem nodup_apart (G : t.graph.OK) (S : t.Shape) {a : Nat} {ks : List Nat} (hk : ∀ c ∈ ks, t.IsChild a c) (hn : ks.Nodup) :
    ks.Pairwise fun a b => ¬ t.Dom a b ∧ ¬ t.Dom b a := by
  refine List.Pairwise.imp_of_mem (fun {b c} hb hc h => ⟨fun hd => ?_, fun hd => ?_⟩) hn
  · exact h (S.siblings_not_dom G (hk b hb) (hk c hc) hd)
  · exact h (S.siblings_not_dom G (hk c hc) (hk b hb) hd).symm

/-- The leaves of a forest. -/
theorem Shuffled.positions (W : t.WF) {f : Forest} : ∀ {ids : List Nat}, t.Shuffled ids f →
    ids.Pairwise (fun a b => ¬ t.Dom a b ∧ ¬ t.Dom b a) →
    (f.leaves.map (·.span.start)).Nodup ∧ ∀ i, i ∈ f.leaves.map (·.span.start) ↔ ∃ c ∈ ids, t.Covers c i := by
  have apart : ∀ {a b i : Nat}, ¬ t.Dom a b ∧ ¬ t.Dom b a → t.Covers a i → t.Covers b i → False := by
    intro a b i h h1 h2
    rcases covers_disjoint W.shape W.sentence.inj h1 h2 with h' | h'
    · exact h.1 h'
    · exact h.2 h'
  induction f with
  | nil =>
    intro ids h _
    rw [show ids = [] from h]
    exact ⟨.nil, by simp [Forest.leaves]⟩
  | leaf e x r ih =>
    rintro ids ⟨n, ns, rfl, h1, _, h3⟩ hq
    obtain ⟨hq1, hq2⟩ := List.pairwise_cons.1 hq
    obtain ⟨i1, i2⟩ := ih h3 hq2
    have hc : ∀ i, t.Covers n i ↔ i = x.span.start := by
      intro i
      rw [← startOf_leaf h1]
      obtain ⟨k, _, hk⟩ := W.sentence.pos n ⟨x, h1⟩
      rw [hk.start]
      constructor
      · rintro ⟨m, hd, hm⟩
        rw [W.shape.dom_term ⟨x, h1⟩ hd] at hm
        exact hm.pos_unique hk
      · rintro rfl
        exact ⟨n, .refl, hk⟩
    simp only [Forest.leaves, List.map_cons, List.nodup_cons, List.mem_cons, i2]
    refine ⟨⟨?_, i1⟩, fun i => ?_⟩
    · rintro ⟨c, hc', h⟩
      exact apart (hq1 c hc') ((hc _).2 rfl) h
    · simp only [exists_eq_or_imp, hc]
  | node e x k r ihk ih =>
    rintro ids ⟨n, ns, ks, rfl, h1, _, h3, h4, h5, h6⟩ hq
    obtain ⟨hq1, hq2⟩ := List.pairwise_cons.1 hq
    obtain ⟨i1, i2⟩ := ih h6 hq2
    obtain ⟨k1, k2⟩ := ihk h5 (nodup_apart W.graph W.shape (fun c hc => (h3 c).1 hc) h4)
    have hc : ∀ i, (∃ c ∈ ks, t.Covers c i) ↔ t.Covers n i := by
      intro i
      rw [covers_nt ⟨x, h1⟩]
      exact ⟨fun ⟨c, a, b⟩ => ⟨c, (h3 c).1 a, b⟩, fun ⟨c, a, b⟩ => ⟨c, (h3 c).2 a, b⟩⟩
    simp only [Forest.leaves, List.map_append, List.mem_append, i2, k2, hc, List.mem_cons, exists_eq_or_imp, List.nodup_append]
    refine ⟨⟨k1, i1, ?_⟩, fun i => trivial⟩
    rintro a ha b hb rfl
    obtain ⟨c, hc', h⟩ := hb
    exact apart (hq1 c hc') ha h

theorem leftToRight_spec {l : List Terminal} (h : (l.map (·.span.start)).Nodup) :
    ((Forest.leftToRight l).map (·.span.start)).Pairwise (· < ·) ∧ (Forest.leftToRight l).Perm l := by
  have hp : (Forest.leftToRight l).Perm l := List.perm_insertionSort _ l
  refine ⟨?_, hp⟩
  have : Std.Total fun a b : Terminal => a.span.start ≤ b.span.start := ⟨fun a b => Nat.le_total _ _⟩
  have : IsTrans Terminal fun a b => a.span.start ≤ b.span.start := ⟨fun a b c => Nat.le_trans⟩
  have hs : (Forest.leftToRight l).Pairwise fun a b => a.span.start ≤ b.span.start := List.pairwise_insertionSort _ l
  have hn : ((Forest.leftToRight l).map (·.span.start)).Nodup := ((hp.map _).nodup_iff).2 h
  rw [List.Nodup, List.pairwise_map] at hn
  rw [List.pairwise_map]
  refine (hs.and hn).imp fun {a b} h => ?_
  omega

/-- Words taken out, up to the order of siblings. -/
theorem Gathered.shuffled (H : Gathered t t.root M t') (W : t.WF)
    (hM : ∀ n, M n ↔ ∃ x, t.graph.node? n = some (.term x) ∧ P x = true) {f : Forest} : ∀ {ids : List Nat},
    t.Rep ids f → (∀ n ∈ ids, n ≠ t.root) →
    ∃ ids', t'.Shuffled ids' (f.prunedBy P) ∧ ids'.Sublist ids ∧ ∀ c ∈ ids, (c ∈ ids' ↔ t'.Live c ∧ ¬ M c) := by
  induction f with
  | nil =>
    intro ids h _
    rw [show ids = [] from h]
    exact ⟨[], rfl, .slnil, by simp⟩
  | leaf e x r ih =>
    rintro ids ⟨n, ns, rfl, h1, h2, h3⟩ hr
    obtain ⟨ids', g1, g2, g3⟩ := ih h3 fun c hc => hr c (by simp [hc])
    have hM' : M n ↔ P x = true := by
      rw [hM]
      exact ⟨fun ⟨y, hy, hp⟩ => by rw [h1] at hy; cases hy; exact hp, fun hp => ⟨x, h1, hp⟩⟩
    have hl : t'.Live n := ⟨_, H.term n x h1⟩
    cases hP : P x with
    | true =>
      refine ⟨ids', by simpa [Forest.prunedBy, hP] using g1, .cons _ g2, fun c hc => ?_⟩
      rcases List.mem_cons.1 hc with rfl | hc
      · refine ⟨fun h => (g3 c (g2.subset h)).1 h, fun h => absurd (hM'.2 hP) h.2⟩
      · exact g3 c hc
    | false =>
      have hn : ¬ M n := by rw [hM', hP]; simp
      refine ⟨n :: ids', ?_, .cons_cons _ g2, fun c hc => ?_⟩
      · simp only [Forest.prunedBy, hP]
        exact ⟨n, ids', rfl, H.term n x h1, by rw [H.label n hl hn, h2], g1⟩
      · rcases List.mem_cons.1 hc with rfl | hc
        · simp [hl, hn]
        · rw [List.mem_cons, ← g3 c hc]
          refine ⟨fun h => ?_, .inr⟩
          rcases h with h | h
          · rw [g3 c hc, h]; exact ⟨hl, hn⟩
          · exact h
  | node e x ks r ihk ih =>
    rintro ids ⟨n, ns, cs, rfl, h1, h2, hk, h4, h3⟩ hr
    obtain ⟨ids', g1, g2, g3⟩ := ih h3 fun c hc => hr c (by simp [hc])
    obtain ⟨cs', c1, c2, c3⟩ := ihk h4 fun c hc e => W.shape.root_top n (e ▸ (hk.1 c).1 hc)
    have hnr : n ≠ t.root := hr n (by simp)
    have hn : ¬ M n := fun h => by
      obtain ⟨y, hy, _⟩ := (hM n).1 h
      rw [h1] at hy; cases hy
    have hkid : ∀ c, c ∈ cs' ↔ t'.IsChild n c := by
      intro c
      rw [H.child]
      constructor
      · intro h
        have h' := c2.subset h
        exact .inl ⟨(hk.1 c).1 h', (c3 c h').1 h⟩
      · rintro (⟨h, h'⟩ | ⟨h, _⟩)
        · exact (c3 c ((hk.1 c).2 h)).2 h'
        · exact absurd h hnr
    have hnodup : cs'.Nodup := (hk.2.imp fun {a b} h e => by rw [e] at h; exact Nat.lt_irrefl _ h).sublist c2
    have hrest : ∀ c ∈ n :: ns, c ≠ n → (c ∈ ids' ↔ t'.Live c ∧ ¬ M c) := by
      intro c hc hne
      rcases List.mem_cons.1 hc with rfl | hc
      · exact absurd rfl hne
      · exact g3 c hc
    by_cases hnil : ks.prunedBy P = .nil
    · have hdead : ¬ t'.Live n := by
        intro hl
        have hnt : t'.IsNt n := (content_nt (H.content n hl)).2 ⟨x, h1⟩
        obtain ⟨c, hc⟩ := H.wf.shape.nt_child n hnt
        have := (hkid c).2 hc
        rw [hnil] at c1
        rw [show cs' = [] from c1] at this
        simp at this
      refine ⟨ids', by simpa [Forest.prunedBy, hnil] using g1, .cons _ g2, fun c hc => ?_⟩
      by_cases e : c = n
      · subst e
        exact ⟨fun h => (g3 c (g2.subset h)).1 h, fun h => absurd h.1 hdead⟩
      · exact hrest c hc e
    · obtain ⟨c0, hc0⟩ : ∃ c, c ∈ cs' := by
        cases hcs : cs' with
        | nil =>
          rw [hcs] at c1
          have := c1.width
          cases hp : ks.prunedBy P with
          | nil => exact absurd hp hnil
          | leaf _ _ _ => rw [hp] at this; simp [Forest.width] at this
          | node _ _ _ _ => rw [hp] at this; simp [Forest.width] at this
        | cons c _ => exact ⟨c, by simp⟩
      have hl : t'.Live n := (isChild_live H.wf.graph ((hkid c0).1 hc0)).1
      obtain ⟨nd, hnd⟩ := hl
      have hl : t'.Live n := ⟨nd, hnd⟩
      have hnt : t'.IsNt n := (content_nt (H.content n hl)).2 ⟨x, h1⟩
      obtain ⟨s1, s2⟩ := H.wf.span_spec hnd
      obtain ⟨p1, p2⟩ := c1.positions H.wf (nodup_apart H.wf.graph H.wf.shape (fun c hc => (hkid c).1 hc) hnodup)
      obtain ⟨q1, q2⟩ := leftToRight_spec p1
      have hcov : ∀ i, i ∈ (Forest.leftToRight (ks.prunedBy P).leaves).map (·.span.start) ↔ t'.Covers n i := by
        intro i
        rw [(q2.map _).mem_iff, p2, covers_nt hnt]
        exact ⟨fun ⟨c, h, h'⟩ => ⟨c, (hkid c).1 h, h'⟩, fun ⟨c, h, h'⟩ => ⟨c, (hkid c).2 h, h'⟩⟩
      have hne : Forest.leftToRight (ks.prunedBy P).leaves ≠ [] := by
        intro h0
        have := (hcov _).2 (H.wf.startOf_spec hl).1
        rw [h0] at this
        simp at this
      obtain ⟨w1, w2⟩ := Forest.wordSpan_spec q1 hne
      have hspan : nd.span = Forest.wordSpan (Forest.leftToRight (ks.prunedBy P).leaves) := by
        refine s1.ext w1 (Finset.ext fun i => ?_)
        rw [s2, w2, hcov]
      have hcont : nd = .nt { x with span := Forest.wordSpan (Forest.leftToRight (ks.prunedBy P).leaves) } := by
        refine node_ext ?_ hspan
        have := H.content n hl
        unfold Tree.content at this
        rw [hnd, h1] at this
        simpa [Node.replaceSpan] using this
      refine ⟨n :: ids', ?_, .cons_cons _ g2, fun c hc => ?_⟩
      · simp only [Forest.prunedBy, hnil, if_false]
        exact ⟨n, ids', cs', rfl, by rw [hnd, hcont], by rw [H.label n hl hn, h2], hkid, hnodup, c1, g1⟩
      · by_cases e : c = n
        · subst e; simp [hl, hn]
        · rw [List.mem_cons, ← hrest c hc e]
          simp [e]

/-- More leaves. -/
theorem Shuffled.leaves {f : Forest} {ids : List Nat} (h : t.Shuffled ids f) (hd : ids.Nodup) (W : t.WF) : ∀ l : List Terminal, l.Nodup →
    (∀ x ∈ l, ∃ n, t.graph.node? n = some (.term x) ∧ t.inLabel n = none ∧ n ∉ ids) →
    ∃ ids', t.Shuffled ids' (l.foldr (Forest.leaf none) f) ∧ ids'.Nodup ∧
      ∀ c, c ∈ ids' ↔ c ∈ ids ∨ ∃ x ∈ l, t.graph.node? c = some (.term x)
  | [], _, _ => ⟨ids, h, hd, by simp⟩
  | x :: l, hn, hl => by
    obtain ⟨hn1, hn2⟩ := List.nodup_cons.1 hn
    obtain ⟨ids', g1, g2, g3⟩ := h.leaves hd W l hn2 fun y hy => hl y (by simp [hy])
    obtain ⟨n, n1, n2, n3⟩ := hl x (by simp)
    refine ⟨n :: ids', ⟨n, ids', rfl, n1, n2, g1⟩, List.nodup_cons.2 ⟨fun hm => ?_, g2⟩, fun c => ?_⟩
    · rcases (g3 n).1 hm with h | ⟨y, hy, hny⟩
      · exact n3 h
      · rw [n1] at hny; cases hny; exact hn1 hy
    · rw [List.mem_cons, g3]
      constructor
      · rintro (rfl | h | ⟨y, hy, h⟩)
        · exact .inr ⟨x, by simp, n1⟩
        · exact .inl h
        · exact .inr ⟨y, by simp [hy], h⟩
      · rintro (h | ⟨y, hy, h⟩)
        · exact .inr (.inl h)
        · rcases List.mem_cons.1 hy with rfl | hy
          · exact .inl (term_unique W h n1)
          · exact .inr (.inr ⟨y, hy, h⟩)

theorem Rep.shuffled {f : Forest} : ∀ {ids : List Nat}, t.Rep ids f → t.Shuffled ids f := by
  induction f with
  | nil => exact fun h => h
  | leaf e x r ih =>
    rintro ids ⟨n, ns, rfl, h1, h2, h3⟩
    exact ⟨n, ns, rfl, h1, h2, ih h3⟩
  | node e x k r ihk ih =>
    rintro ids ⟨n, ns, ks, rfl, h1, h2, h3, h4, h5⟩
    exact ⟨n, ns, ks, rfl, h1, h2, h3.1, h3.2.imp fun {a b} h e => by rw [e] at h; exact Nat.lt_irrefl _ h, ihk h4, ih h5⟩

/-- Words moved to the root. -/
theorem Gathered.is_sorted (H : Gathered t t.root M t') (W : t.WF) (hroot : t.IsNt t.root)
    (hM : ∀ n, M n ↔ ∃ x, t.graph.node? n = some (.term x) ∧ P x = true) {F : Forest} (hF : t.Is F) : t'.Is (F.gatheredBy P) := by
  cases F with
  | nil => simp [Is, Rep] at hF
  | leaf e x r =>
    obtain ⟨n, ns, e1, h1, _⟩ := hF
    cases e1
    exact absurd hroot fun h => not_isTerm_isNt ⟨x, h1⟩ h
  | node e x ks r =>
    have hF' := hF
    obtain ⟨n, ns, cs, e1, h1, h2, hk, h4, h3⟩ := hF
    cases e1
    obtain rfl := rep_empty h3
    have hMr : ¬ M t.root := fun h => by
      obtain ⟨y, hy, _⟩ := (hM _).1 h
      rw [h1] at hy; cases hy
    have hrl : t'.Live t.root := by rw [← H.root]; exact H.wf.shape.root_live
    obtain ⟨cs', c1, c2, c3⟩ := H.shuffled W hM h4 fun c hc e => W.shape.root_top t.root (e ▸ (hk.1 c).1 hc)
    have hM1 : ∀ {c : Nat} {y : Terminal}, y ∈ ks.leaves.filter P → t.graph.node? c = some (.term y) → M c :=
      fun {c y} hy hc => (hM c).2 ⟨y, hc, (List.mem_filter.1 hy).2⟩
    have hcs : cs'.Nodup := (hk.2.imp fun {a b} h e => by rw [e] at h; exact Nat.lt_irrefl _ h).sublist c2
    have hnodup : (ks.leaves.filter P).Nodup := by
      have := (h4.shuffled.positions W (kids_apart W.graph W.shape hk)).1
      exact (List.Nodup.of_map _ this).filter _
    obtain ⟨ids, g1, g2, g3⟩ := c1.leaves hcs H.wf (ks.leaves.filter P) hnodup fun y hy => by
      obtain ⟨c, hc⟩ := mem_leaf h4 y (List.mem_filter.1 hy).1
      have hMc := hM1 hy hc
      exact ⟨c, H.term c y hc, H.moved c hMc, fun h => ((c3 c (c2.subset h)).1 h).2 hMc⟩
    have hkids : ∀ c, c ∈ ids ↔ t'.IsChild t.root c := by
      intro c
      rw [g3, H.child]
      constructor
      · rintro (h | ⟨y, hy, hc⟩)
        · exact .inl ⟨(hk.1 c).1 (c2.subset h), (c3 c (c2.subset h)).1 h⟩
        · exact .inr ⟨rfl, hM1 hy (H.node_term.1 hc)⟩
      · rintro (⟨k1, k2⟩ | ⟨_, k⟩)
        · exact .inl ((c3 c ((hk.1 c).2 k1)).2 k2)
        · obtain ⟨y, hy, hPy⟩ := (hM c).1 k
          refine .inr ⟨y, List.mem_filter.2 ⟨?_, hPy⟩, H.term c y hy⟩
          have := Rep.leaf_mem W.shape hF' hy
          simpa [Forest.leaves] using this
    obtain ⟨nd, hnd⟩ := hrl
    have hrl : t'.Live t.root := ⟨nd, hnd⟩
    have hspan : nd.span = x.span := by
      obtain ⟨s1, s2⟩ := H.wf.span_spec hnd
      obtain ⟨r1, r2⟩ := W.span_spec h1
      refine s1.ext r1 (Finset.ext fun i => ?_)
      rw [s2]
      refine Iff.trans ?_ (r2 i).symm
      constructor
      · rintro ⟨m, _, hm⟩
        have hm' := (H.termAt m i).1 hm
        exact ⟨m, W.shape.reach m hm'.isTerm.live, hm'⟩
      · rintro ⟨m, _, hm⟩
        have hm' := (H.termAt m i).2 hm
        exact ⟨m, H.root ▸ H.wf.shape.reach m hm'.isTerm.live, hm'⟩
    have hcont : nd = .nt x := by
      refine node_ext ?_ hspan
      have := H.content _ hrl
      unfold Tree.content at this
      rw [hnd, h1] at this
      simpa [Node.replaceSpan] using this
    have hshuf : t'.Shuffled [t.root] (.node e x ((ks.leaves.filter P).foldr (Forest.leaf none) (ks.prunedBy P)) .nil) :=
      ⟨t.root, [], ids, rfl, by rw [hnd, hcont], by rw [H.label _ hrl hMr, h2], hkids, g2, g1, rfl⟩
    obtain ⟨ids', p1, p2, _⟩ := hshuf.rep H.wf (by simp)
    rw [List.perm_singleton.1 p1] at p2
    unfold Is
    rw [H.root]
    exact p2

end Tree
end Lumberjack
