import Verif.Proofs.ConvertRead
import Verif.Proofs.DecodeTrip
import Verif.Proofs.RewritePipeline
import Verif.Spec.RewriteGather

/-!
# Moving words to the root as rewriting of an ordered tree
-/

namespace Lumberjack
namespace Forest

theorem leaves_pruned (P : Terminal → Bool) (f : Forest) : (f.pruned P).leaves = f.leaves.filter fun x => !P x := by
  induction f with
  | nil => rfl
  | leaf e x r ih =>
    cases h : P x <;> simp [pruned, leaves, h, ih]
  | node e x k r ihk ih =>
    by_cases h : k.pruned P = nil
    · rw [h] at ihk
      simp only [pruned, h, if_true, leaves, List.filter_append, ih, ← ihk]
      rfl
    · simp only [pruned, h, if_false, leaves, List.filter_append, ih, ihk]

theorem cov_leaves (f : Forest) (i : Nat) : i ∈ f.cov ↔ i ∈ f.leaves.map (·.span.start) := by
  induction f with
  | nil => simp [cov, leaves]
  | leaf e x r ih => simp only [cov, leaves, Finset.mem_insert, List.map_cons, List.mem_cons, ih]
  | node e x k r ihk ih => simp only [cov, leaves, Finset.mem_union, List.map_append, List.mem_append, ih, ihk]

theorem wordSpan_spec {l : List Terminal} (hs : (l.map (·.span.start)).Pairwise (· < ·)) (hne : l ≠ []) :
    (wordSpan l).Valid ∧ ∀ i, i ∈ (wordSpan l).indices ↔ i ∈ l.map (·.span.start) := by
  unfold wordSpan
  generalize hps : l.map (·.span.start) = ps at hs
  have hps' : ps ≠ [] := by rw [← hps]; simpa using hne
  obtain ⟨lo, rest, rfl⟩ := List.exists_cons_of_ne_nil hps'
  have hlast : (lo :: rest).getLast? = some ((lo :: rest).getLast hps') := List.getLast?_eq_some_getLast _
  set hi := (lo :: rest).getLast hps' with hhi
  simp only [List.head?_cons, Option.getD_some, hlast]
  have hmem : hi ∈ lo :: rest := List.getLast_mem _
  have hlo : ∀ i ∈ lo :: rest, lo ≤ i := by
    intro i hi
    rcases List.mem_cons.1 hi with rfl | hi
    · exact Nat.le_refl _
    · exact Nat.le_of_lt ((List.pairwise_cons.1 hs).1 i hi)
  have hhi' : ∀ i ∈ lo :: rest, i ≤ hi := by
    intro i hi'
    rw [← List.dropLast_append_getLast hps'] at hi' hs
    rcases List.mem_append.1 hi' with h | h
    · exact Nat.le_of_lt ((List.pairwise_append.1 hs).2.2 i h hi (by simp [hhi]))
    · exact Nat.le_of_eq (List.mem_singleton.1 h)
  have hle := hlo hi hmem
  refine ⟨⟨by simp only; omega, ?_, ?_⟩, fun i => ?_⟩
  · simp only
    split
    · simp
    · rename_i h; simpa using h
  · intro sk hsk k hk
    simp only at hsk ⊢
    split at hsk
    · cases hsk
    · cases hsk
      simp only [Finset.mem_filter, Finset.mem_range] at hk
      omega
  · rw [Span.mem_indices]
    simp only
    constructor
    · rintro ⟨h1, h2, h3⟩
      by_contra hc
      have h4 : i ∈ (Finset.range hi).filter fun i => lo < i ∧ i ∉ lo :: rest := by
        simp only [Finset.mem_filter, Finset.mem_range]
        have : i ≠ hi := fun e => hc (e ▸ hmem)
        have : i ≠ lo := fun e => hc (by rw [e]; simp)
        exact ⟨by omega, by omega, hc⟩
      rw [if_neg (by intro e; rw [e] at h4; simp at h4)] at h3
      exact h3 _ rfl h4
    · intro h
      refine ⟨hlo i h, by have := hhi' i h; omega, fun sk hsk => ?_⟩
      split at hsk
      · cases hsk
      · cases hsk
        simp only [Finset.mem_filter, not_and, not_not]
        exact fun _ _ => h

theorem Seq.leaf_starts {f : Forest} {k : Nat} (h : f.Seq k) : (f.leaves.map (·.span.start)).Pairwise (· < ·) := by
  rw [List.pairwise_iff_getElem]
  intro i j hi hj hij
  simp only [List.length_map] at hi hj
  simp only [List.getElem_map]
  rw [h.leaf_at i _ (List.getElem?_eq_getElem hi), h.leaf_at j _ (List.getElem?_eq_getElem hj)]
  simp only
  omega

end Forest

namespace Tree

open Relation Lumberjack.Convert

variable {t t' : Tree}

theorem before (W : t.WF) (hg : ∀ n, t.Live n → t.Gapless n) {p a b i j : Nat} (ha : t.IsChild p a) (hb : t.IsChild p b)
    (h : t.startOf a < t.startOf b) (hi : t.Covers a i) (hj : t.Covers b j) : i < j := by
  by_contra hc
  have h1 := W.startOf_spec (isChild_live W.graph ha).2
  have h2 := W.startOf_spec (isChild_live W.graph hb).2
  have h3 := h2.2 j hj
  have h4 := hg a (isChild_live W.graph ha).2 _ _ j h1.1 hi (by omega) (by omega)
  rcases covers_disjoint W.shape W.sentence.inj h4 hj with h | h
  · have := W.shape.siblings_not_dom W.graph ha hb h
    subst this; omega
  · have := W.shape.siblings_not_dom W.graph hb ha h
    subst this; omega

variable {M : Nat → Prop} {P : Terminal → Bool}

theorem Gathered.termAt {a : Nat} (H : Gathered t a M t') (n i : Nat) : t'.TermAt n i ↔ t.TermAt n i := by
  constructor
  · rintro ⟨y, hy, hs⟩
    obtain ⟨x, hx⟩ : t.IsTerm n := (content_term (H.content n ⟨_, hy⟩)).1 ⟨y, hy⟩
    rw [H.term n x hx] at hy
    cases hy
    exact ⟨_, hx, hs⟩
  · rintro ⟨x, hx, hs⟩
    exact ⟨x, H.term n x hx, hs⟩

theorem Gathered.dom_root (H : Gathered t t.root M t') {a b : Nat} (ha : a ≠ t.root) (h : t'.Dom a b) : t.Dom a b := by
  induction h with
  | refl => exact Dom.refl
  | @tail b c hab hbc ih =>
    rcases (H.child b c).1 hbc with ⟨h, _⟩ | ⟨rfl, _⟩
    · exact ih.tail h
    · have := dom_top H.wf.shape (by rw [H.root]; exact hab)
      rw [H.root] at this
      exact absurd this ha

theorem Gathered.covers_sub (H : Gathered t t.root M t') {a i : Nat} (ha : a ≠ t.root) (h : t'.Covers a i) : t.Covers a i := by
  obtain ⟨m, h1, h2⟩ := h
  exact ⟨m, H.dom_root ha h1, (H.termAt m i).1 h2⟩

/-- The part of the tree that stays below a list of nodes. -/
theorem Gathered.rep (H : Gathered t t.root M t') (W : t.WF) (hg : ∀ n, t.Live n → t.Gapless n)
    (hM : ∀ n, M n ↔ ∃ x, t.graph.node? n = some (.term x) ∧ P x = true) {f : Forest} : ∀ {ids : List Nat} {k : Nat},
    t.Rep ids f → f.Seq k → (∀ n ∈ ids, n ≠ t.root) →
    ∃ ids', t'.Rep ids' (f.pruned P) ∧ ids'.Sublist ids ∧ ∀ c ∈ ids, (c ∈ ids' ↔ t'.Live c ∧ ¬ M c) := by
  induction f with
  | nil =>
    intro ids k h _ _
    rw [show ids = [] from h]
    exact ⟨[], rfl, .slnil, by simp⟩
  | leaf e x r ih =>
    rintro ids k ⟨n, ns, rfl, h1, h2, h3⟩ hq hr
    obtain ⟨ids', g1, g2, g3⟩ := ih h3 hq.2 fun c hc => hr c (by simp [hc])
    have hM' : M n ↔ P x = true := by
      rw [hM]
      exact ⟨fun ⟨y, hy, hp⟩ => by rw [h1] at hy; cases hy; exact hp, fun hp => ⟨x, h1, hp⟩⟩
    have hl : t'.Live n := ⟨_, H.term n x h1⟩
    cases hP : P x with
    | true =>
      refine ⟨ids', by simpa [Forest.pruned, hP] using g1, .cons _ g2, fun c hc => ?_⟩
      rcases List.mem_cons.1 hc with rfl | hc
      · refine ⟨fun h => (g3 c (g2.subset h)).1 h, fun h => absurd (hM'.2 hP) h.2⟩
      · exact g3 c hc
    | false =>
      have hn : ¬ M n := by rw [hM', hP]; simp
      refine ⟨n :: ids', ?_, .cons_cons _ g2, fun c hc => ?_⟩
      · simp only [Forest.pruned, hP]
        exact ⟨n, ids', rfl, H.term n x h1, by rw [H.label n hl hn, h2], g1⟩
      · rcases List.mem_cons.1 hc with rfl | hc
        · simp [hl, hn]
        · rw [List.mem_cons, ← g3 c hc]
          refine ⟨fun h => ?_, .inr⟩
          rcases h with h | h
          · rw [g3 c hc, h]; exact ⟨hl, hn⟩
          · exact h
  | node e x ks r ihk ih =>
    rintro ids k ⟨n, ns, cs, rfl, h1, h2, hk, h4, h3⟩ hq hr
    obtain ⟨ids', g1, g2, g3⟩ := ih h3 hq.2.2.2 fun c hc => hr c (by simp [hc])
    obtain ⟨cs', c1, c2, c3⟩ := ihk h4 hq.2.2.1 fun c hc e => W.shape.root_top n (e ▸ (hk.1 c).1 hc)
    have hnr : n ≠ t.root := hr n (by simp)
    have hn : ¬ M n := fun h => by
      obtain ⟨y, hy, _⟩ := (hM n).1 h
      rw [h1] at hy; cases hy
    have hkid : t'.Kids n cs' := by
      have hmem : ∀ c, c ∈ cs' ↔ t'.IsChild n c := by
        intro c
        rw [H.child]
        constructor
        · intro h
          have h' := c2.subset h
          exact .inl ⟨(hk.1 c).1 h', (c3 c h').1 h⟩
        · rintro (⟨h, h'⟩ | ⟨h, _⟩)
          · exact (c3 c ((hk.1 c).2 h)).2 h'
          · exact absurd h hnr
      refine ⟨hmem, (hk.2.sublist c2).imp_of_mem fun {a b} ha hb hab => ?_⟩
      have ha' := (hk.1 a).1 (c2.subset ha)
      have hb' := (hk.1 b).1 (c2.subset hb)
      have la := ((c3 a (c2.subset ha)).1 ha).1
      have lb := ((c3 b (c2.subset hb)).1 hb).1
      exact before W hg ha' hb' hab
        (H.covers_sub (fun e => W.shape.root_top n (e ▸ ha')) (H.wf.startOf_spec la).1)
        (H.covers_sub (fun e => W.shape.root_top n (e ▸ hb')) (H.wf.startOf_spec lb).1)
    have hrest : ∀ c ∈ n :: ns, c ≠ n → (c ∈ ids' ↔ t'.Live c ∧ ¬ M c) := by
      intro c hc hne
      rcases List.mem_cons.1 hc with rfl | hc
      · exact absurd rfl hne
      · exact g3 c hc
    by_cases hnil : ks.pruned P = .nil
    · have hdead : ¬ t'.Live n := by
        intro hl
        have hnt : t'.IsNt n := (content_nt (H.content n hl)).2 ⟨x, h1⟩
        obtain ⟨c, hc⟩ := H.wf.shape.nt_child n hnt
        have := (hkid.1 c).2 hc
        rw [hnil] at c1
        rw [show cs' = [] from c1] at this
        simp at this
      refine ⟨ids', by simpa [Forest.pruned, hnil] using g1, .cons _ g2, fun c hc => ?_⟩
      by_cases e : c = n
      · subst e
        exact ⟨fun h => (g3 c (g2.subset h)).1 h, fun h => absurd h.1 hdead⟩
      · exact hrest c hc e
    · have hl : t'.Live n := by
        cases hcs : cs' with
        | nil => rw [hcs] at c1; exact absurd (rep_empty c1) hnil
        | cons c _ =>
          have : t'.IsChild n c := (hkid.1 c).1 (by rw [hcs]; simp)
          exact (isChild_live H.wf.graph this).1
      obtain ⟨nd, hnd⟩ := hl
      have hl : t'.Live n := ⟨nd, hnd⟩
      have hnt : t'.IsNt n := (content_nt (H.content n hl)).2 ⟨x, h1⟩
      obtain ⟨s1, s2⟩ := H.wf.span_spec hnd
      have hsort : ((ks.pruned P).leaves.map (·.span.start)).Pairwise (· < ·) := by
        rw [Forest.leaves_pruned]
        exact hq.2.2.1.leaf_starts.sublist (List.filter_sublist.map _)
      obtain ⟨hG, hcov⟩ := H.wf.rep_good c1 (hkid.pairwise H.wf)
      have hne : (ks.pruned P).leaves ≠ [] := by
        intro h0
        obtain ⟨i, hi⟩ := hG.cov_nonempty hnil
        rw [Forest.cov_leaves, h0] at hi
        simp at hi
      obtain ⟨w1, w2⟩ := Forest.wordSpan_spec hsort hne
      have hspan : nd.span = Forest.wordSpan (ks.pruned P).leaves := by
        refine s1.ext w1 (Finset.ext fun i => ?_)
        rw [s2, w2, ← Forest.cov_leaves, hcov, covers_nt hnt]
        exact ⟨fun ⟨c, h, h'⟩ => ⟨c, (hkid.1 c).2 h, h'⟩, fun ⟨c, h, h'⟩ => ⟨c, (hkid.1 c).1 h, h'⟩⟩
      have hcont : nd = .nt { x with span := Forest.wordSpan (ks.pruned P).leaves } := by
        refine node_ext ?_ hspan
        have := H.content n hl
        unfold Tree.content at this
        rw [hnd, h1] at this
        simpa [Node.replaceSpan] using this
      refine ⟨n :: ids', ?_, .cons_cons _ g2, fun c hc => ?_⟩
      · simp only [Forest.pruned, hnil, if_false]
        exact ⟨n, ids', cs', rfl, by rw [hnd, hcont], by rw [H.label n hl hn, h2], hkid, c1, g1⟩
      · by_cases e : c = n
        · subst e; simp [hl, hn]
        · rw [List.mem_cons, ← hrest c hc e]
          simp [e]

/-- One more child, a leaf. -/
theorem insert_rep (W : t.WF) {p n : Nat} {x : Terminal} (hx : t.graph.node? n = some (.term x)) (hn : t.IsChild p n)
    (hl : t.inLabel n = none) {f : Forest} : ∀ {ids : List Nat}, t.Rep ids f → (∀ c ∈ ids, t.IsChild p c) → n ∉ ids →
    ids.Pairwise (fun a b => t.startOf a < t.startOf b) →
    ∃ ids', t.Rep ids' (f.insertLeaf x) ∧ (∀ c, c ∈ ids' ↔ c = n ∨ c ∈ ids) ∧ ids'.Pairwise (fun a b => t.startOf a < t.startOf b) := by
  have hs : t.startOf n = x.span.start := startOf_of_node? hx
  have glue : ∀ (m : Nat) (ns ids' : List Nat), t.IsChild p m → n ∉ m :: ns → (m :: ns).Pairwise (fun a b => t.startOf a < t.startOf b) →
      ¬ t.startOf n < t.startOf m → (∀ c, c ∈ ids' ↔ c = n ∨ c ∈ ns) → ids'.Pairwise (fun a b => t.startOf a < t.startOf b) →
      (∀ c, c ∈ m :: ids' ↔ c = n ∨ c ∈ m :: ns) ∧ (m :: ids').Pairwise (fun a b => t.startOf a < t.startOf b) := by
    intro m ns ids' hm hnm hp hlt g2 g3
    refine ⟨fun c => by rw [List.mem_cons, g2, List.mem_cons]; tauto, List.pairwise_cons.2 ⟨fun c hc => ?_, g3⟩⟩
    rcases (g2 c).1 hc with rfl | hc
    · have : t.startOf c ≠ t.startOf m := fun e => hnm (by rw [W.startOf_inj_child hn hm e]; simp)
      omega
    · exact (List.pairwise_cons.1 hp).1 c hc
  have front : ∀ (m : Nat) (ns : List Nat), (m :: ns).Pairwise (fun a b => t.startOf a < t.startOf b) →
      t.startOf n < t.startOf m → (n :: m :: ns).Pairwise (fun a b => t.startOf a < t.startOf b) := by
    intro m ns hp hlt
    refine List.pairwise_cons.2 ⟨fun c hc => ?_, hp⟩
    rcases List.mem_cons.1 hc with rfl | hc
    · exact hlt
    · exact Nat.lt_trans hlt ((List.pairwise_cons.1 hp).1 c hc)
  induction f with
  | nil =>
    intro ids h _ _ _
    rw [show ids = [] from h]
    exact ⟨[n], ⟨n, [], rfl, hx, hl, rfl⟩, by simp, by simp⟩
  | leaf e y r ih =>
    rintro ids ⟨m, ns, rfl, h1, h2, h3⟩ hc hnm hp
    have hm : t.startOf m = y.span.start := startOf_of_node? h1
    by_cases hlt : x.span.start < y.span.start
    · refine ⟨n :: m :: ns, ?_, fun c => by simp, front m ns hp (by omega)⟩
      simp only [Forest.insertLeaf, hlt, if_true]
      exact ⟨n, m :: ns, rfl, hx, hl, m, ns, rfl, h1, h2, h3⟩
    · obtain ⟨ids', g1, g2, g3⟩ := ih h3 (fun c h => hc c (by simp [h])) (fun h => hnm (by simp [h])) (List.pairwise_cons.1 hp).2
      refine ⟨m :: ids', ?_, glue m ns ids' (hc m (by simp)) hnm hp (by omega) g2 g3⟩
      simp only [Forest.insertLeaf, hlt, if_false]
      exact ⟨m, ids', rfl, h1, h2, g1⟩
  | node e y ks r _ ih =>
    rintro ids ⟨m, ns, cs, rfl, h1, h2, hk, h4, h3⟩ hc hnm hp
    have hm : t.startOf m = y.span.start := startOf_of_node? h1
    by_cases hlt : x.span.start < y.span.start
    · refine ⟨n :: m :: ns, ?_, fun c => by simp, front m ns hp (by omega)⟩
      simp only [Forest.insertLeaf, hlt, if_true]
      exact ⟨n, m :: ns, rfl, hx, hl, m, ns, cs, rfl, h1, h2, hk, h4, h3⟩
    · obtain ⟨ids', g1, g2, g3⟩ := ih h3 (fun c h => hc c (by simp [h])) (fun h => hnm (by simp [h])) (List.pairwise_cons.1 hp).2
      refine ⟨m :: ids', ?_, glue m ns ids' (hc m (by simp)) hnm hp (by omega) g2 g3⟩
      simp only [Forest.insertLeaf, hlt, if_false]
      exact ⟨m, ids', cs, rfl, h1, h2, hk, h4, g1⟩

theorem term_unique (W : t.WF) {n m : Nat} {x : Terminal} (hn : t.graph.node? n = some (.term x)) (hm : t.graph.node? m = some (.term x)) :
    n = m := by
  obtain ⟨i, _, hi⟩ := W.sentence.pos n ⟨x, hn⟩
  refine W.sentence.inj n m i hi ?_
  obtain ⟨y, hy, hs⟩ := hi
  rw [hn] at hy
  cases hy
  exact ⟨x, hm, hs⟩

/-- More children, all leaves. -/
theorem insert_all (W : t.WF) {p : Nat} {f : Forest} {ids : List Nat} (h : t.Rep ids f) (hc : ∀ c ∈ ids, t.IsChild p c)
    (hp : ids.Pairwise fun a b => t.startOf a < t.startOf b) : ∀ l : List Terminal, l.Nodup →
    (∀ x ∈ l, ∃ n, t.graph.node? n = some (.term x) ∧ t.IsChild p n ∧ t.inLabel n = none ∧ n ∉ ids) →
    ∃ ids', t.Rep ids' (l.foldr Forest.insertLeaf f) ∧ (∀ c, c ∈ ids' ↔ c ∈ ids ∨ ∃ x ∈ l, t.graph.node? c = some (.term x)) ∧
      (∀ c ∈ ids', t.IsChild p c) ∧ ids'.Pairwise fun a b => t.startOf a < t.startOf b
  | [], _, _ => ⟨ids, h, by simp, hc, hp⟩
  | x :: l, hd, hl => by
    obtain ⟨hd1, hd2⟩ := List.nodup_cons.1 hd
    obtain ⟨ids', g1, g2, g3, g4⟩ := insert_all W h hc hp l hd2 fun y hy => hl y (by simp [hy])
    obtain ⟨n, n1, n2, n3, n4⟩ := hl x (by simp)
    have hn : n ∉ ids' := by
      rw [g2]
      rintro (h | ⟨y, hy, hny⟩)
      · exact n4 h
      · rw [n1] at hny; cases hny; exact hd1 hy
    obtain ⟨ids2, k1, k2, k3⟩ := insert_rep W n1 n2 n3 g1 g3 hn g4
    refine ⟨ids2, k1, fun c => ?_, fun c hc => ?_, k3⟩
    · rw [k2, g2]
      constructor
      · rintro (rfl | h | ⟨y, hy, h⟩)
        · exact .inr ⟨x, by simp, n1⟩
        · exact .inl h
        · exact .inr ⟨y, by simp [hy], h⟩
      · rintro (h | ⟨y, hy, h⟩)
        · exact .inr (.inl h)
        · rcases List.mem_cons.1 hy with rfl | hy
          · exact .inl (term_unique W h n1)
          · exact .inr (.inr ⟨y, hy, h⟩)
    · rcases (k2 c).1 hc with rfl | hc
      · exact n2
      · exact g3 c hc

theorem Gathered.node_term {a : Nat} (H : Gathered t a M t') {n : Nat} {x : Terminal} :
    t'.graph.node? n = some (.term x) ↔ t.graph.node? n = some (.term x) := by
  refine ⟨fun h => ?_, H.term n x⟩
  obtain ⟨y, hy⟩ : t.IsTerm n := (content_term (H.content n ⟨_, h⟩)).1 ⟨x, h⟩
  have := H.term n y hy
  rw [h] at this
  cases this
  exact hy

/-- Words moved to the root. -/
theorem Gathered.is (H : Gathered t t.root M t') (W : t.WF) (hp : t.isProjective = true) (hroot : t.IsNt t.root)
    (hM : ∀ n, M n ↔ ∃ x, t.graph.node? n = some (.term x) ∧ P x = true) {F : Forest} (hF : t.Is F) : t'.Is (F.gathered P) := by
  have hg : ∀ n, t.Live n → t.Gapless n := (noGaps_iff W).1 hp
  have hq := (W.is_seq hp hF).1
  cases F with
  | nil => simp [Is, Rep] at hF
  | leaf e x r =>
    obtain ⟨n, ns, e1, h1, _⟩ := hF
    cases e1
    exact absurd hroot fun h => not_isTerm_isNt ⟨x, h1⟩ h
  | node e x ks r =>
    have hF' := hF
    obtain ⟨n, ns, cs, e1, h1, h2, hk, h4, h3⟩ := hF
    cases e1
    obtain rfl := rep_empty h3
    have hMr : ¬ M t.root := fun h => by
      obtain ⟨y, hy, _⟩ := (hM _).1 h
      rw [h1] at hy; cases hy
    have hrl : t'.Live t.root := by rw [← H.root]; exact H.wf.shape.root_live
    obtain ⟨cs', c1, c2, c3⟩ := H.rep W hg hM h4 hq.2.2.1 fun c hc e => W.shape.root_top t.root (e ▸ (hk.1 c).1 hc)
    have hM1 : ∀ {c : Nat} {y : Terminal}, y ∈ ks.leaves.filter P → t.graph.node? c = some (.term y) → M c :=
      fun {c y} hy hc => (hM c).2 ⟨y, hc, (List.mem_filter.1 hy).2⟩
    have hchild : ∀ c ∈ cs', t'.IsChild t.root c := fun c hc =>
      (H.child _ c).2 (.inl ⟨(hk.1 c).1 (c2.subset hc), (c3 c (c2.subset hc)).1 hc⟩)
    have hsorted : cs'.Pairwise fun a b => t'.startOf a < t'.startOf b := by
      refine (hk.2.sublist c2).imp_of_mem fun {a b} ha hb hab => ?_
      have ha' := (hk.1 a).1 (c2.subset ha)
      have hb' := (hk.1 b).1 (c2.subset hb)
      have la := ((c3 a (c2.subset ha)).1 ha).1
      have lb := ((c3 b (c2.subset hb)).1 hb).1
      exact before W hg ha' hb' hab
        (H.covers_sub (fun e => W.shape.root_top _ (e ▸ ha')) (H.wf.startOf_spec la).1)
        (H.covers_sub (fun e => W.shape.root_top _ (e ▸ hb')) (H.wf.startOf_spec lb).1)
    have hnodup : (ks.leaves.filter P).Nodup := by
      have := hq.2.2.1.leaf_starts
      rw [List.pairwise_map] at this
      exact (this.imp fun {a b} h e => by subst e; omega).sublist List.filter_sublist
    obtain ⟨ids, g1, g2, g3, g4⟩ := insert_all H.wf c1 hchild hsorted (ks.leaves.filter P) hnodup fun y hy => by
      obtain ⟨c, hc⟩ := mem_leaf h4 y (List.mem_filter.1 hy).1
      have hMc := hM1 hy hc
      exact ⟨c, H.term c y hc, (H.child _ c).2 (.inr ⟨rfl, hMc⟩), H.moved c hMc,
        fun h => ((c3 c (c2.subset h)).1 h).2 hMc⟩
    have hkids : t'.Kids t.root ids := by
      refine ⟨fun c => ⟨g3 c, fun h => ?_⟩, g4⟩
      rw [g2]
      rcases (H.child _ c).1 h with ⟨k1, k2⟩ | ⟨_, k⟩
      · exact .inl ((c3 c ((hk.1 c).2 k1)).2 k2)
      · obtain ⟨y, hy, hPy⟩ := (hM c).1 k
        refine .inr ⟨y, List.mem_filter.2 ⟨?_, hPy⟩, H.term c y hy⟩
        have := Rep.leaf_mem W.shape hF' hy
        simpa [Forest.leaves] using this
    obtain ⟨nd, hnd⟩ := hrl
    have hrl : t'.Live t.root := ⟨nd, hnd⟩
    have hspan : nd.span = x.span := by
      obtain ⟨s1, s2⟩ := H.wf.span_spec hnd
      obtain ⟨r1, r2⟩ := W.span_spec h1
      refine s1.ext r1 (Finset.ext fun i => ?_)
      rw [s2]
      refine Iff.trans ?_ (r2 i).symm
      constructor
      · rintro ⟨m, _, hm⟩
        have hm' := (H.termAt m i).1 hm
        exact ⟨m, W.shape.reach m hm'.isTerm.live, hm'⟩
      · rintro ⟨m, _, hm⟩
        have hm' := (H.termAt m i).2 hm
        exact ⟨m, H.root ▸ H.wf.shape.reach m hm'.isTerm.live, hm'⟩
    have hcont : nd = .nt x := by
      refine node_ext ?_ hspan
      have := H.content _ hrl
      unfold Tree.content at this
      rw [hnd, h1] at this
      simpa [Node.replaceSpan] using this
    unfold Is
    rw [H.root]
    exact ⟨t.root, [], ids, rfl, by rw [hnd, hcont], by rw [H.label _ hrl hMr, h2], hkids, g1, rfl⟩

/-- A tree is projective if the forest it stands for has no gaps. -/
theorem WF.solid (W : t.WF) {F : Forest} (hF : t.Is F) (h : F.Solid) : t.isProjective = true := by
  have key : ∀ f : Forest, f.Solid → f.All fun nd => ∀ x, nd = .nt x → x.span.skips = none := by
    intro f hf
    induction f with
    | nil => trivial
    | leaf e x r ih => exact ⟨fun y hy => (by cases hy), ih hf⟩
    | node e x k r ihk ih => exact ⟨fun y hy => by cases hy; exact hf.1, ihk hf.2.1, ih hf.2.2⟩
  rw [isProjective_iff W.count]
  rintro n ⟨x, hx, hs⟩
  have := hF.all_conv W.shape (key F h) hx x rfl
  rw [this] at hs
  cases hs

end Tree

namespace Convert

open Lumberjack.Tree

variable {t t' : Tree} {o : Options}

/-- The steps up to `--reattach`, and those after it. -/
theorem pipeline_moved {tags : Option (List Str)} (S : Suits o t) (hN : NoGaps t) (h : Pipeline o tags t t') {F : Forest} (hF : t.Is F) :
    ∃ u, Fit u ∧ u.Is (F.moved o tags) ∧ Pipeline (afterReattach o) none u t' := by
  obtain ⟨t1, t2, t3, t4, t5, t6, t7, b1, b2, b3, b4, b5, b6, b7, b8⟩ := h
  let o0 : Options := { o with idSet := none, filterSet := none, insertionSet := none, parentFeature := none }
  let o1 : Options := { o0 with reattachLabel := none }
  have S0 : Suits o0 t := ⟨S.fit, S.words⟩
  have S1 : Suits o1 t := ⟨S.fit, by rcases S.words with h | h; exacts [.inl h, .inr ⟨h.1, rfl⟩]⟩
  have P1 : Pipeline o1 tags t t3 := ⟨t1, t2, t3, t3, t3, t3, t3, b1, b2, b3, rfl, rfl, rfl, rfl, rfl⟩
  obtain ⟨G0, _⟩ := pipeline_good S0 ⟨t1, t2, t3, t4, t4, t4, t4, b1, b2, b3, b4, rfl, rfl, rfl, rfl⟩
  obtain ⟨G1, _⟩ := pipeline_good S1 P1
  have hp3 : t3.isProjective = true := G1.proj rfl ((noGaps_iff S.fit.wf).2 hN)
  have i3 := pipeline_is S1 hN rfl P1 hF
  refine ⟨t4, G0.fit, ?_, ⟨t4, t4, t4, t4, t5, t6, t7, ⟨by simp [afterReattach], fun _ => rfl⟩, ⟨by simp [afterReattach], fun _ => rfl⟩,
    rfl, rfl, b5, b6, b7, b8⟩⟩
  unfold Forest.moved
  cases hr : o.reattachLabel with
  | none =>
    rw [hr] at b4
    obtain rfl : t4 = t3 := b4
    exact i3
  | some p =>
    rw [hr] at b4
    have b4 : PrefixGathered p t3 t4 := b4
    exact Gathered.is b4 G1.fit.wf hp3 G1.fit.rootNt (P := fun x => decide (p <+: x.pos)) (fun n => by simp) i3

/-- All steps. -/
theorem pipeline_reattach {tags : Option (List Str)} (S : Suits o t) (hN : NoGaps t) (h : Pipeline o tags t t') {F : Forest} (hF : t.Is F)
    (hG : (F.moved o tags).Solid) : NoGaps t' ∧ t'.Is ((F.moved o tags).edited (afterReattach o) none) := by
  obtain ⟨u, h1, h2, h3⟩ := pipeline_moved S hN h hF
  have hp := h1.wf.solid h2 hG
  have S' : Suits (afterReattach o) u := ⟨h1, .inr ⟨rfl, rfl⟩⟩
  refine ⟨?_, pipeline_is S' ((noGaps_iff h1.wf).1 hp) rfl h3 h2⟩
  obtain ⟨G, _⟩ := pipeline_good S' h3
  rw [← noGaps_iff G.fit.wf]
  exact G.proj rfl hp

/-- Every tree is written if there are tags for its words and it has no gaps in the end. -/
theorem Run.complete_of {items : List (Except Err Tree)} {b : Bool} {pos : Option (List PosItem)} {c : Nat} {ws : List Written} {e : End}
    (h : Run o items b pos c ws e)
    (hp : ∀ ps, pos = some ps → ∀ (i : Nat) (t : Tree), items[i]? = some (.ok t) → ∃ l, ps[i]? = some (.ok l) ∧ l.length = t.nTerminals)
    (hb : b = true) (hi : ∀ x ∈ items, ∃ t, x = .ok t)
    (hg : ∀ (i : Nat) t tags t', items[i]? = some (.ok t) → TagsAt pos i tags → Pipeline o tags t t' → NoGaps t') :
    e = .finished ∧ ws.length = items.length := by
  induction h with
  | finished => exact ⟨rfl, rfl⟩
  | crashed => cases hb
  | @unreadable er => obtain ⟨t, ht⟩ := hi (.error er) (by simp); cases ht
  | noTags => obtain ⟨l, h, _⟩ := hp _ rfl 0 _ rfl; cases h
  | badTags => obtain ⟨l, h, _⟩ := hp _ rfl 0 _ rfl; cases h
  | short h1 => obtain ⟨l, h, h2⟩ := hp _ rfl 0 _ rfl; cases h; omega
  | long h1 => obtain ⟨l, h, h2⟩ := hp _ rfl 0 _ rfl; cases h; omega
  | @gaps t t' items b pos tags pos' c h1 h2 h3 h4 h5 =>
    refine absurd (hg 0 t tags t' rfl ?_ h3) h5
    cases h1 with
    | without => exact .inl ⟨rfl, rfl⟩
    | tags => exact .inr ⟨_, _, rfl, rfl, rfl⟩
  | @write t t' items b pos tags pos' c w c' ws e h1 h2 h3 h4 _ ih =>
    have := ih (by
        cases h1 with
        | without => intro ps h; cases h
        | tags => intro ps h i t ht; cases h; exact hp _ rfl (i + 1) t ht) hb (fun x hx => hi x (by simp [hx]))
      (fun i t tags t' ht hT hP => by
        refine hg (i + 1) t tags t' ht ?_ hP
        cases h1 with
        | without =>
          rcases hT with h | ⟨_, _, h, _⟩
          · exact .inl h
          · cases h
        | tags =>
          rcases hT with ⟨h, _⟩ | ⟨ps, l, h, h', h''⟩
          · cases h
          · cases h; exact .inr ⟨_, l, rfl, h', h''⟩)
    exact ⟨this.1, by simpa using this.2⟩

end Convert
end Lumberjack
