import Verif.Proofs.Rewrite
import Verif.Spec.RewriteAny

/-!
# Taking nodes out of a tree with gaps
-/

namespace Lumberjack
namespace Tree

open Relation

variable {t t' : Tree}

/-- The nodes `ids` and what is below them are the forest `f`, up to the order of siblings. -/
def Shuffled (t : Tree) : List Nat → Forest → Prop
  | ids, .nil => ids = []
  | ids, .leaf e x r => ∃ n ns, ids = n :: ns ∧ t.graph.node? n = some (.term x) ∧ t.inLabel n = e ∧ t.Shuffled ns r
  | ids, .node e x k r => ∃ n ns ks, ids = n :: ns ∧ t.graph.node? n = some (.nt x) ∧ t.inLabel n = e ∧
      (∀ c, c ∈ ks ↔ t.IsChild n c) ∧ ks.Nodup ∧ t.Shuffled ks k ∧ t.Shuffled ns r

theorem Shuffled.append {f : Forest} : ∀ {g : Forest} {ids ids' : List Nat}, t.Shuffled ids f → t.Shuffled ids' g →
    t.Shuffled (ids ++ ids') (f.append g) := by
  induction f with
  | nil => intro g ids ids' h h'; rw [show ids = [] from h]; exact h'
  | leaf e x r ih =>
    rintro g ids ids' ⟨n, ns, rfl, h1, h2, h3⟩ h'
    exact ⟨n, ns ++ ids', rfl, h1, h2, ih h3 h'⟩
  | node e x k r _ ih =>
    rintro g ids ids' ⟨n, ns, ks, rfl, h1, h2, h3, h4, h5, h6⟩ h'
    exact ⟨n, ns ++ ids', ks, rfl, h1, h2, h3, h4, h5, ih h6 h'⟩

theorem startOf_leaf {n : Nat} {x : Terminal} (h : t.graph.node? n = some (.term x)) : t.startOf n = x.span.start := by
  simp [startOf, h, Node.span]

theorem startOf_node {n : Nat} {x : NonTerminal} (h : t.graph.node? n = some (.nt x)) : t.startOf n = x.span.start := by
  simp [startOf, h, Node.span]

theorem Rep.firstStart {n : Nat} {ns : List Nat} {f : Forest} (h : t.Rep (n :: ns) f) : f.firstStart = t.startOf n := by
  cases f with
  | nil => cases h
  | leaf e x r =>
    obtain ⟨m, ms, e1, h1, _⟩ := h
    cases e1
    exact (startOf_leaf h1).symm
  | node e x k r =>
    obtain ⟨m, ms, ks, e1, h1, _⟩ := h
    cases e1
    exact (startOf_node h1).symm

theorem Rep.insertTree {one : Forest} {n : Nat} (h1 : t.Rep [n] one) {f : Forest} : ∀ {ids : List Nat}, t.Rep ids f →
    ids.Pairwise (fun a b => t.startOf a < t.startOf b) → t.startOf n ∉ ids.map t.startOf →
    ∃ ids', ids'.Perm (n :: ids) ∧ t.Rep ids' (one.insertTree f) ∧ ids'.Pairwise (fun a b => t.startOf a < t.startOf b) := by
  induction f with
  | nil =>
    intro ids h _ _
    rw [show ids = [] from h]
    exact ⟨[n], .refl _, h1, List.pairwise_singleton _ _⟩
  | leaf e y r ih =>
    rintro ids ⟨m, ms, rfl, k1, k2, k3⟩ hs hn
    have hs' := List.pairwise_cons.1 hs
    simp only [List.map_cons, List.mem_cons, not_or] at hn
    unfold Forest.insertTree
    rw [h1.firstStart, ← startOf_leaf k1]
    split
    · rename_i hlt
      refine ⟨n :: m :: ms, .refl _, h1.append ⟨m, ms, rfl, k1, k2, k3⟩, List.pairwise_cons.2 ⟨fun b hb => ?_, hs⟩⟩
      rcases List.mem_cons.1 hb with rfl | hb
      · exact hlt
      · exact Nat.lt_trans hlt (hs'.1 b hb)
    · rename_i hlt
      obtain ⟨ids', p1, p2, p3⟩ := ih k3 hs'.2 hn.2
      refine ⟨m :: ids', (List.Perm.cons m p1).trans (.swap _ _ _), ⟨m, ids', rfl, k1, k2, p2⟩,
        List.pairwise_cons.2 ⟨fun b hb => ?_, p3⟩⟩
      rcases List.mem_cons.1 (p1.mem_iff.1 hb) with rfl | hb
      · omega
      · exact hs'.1 b hb
  | node e y k r _ ih =>
    rintro ids ⟨m, ms, ks, rfl, k1, k2, k4, k5, k3⟩ hs hn
    have hs' := List.pairwise_cons.1 hs
    simp only [List.map_cons, List.mem_cons, not_or] at hn
    unfold Forest.insertTree
    rw [h1.firstStart, ← startOf_node k1]
    split
    · rename_i hlt
      refine ⟨n :: m :: ms, .refl _, h1.append ⟨m, ms, ks, rfl, k1, k2, k4, k5, k3⟩, List.pairwise_cons.2 ⟨fun b hb => ?_, hs⟩⟩
      rcases List.mem_cons.1 hb with rfl | hb
      · exact hlt
      · exact Nat.lt_trans hlt (hs'.1 b hb)
    · rename_i hlt
      obtain ⟨ids', p1, p2, p3⟩ := ih k3 hs'.2 hn.2
      refine ⟨m :: ids', (List.Perm.cons m p1).trans (.swap _ _ _), ⟨m, ids', ks, rfl, k1, k2, k4, k5, p2⟩,
        List.pairwise_cons.2 ⟨fun b hb => ?_, p3⟩⟩
      rcases List.mem_cons.1 (p1.mem_iff.1 hb) with rfl | hb
      · omega
      · exact hs'.1 b hb

/-- Siblings start at different positions. -/
theorem sibling_starts (W : t.WF) {p a b : Nat} (ha : t.IsChild p a) (hb : t.IsChild p b) (h : t.startOf a = t.startOf b) : a = b := by
  have h1 := (W.startOf_spec (isChild_live W.graph ha).2).1
  have h2 := (W.startOf_spec (isChild_live W.graph hb).2).1
  rw [h] at h1
  rcases covers_disjoint W.shape W.sentence.inj h1 h2 with h | h
  · exact W.shape.siblings_not_dom W.graph ha hb h
  · exact (W.shape.siblings_not_dom W.graph hb ha h).symm

/-- Sorting makes an exact representation. -/
theorem Shuffled.rep (W : t.WF) {f : Forest} : ∀ {ids : List Nat}, t.Shuffled ids f → (ids.map t.startOf).Nodup →
    ∃ ids', ids'.Perm ids ∧ t.Rep ids' f.inOrder ∧ ids'.Pairwise (fun a b => t.startOf a < t.startOf b) := by
  induction f with
  | nil =>
    intro ids h _
    rw [show ids = [] from h]
    exact ⟨[], .refl _, rfl, .nil⟩
  | leaf e x r ih =>
    rintro ids ⟨n, ns, rfl, h1, h2, h3⟩ hd
    obtain ⟨hd1, hd2⟩ := List.nodup_cons.1 hd
    obtain ⟨ids', p1, p2, p3⟩ := ih h3 hd2
    obtain ⟨ids'', q1, q2, q3⟩ := Rep.insertTree (one := .leaf e x .nil) (n := n) ⟨n, [], rfl, h1, h2, rfl⟩ p2 p3
      (fun h => hd1 ((p1.map t.startOf).mem_iff.1 h))
    exact ⟨ids'', q1.trans (p1.cons n), q2, q3⟩
  | node e x k r ihk ih =>
    rintro ids ⟨n, ns, ks, rfl, h1, h2, h3, h4, h5, h6⟩ hd
    obtain ⟨hd1, hd2⟩ := List.nodup_cons.1 hd
    obtain ⟨ids', p1, p2, p3⟩ := ih h6 hd2
    obtain ⟨ks', r1, r2, r3⟩ := ihk h5 (List.Nodup.map_on
      (fun a ha b hb h => sibling_starts W ((h3 a).1 ha) ((h3 b).1 hb) h) h4)
    obtain ⟨ids'', q1, q2, q3⟩ := Rep.insertTree (one := .node e x k.inOrder .nil) (n := n)
      ⟨n, [], ks', rfl, h1, h2, ⟨fun c => by rw [r1.mem_iff, h3], r3⟩, r2, rfl⟩ p2 p3
      (fun h => hd1 ((p1.map t.startOf).mem_iff.1 h))
    exact ⟨ids'', q1.trans (p1.cons n), q2, q3⟩

/-- The topmost remaining nodes below nodes apart from each other. -/
theorem topIn_apart (S : t.Shape) {R : Nat → Prop} {a b c : Nat} (hab : ¬ t.Dom a b ∧ ¬ t.Dom b a)
    (h1 : t.TopIn R a c) (h2 : t.TopIn R b c) : False := by
  rcases S.dom_linear h1.2.1 h2.2.1 with h | h
  · exact hab.1 h
  · exact hab.2 h

theorem kids_apart (G : t.graph.OK) (S : t.Shape) {a : Nat} {ks : List Nat} (hk : t.Kids a ks) :
    ks.Pairwise fun a b => ¬ t.Dom a b ∧ ¬ t.Dom b a := by
  refine hk.2.imp_of_mem fun {b c} hb hc h => ⟨fun hd => ?_, fun hd => ?_⟩
  · have := S.siblings_not_dom G ((hk.1 b).1 hb) ((hk.1 c).1 hc) hd
    subst this; exact Nat.lt_irrefl _ h
  · have := S.siblings_not_dom G ((hk.1 c).1 hc) ((hk.1 b).1 hb) hd
    subst this; exact Nat.lt_irrefl _ h

/-- The forest after nodes have been taken out, up to the order of siblings. -/
theorem Removed.shuffled {R : Nat → Prop} (H : Removed t t' R) (W : t.WF) {P : NonTerminal → Bool} {f : Forest} :
    ∀ {ids : List Nat} {g : Option Str → Option Str}, t.Rep ids f → ids.Pairwise (fun a b => ¬ t.Dom a b ∧ ¬ t.Dom b a) →
    (∀ a ∈ ids, ∀ m, t.Dom a m → (R m ↔ ∃ x, t.graph.node? m = some (.nt x) ∧ P x = true)) → g none = none →
    (∀ n ∈ ids, ¬ R n → t'.inLabel n = g (t.inLabel n)) →
    ∃ ids', t'.Shuffled ids' ((f.without P).mapTop g) ∧ ids'.Nodup ∧ ∀ c, c ∈ ids' ↔ ∃ a ∈ ids, t.TopIn R a c := by
  induction f with
  | nil =>
    intro ids g h _ _ _ _
    rw [show ids = [] from h]
    exact ⟨[], rfl, .nil, by simp⟩
  | leaf e x r ih =>
    rintro ids g ⟨n, ns, rfl, h4, h5, h6⟩ hq hR hg hl
    obtain ⟨hq1, hq2⟩ := List.pairwise_cons.1 hq
    obtain ⟨ids', i1, i3, i2⟩ := ih (g := g) h6 hq2 (fun a ha => hR a (List.mem_cons_of_mem _ ha)) hg
      (fun a ha => hl a (List.mem_cons_of_mem _ ha))
    have hn : ¬ R n := by
      rw [hR n List.mem_cons_self n .refl]
      rintro ⟨y, hy, _⟩
      rw [h4] at hy; cases hy
    refine ⟨n :: ids', ⟨n, ids', rfl, by rw [H.node n hn, h4], by rw [hl n List.mem_cons_self hn, h5], i1⟩,
      List.nodup_cons.2 ⟨fun h => ?_, i3⟩, fun c => ?_⟩
    · obtain ⟨a, ha, h⟩ := (i2 n).1 h
      exact (hq1 a ha).2 h.2.1
    rw [List.mem_cons, i2]
    simp only [List.mem_cons, exists_eq_or_imp, TopIn.self W.graph W.shape hn]
  | node e x ks r ihk ih =>
    rintro ids g ⟨n, ns, kk, rfl, h4, h5, h6, h7, h8⟩ hq hR hg hl
    obtain ⟨hq1, hq2⟩ := List.pairwise_cons.1 hq
    obtain ⟨ids', i1, i3, i2⟩ := ih (g := g) h8 hq2 (fun a ha => hR a (List.mem_cons_of_mem _ ha)) hg
      (fun a ha => hl a (List.mem_cons_of_mem _ ha))
    have hRk : ∀ a ∈ kk, ∀ m, t.Dom a m → (R m ↔ ∃ x, t.graph.node? m = some (.nt x) ∧ P x = true) :=
      fun a ha m hm => hR n List.mem_cons_self m (.head ((h6.1 a).1 ha) hm)
    have hn : R n ↔ P x = true := by
      rw [hR n List.mem_cons_self n .refl]
      constructor
      · rintro ⟨y, hy, hp⟩
        rw [h4] at hy; simp only [Option.some.injEq, Node.nt.injEq] at hy; rw [hy]; exact hp
      · exact fun h => ⟨x, h4, h⟩
    by_cases hp : P x = true
    · have hnR := hn.2 hp
      have hlk : ∀ c ∈ kk, ¬ R c → t'.inLabel c = none := by
        intro c hc hcR
        have hch := (h6.1 c).1 hc
        have hlive : t'.Live c := (H.liveIff c).2 ⟨(isChild_live W.graph hch).2, hcR⟩
        by_cases hr : c = t'.root
        · rw [hr]; exact inLabel_root H.wf.shape
        · obtain ⟨p, r', h1, h2, h3, h4'⟩ := H.wf.shape.exists_parent hlive hr
          have hc' : t'.IsChild p c := ⟨r', h1, h2, h3, h4'⟩
          refine (H.inLabel W hc').2 fun hpc => ?_
          rw [W.shape.isChild_unique hpc hch] at hc'
          exact ((H.liveIff n).1 (isChild_live H.wf.graph hc').1).2 hnR
      obtain ⟨ik, k1, k3, k2⟩ := ihk (g := fun _ => none) h7 (kids_apart W.graph W.shape h6) hRk rfl hlk
      refine ⟨ik ++ ids', ?_, List.nodup_append.2 ⟨k3, i3, ?_⟩, fun c => ?_⟩
      · unfold Forest.without
        rw [if_pos hp, Forest.mapTop_append, Forest.mapTop_unlabelled hg, ← Forest.mapTop_none]
        exact k1.append i1
      · rintro c hc d hd rfl
        rw [k2, ← TopIn.kids W.graph W.shape hnR h6] at hc
        obtain ⟨a, ha, h⟩ := (i2 c).1 hd
        exact topIn_apart W.shape (hq1 a ha) hc h
      · rw [List.mem_append, k2, i2, ← TopIn.kids W.graph W.shape hnR h6]
        simp only [List.mem_cons, exists_eq_or_imp]
    · have hnR : ¬ R n := fun h => hp (hn.1 h)
      have hlk : ∀ c ∈ kk, ¬ R c → t'.inLabel c = id (t.inLabel c) := by
        intro c hc hcR
        have hch := (h6.1 c).1 hc
        have hc' : t'.IsChild n c := (H.kids W hnR h6 c).2 ⟨c, hc, (TopIn.self W.graph W.shape hcR c).2 rfl⟩
        exact (H.inLabel W hc').1 hch
      obtain ⟨ik, k1, k3, k2⟩ := ihk (g := id) h7 (kids_apart W.graph W.shape h6) hRk rfl hlk
      rw [Forest.mapTop_id] at k1
      refine ⟨n :: ids', ?_, List.nodup_cons.2 ⟨fun h => ?_, i3⟩, fun c => ?_⟩
      · unfold Forest.without
        rw [if_neg hp]
        exact ⟨n, ids', ik, rfl, by rw [H.node n hnR, h4], by rw [hl n List.mem_cons_self hnR, h5],
          fun c => by rw [k2, H.kids W hnR h6], k3, k1, i1⟩
      · obtain ⟨a, ha, h⟩ := (i2 n).1 h
        exact (hq1 a ha).2 h.2.1
      · rw [List.mem_cons, i2]
        simp only [List.mem_cons, exists_eq_or_imp, TopIn.self W.graph W.shape hnR]

/-- Nodes below the root taken out. -/
theorem Removed.is_sorted {R : Nat → Prop} (H : Removed t t' R) (W : t.WF) (hr : t'.root = t.root) {P : NonTerminal → Bool}
    (hR : ∀ n, R n ↔ n ≠ t.root ∧ ∃ x, t.graph.node? n = some (.nt x) ∧ P x = true)
    {F : Forest} (h : t.Is F) : t'.Is (F.filtered P).inOrder := by
  have hroot : ¬ R t.root := fun h => ((hR _).1 h).1 rfl
  unfold Is at h ⊢
  rw [hr]
  have hlab : t'.inLabel t.root = t.inLabel t.root := by
    rw [inLabel_root W.shape]
    conv_lhs => rw [← hr]
    exact inLabel_root H.wf.shape
  cases F with
  | nil => simp [Rep] at h
  | leaf e x r =>
    obtain ⟨n, ns, e1, h1, h2, h3⟩ := h
    simp only [List.cons.injEq] at e1
    obtain ⟨rfl, rfl⟩ := e1
    have : r = .nil := rep_empty h3
    subst this
    exact ⟨_, [], rfl, by rw [H.node _ hroot, h1], by rw [hlab, h2], rfl⟩
  | node e x k r =>
    obtain ⟨n, ns, ks, e1, h1, h2, h3, h4, h5⟩ := h
    simp only [List.cons.injEq] at e1
    obtain ⟨rfl, rfl⟩ := e1
    have : r = .nil := rep_empty h5
    subst this
    have hne : ∀ a ∈ ks, ∀ m, t.Dom a m → m ≠ t.root := by
      rintro a ha m hm rfl
      rw [dom_top W.shape hm] at ha
      exact W.shape.root_top _ ((h3.1 _).1 ha)
    obtain ⟨ik, k1, k3, k2⟩ := H.shuffled W (P := P) (g := id) h4 (kids_apart W.graph W.shape h3)
      (fun a ha m hm => by rw [hR m]; exact ⟨fun h => h.2, fun h => ⟨hne a ha m hm, h⟩⟩) rfl
      (fun c hc hcR => (H.inLabel W ((H.kids W hroot h3 c).2 ⟨c, hc, (TopIn.self W.graph W.shape hcR c).2 rfl⟩)).1 ((h3.1 c).1 hc))
    rw [Forest.mapTop_id] at k1
    have hshuf : t'.Shuffled [t.root] (.node e x (k.without P) .nil) :=
      ⟨_, [], ik, rfl, by rw [H.node _ hroot, h1], by rw [hlab, h2], fun c => by rw [k2, H.kids W hroot h3], k3, k1, rfl⟩
    obtain ⟨ids', p1, p2, _⟩ := hshuf.rep H.wf (by simp)
    rw [List.perm_singleton.1 p1] at p2
    exact p2

theorem Shuffled.width {f : Forest} : ∀ {ids : List Nat}, t.Shuffled ids f → f.width = ids.length := by
  induction f with
  | nil => intro ids h; rw [show ids = [] from h]; rfl
  | leaf e x r ih =>
    rintro ids ⟨n, ns, rfl, _, _, h⟩
    simp [Forest.width, ih h]
  | node e x k r _ ih =>
    rintro ids ⟨n, ns, ks, rfl, _, _, _, _, _, h⟩
    simp [Forest.width, ih h]

/-- Dummies taken out. -/
theorem dummies_sorted (W : t.WF) (h : Convert.DummiesRemoved t t') {F : Forest} (hF : t.Is F) :
    t'.Is F.undummied.inOrder := by
  obtain ⟨R, H, hR, hrest⟩ := h
  unfold Is at hF
  cases F with
  | nil => simp [Rep] at hF
  | leaf e x r =>
    obtain ⟨n, ns, e1, h1, h2, h3⟩ := hF
    simp only [List.cons.injEq] at e1
    obtain ⟨rfl, rfl⟩ := e1
    have : r = .nil := rep_empty h3
    subst this
    have hroot : ¬ R t.root := by
      intro h
      obtain ⟨y, hy, _⟩ := hR _ h
      rw [h1] at hy; cases hy
    have hr := H.root_eq W hroot
    unfold Is
    exact ⟨_, [], rfl, by rw [hr, H.node _ hroot, h1], by rw [inLabel_root H.wf.shape, ← h2, inLabel_root W.shape], rfl⟩
  | node e x k r =>
    obtain ⟨n, ns, ks, e1, h1, h2, h3, h4, h5⟩ := hF
    simp only [List.cons.injEq] at e1
    obtain ⟨rfl, rfl⟩ := e1
    have : r = .nil := rep_empty h5
    subst this
    have hne : ∀ a ∈ ks, ∀ m, t.Dom a m → m ≠ t.root := by
      rintro a ha m hm rfl
      rw [dom_top W.shape hm] at ha
      exact W.shape.root_top _ ((h3.1 _).1 ha)
    have hRk : ∀ a ∈ ks, ∀ m, t.Dom a m → (R m ↔ ∃ x, t.graph.node? m = some (.nt x) ∧ Forest.dummyNode x = true) := by
      intro a ha m hm
      constructor
      · intro h
        obtain ⟨y, hy, hd⟩ := hR m h
        exact ⟨y, hy, by simpa [Forest.dummyNode] using hd⟩
      · rintro ⟨y, hy, hd⟩
        by_contra hm'
        have : IsDummy t' m := ⟨y, by rw [H.node m hm', hy], by simpa [Forest.dummyNode] using hd⟩
        exact hne a ha m hm (hrest m this).2.1
    by_cases hroot : R t.root
    · obtain ⟨ik, k1, hnd, k2⟩ := H.shuffled W (P := Forest.dummyNode) (g := fun _ => none) h4 (kids_apart W.graph W.shape h3) hRk rfl (by
        intro c hc hcR
        have hch := (h3.1 c).1 hc
        have hlive : t'.Live c := (H.liveIff c).2 ⟨(isChild_live W.graph hch).2, hcR⟩
        by_cases hr : c = t'.root
        · rw [hr]; exact inLabel_root H.wf.shape
        · obtain ⟨p, r', q1, q2, q3, q4⟩ := H.wf.shape.exists_parent hlive hr
          have hc' : t'.IsChild p c := ⟨r', q1, q2, q3, q4⟩
          refine (H.inLabel W hc').2 fun hpc => ?_
          rw [W.shape.isChild_unique hpc hch] at hc'
          exact ((H.liveIff _).1 (isChild_live H.wf.graph hc').1).2 hroot)
      have hl := (H.liveIff _).1 H.wf.shape.root_live
      have hin : ∀ c, c ∈ ik ↔ c = t'.root := by
        intro c
        rw [k2, ← TopIn.kids W.graph W.shape hroot h3]
        constructor
        · rintro ⟨a1, a2, a3⟩
          by_contra hne'
          have hlc : t'.Live c := (H.liveIff c).2 ⟨Dom.live W.graph a2 W.shape.root_live, a1⟩
          exact hl.2 (a3 t'.root (W.shape.reach _ hl.1) ((H.dom _ _ hl.2 a1).1 (H.wf.shape.reach c hlc)) (Ne.symm hne'))
        · rintro rfl
          refine ⟨hl.2, W.shape.reach _ hl.1, fun b b1 b2 b3 => ?_⟩
          by_contra hb
          exact b3 (dom_top H.wf.shape ((H.dom _ _ hb hl.2).2 b2))
      have hik : ik = [t'.root] := by
        match ik, hin, hnd with
        | [], hin, _ => exact absurd ((hin t'.root).2 rfl) (by simp)
        | [a], hin, _ => rw [(hin a).1 (by simp)]
        | a :: b :: l, hin, hnd =>
          have ha := (hin a).1 (by simp)
          have hb := (hin b).1 (by simp)
          rw [ha, hb] at hnd
          simp at hnd
      subst hik
      have hw := k1.width
      rw [Forest.mapTop_none] at k1 hw
      rw [Forest.width_unlabelled] at hw
      obtain ⟨y, hy, hd⟩ := hR _ hroot
      rw [h1] at hy; simp only [Option.some.injEq, Node.nt.injEq] at hy; subst hy
      unfold Is Forest.undummied
      dsimp only
      rw [if_pos ⟨by simpa [Forest.dummyNode] using hd, hw⟩]
      obtain ⟨ids', p1, p2, _⟩ := k1.rep H.wf (by simp)
      rw [List.perm_singleton.1 p1] at p2
      exact p2
    · have hr := H.root_eq W hroot
      obtain ⟨ik, k1, hnd, k2⟩ := H.shuffled W (P := Forest.dummyNode) (g := id) h4 (kids_apart W.graph W.shape h3) hRk rfl
        (fun c hc hcR => (H.inLabel W ((H.kids W hroot h3 c).2 ⟨c, hc, (TopIn.self W.graph W.shape hcR c).2 rfl⟩)).1 ((h3.1 c).1 hc))
      rw [Forest.mapTop_id] at k1
      have hk : ∀ c, c ∈ ik ↔ t'.IsChild t.root c := fun c => by rw [k2, H.kids W hroot h3]
      unfold Is Forest.undummied
      dsimp only
      rw [if_neg]
      · rw [hr]
        have hshuf : t'.Shuffled [t.root] (.node e x (k.without Forest.dummyNode) .nil) := by
          refine ⟨_, [], ik, rfl, by rw [H.node _ hroot, h1], ?_, hk, hnd, k1, rfl⟩
          rw [← h2, inLabel_root W.shape]
          conv_lhs => rw [← hr]
          exact inLabel_root H.wf.shape
        obtain ⟨ids', p1, p2, _⟩ := hshuf.rep H.wf (by simp)
        rw [List.perm_singleton.1 p1] at p2
        exact p2
      · rintro ⟨hd, hw⟩
        obtain ⟨_, _, c, d, hcd, hc, hd'⟩ := hrest t.root ⟨x, by rw [H.node _ hroot, h1], by simpa [Forest.dummyNode] using hd⟩
        rw [k1.width] at hw
        obtain ⟨a, rfl⟩ := List.length_eq_one_iff.1 hw
        have e1 := (hk c).2 hc
        have e2 := (hk d).2 hd'
        simp only [List.mem_singleton] at e1 e2
        exact hcd (e1.trans e2.symm)

end Tree
end Lumberjack
