import Verif.Spec.Rewrite
import Verif.Proofs.Seq
import Verif.Proofs.IsoSteps

/-!
# Removing nodes as rewriting of forests
-/

namespace Lumberjack

namespace Forest

/-- The labels of the topmost edges changed by `g`. -/
def mapTop (g : Option Str → Option Str) : Forest → Forest
  | nil => nil
  | leaf e x r => leaf (g e) x (r.mapTop g)
  | node e x k r => node (g e) x k (r.mapTop g)

theorem mapTop_id (f : Forest) : f.mapTop id = f := by
  induction f with
  | nil => rfl
  | leaf e x r ih => simp [mapTop, ih]
  | node e x k r _ ih => simp [mapTop, ih]

theorem mapTop_none (f : Forest) : f.mapTop (fun _ => none) = f.unlabelled := by
  induction f with
  | nil => rfl
  | leaf e x r ih => simp [mapTop, unlabelled, ih]
  | node e x k r _ ih => simp [mapTop, unlabelled, ih]

theorem mapTop_append (g : Option Str → Option Str) (f f' : Forest) : (f.append f').mapTop g = (f.mapTop g).append (f'.mapTop g) := by
  induction f with
  | nil => rfl
  | leaf e x r ih => simp [mapTop, append, ih]
  | node e x k r _ ih => simp [mapTop, append, ih]

theorem mapTop_unlabelled {g : Option Str → Option Str} (hg : g none = none) (f : Forest) : f.unlabelled.mapTop g = f.unlabelled := by
  induction f with
  | nil => rfl
  | leaf e x r ih => simp [mapTop, unlabelled, ih, hg]
  | node e x k r _ ih => simp [mapTop, unlabelled, ih, hg]

theorem leaves_unlabelled (f : Forest) : f.unlabelled.leaves = f.leaves := by
  induction f with
  | nil => rfl
  | leaf e x r ih => simp [leaves, unlabelled, ih]
  | node e x k r _ ih => simp [leaves, unlabelled, ih]

theorem leaves_without (P : NonTerminal → Bool) (f : Forest) : (f.without P).leaves = f.leaves := by
  induction f with
  | nil => rfl
  | leaf e x r ih => simp [leaves, without, ih]
  | node e x k r ihk ih =>
    unfold without
    split
    · rw [leaves_append, leaves_unlabelled, ihk, ih]; rfl
    · simp [leaves, ihk, ih]

theorem width_unlabelled (f : Forest) : f.unlabelled.width = f.width := by
  induction f with
  | nil => rfl
  | leaf e x r ih => simp [width, unlabelled, ih]
  | node e x k r _ ih => simp [width, unlabelled, ih]

theorem Seq.append {f g : Forest} : ∀ {k : Nat}, f.Seq k → g.Seq (k + f.leaves.length) → (f.append g).Seq k := by
  induction f with
  | nil => intro k _ h; simpa [Forest.append, leaves] using h
  | leaf e x r ih =>
    rintro k ⟨h1, h2⟩ h
    refine ⟨h1, ih h2 ?_⟩
    simp only [leaves, List.length_cons] at h
    rwa [Nat.add_right_comm, Nat.add_assoc]
  | node e x ks r _ ih =>
    rintro k ⟨h0, h1, h2, h3⟩ h
    refine ⟨h0, h1, h2, ih h3 ?_⟩
    simp only [leaves, List.length_append] at h
    rwa [Nat.add_assoc]

theorem Seq.unlabelled {f : Forest} : ∀ {k : Nat}, f.Seq k → f.unlabelled.Seq k := by
  induction f with
  | nil => intro k h; exact h
  | leaf e x r ih => rintro k ⟨h1, h2⟩; exact ⟨h1, ih h2⟩
  | node e x ks r _ ih => rintro k ⟨h0, h1, h2, h3⟩; exact ⟨h0, h1, h2, ih h3⟩

theorem Seq.mapTop {g : Option Str → Option Str} {f : Forest} : ∀ {k : Nat}, f.Seq k → (f.mapTop g).Seq k := by
  induction f with
  | nil => intro k h; exact h
  | leaf e x r ih => rintro k ⟨h1, h2⟩; exact ⟨h1, ih h2⟩
  | node e x ks r _ ih => rintro k ⟨h0, h1, h2, h3⟩; exact ⟨h0, h1, h2, ih h3⟩

theorem Seq.without {P : NonTerminal → Bool} {f : Forest} : ∀ {k : Nat}, f.Seq k → (f.without P).Seq k := by
  induction f with
  | nil => intro k h; exact h
  | leaf e x r ih => rintro k ⟨h1, h2⟩; exact ⟨h1, ih h2⟩
  | node e x ks r ihk ih =>
    rintro k ⟨h0, h1, h2, h3⟩
    unfold Forest.without
    split
    · refine (ihk h2).unlabelled.append ?_
      rw [leaves_unlabelled, leaves_without]
      exact ih h3
    · refine ⟨fun h => ?_, by rw [leaves_without]; exact h1, ihk h2, by rw [leaves_without]; exact ih h3⟩
      have := h2.leaves_pos h0
      rw [← leaves_without P, h] at this
      simp [leaves] at this

end Forest

namespace Tree

variable {t t' : Tree}

/-- `c` remains and everything above it up to `a` is taken out. -/
def TopIn (t : Tree) (R : Nat → Prop) (a c : Nat) : Prop :=
  ¬ R c ∧ t.Dom a c ∧ ∀ b, t.Dom a b → t.Dom b c → b ≠ c → R b

theorem TopIn.self {R : Nat → Prop} (G : t.graph.OK) (S : t.Shape) {a : Nat} (h : ¬ R a) (c : Nat) : t.TopIn R a c ↔ c = a := by
  constructor
  · rintro ⟨_, h2, h3⟩
    by_contra hne
    exact h (h3 a .refl h2 (Ne.symm hne))
  · rintro rfl
    exact ⟨h, .refl, fun b h1 h2 hb => absurd (S.dom_antisymm G h2 h1) hb⟩

theorem TopIn.kids {R : Nat → Prop} (G : t.graph.OK) (S : t.Shape) {a : Nat} (h : R a) {ks : List Nat} (hk : t.Kids a ks) (c : Nat) :
    t.TopIn R a c ↔ ∃ b ∈ ks, t.TopIn R b c := by
  constructor
  · rintro ⟨h1, h2, h3⟩
    rcases h2.cases_child with e | ⟨b, h4, h5⟩
    · exact absurd h (e ▸ h1)
    · exact ⟨b, (hk.1 b).2 h4, h1, h5, fun m h6 h7 h8 => h3 m (.head h4 h6) h7 h8⟩
  · rintro ⟨b, hb, h1, h2, h3⟩
    have hb' := (hk.1 b).1 hb
    refine ⟨h1, .head hb' h2, fun m h4 h5 h6 => ?_⟩
    rcases h4.cases_child with e | ⟨d, h7, h8⟩
    · exact e ▸ h
    · have : d = b := by
        rcases S.dom_linear (h8.trans h5) h2 with h9 | h9
        · exact S.siblings_not_dom G h7 hb' h9
        · exact (S.siblings_not_dom G hb' h7 h9).symm
      exact h3 m (this ▸ h8) h5 h6

/-- The children of a node that remains. -/
theorem Removed.kids {R : Nat → Prop} (H : Removed t t' R) (W : t.WF) {a : Nat} (h : ¬ R a) {ks : List Nat} (hk : t.Kids a ks) (c : Nat) :
    t'.IsChild a c ↔ ∃ b ∈ ks, t.TopIn R b c := by
  constructor
  · intro hc
    have hl := (isChild_live H.wf.graph hc).2
    have hR := ((H.liveIff c).1 hl).2
    obtain ⟨h1, h2, h3⟩ := (H.wf.shape.child_iff H.wf.graph hl).1 hc
    rw [H.dom a c h hR] at h1
    rcases h1.cases_child with e | ⟨b, h4, h5⟩
    · exact absurd e h2
    · refine ⟨b, (hk.1 b).2 h4, hR, h5, fun m h6 h7 h8 => ?_⟩
      by_contra hm
      have hlm : t.Live m := Dom.live W.graph h6 (isChild_live W.graph h4).2
      rcases h3 m ((H.liveIff m).2 ⟨hlm, hm⟩) ((H.dom a m h hm).2 (.head h4 h6)) ((H.dom m c hm hR).2 h7) with e | e
      · subst e
        exact W.shape.acyclic W.graph b (transGen_iff.2 ⟨m, h6, h4⟩)
      · exact h8 e
  · rintro ⟨b, hb, hR, h2, h3⟩
    have hb' := (hk.1 b).1 hb
    have hlc : t.Live c := Dom.live W.graph h2 (isChild_live W.graph hb').2
    refine (H.wf.shape.child_iff H.wf.graph ((H.liveIff c).2 ⟨hlc, hR⟩)).2 ⟨(H.dom a c h hR).2 (.head hb' h2), ?_, ?_⟩
    · rintro rfl
      exact W.shape.acyclic W.graph b (transGen_iff.2 ⟨a, h2, hb'⟩)
    · intro m hm h4 h5
      have hRm := ((H.liveIff m).1 hm).2
      rw [H.dom a m h hRm] at h4
      rw [H.dom m c hRm hR] at h5
      rcases h4.cases_child with e | ⟨d, h7, h8⟩
      · exact .inl e.symm
      · have : d = b := by
          rcases W.shape.dom_linear (h8.trans h5) h2 with h9 | h9
          · exact W.shape.siblings_not_dom W.graph h7 hb' h9
          · exact (W.shape.siblings_not_dom W.graph hb' h7 h9).symm
        by_contra hne
        simp only [not_or] at hne
        exact hRm (h3 m (this ▸ h8) h5 hne.2)

/-- The forest after nodes have been taken out. -/
theorem Removed.rep {R : Nat → Prop} (H : Removed t t' R) (W : t.WF) {P : NonTerminal → Bool} {f : Forest} :
    ∀ {ids : List Nat} {g : Option Str → Option Str} {k : Nat}, t.Rep ids f → f.Seq k →
    (∀ a ∈ ids, ∀ m, t.Dom a m → (R m ↔ ∃ x, t.graph.node? m = some (.nt x) ∧ P x = true)) → g none = none →
    (∀ n ∈ ids, ¬ R n → t'.inLabel n = g (t.inLabel n)) →
    ∃ ids', t'.Rep ids' ((f.without P).mapTop g) ∧ ∀ c, c ∈ ids' ↔ ∃ a ∈ ids, t.TopIn R a c := by
  induction f with
  | nil =>
    intro ids g k h _ _ _ _
    rw [show ids = [] from h]
    exact ⟨[], rfl, by simp⟩
  | leaf e x r ih =>
    rintro ids g k ⟨n, ns, rfl, h4, h5, h6⟩ hq hR hg hl
    obtain ⟨ids', i1, i2⟩ := ih (g := g) h6 hq.2 (fun a ha => hR a (List.mem_cons_of_mem _ ha)) hg
      (fun a ha => hl a (List.mem_cons_of_mem _ ha))
    have hn : ¬ R n := by
      rw [hR n List.mem_cons_self n .refl]
      rintro ⟨y, hy, _⟩
      rw [h4] at hy; cases hy
    refine ⟨n :: ids', ⟨n, ids', rfl, by rw [H.node n hn, h4], by rw [hl n List.mem_cons_self hn, h5], i1⟩, fun c => ?_⟩
    rw [List.mem_cons, i2]
    simp only [List.mem_cons, exists_eq_or_imp, TopIn.self W.graph W.shape hn]
  | node e x ks r ihk ih =>
    rintro ids g k ⟨n, ns, kk, rfl, h4, h5, h6, h7, h8⟩ hq hR hg hl
    obtain ⟨ids', i1, i2⟩ := ih (g := g) h8 hq.2.2.2 (fun a ha => hR a (List.mem_cons_of_mem _ ha)) hg
      (fun a ha => hl a (List.mem_cons_of_mem _ ha))
    have hRk : ∀ a ∈ kk, ∀ m, t.Dom a m → (R m ↔ ∃ x, t.graph.node? m = some (.nt x) ∧ P x = true) :=
      fun a ha m hm => hR n List.mem_cons_self m (.head ((h6.1 a).1 ha) hm)
    have hn : R n ↔ P x = true := by
      rw [hR n List.mem_cons_self n .refl]
      constructor
      · rintro ⟨y, hy, hp⟩
        rw [h4] at hy; simp only [Option.some.injEq, Node.nt.injEq] at hy; rw [hy]; exact hp
      · exact fun h => ⟨x, h4, h⟩
    by_cases hp : P x = true
    · have hnR := hn.2 hp
      have hlk : ∀ c ∈ kk, ¬ R c → t'.inLabel c = none := by
        intro c hc hcR
        have hch := (h6.1 c).1 hc
        have hlive : t'.Live c := (H.liveIff c).2 ⟨(isChild_live W.graph hch).2, hcR⟩
        by_cases hr : c = t'.root
        · rw [hr]; exact inLabel_root H.wf.shape
        · obtain ⟨p, r', h1, h2, h3, h4'⟩ := H.wf.shape.exists_parent hlive hr
          have hc' : t'.IsChild p c := ⟨r', h1, h2, h3, h4'⟩
          refine (H.inLabel W hc').2 fun hpc => ?_
          rw [W.shape.isChild_unique hpc hch] at hc'
          exact ((H.liveIff n).1 (isChild_live H.wf.graph hc').1).2 hnR
      obtain ⟨ik, k1, k2⟩ := ihk (g := fun _ => none) h7 hq.2.2.1 hRk rfl hlk
      refine ⟨ik ++ ids', ?_, fun c => ?_⟩
      · unfold Forest.without
        rw [if_pos hp, Forest.mapTop_append, Forest.mapTop_unlabelled hg, ← Forest.mapTop_none]
        exact k1.append i1
      · rw [List.mem_append, k2, i2, ← TopIn.kids W.graph W.shape hnR h6]
        simp only [List.mem_cons, exists_eq_or_imp]
    · have hnR : ¬ R n := fun h => hp (hn.1 h)
      have hlk : ∀ c ∈ kk, ¬ R c → t'.inLabel c = id (t.inLabel c) := by
        intro c hc hcR
        have hch := (h6.1 c).1 hc
        have hc' : t'.IsChild n c := (H.kids W hnR h6 c).2 ⟨c, hc, (TopIn.self W.graph W.shape hcR c).2 rfl⟩
        exact (H.inLabel W hc').1 hch
      obtain ⟨ik, k1, k2⟩ := ihk (g := id) h7 hq.2.2.1 hRk rfl hlk
      rw [Forest.mapTop_id] at k1
      refine ⟨n :: ids', ?_, fun c => ?_⟩
      · unfold Forest.without
        rw [if_neg hp]
        refine ⟨n, ids', ik, rfl, by rw [H.node n hnR, h4], by rw [hl n List.mem_cons_self hnR, h5],
          ⟨fun c => by rw [k2, H.kids W hnR h6], ?_⟩, k1, i1⟩
        have := (hq.2.2.1.without (P := P)).starts.1
        rw [← k1.starts, List.pairwise_map] at this
        exact this
      · rw [List.mem_cons, i2]
        simp only [List.mem_cons, exists_eq_or_imp, TopIn.self W.graph W.shape hnR]

theorem rep_empty {f : Forest} (h : t.Rep [] f) : f = .nil := by
  cases f with
  | nil => rfl
  | leaf e x r => simp [Rep] at h
  | node e x k r => simp [Rep] at h

theorem dom_top (S : t.Shape) {a : Nat} (h : t.Dom a t.root) : a = t.root := by
  rcases h.cases_parent with e | ⟨p, _, h2⟩
  · exact e.symm
  · exact absurd h2 (S.root_top p)

/-- Nodes below the root taken out. -/
theorem Removed.is_filtered {R : Nat → Prop} (H : Removed t t' R) (W : t.WF) (hr : t'.root = t.root) {P : NonTerminal → Bool}
    (hR : ∀ n, R n ↔ n ≠ t.root ∧ ∃ x, t.graph.node? n = some (.nt x) ∧ P x = true)
    (hp : t.isProjective = true) {F : Forest} (h : t.Is F) : t'.Is (F.filtered P) := by
  have hq := (W.is_seq hp h).1
  have hroot : ¬ R t.root := fun h => ((hR _).1 h).1 rfl
  unfold Is at h ⊢
  rw [hr]
  have hlab : t'.inLabel t.root = t.inLabel t.root := by
    rw [inLabel_root W.shape]
    conv_lhs => rw [← hr]
    exact inLabel_root H.wf.shape
  cases F with
  | nil => simp [Rep] at h
  | leaf e x r =>
    obtain ⟨n, ns, e1, h1, h2, h3⟩ := h
    simp only [List.cons.injEq] at e1
    obtain ⟨rfl, rfl⟩ := e1
    have : r = .nil := rep_empty h3
    subst this
    exact ⟨_, [], rfl, by rw [H.node _ hroot, h1], by rw [hlab, h2], rfl⟩
  | node e x k r =>
    obtain ⟨n, ns, ks, e1, h1, h2, h3, h4, h5⟩ := h
    simp only [List.cons.injEq] at e1
    obtain ⟨rfl, rfl⟩ := e1
    have : r = .nil := rep_empty h5
    subst this
    have hne : ∀ a ∈ ks, ∀ m, t.Dom a m → m ≠ t.root := by
      rintro a ha m hm rfl
      rw [dom_top W.shape hm] at ha
      exact W.shape.root_top _ ((h3.1 _).1 ha)
    obtain ⟨ik, k1, k2⟩ := H.rep W (P := P) (g := id) h4 hq.2.2.1
      (fun a ha m hm => by rw [hR m]; exact ⟨fun h => h.2, fun h => ⟨hne a ha m hm, h⟩⟩) rfl
      (fun c hc hcR => (H.inLabel W ((H.kids W hroot h3 c).2 ⟨c, hc, (TopIn.self W.graph W.shape hcR c).2 rfl⟩)).1 ((h3.1 c).1 hc))
    rw [Forest.mapTop_id] at k1
    refine ⟨_, [], ik, rfl, by rw [H.node _ hroot, h1], by rw [hlab, h2], ⟨fun c => by rw [k2, H.kids W hroot h3], ?_⟩, k1, rfl⟩
    have := (hq.2.2.1.without (P := P)).starts.1
    rw [← k1.starts, List.pairwise_map] at this
    exact this

/-- The root stays unless it is taken out. -/
theorem Removed.root_eq {R : Nat → Prop} (H : Removed t t' R) (W : t.WF) (h : ¬ R t.root) : t'.root = t.root := by
  have hl := H.wf.shape.root_live
  have := (H.liveIff _).1 hl
  exact (dom_top H.wf.shape ((H.dom _ _ h this.2).2 (W.shape.reach _ this.1))).symm

/-- Dummies taken out. -/
theorem dummies_is (W : t.WF) (h : Convert.DummiesRemoved t t') (hp : t.isProjective = true) {F : Forest} (hF : t.Is F) :
    t'.Is F.undummied := by
  obtain ⟨R, H, hR, hrest⟩ := h
  have hq := (W.is_seq hp hF).1
  unfold Is at hF
  cases F with
  | nil => simp [Rep] at hF
  | leaf e x r =>
    obtain ⟨n, ns, e1, h1, h2, h3⟩ := hF
    simp only [List.cons.injEq] at e1
    obtain ⟨rfl, rfl⟩ := e1
    have : r = .nil := rep_empty h3
    subst this
    have hroot : ¬ R t.root := by
      intro h
      obtain ⟨y, hy, _⟩ := hR _ h
      rw [h1] at hy; cases hy
    have hr := H.root_eq W hroot
    unfold Is
    exact ⟨_, [], rfl, by rw [hr, H.node _ hroot, h1], by rw [inLabel_root H.wf.shape, ← h2, inLabel_root W.shape], rfl⟩
  | node e x k r =>
    obtain ⟨n, ns, ks, e1, h1, h2, h3, h4, h5⟩ := hF
    simp only [List.cons.injEq] at e1
    obtain ⟨rfl, rfl⟩ := e1
    have : r = .nil := rep_empty h5
    subst this
    have hne : ∀ a ∈ ks, ∀ m, t.Dom a m → m ≠ t.root := by
      rintro a ha m hm rfl
      rw [dom_top W.shape hm] at ha
      exact W.shape.root_top _ ((h3.1 _).1 ha)
    have hRk : ∀ a ∈ ks, ∀ m, t.Dom a m → (R m ↔ ∃ x, t.graph.node? m = some (.nt x) ∧ Forest.dummyNode x = true) := by
      intro a ha m hm
      constructor
      · intro h
        obtain ⟨y, hy, hd⟩ := hR m h
        exact ⟨y, hy, by simpa [Forest.dummyNode] using hd⟩
      · rintro ⟨y, hy, hd⟩
        by_contra hm'
        have : IsDummy t' m := ⟨y, by rw [H.node m hm', hy], by simpa [Forest.dummyNode] using hd⟩
        exact hne a ha m hm (hrest m this).2.1
    have sorted : ∀ {ik : List Nat} {g}, t'.Rep ik ((k.without Forest.dummyNode).mapTop g) →
        ik.Pairwise fun a b => t'.startOf a < t'.startOf b := by
      intro ik g k1
      have := ((hq.2.2.1.without (P := Forest.dummyNode)).mapTop (g := g)).starts.1
      rw [← k1.starts, List.pairwise_map] at this
      exact this
    by_cases hroot : R t.root
    · obtain ⟨ik, k1, k2⟩ := H.rep W (P := Forest.dummyNode) (g := fun _ => none) h4 hq.2.2.1 hRk rfl (by
        intro c hc hcR
        have hch := (h3.1 c).1 hc
        have hlive : t'.Live c := (H.liveIff c).2 ⟨(isChild_live W.graph hch).2, hcR⟩
        by_cases hr : c = t'.root
        · rw [hr]; exact inLabel_root H.wf.shape
        · obtain ⟨p, r', q1, q2, q3, q4⟩ := H.wf.shape.exists_parent hlive hr
          have hc' : t'.IsChild p c := ⟨r', q1, q2, q3, q4⟩
          refine (H.inLabel W hc').2 fun hpc => ?_
          rw [W.shape.isChild_unique hpc hch] at hc'
          exact ((H.liveIff _).1 (isChild_live H.wf.graph hc').1).2 hroot)
      have hl := (H.liveIff _).1 H.wf.shape.root_live
      have hin : ∀ c, c ∈ ik ↔ c = t'.root := by
        intro c
        rw [k2, ← TopIn.kids W.graph W.shape hroot h3]
        constructor
        · rintro ⟨a1, a2, a3⟩
          by_contra hne'
          have hlc : t'.Live c := (H.liveIff c).2 ⟨Dom.live W.graph a2 W.shape.root_live, a1⟩
          exact hl.2 (a3 t'.root (W.shape.reach _ hl.1) ((H.dom _ _ hl.2 a1).1 (H.wf.shape.reach c hlc)) (Ne.symm hne'))
        · rintro rfl
          refine ⟨hl.2, W.shape.reach _ hl.1, fun b b1 b2 b3 => ?_⟩
          by_contra hb
          exact b3 (dom_top H.wf.shape ((H.dom _ _ hb hl.2).2 b2))
      have hik : ik = [t'.root] := by
        have hnd : ik.Nodup := (sorted k1).imp fun h e => by rw [e] at h; exact Nat.lt_irrefl _ h
        match ik, hin, hnd with
        | [], hin, _ => exact absurd ((hin t'.root).2 rfl) (by simp)
        | [a], hin, _ => rw [(hin a).1 (by simp)]
        | a :: b :: l, hin, hnd =>
          have ha := (hin a).1 (by simp)
          have hb := (hin b).1 (by simp)
          rw [ha, hb] at hnd
          simp at hnd
      subst hik
      have hw := k1.width
      rw [Forest.mapTop_none] at k1 hw
      rw [Forest.width_unlabelled] at hw
      obtain ⟨y, hy, hd⟩ := hR _ hroot
      rw [h1] at hy; simp only [Option.some.injEq, Node.nt.injEq] at hy; subst hy
      unfold Is Forest.undummied
      dsimp only
      rw [if_pos ⟨by simpa [Forest.dummyNode] using hd, hw⟩]
      exact k1
    · have hr := H.root_eq W hroot
      obtain ⟨ik, k1, k2⟩ := H.rep W (P := Forest.dummyNode) (g := id) h4 hq.2.2.1 hRk rfl
        (fun c hc hcR => (H.inLabel W ((H.kids W hroot h3 c).2 ⟨c, hc, (TopIn.self W.graph W.shape hcR c).2 rfl⟩)).1 ((h3.1 c).1 hc))
      have hs := sorted k1
      rw [Forest.mapTop_id] at k1
      have hk : t'.Kids t.root ik := ⟨fun c => by rw [k2, H.kids W hroot h3], hs⟩
      unfold Is Forest.undummied
      dsimp only
      rw [if_neg]
      · rw [hr]
        refine ⟨_, [], ik, rfl, by rw [H.node _ hroot, h1], ?_, hk, k1, rfl⟩
        rw [← h2, inLabel_root W.shape]
        conv_lhs => rw [← hr]
        exact inLabel_root H.wf.shape
      · rintro ⟨hd, hw⟩
        obtain ⟨_, _, c, d, hcd, hc, hd'⟩ := hrest t.root ⟨x, by rw [H.node _ hroot, h1], by simpa [Forest.dummyNode] using hd⟩
        rw [k1.width] at hw
        obtain ⟨a, rfl⟩ := List.length_eq_one_iff.1 hw
        have e1 := (hk.1 c).2 hc
        have e2 := (hk.1 d).2 hd'
        simp only [List.mem_singleton] at e1 e2
        exact hcd (e1.trans e2.symm)

end Tree
end Lumberjack
