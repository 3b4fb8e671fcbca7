import Verif.Proofs.Iso

/-!
# The steps of the conversion tool on trees that differ in their inner representation only
-/

namespace Lumberjack
namespace Tree

variable {t u t' u' : Tree} {φ : Nat → Nat}

/-- The same nodes in the same places. -/
structure Skel (t u : Tree) (φ : Nat → Nat) : Prop where
  inj : ∀ n m, t.Live n → t.Live m → φ n = φ m → n = m
  onto : ∀ n', u.Live n' → ∃ n, t.Live n ∧ φ n = n'
  live : ∀ n, t.Live n → u.Live (φ n)
  child : ∀ p n, t.Live p → t.Live n → (u.IsChild (φ p) (φ n) ↔ t.IsChild p n)

theorem Skel.dom (S : Skel t u φ) (W : t.WF) (W' : u.WF) {a b : Nat} (ha : t.Live a) (hb : t.Live b) :
    u.Dom (φ a) (φ b) ↔ t.Dom a b := by
  constructor
  · intro h
    generalize hb' : φ b = b' at h
    induction h generalizing b with
    | refl => rw [S.inj _ _ hb ha hb']; exact .refl
    | @tail x y _ hc ih =>
      obtain ⟨c, hcl, rfl⟩ := S.onto x (isChild_live W'.graph hc).1
      rw [← hb'] at hc
      exact (ih hcl rfl).tail ((S.child c b hcl hb).1 hc)
  · intro h
    induction h with
    | refl => exact .refl
    | @tail x y _ hc ih =>
      have hx := (isChild_live W.graph hc).1
      exact (ih hx).tail ((S.child x y hx hb).2 hc)

theorem Iso.live (I : Iso t u φ) {n : Nat} (h : t.Live n) : u.Live (φ n) := by
  obtain ⟨nd, hn⟩ := h
  exact ⟨nd, by rw [I.node n ⟨nd, hn⟩, hn]⟩

theorem Iso.skel (I : Iso t u φ) : Skel t u φ := ⟨I.inj, I.onto, fun _ h => I.live h, fun _ _ hp hn => I.child hp hn⟩

theorem Iso.dom (I : Iso t u φ) (W : t.WF) (W' : u.WF) {a b : Nat} (ha : t.Live a) (hb : t.Live b) :
    u.Dom (φ a) (φ b) ↔ t.Dom a b := I.skel.dom W W' ha hb

theorem Iso.termAt (I : Iso t u φ) {n i : Nat} (hn : t.Live n) : u.TermAt (φ n) i ↔ t.TermAt n i := by
  unfold TermAt
  rw [I.node n hn]

theorem Iso.isTerm (I : Iso t u φ) {n : Nat} (hn : t.Live n) : u.IsTerm (φ n) ↔ t.IsTerm n := by
  unfold IsTerm
  rw [I.node n hn]

theorem Iso.symm (I : Iso t u φ) (W : t.WF) : ∃ ψ, Iso u t ψ ∧ ∀ n, t.Live n → ψ (φ n) = n := by
  have hex : ∀ n', ∃ n, u.Live n' → t.Live n ∧ φ n = n' := by
    intro n'
    by_cases h : u.Live n'
    · obtain ⟨n, hn⟩ := I.onto n' h
      exact ⟨n, fun _ => hn⟩
    · exact ⟨0, fun h' => absurd h' h⟩
  choose ψ hψ using hex
  have hinv : ∀ n, t.Live n → ψ (φ n) = n := fun n hn => I.inj _ _ (hψ _ (I.live hn)).1 hn (hψ _ (I.live hn)).2
  refine ⟨ψ, ⟨?_, ?_, ?_, ?_, ?_⟩, hinv⟩
  · rw [I.root, hinv _ W.shape.root_live]
  · intro n m hn hm e
    rw [← (hψ n hn).2, ← (hψ m hm).2, e]
  · exact fun n hn => ⟨φ n, I.live hn, hinv n hn⟩
  · intro n hn
    rw [← I.node _ (hψ n hn).1, (hψ n hn).2]
  · intro p n w hp hn
    have := I.edge (ψ p) (ψ n) w (hψ p hp).1 (hψ n hn).1
    rw [(hψ p hp).2, (hψ n hn).2] at this
    exact this.symm

theorem Skel.root (S : Skel t u φ) (W : t.WF) (W' : u.WF) : u.root = φ t.root := by
  obtain ⟨r, hr, e⟩ := S.onto u.root W'.shape.root_live
  have h1 := W'.shape.reach _ (S.live _ W.shape.root_live)
  rw [← e, S.dom W W' hr W.shape.root_live] at h1
  rw [← e, W.shape.dom_antisymm W.graph h1 (W.shape.reach _ hr)]

/-- Trees with the same nodes in the same places, the same words, labels and secondary edges. -/
theorem Skel.iso (S : Skel t u φ) (W : t.WF) (W' : u.WF)
    (hterm : ∀ n x, t.graph.node? n = some (.term x) → u.graph.node? (φ n) = some (.term x))
    (hnt : ∀ n x, t.graph.node? n = some (.nt x) →
      ∃ y, u.graph.node? (φ n) = some (.nt y) ∧ y.label = x.label ∧ y.features = x.features)
    (hlab : ∀ n, t.Live n → u.inLabel (φ n) = t.inLabel n)
    (hsec : ∀ p n l, t.Live p → t.Live n → ((∃ e ∈ t.graph.edges, e.src = p ∧ e.tgt = n ∧ e.w = .secondary l) ↔
      ∃ e ∈ u.graph.edges, e.src = φ p ∧ e.tgt = φ n ∧ e.w = .secondary l)) : Iso t u φ := by
  have hta : ∀ m i, t.Live m → (u.TermAt (φ m) i ↔ t.TermAt m i) := by
    intro m i hm
    constructor
    · rintro ⟨x, hx, hs⟩
      rcases live_iff.1 hm with ⟨y, hy⟩ | ⟨y, hy⟩
      · have := hterm m y hy
        rw [this] at hx; cases hx
        exact ⟨_, hy, hs⟩
      · obtain ⟨z, hz, _⟩ := hnt m y hy
        rw [hz] at hx; cases hx
    · rintro ⟨x, hx, hs⟩
      exact ⟨x, hterm m x hx, hs⟩
  have hcov : ∀ n i, t.Live n → (u.Covers (φ n) i ↔ t.Covers n i) := by
    intro n i hn
    constructor
    · rintro ⟨m', h1, h2⟩
      obtain ⟨m, hm, rfl⟩ := S.onto m' h2.isTerm.live
      exact ⟨m, (S.dom W W' hn hm).1 h1, (hta m i hm).1 h2⟩
    · rintro ⟨m, h1, h2⟩
      have hm := h2.isTerm.live
      exact ⟨φ m, (S.dom W W' hn hm).2 h1, (hta m i hm).2 h2⟩
  refine ⟨S.root W W', S.inj, S.onto, ?_, ?_⟩
  · intro n hn
    rcases live_iff.1 hn with ⟨x, hx⟩ | ⟨x, hx⟩
    · rw [hx, hterm n x hx]
    · obtain ⟨y, hy, hl, hf⟩ := hnt n x hx
      rw [hx, hy]
      obtain ⟨v1, c1⟩ := W.spans n x hx
      obtain ⟨v2, c2⟩ := W'.spans _ y hy
      have hsp : y.span = x.span := by
        refine Span.Valid.ext v2 v1 (Finset.ext fun i => ?_)
        rw [← Span.contains_iff, ← Span.contains_iff, c1, c2, hcov n i hn]
      cases x; cases y
      simp only at hl hf hsp
      subst hl hf hsp
      rfl
  · intro p n w hp hn
    cases w with
    | secondary l => exact hsec p n l hp hn
    | primary l =>
      have key : ∀ (t : Tree), t.WF → ∀ p n, (∃ e ∈ t.graph.edges, e.src = p ∧ e.tgt = n ∧ e.w = .primary l) ↔
          t.IsChild p n ∧ t.inLabel n = l := by
        intro t W p n
        constructor
        · rintro ⟨e, h1, rfl, rfl, h4⟩
          have hpr : e.w.isPrimary = true := by rw [h4]; rfl
          refine ⟨⟨e, h1, rfl, rfl, hpr⟩, ?_⟩
          unfold Tree.inLabel
          rw [W.shape.edgeLabel_of_edge h1 hpr, h4]; rfl
        · rintro ⟨hc, rfl⟩
          have k := edgeLabel_eq_of_inLabel W.shape hc
          obtain ⟨e, h1, h2, h3, h4⟩ := (show _ from hc)
          refine ⟨e, h1, h2, h3, ?_⟩
          have := W.shape.edgeLabel_of_edge h1 h4
          rw [h3, k] at this
          injection this with this
          exact this.symm
      rw [key t W, key u W', S.child p n hp hn, hlab n hn]

/-! ## The steps -/

theorem TermEdit.liveIff {g : Nat → Terminal → Terminal} (E : TermEdit t t' g) (n : Nat) : t'.Live n ↔ t.Live n := by
  constructor
  · rintro ⟨nd, h⟩
    by_contra hn
    have : t.graph.node? n = Option.none := by
      cases hh : t.graph.node? n with
      | none => rfl
      | some x => exact absurd ⟨x, hh⟩ hn
    rw [E.none n this] at h; cases h
  · rintro ⟨nd, h⟩
    cases nd with
    | term x => exact ⟨_, E.term n x h⟩
    | nt x => exact ⟨_, E.nt n x h⟩

/-- Changed words. -/
theorem Iso.edit {g g' : Nat → Terminal → Terminal} (I : Iso t u φ) (E : TermEdit t t' g) (E' : TermEdit u u' g')
    (h : ∀ n x, t.graph.node? n = some (.term x) → g' (φ n) x = g n x) : Iso t' u' φ where
  root := by rw [E.root, E'.root, I.root]
  inj n m hn hm := I.inj n m ((E.liveIff n).1 hn) ((E.liveIff m).1 hm)
  onto n' hn' := by
    obtain ⟨n, hn, e⟩ := I.onto n' ((E'.liveIff n').1 hn')
    exact ⟨n, (E.liveIff n).2 hn, e⟩
  node n hn := by
    rw [E.liveIff] at hn
    have hh := I.node n hn
    rcases live_iff.1 hn with ⟨x, hx⟩ | ⟨x, hx⟩
    · rw [hx] at hh
      rw [E.term n x hx, E'.term _ x hh, h n x hx]
    · rw [hx] at hh
      rw [E.nt n x hx, E'.nt _ x hh]
  edge p n w hp hn := by
    rw [E.edges, E'.edges]
    exact I.edge p n w ((E.liveIff p).1 hp) ((E.liveIff n).1 hn)

/-- Parents are the closest proper ancestors. -/
theorem Shape.child_iff (G : t.graph.OK) (S : t.Shape) {p n : Nat} (hn : t.Live n) :
    t.IsChild p n ↔ t.Dom p n ∧ p ≠ n ∧ ∀ m, t.Live m → t.Dom p m → t.Dom m n → m = p ∨ m = n := by
  constructor
  · intro h
    refine ⟨.single h, ?_, fun m _ h1 h2 => ?_⟩
    · rintro rfl
      exact S.not_isChild_self G _ h
    · rcases h2.cases_parent with h2 | ⟨q, h3, h4⟩
      · exact .inr h2.symm
      · rw [S.isChild_unique h4 h] at h3
        exact .inl (S.dom_antisymm G h3 h1)
  · rintro ⟨h1, h2, h3⟩
    rcases h1.cases_parent with h | ⟨q, h4, h5⟩
    · exact absurd h.symm h2
    · rcases h3 q (isChild_live G h5).1 h4 (.single h5) with rfl | rfl
      · exact h5
      · exact absurd h5 (S.not_isChild_self G _)

theorem Removed.liveIff {R : Nat → Prop} (H : Removed t t' R) (n : Nat) : t'.Live n ↔ t.Live n ∧ ¬ R n := by
  constructor
  · intro h
    have hR : ¬ R n := fun hR => H.gone n hR h
    obtain ⟨nd, h⟩ := h
    exact ⟨⟨nd, by rw [← H.node n hR, h]⟩, hR⟩
  · rintro ⟨⟨nd, h⟩, hR⟩
    exact ⟨nd, by rw [H.node n hR, h]⟩

theorem Removed.inLabel {R : Nat → Prop} (H : Removed t t' R) (W : t.WF) {p n : Nat} (h : t'.IsChild p n) :
    (t.IsChild p n → t'.inLabel n = t.inLabel n) ∧ (¬ t.IsChild p n → t'.inLabel n = none) := by
  have key := edgeLabel_eq_of_inLabel H.wf.shape h
  constructor
  · intro hc
    obtain ⟨e, h1, h2, h3, h4⟩ := (show _ from hc)
    obtain ⟨l1, l2⟩ := isChild_live H.wf.graph h
    have hm := H.edges e h1 (by rw [h2]; exact ((H.liveIff p).1 l1).2) (by rw [h3]; exact ((H.liveIff n).1 l2).2)
    unfold Tree.inLabel
    rw [← h3, H.wf.shape.edgeLabel_of_edge hm h4, W.shape.edgeLabel_of_edge h1 h4]
  · intro hc
    obtain ⟨e, h1, h2, h3, h4⟩ := (show _ from h)
    rcases H.added e h1 with h5 | ⟨_, h5⟩
    · exact absurd ⟨e, h5, h2, h3, h4⟩ hc
    · unfold Tree.inLabel
      rw [← h3, H.wf.shape.edgeLabel_of_edge h1 h4, h5]; rfl

/-- Nodes taken out. -/
theorem Iso.removed {R R' : Nat → Prop} (I : Iso t u φ) (W : t.WF) (W' : u.WF) (H : Removed t t' R) (H' : Removed u u' R')
    (hR : ∀ n, t.Live n → (R' (φ n) ↔ R n)) : Iso t' u' φ := by
  have hl : ∀ n, t.Live n → (u'.Live (φ n) ↔ t'.Live n) := by
    intro n hn
    rw [H.liveIff, H'.liveIff, hR n hn]
    exact ⟨fun h => ⟨hn, h.2⟩, fun h => ⟨I.live hn, h.2⟩⟩
  have ht : ∀ n, t'.Live n → t.Live n := fun n h => ((H.liveIff n).1 h).1
  have honto : ∀ n', u'.Live n' → ∃ n, t'.Live n ∧ φ n = n' := by
    intro n' hn'
    obtain ⟨n, hn, rfl⟩ := I.onto n' ((H'.liveIff n').1 hn').1
    exact ⟨n, (hl n hn).1 hn', rfl⟩
  have hdom : ∀ a b, t'.Live a → t'.Live b → (u'.Dom (φ a) (φ b) ↔ t'.Dom a b) := by
    intro a b ha hb
    rw [H.dom a b ((H.liveIff a).1 ha).2 ((H.liveIff b).1 hb).2,
      H'.dom _ _ ((H'.liveIff _).1 ((hl a (ht a ha)).2 ha)).2 ((H'.liveIff _).1 ((hl b (ht b hb)).2 hb)).2,
      I.dom W W' (ht a ha) (ht b hb)]
  have S : Skel t' u' φ := by
    refine ⟨fun n m hn hm => I.inj n m (ht n hn) (ht m hm), honto, fun n hn => (hl n (ht n hn)).2 hn, ?_⟩
    intro p n hp hn
    rw [H.wf.shape.child_iff H.wf.graph hn, H'.wf.shape.child_iff H'.wf.graph ((hl n (ht n hn)).2 hn), hdom p n hp hn]
    refine and_congr Iff.rfl (and_congr ?_ ⟨fun h m hm h1 h2 => ?_, fun h m' hm' h1 h2 => ?_⟩)
    · exact not_congr ⟨fun h => I.inj p n (ht p hp) (ht n hn) h, fun h => by rw [h]⟩
    · rcases h (φ m) ((hl m (ht m hm)).2 hm) ((hdom p m hp hm).2 h1) ((hdom m n hm hn).2 h2) with e | e
      · exact .inl (I.inj _ _ (ht m hm) (ht p hp) e)
      · exact .inr (I.inj _ _ (ht m hm) (ht n hn) e)
    · obtain ⟨m, hm, rfl⟩ := honto m' hm'
      rcases h m hm ((hdom p m hp hm).1 h1) ((hdom m n hm hn).1 h2) with e | e
      · exact .inl (by rw [e])
      · exact .inr (by rw [e])
  have hnode : ∀ n, t'.Live n → u'.graph.node? (φ n) = t'.graph.node? n := by
    intro n hn
    rw [H.node n ((H.liveIff n).1 hn).2, H'.node _ ((H'.liveIff _).1 ((hl n (ht n hn)).2 hn)).2, I.node n (ht n hn)]
  refine S.iso H.wf H'.wf (fun n x hx => by rw [hnode n ⟨_, hx⟩, hx])
    (fun n x hx => ⟨x, by rw [hnode n ⟨_, hx⟩, hx], rfl, rfl⟩) ?_ ?_
  · intro n hn
    by_cases hr : n = t'.root
    · rw [hr, ← S.root H.wf H'.wf, inLabel_root H.wf.shape, inLabel_root H'.wf.shape]
    · obtain ⟨p, e, h1, h2, h3, h4⟩ := H.wf.shape.exists_parent hn hr
      have hc : t'.IsChild p n := ⟨e, h1, h2, h3, h4⟩
      have hp := (isChild_live H.wf.graph hc).1
      have hc' := (S.child p n hp hn).2 hc
      have k := H.inLabel W hc
      have k' := H'.inLabel W' hc'
      rw [I.child (ht p hp) (ht n hn)] at k'
      by_cases hh : t.IsChild p n
      · rw [k.1 hh, k'.1 hh, I.inLabel W W' (ht n hn)]
      · rw [k.2 hh, k'.2 hh]
  · intro p n l hp hn
    have key : ∀ {t t' : Tree} {R : Nat → Prop}, Removed t t' R → ∀ {p n : Nat}, t'.Live p → t'.Live n →
        ((∃ e ∈ t'.graph.edges, e.src = p ∧ e.tgt = n ∧ e.w = .secondary l) ↔
          ∃ e ∈ t.graph.edges, e.src = p ∧ e.tgt = n ∧ e.w = .secondary l) := by
      intro t t' R H p n hp hn
      constructor
      · rintro ⟨e, h1, h2, h3, h4⟩
        rcases H.added e h1 with h5 | ⟨_, h5⟩
        · exact ⟨e, h5, h2, h3, h4⟩
        · rw [h4] at h5; cases h5
      · rintro ⟨e, h1, h2, h3, h4⟩
        exact ⟨e, H.edges e h1 (by rw [h2]; exact ((H.liveIff p).1 hp).2) (by rw [h3]; exact ((H.liveIff n).1 hn).2), h2, h3, h4⟩
    rw [key H hp hn, key H' ((hl p (ht p hp)).2 hp) ((hl n (ht n hn)).2 hn)]
    exact I.edge p n _ (ht p hp) (ht n hn)

theorem content_nt_fields {n : Nat} (h : t'.content n = t.content n) {x : NonTerminal} (hx : t'.graph.node? n = some (.nt x)) :
    ∃ y, t.graph.node? n = some (.nt y) ∧ y.label = x.label ∧ y.features = x.features := by
  unfold content at h
  rw [hx] at h
  cases hn : t.graph.node? n with
  | none => rw [hn] at h; cases h
  | some nd =>
    rw [hn] at h
    cases nd with
    | term y => simp [Node.replaceSpan] at h
    | nt y =>
      simp only [Option.map_some, Node.replaceSpan, Option.some.injEq, Node.nt.injEq, NonTerminal.mk.injEq] at h
      exact ⟨y, rfl, h.1.symm, h.2.1.symm⟩

/-- Words moved. -/
theorem Iso.gathered {a : Nat} {M M' : Nat → Prop} (I : Iso t u φ) (W : t.WF) (W' : u.WF) (ha : t.Live a)
    (H : Gathered t a M t') (H' : Gathered u (φ a) M' u') (hM : ∀ n, t.Live n → (M' (φ n) ↔ M n)) : Iso t' u' φ := by
  have ht : ∀ n, t'.Live n → t.Live n := fun n h => ((H.live n).1 h).1
  have hl : ∀ n, t.Live n → (u'.Live (φ n) ↔ t'.Live n) := by
    intro n hn
    rw [H.live, H'.live, I.isTerm hn, I.dom W W' hn ha]
    refine and_congr ⟨fun _ => hn, fun _ => I.live hn⟩ (or_congr Iff.rfl (or_congr Iff.rfl ⟨?_, ?_⟩))
    · rintro ⟨m', h1, h2, h3⟩
      obtain ⟨m, hm, rfl⟩ := I.onto m' h1.live
      exact ⟨m, (I.isTerm hm).1 h1, fun h => h2 ((hM m hm).2 h), (I.dom W W' hn hm).1 h3⟩
    · rintro ⟨m, h1, h2, h3⟩
      have hm := h1.live
      exact ⟨φ m, (I.isTerm hm).2 h1, fun h => h2 ((hM m hm).1 h), (I.dom W W' hn hm).2 h3⟩
  have honto : ∀ n', u'.Live n' → ∃ n, t'.Live n ∧ φ n = n' := by
    intro n' hn'
    obtain ⟨n, hn, rfl⟩ := I.onto n' ((H'.live n').1 hn').1
    exact ⟨n, (hl n hn).1 hn', rfl⟩
  have S : Skel t' u' φ := by
    refine ⟨fun n m hn hm => I.inj n m (ht n hn) (ht m hm), honto, fun n hn => (hl n (ht n hn)).2 hn, ?_⟩
    intro p n hp hn
    rw [H.child, H'.child, I.child (ht p hp) (ht n hn), hl n (ht n hn), hM n (ht n hn)]
    refine or_congr Iff.rfl (and_congr ⟨fun h => I.inj _ _ (ht p hp) ha h, fun h => by rw [h]⟩ Iff.rfl)
  refine S.iso H.wf H'.wf ?_ ?_ ?_ ?_
  · intro n x hx
    obtain ⟨y, hy⟩ : t.IsTerm n := by
      have hn := ht n ⟨_, hx⟩
      rcases live_iff.1 hn with h | h
      · exact h
      · obtain ⟨z, hz, _⟩ := content_nt_fields (H.content n ⟨_, hx⟩).symm h.choose_spec
        rw [hx] at hz; cases hz
    have := H.term n y hy
    rw [hx] at this
    cases this
    exact H'.term _ _ (by rw [I.node n ⟨_, hy⟩, hy])
  · intro n x hx
    have hn' : t'.Live n := ⟨_, hx⟩
    obtain ⟨y, hy, h1, h2⟩ := content_nt_fields (H.content n hn') hx
    have hy' : u.graph.node? (φ n) = some (.nt y) := by rw [I.node n ⟨_, hy⟩, hy]
    obtain ⟨z, hz, h3, h4⟩ := content_nt_fields (H'.content _ ((hl n (ht n hn')).2 hn')).symm hy'
    exact ⟨z, hz, h3.trans h1, h4.trans h2⟩
  · intro n hn
    by_cases hm : M n
    · rw [H.moved n hm, H'.moved _ ((hM n (ht n hn)).2 hm)]
    · rw [H.label n hn hm, H'.label _ ((hl n (ht n hn)).2 hn) (fun h => hm ((hM n (ht n hn)).1 h)), I.inLabel W W' (ht n hn)]
  · intro p n l hp hn
    have key : ∀ {t t' : Tree}, SecondaryKept t t' → ∀ {p n : Nat}, t'.Live p → t'.Live n →
        ((∃ e ∈ t'.graph.edges, e.src = p ∧ e.tgt = n ∧ e.w = .secondary l) ↔
          ∃ e ∈ t.graph.edges, e.src = p ∧ e.tgt = n ∧ e.w = .secondary l) := by
      intro t t' H p n hp hn
      constructor
      · rintro ⟨e, h1, h2, h3, h4⟩
        exact ⟨e, ((H e (by rw [h4]; rfl)).1 h1).1, h2, h3, h4⟩
      · rintro ⟨e, h1, h2, h3, h4⟩
        exact ⟨e, (H e (by rw [h4]; rfl)).2 ⟨h1, by rw [h2]; exact hp, by rw [h3]; exact hn⟩, h2, h3, h4⟩
    rw [key H.secondary hp hn, key H'.secondary ((hl p (ht p hp)).2 hp) ((hl n (ht n hn)).2 hn)]
    exact I.edge p n _ (ht p hp) (ht n hn)

section inserted

variable {K K' : Nat → Nat → Prop} {lab lab' : Nat → Str}

/-- A new node, seen from one of the words below it. -/
theorem Inserted.newAt (J : Inserted t K lab t') (Z : t.Sentence) {n c : Nat} (h1 : t'.Live n) (h2 : ¬ t.Live n)
    (hc : t'.IsChild n c) : ∃ p, K p c ∧ t'.IsChild p n ∧ t'.inLabel n = none ∧
      (∃ s, t'.graph.node? n = some (.nt (NonTerminal.new (lab p) s))) ∧ ∀ d, t'.IsChild n d ↔ t.Run (K p) c d := by
  obtain ⟨p, c0, _, g2, g3, g4, g5⟩ := J.new n h1 h2
  have hr := (g5 c).1 hc
  exact ⟨p, hr.right Z, g2, g3, g4, fun d => (g5 d).trans ⟨fun h => hr.comm.trans h, fun h => hr.trans h⟩⟩

/-- Nodes inserted above words. -/
theorem Iso.inserted (I : Iso t u φ) (W : t.WF) (W' : u.WF) (J : Inserted t K lab t') (J' : Inserted u K' lab' u')
    (hK : ∀ p c, K p c → t.IsChild p c) (hK' : ∀ p c, K' p c → u.IsChild p c)
    (hKK : ∀ p c, t.Live p → t.Live c → (K' (φ p) (φ c) ↔ K p c)) (hlab : ∀ p, t.Live p → lab' (φ p) = lab p) :
    ∃ ψ, Iso t' u' ψ := by
  classical
  have hKl : ∀ p c, K p c → t.Live p ∧ t.Live c := fun p c h => isChild_live W.graph (hK p c h)
  have holdl : ∀ n, t.Live n → t'.Live n := by
    rintro n ⟨nd, h⟩
    exact ⟨nd, by rw [J.old n ⟨nd, h⟩, h]⟩
  have holdl' : ∀ n, u.Live n → u'.Live n := by
    rintro n ⟨nd, h⟩
    exact ⟨nd, by rw [J'.old n ⟨nd, h⟩, h]⟩
  -- children of new nodes are words of the tree
  have hlow : ∀ n c, t'.Live n → ¬ t.Live n → t'.IsChild n c → t.Live c := by
    intro n c h1 h2 h3
    obtain ⟨p, k, _⟩ := J.newAt W.sentence h1 h2 h3
    exact (hKl p c k).2
  have hlow' : ∀ n c, u'.Live n → ¬ u.Live n → u'.IsChild n c → u.Live c := by
    intro n c h1 h2 h3
    obtain ⟨p, k, _⟩ := J'.newAt W'.sentence h1 h2 h3
    exact (isChild_live W'.graph (hK' p c k)).2
  have hex : ∀ n, ∃ n' c, t'.Live n → ¬ t.Live n → t'.IsChild n c ∧ ¬ u.Live n' ∧ u'.IsChild n' (φ c) := by
    intro n
    by_cases h : t'.Live n ∧ ¬ t.Live n
    · obtain ⟨p, c0, g1, g2, g3, ⟨s, g4⟩, g5⟩ := J.new n h.1 h.2
      obtain ⟨c, hc⟩ := J.wf.shape.nt_child n ⟨_, g4⟩
      obtain ⟨q, k1, _⟩ := J.newAt W.sentence h.1 h.2 hc
      obtain ⟨hq, hcl⟩ := hKl q c k1
      obtain ⟨n', m1, m2⟩ := J'.cover (φ q) (φ c) ((hKK q c hq hcl).2 k1)
      exact ⟨n', c, fun _ _ => ⟨hc, m1, m2⟩⟩
    · exact ⟨0, 0, fun h1 h2 => absurd ⟨h1, h2⟩ h⟩
  choose ν κ hν using hex
  have hνl : ∀ n, t'.Live n → ¬ t.Live n → u'.Live (ν n) ∧ ¬ u.Live (ν n) := by
    intro n h1 h2
    obtain ⟨_, g2, g3⟩ := hν n h1 h2
    exact ⟨(isChild_live J'.wf.graph g3).1, g2⟩
  have hrun : ∀ p c d, t.Live p → t.Live c → t.Live d → (u.Run (K' (φ p)) (φ c) (φ d) ↔ t.Run (K p) c d) := by
    intro p c d hp hc hd
    have hS : ∀ k, (∃ e, K' (φ p) e ∧ u.TermAt e k) ↔ ∃ e, K p e ∧ t.TermAt e k := by
      intro k
      constructor
      · rintro ⟨e', h1, h2⟩
        obtain ⟨e, he, rfl⟩ := I.onto e' h2.isTerm.live
        exact ⟨e, (hKK p e hp he).1 h1, (I.termAt he).1 h2⟩
      · rintro ⟨e, h1, h2⟩
        have he := h2.isTerm.live
        exact ⟨φ e, (hKK p e hp he).2 h1, (I.termAt he).2 h2⟩
    unfold Run Conn
    simp only [hS, I.termAt hc, I.termAt hd]
  -- the new nodes correspond to each other
  have hkey : ∀ n, t'.Live n → ¬ t.Live n → ∃ p, t.Live p ∧ t'.IsChild p n ∧ u'.IsChild (φ p) (ν n) ∧
      t'.inLabel n = none ∧ u'.inLabel (ν n) = none ∧
      (∃ s, t'.graph.node? n = some (.nt (NonTerminal.new (lab p) s))) ∧
      (∃ s, u'.graph.node? (ν n) = some (.nt (NonTerminal.new (lab p) s))) ∧
      ∀ c, t.Live c → (u'.IsChild (ν n) (φ c) ↔ t'.IsChild n c) := by
    intro n h1 h2
    obtain ⟨g1, g2, g3⟩ := hν n h1 h2
    obtain ⟨p, a1, a2, a3, a4, a5⟩ := J.newAt W.sentence h1 h2 g1
    obtain ⟨p', b1, b2, b3, b4, b5⟩ := J'.newAt W'.sentence (hνl n h1 h2).1 g2 g3
    obtain ⟨hp, hc⟩ := hKl _ _ a1
    have : p' = φ p := W'.shape.isChild_unique (hK' _ _ b1) (hK' _ _ ((hKK p _ hp hc).2 a1))
    subst this
    rw [hlab p hp] at b4
    exact ⟨p, hp, a2, b2, a3, b3, a4, b4, fun c hcl => by rw [a5, b5, hrun p _ c hp hc hcl]⟩
  let ψ : Nat → Nat := fun n => if t.Live n then φ n else ν n
  have hψ1 : ∀ n, t.Live n → ψ n = φ n := fun n h => if_pos h
  have hψ2 : ∀ n, ¬ t.Live n → ψ n = ν n := fun n h => if_neg h
  have S : Skel t' u' ψ := by
    refine ⟨?_, ?_, ?_, ?_⟩
    · intro n m hn hm e
      by_cases h1 : t.Live n <;> by_cases h2 : t.Live m
      · rw [hψ1 n h1, hψ1 m h2] at e
        exact I.inj n m h1 h2 e
      · rw [hψ1 n h1, hψ2 m h2] at e
        exact absurd (e ▸ I.live h1) (hνl m hm h2).2
      · rw [hψ2 n h1, hψ1 m h2] at e
        exact absurd (e ▸ I.live h2) (hνl n hn h1).2
      · rw [hψ2 n h1, hψ2 m h2] at e
        obtain ⟨g1, g2, g3⟩ := hν n hn h1
        rw [e] at g3
        obtain ⟨_, _, _, _, _, _, _, _, hk⟩ := hkey m hm h2
        exact J.wf.shape.isChild_unique g1 ((hk _ (hlow n _ hn h1 g1)).1 g3)
    · intro n' hn'
      by_cases h : u.Live n'
      · obtain ⟨n, hn, e⟩ := I.onto n' h
        exact ⟨n, holdl n hn, by rw [hψ1 n hn, e]⟩
      · obtain ⟨_, _, _, _, _, ⟨s, g4⟩, _⟩ := J'.new n' hn' h
        obtain ⟨c', hc'⟩ := J'.wf.shape.nt_child n' ⟨_, g4⟩
        obtain ⟨q', k1, _⟩ := J'.newAt W'.sentence hn' h hc'
        obtain ⟨c, hc, rfl⟩ := I.onto c' (hlow' n' c' hn' h hc')
        obtain ⟨q, hq, rfl⟩ := I.onto q' (isChild_live W'.graph (hK' _ _ k1)).1
        obtain ⟨n, m1, m2⟩ := J.cover q c ((hKK q c hq hc).1 k1)
        have hn := (isChild_live J.wf.graph m2).1
        obtain ⟨_, _, _, _, _, _, _, _, hk⟩ := hkey n hn m1
        exact ⟨n, hn, by rw [hψ2 n m1]; exact J'.wf.shape.isChild_unique ((hk c hc).2 m2) hc'⟩
    · intro n hn
      by_cases h : t.Live n
      · rw [hψ1 n h]; exact holdl' _ (I.live h)
      · rw [hψ2 n h]; exact (hνl n hn h).1
    · intro p n hp hn
      by_cases h1 : t.Live p <;> by_cases h2 : t.Live n
      · rw [hψ1 p h1, hψ1 n h2, J.child p n h1 h2, J'.child _ _ (I.live h1) (I.live h2), I.child h1 h2, hKK p n h1 h2]
      · rw [hψ1 p h1, hψ2 n h2]
        obtain ⟨q, hq, g1, g2, _⟩ := hkey n hn h2
        constructor
        · intro h
          rw [I.inj p q h1 hq (J'.wf.shape.isChild_unique h g2)]; exact g1
        · intro h
          rw [J.wf.shape.isChild_unique h g1]; exact g2
      · rw [hψ2 p h1, hψ1 n h2]
        obtain ⟨_, _, _, _, _, _, _, _, hk⟩ := hkey p hp h1
        exact hk n h2
      · rw [hψ2 p h1, hψ2 n h2]
        exact ⟨fun h => absurd (hlow' _ _ (hνl p hp h1).1 (hνl p hp h1).2 h) (hνl n hn h2).2,
          fun h => absurd (hlow _ _ hp h1 h) h2⟩
  refine ⟨ψ, S.iso J.wf J'.wf ?_ ?_ ?_ ?_⟩
  · intro n x hx
    by_cases h : t.Live n
    · rw [hψ1 n h, J'.old _ (I.live h), I.node n h, ← J.old n h, hx]
    · obtain ⟨_, _, _, _, _, _, ⟨s, hs⟩, _⟩ := hkey n ⟨_, hx⟩ h
      rw [hx] at hs; cases hs
  · intro n x hx
    by_cases h : t.Live n
    · exact ⟨x, by rw [hψ1 n h, J'.old _ (I.live h), I.node n h, ← J.old n h, hx], rfl, rfl⟩
    · obtain ⟨p, _, _, _, _, _, ⟨s, hs⟩, ⟨s', hs'⟩, _⟩ := hkey n ⟨_, hx⟩ h
      rw [hx] at hs
      cases hs
      exact ⟨NonTerminal.new (lab p) s', by rw [hψ2 n h, hs'], rfl, rfl⟩
  · intro n hn
    by_cases h : t.Live n
    · rw [hψ1 n h]
      by_cases hf : ∃ p d i, K p n ∧ K p d ∧ t.TermAt d i ∧ t.TermAt n (i + 1)
      · obtain ⟨p, d, i, h1, h2, h3, h4⟩ := hf
        have hd := h3.isTerm.live
        have hp := (hKl p n h1).1
        rw [J.follow p n d i h1 h2 h3 h4, J'.follow (φ p) (φ n) (φ d) i ((hKK p n hp h).2 h1) ((hKK p d hp hd).2 h2)
          ((I.termAt hd).2 h3) ((I.termAt h).2 h4)]
      · rw [J.first n h fun p d i h1 h2 h3 h4 => hf ⟨p, d, i, h1, h2, h3, h4⟩, ← I.inLabel W W' h]
        refine J'.first (φ n) (I.live h) fun p' d' i h1 h2 h3 h4 => hf ?_
        obtain ⟨d, hd, rfl⟩ := I.onto d' h3.isTerm.live
        obtain ⟨p, hp, rfl⟩ := I.onto p' (isChild_live W'.graph (hK' _ _ h1)).1
        exact ⟨p, d, i, (hKK p n hp h).1 h1, (hKK p d hp hd).1 h2, (I.termAt hd).1 h3, (I.termAt h).1 h4⟩
    · rw [hψ2 n h]
      obtain ⟨_, _, _, _, g1, g2, _⟩ := hkey n hn h
      rw [g1, g2]
  · intro p n l hp hn
    have key : ∀ {t t' : Tree} {K : Nat → Nat → Prop} {lab : Nat → Str}, Inserted t K lab t' → ∀ p n,
        ((∃ e ∈ t'.graph.edges, e.src = p ∧ e.tgt = n ∧ e.w = .secondary l) ↔
          ∃ e ∈ t.graph.edges, e.src = p ∧ e.tgt = n ∧ e.w = .secondary l) := by
      intro t t' K lab J p n
      constructor
      · rintro ⟨e, h1, h2, h3, h4⟩
        exact ⟨e, J.secondary e h1 (by rw [h4]; rfl), h2, h3, h4⟩
      · rintro ⟨e, h1, h2, h3, h4⟩
        exact ⟨e, J.edges e h1 (.inl (by rw [h4]; rfl)), h2, h3, h4⟩
    rw [key J, key J']
    by_cases h1 : t.Live p <;> by_cases h2 : t.Live n
    · rw [hψ1 p h1, hψ1 n h2]
      exact I.edge p n _ h1 h2
    · rw [hψ2 n h2]
      exact ⟨fun ⟨e, m1, _, m3, _⟩ => absurd (m3 ▸ (W.graph.ends e m1).2) h2,
        fun ⟨e, m1, _, m3, _⟩ => absurd (m3 ▸ (W'.graph.ends e m1).2) (hνl n hn h2).2⟩
    · rw [hψ2 p h1]
      exact ⟨fun ⟨e, m1, m2, _, _⟩ => absurd (m2 ▸ (W.graph.ends e m1).1) h1,
        fun ⟨e, m1, m2, _, _⟩ => absurd (m2 ▸ (W'.graph.ends e m1).1) (hνl p hp h1).2⟩
    · rw [hψ2 p h1]
      exact ⟨fun ⟨e, m1, m2, _, _⟩ => absurd (m2 ▸ (W.graph.ends e m1).1) h1,
        fun ⟨e, m1, m2, _, _⟩ => absurd (m2 ▸ (W'.graph.ends e m1).1) (hνl p hp h1).2⟩

end inserted

end Tree

namespace Convert

open Lumberjack.Tree

variable {t u t' u' : Tree} {φ : Nat → Nat}

/-! ## The options -/

theorem isDummy_iso (I : Iso t u φ) {n : Nat} (hn : t.Live n) : IsDummy u (φ n) ↔ IsDummy t n := by
  unfold IsDummy
  rw [I.node n hn]

/-- Which dummies stay. -/
theorem dummies_fix {R R' : Nat → Prop} (I : Iso t u φ) (W : t.WF) (W' : u.WF) (H : Removed t t' R) (H' : Removed u u' R')
    (hR : ∀ n, R n → IsDummy t n)
    (hs : ∀ n, IsDummy t' n → n = t'.root ∧ n = t.root ∧ ∃ c d, c ≠ d ∧ t'.IsChild n c ∧ t'.IsChild n d)
    (hR' : ∀ n, R' n → IsDummy u n)
    (hs' : ∀ n, IsDummy u' n → n = u'.root ∧ n = u.root ∧ ∃ c d, c ≠ d ∧ u'.IsChild n c ∧ u'.IsChild n d)
    {n : Nat} (hn : t.Live n) (h : R' (φ n)) : R n := by
  by_contra hnR
  have hd : IsDummy t n := (isDummy_iso I hn).1 (hR' _ h)
  have hd' : IsDummy t' n := by
    obtain ⟨x, hx, hl⟩ := hd
    exact ⟨x, by rw [H.node n hnR, hx], hl⟩
  obtain ⟨e1, e2, c, d, hcd, hc, hcd'⟩ := hs n hd'
  -- the root of the other tree
  obtain ⟨q, hq, hqe⟩ := I.onto u'.root ((H'.liveIff _).1 H'.wf.shape.root_live).1
  have hlive := (H'.liveIff _).1 H'.wf.shape.root_live
  rw [← hqe] at hlive
  have hqn : q ≠ n := fun e => hlive.2 (e ▸ h)
  have hqR : ¬ R q := by
    intro hq'
    obtain ⟨x, hx, hl⟩ := (isDummy_iso I hq).2 (hR q hq')
    obtain ⟨_, e3, _⟩ := hs' (φ q) ⟨x, by rw [H'.node _ hlive.2, hx], hl⟩
    rw [I.root] at e3
    exact hqn ((I.inj _ _ hq W.shape.root_live e3).trans e2.symm)
  have below : ∀ c, t'.IsChild n c → q = c := by
    intro c hc
    have hcl' := (isChild_live H.wf.graph hc).2
    obtain ⟨hcl, hcR⟩ := (H.liveIff c).1 hcl'
    have hcn : ¬ IsDummy t' c := by
      intro hcd
      have := (hs c hcd).1
      rw [this] at hc
      exact H.wf.shape.root_top _ hc
    have hcR' : ¬ R' (φ c) := by
      intro hr
      obtain ⟨x, hx, hl⟩ := (isDummy_iso I hcl).1 (hR' _ hr)
      exact hcn ⟨x, by rw [H.node c hcR, hx], hl⟩
    have hdom := H'.wf.shape.reach (φ c) ((H'.liveIff _).2 ⟨I.live hcl, hcR'⟩)
    rw [← hqe, H'.dom _ _ hlive.2 hcR', I.dom W W' hq hcl, ← H.dom q c hqR hcR] at hdom
    rcases hdom.cases_parent with h | ⟨p, h1, h2⟩
    · exact h.symm
    · rw [H.wf.shape.isChild_unique h2 hc, e1] at h1
      refine absurd ?_ hqn
      rw [e1]
      exact H.wf.shape.dom_antisymm H.wf.graph h1 (H.wf.shape.reach q ((H.liveIff q).2 ⟨hq, hqR⟩))
  exact hcd ((below c hc).symm.trans (below d hcd'))

theorem _root_.Lumberjack.Tree.Iso.dummies (I : Iso t u φ) (W : t.WF) (W' : u.WF) (h : DummiesRemoved t t') (h' : DummiesRemoved u u') : Iso t' u' φ := by
  obtain ⟨R, H, hR, hs⟩ := h
  obtain ⟨R', H', hR', hs'⟩ := h'
  obtain ⟨ψ, I', hψ⟩ := I.symm W
  refine I.removed W W' H H' fun n hn => ⟨fun h => dummies_fix I W W' H H' hR hs hR' hs' hn h, fun h => ?_⟩
  refine dummies_fix I' W' W H' H hR' hs' hR hs (I.live hn) ?_
  rwa [hψ n hn]

theorem _root_.Lumberjack.Tree.Iso.filtered {s : LabelSet} (I : Iso t u φ) (W : t.WF) (W' : u.WF) (h : Filtered s t t') (h' : Filtered s u u') :
    Iso t' u' φ := by
  refine I.removed W W' h.2 h'.2 fun n hn => ?_
  rw [I.node n hn, I.root]
  refine and_congr (not_congr ⟨fun e => I.inj _ _ hn W.shape.root_live e, fun e => by rw [e]⟩) Iff.rfl

theorem _root_.Lumberjack.Tree.Iso.reattached {p : Str} (I : Iso t u φ) (W : t.WF) (W' : u.WF) (h : PrefixGathered p t t') (h' : PrefixGathered p u u') :
    Iso t' u' φ := by
  unfold PrefixGathered at h'
  rw [I.root] at h'
  refine I.gathered W W' W.shape.root_live h h' fun n hn => ?_
  rw [I.node n hn]

theorem _root_.Lumberjack.Tree.Iso.runs {s : LabelSet} {l : Str} (I : Iso t u φ) (W : t.WF) (W' : u.WF) (h : RunsInserted s l t t')
    (h' : RunsInserted s l u u') : ∃ ψ, Iso t' u' ψ := by
  refine I.inserted W W' h h' (fun p c h => h.2.1) (fun p c h => h.2.1) (fun p c hp hc => ?_) fun _ _ => rfl
  rw [I.node p hp, I.child hp hc, I.isTerm hc]

theorem _root_.Lumberjack.Tree.Iso.parents {name : Str} (I : Iso t u φ) (W : t.WF) (_ : u.WF) (hr : t.IsNt t.root) (h : ParentTagged name t t')
    (h' : ParentTagged name u u') : Iso t' u' φ := by
  obtain ⟨val, E, hv⟩ := h
  obtain ⟨val', E', hv'⟩ := h'
  refine I.edit E E' fun n x hx => ?_
  have hn : t.Live n := ⟨_, hx⟩
  have hne : n ≠ t.root := by
    rintro rfl
    exact not_isTerm_isNt ⟨x, hx⟩ hr
  obtain ⟨p, e, h1, h2, h3, h4⟩ := W.shape.exists_parent hn hne
  have hc : t.IsChild p n := ⟨e, h1, h2, h3, h4⟩
  have hp := (isChild_live W.graph hc).1
  obtain ⟨y, hy⟩ := W.shape.parent_isNt W.graph hc
  rw [hv n p y ⟨x, hx⟩ hc hy, hv' (φ n) (φ p) y ((I.isTerm hn).2 ⟨x, hx⟩) ((I.child hp hn).2 hc) (by rw [I.node p hp, hy])]

theorem closest_iso {f : Tree → Nat → Bool} (I : Iso t u φ) (W : t.WF) (W' : u.WF) (hf : ∀ n, t.Live n → f u (φ n) = f t n)
    {n a : Nat} (hn : t.Live n) (ha : t.Live a) : u.Closest f (φ n) (φ a) ↔ t.Closest f n a := by
  unfold Closest
  rw [I.dom W W' ha hn, hf a ha]
  refine and_congr (and_congr (not_congr ⟨fun e => I.inj _ _ ha hn e, fun e => by rw [e]⟩) Iff.rfl) ⟨?_, ?_⟩
  · intro h b h1 h2 h3
    have hb := h2.live_left W.graph hn
    exact (I.dom W W' hb ha).1 (h (φ b) (fun e => h1 (I.inj _ _ hb hn e)) ((I.dom W W' hb hn).2 h2) ((hf b hb).trans h3))
  · intro h b' h1 h2 h3
    obtain ⟨b, hb, rfl⟩ := I.onto b' (h2.live_left W'.graph (I.live hn))
    exact (I.dom W W' hb ha).2 (h b (fun e => h1 (by rw [e])) ((I.dom W W' hb hn).1 h2) ((hf b hb).symm.trans h3))

theorem _root_.Lumberjack.Tree.Iso.ids {name : Str} {s : LabelSet} (I : Iso t u φ) (W : t.WF) (W' : u.WF) (hr : t.IsNt t.root)
    (h : IdsProjected name s t t') (h' : IdsProjected name s u u') : Iso t' u' φ := by
  obtain ⟨num, E, hv, hc⟩ := h
  obtain ⟨num', E', hv', hc'⟩ := h'
  have hf : ∀ n, t.Live n → idNode s u (φ n) = idNode s t n := by
    intro n hn
    unfold idNode
    rw [I.node n hn, I.root]
    congr 1
    exact decide_eq_decide.2 ⟨fun e => I.inj _ _ W.shape.root_live hn e, fun e => by rw [e]⟩
  have hclose : ∀ n, t.IsTerm n → ∃ a, t.Live a ∧ t.Closest (idNode s) n a := by
    intro n hn
    have hne : n ≠ t.root := by
      rintro rfl
      exact not_isTerm_isNt hn hr
    obtain ⟨a, ha⟩ := exists_closest W (f := idNode s) hn.live hne (by simp [idNode])
    exact ⟨a, ha.1.2.1.live_left W.graph hn.live, ha⟩
  have hsame : ∀ n m, t.IsTerm n → t.IsTerm m → (num' (φ n) = num' (φ m) ↔ num n = num m) := by
    intro n m hn hm
    obtain ⟨a, hal, ha⟩ := hclose n hn
    obtain ⟨b, hbl, hb⟩ := hclose m hm
    rw [hv n m a b hn hm ha hb, hv' (φ n) (φ m) (φ a) (φ b) ((I.isTerm hn.live).2 hn) ((I.isTerm hm.live).2 hm)
      ((closest_iso I W W' hf hn.live hal).2 ha) ((closest_iso I W W' hf hm.live hbl).2 hb)]
    exact ⟨fun e => I.inj _ _ hal hbl e, fun e => by rw [e]⟩
  have hnum : ∀ i n, t.TermAt n i → num' (φ n) = num n := by
    intro i
    induction i using Nat.strong_induction_on with
    | _ i ih =>
      intro n hi
      by_cases hex : ∃ m j, t.TermAt m j ∧ j < i ∧ num m = num n
      · obtain ⟨m, j, h1, h2, h3⟩ := hex
        rw [← h3, ← ih j h2 m h1]
        exact ((hsame m n h1.isTerm hi.isTerm).2 h3).symm
      · have k1 := hc n i hi fun m j h1 h2 h3 => hex ⟨m, j, h1, h2, h3⟩
        have k2 := hc' (φ n) i ((I.termAt hi.isTerm.live).2 hi) (by
          intro m' j h1 h2 h3
          obtain ⟨m, hm, rfl⟩ := I.onto m' h1.isTerm.live
          have h1' := (I.termAt hm).1 h1
          exact hex ⟨m, j, h1', h2, (hsame m n h1'.isTerm hi.isTerm).1 h3⟩)
        have : ∀ k, k < num n ↔ k < num' (φ n) := by
          intro k
          rw [k1, k2]
          constructor
          · rintro ⟨m, j, h1, h2, rfl⟩
            exact ⟨φ m, j, (I.termAt h1.isTerm.live).2 h1, h2, ih j h2 m h1⟩
          · rintro ⟨m', j, h1, h2, rfl⟩
            obtain ⟨m, hm, rfl⟩ := I.onto m' h1.isTerm.live
            have h1' := (I.termAt hm).1 h1
            exact ⟨m, j, h1', h2, (ih j h2 m h1').symm⟩
        have a := this (num n)
        have b := this (num' (φ n))
        omega
  refine I.edit E E' fun n x hx => ?_
  rw [hnum _ n (W.sentence.termAt ⟨x, hx⟩)]

/-- No secondary edges are added. -/
def NoMoreSecondary (t t' : Tree) : Prop := ∀ e ∈ t'.graph.edges, e.w.isPrimary = false → e ∈ t.graph.edges

theorem Removed.noMore {R : Nat → Prop} (H : Removed t t' R) : NoMoreSecondary t t' := by
  intro e he hw
  rcases H.added e he with h | ⟨_, h⟩
  · exact h
  · rw [h] at hw; cases hw

theorem TermEdit.noMore {g : Nat → Terminal → Terminal} (E : TermEdit t t' g) : NoMoreSecondary t t' := by
  intro e he _
  rwa [E.edges] at he

/-- The trees before and after some steps. -/
structure Parallel (t u t' u' : Tree) : Prop where
  fit : Fit t'
  fit' : Fit u'
  words : SameWords t t'
  sec : t.OneSecondary → t'.OneSecondary
  iso : ∃ ψ, Iso t' u' ψ

theorem Parallel.next {t1 u1 : Tree} {p p' : Bool} (B : Parallel t u t1 u1) (G : Good p t1 t') (G' : Good p' u1 u')
    (h : NoMoreSecondary t1 t') (hI : ∀ ψ, Iso t1 u1 ψ → ∃ χ, Iso t' u' χ) : Parallel t u t' u' where
  fit := G.fit
  fit' := G'.fit
  words := B.words.trans G.words
  sec ho e he e' he' hw hw' ht := B.sec ho e (h e he hw) e' (h e' he' hw') hw hw' ht
  iso := by
    obtain ⟨ψ, hψ⟩ := B.iso
    exact hI ψ hψ

theorem pipeline_iso {o : Options} {tags : Option (List Str)} (I : Iso t u φ) (S : Suits o t) (S' : Suits o u)
    (hp : o.projectivize = true → t.isProjective = true) (h : Pipeline o tags t t') (h' : Pipeline o tags u u') :
    Parallel t u t' u' := by
  obtain ⟨t1, t2, t3, t4, t5, t6, t7, b1, b2, b3, b4, b5, b6, b7, b8⟩ := h
  obtain ⟨u1, u2, u3, u4, u5, u6, u7, c1, c2, c3, c4, c5, c6, c7, c8⟩ := h'
  have B0 : Parallel t u t u := ⟨S.fit, S'.fit, .refl t, id, φ, I⟩
  have B1 : Parallel t u t1 u1 ∧ (t.isProjective = true → t1.isProjective = true) := by
    cases h : o.removeDummies with
    | false => rw [b1.2 h, c1.2 h]; exact ⟨B0, id⟩
    | true =>
      have two : ∀ {t : Tree}, Suits o t → 2 ≤ t.nTerminals := fun S => by
        rcases S.words with h2 | h2; exacts [h2, by rw [h] at h2; cases h2.1]
      have G := dummies_good S.fit (two S) (b1.1 h)
      refine ⟨B0.next G (dummies_good S'.fit (two S') (c1.1 h)) ?_ fun ψ I => ⟨ψ, I.dummies S.fit.wf S'.fit.wf (b1.1 h) (c1.1 h)⟩, G.proj rfl⟩
      obtain ⟨R, H, _⟩ := b1.1 h
      exact Removed.noMore H
  obtain ⟨B1, hp1⟩ := B1
  have B2 : Parallel t u t2 u2 := by
    cases h : o.projectivize with
    | false => rw [b2.2 h, c2.2 h]; exact B1
    | true =>
      have h1 := hp1 (hp h)
      have h2 : u1.isProjective = true := by
        obtain ⟨ψ, I1⟩ := B1.iso
        rw [I1.projective B1.fit.wf B1.fit'.wf]; exact h1
      have same : ∀ {t t' : Tree}, t.WF → t.isProjective = true → Projectivized o.secEdges t t' → t' = t := by
        intro t t' W hpr hP
        rcases hP with ⟨_, h⟩ | ⟨⟨n, hn, hg⟩, _⟩
        · exact h
        · exact absurd ((noGaps_iff W).1 hpr n hn) hg
      rw [same B1.fit.wf h1 (b2.1 h), same B1.fit'.wf h2 (c2.1 h)]
      exact B1
  have B3 : Parallel t u t3 u3 := by
    cases tags with
    | none => rw [show t3 = t2 from b3, show u3 = u2 from c3]; exact B2
    | some l =>
      exact B2.next (edit_good B2.fit b3 fun n x => ⟨rfl, rfl, rfl⟩) (edit_good B2.fit' c3 fun n x => ⟨rfl, rfl, rfl⟩)
        (TermEdit.noMore b3) fun ψ I => ⟨ψ, I.edit b3 c3 fun n x hx => rfl⟩
  have B4 : Parallel t u t4 u4 := by
    cases h : o.reattachLabel with
    | none => rw [h] at b4 c4; rw [show t4 = t3 from b4, show u4 = u3 from c4]; exact B3
    | some p =>
      rw [h] at b4 c4
      exact B3.next (gathered_good B3.fit b4) (gathered_good B3.fit' c4) (fun e he hw => ((b4.secondary e hw).1 he).1)
        fun ψ I => ⟨ψ, I.reattached B3.fit.wf B3.fit'.wf b4 c4⟩
  have B5 : Parallel t u t5 u5 := by
    cases h : o.idSet with
    | none => rw [h] at b5 c5; rw [show t5 = t4 from b5, show u5 = u4 from c5]; exact B4
    | some p =>
      rw [h] at b5 c5
      have hI := fun ψ (I : Iso t4 u4 ψ) => I.ids B4.fit.wf B4.fit'.wf B4.fit.rootNt b5 c5
      obtain ⟨num, E, _⟩ := b5
      obtain ⟨num', E', _⟩ := c5
      exact B4.next (edit_good B4.fit E fun n x => ⟨rfl, rfl, rfl⟩) (edit_good B4.fit' E' fun n x => ⟨rfl, rfl, rfl⟩)
        (TermEdit.noMore E) fun ψ I => ⟨ψ, hI ψ I⟩
  have B6 : Parallel t u t6 u6 := by
    cases h : o.filterSet with
    | none => rw [h] at b6 c6; rw [show t6 = t5 from b6, show u6 = u5 from c6]; exact B5
    | some p =>
      rw [h] at b6 c6
      exact B5.next (filtered_good B5.fit b6) (filtered_good B5.fit' c6) (Removed.noMore b6.2)
        fun ψ I => ⟨ψ, I.filtered B5.fit.wf B5.fit'.wf b6 c6⟩
  have B7 : Parallel t u t7 u7 := by
    cases h : o.insertionSet with
    | none => rw [h] at b7 c7; rw [show t7 = t6 from b7, show u7 = u6 from c7]; exact B6
    | some p =>
      rw [h] at b7 c7
      exact B6.next (inserted_good B6.fit b7) (inserted_good B6.fit' c7) b7.secondary
        fun ψ I => I.runs B6.fit.wf B6.fit'.wf b7 c7
  cases h : o.parentFeature with
  | none => rw [h] at b8 c8; rw [show t' = t7 from b8, show u' = u7 from c8]; exact B7
  | some p =>
    rw [h] at b8 c8
    have hI := fun ψ (I : Iso t7 u7 ψ) => I.parents B7.fit.wf B7.fit'.wf B7.fit.rootNt b8 c8
    obtain ⟨num, E, _⟩ := b8
    obtain ⟨num', E', _⟩ := c8
    exact B7.next (edit_good B7.fit E fun n x => ⟨rfl, rfl, rfl⟩) (edit_good B7.fit' E' fun n x => ⟨rfl, rfl, rfl⟩)
      (TermEdit.noMore E) fun ψ I => ⟨ψ, hI ψ I⟩

/-- They are converted to the same. -/
theorem iso_options {o : Options} (I : Iso t u φ) (S : Suits o t) (S' : Suits o u)
    (hp : o.projectivize = true → t.isProjective = true) (hs : o.out = .negra → t.OneSecondary)
    {pick pick' : Tree → Finset Nat → Option Nat} (hpick : IsOrder pick) (hpick' : IsOrder pick') (tags : Option PosItem) (c : Nat) :
    convertTree pick' o tags c u = convertTree pick o tags c t := by
  have hn := I.nTerminals S.fit.wf S'.fit.wf
  have main : ∀ l : Option (List Str), (∀ x, l = some x → x.length = t.nTerminals) →
      convertTree pick' o (l.map .ok) c u = convertTree pick o (l.map .ok) c t := by
    intro l hl
    obtain ⟨t', a1, a2, _, a4⟩ := process_spec hpick o l S hl
    obtain ⟨u', b1, b2, _, b4⟩ := process_spec hpick' o l S' (by rw [hn]; exact hl)
    have B := pipeline_iso I S S' hp a1 b1
    obtain ⟨ψ, I'⟩ := B.iso
    have := iso_convert I' B.fit.wf B.fit'.wf o.out (fun ho => ⟨B.fit.rootNt, B.sec (hs ho), B.fit.sec⟩) pick pick' c
    rw [convert_encode, convert_encode] at this
    unfold convertTree
    rw [a4, b4]
    exact this
  match tags with
  | none => exact main none (by simp)
  | some (.error e) =>
    unfold convertTree
    rw [process_posError hpick o e S, process_posError hpick' o e S']
  | some (.ok l) =>
    by_cases hl : l.length = t.nTerminals
    · exact main (some l) (by simpa using hl)
    · unfold convertTree
      rw [process_tags hpick o l S hl, process_tags hpick' o l S' (by rw [hn]; exact hl), hn]

/-- Runs over the same trees. -/
theorem iso_loop_options {o : Options} {f f' : InFormat} {m m' : Bool} {pick pick' : Tree → Finset Nat → Option Nat}
    (hpick : IsOrder pick) (hpick' : IsOrder pick') {ts us : List Tree}
    (h : List.Forall₂ (fun t u => Suits o t ∧ Suits o u ∧ (o.projectivize = true → t.isProjective = true) ∧
      (o.out = .negra → t.OneSecondary) ∧ ∃ φ, Iso t u φ) ts us) : ∀ {src src' : Source} {pos : Option (List PosItem)} {k k' c : Nat},
    Stream f m src (ts.map .ok) true → Stream f' m' src' (us.map .ok) true → ts.length < k → us.length < k' →
    loop f m pick o k src pos c = loop f' m' pick' o k' src' pos c := by
  induction h with
  | nil =>
    intro src src' pos k k' c hs hs' hk hk'
    obtain ⟨k, rfl⟩ : ∃ j, k = j + 1 := ⟨k - 1, by simp at hk; omega⟩
    obtain ⟨k', rfl⟩ : ∃ j, k' = j + 1 := ⟨k' - 1, by simp at hk'; omega⟩
    cases hs with
    | stop hn => cases hs' with
      | stop hn' => rw [loop, loop, hn, hn']
  | @cons t u ts us h _ ih =>
    intro src src' pos k k' c hs hs' hk hk'
    obtain ⟨k, rfl⟩ : ∃ j, k = j + 1 := ⟨k - 1, by simp at hk; omega⟩
    obtain ⟨k', rfl⟩ : ∃ j, k' = j + 1 := ⟨k' - 1, by simp at hk'; omega⟩
    obtain ⟨S, S', hp, hn, φ, I⟩ := h
    cases hs with
    | item h1 hs => cases hs' with
      | item h1' hs' =>
        rw [loop, loop, h1, h1']
        simp only
        rw [iso_options I S S' hp hn hpick hpick' (nextPos pos).1 c]
        cases convertTree pick o (nextPos pos).1 c t with
        | panic => rfl
        | diverge => rfl
        | ok r => cases r with
          | error e => rfl
          | ok r =>
            simp only
            rw [ih (c := r.2) hs hs' (by simpa using hk) (by simpa using hk')]

end Convert
end Lumberjack
