import Verif.Proofs.ReattachAny
import Verif.Proofs.History
import Verif.Proofs.Annotate
import Verif.Spec.Projectivize

/-!
# Projectivization
-/

namespace Lumberjack
namespace Tree

open Relation

variable {t t' : Tree}

theorem IsNt.live' {n : Nat} (h : t.IsNt n) : t.Live n := by obtain ⟨x, hx⟩ := h; exact ⟨_, hx⟩

/-- A climbing loop stops at the first ancestor for which `K` holds. -/
theorem climb_first {β : Type} (S : t.Shape)
    {step : Nat × Option (Nat × Nat) → Res ((Nat × Option (Nat × Nat)) ⊕ β)} (K : Nat → Prop)
    (hstep : ∀ m p e, t.parent m = some (p, e) → ¬ K p →
      step (m, t.parent m) = .ok (.inl (p, t.parent p))) {l : List Nat} :
    ∀ (m : Nat) (fuel : Nat), t.Anc m l → l.length < fuel → (∃ p ∈ l, K p) →
      ∃ c p e, t.parent c = some (p, e) ∧ K p ∧ t.Dom c m ∧ (c = m ∨ ¬ K c) ∧
        ∀ res, step (c, t.parent c) = .ok (.inr res) →
          loopM step fuel (m, t.parent m) = .ok res := by
  induction l with
  | nil => rintro m fuel _ _ ⟨p, hp, _⟩; simp at hp
  | cons p l ih =>
    rintro m fuel ha hf ⟨a, hal, hK⟩
    obtain ⟨k, rfl⟩ : ∃ k, fuel = k + 1 := ⟨fuel - 1, by omega⟩
    obtain ⟨e, he⟩ := S.parent_of_isChild ha.1
    by_cases hp : K p
    · exact ⟨m, p, e, he, hp, Dom.refl, .inl rfl, fun res h => loopM_succ_inr h⟩
    · have hal' : a ∈ l := by
        rcases List.mem_cons.1 hal with rfl | h
        · exact absurd hK hp
        · exact h
      obtain ⟨c, q, e', h1, h2, h3, h4, h5⟩ := ih p k ha.2 (by simpa using hf) ⟨a, hal', hK⟩
      refine ⟨c, q, e', h1, h2, h3.tail ha.1, ?_, fun res h => ?_⟩
      · rcases h4 with rfl | h4
        · exact .inr hp
        · exact .inr h4
      · rw [loopM_succ_inl (hstep m p e he hp)]
        exact h5 res h

theorem disc_iff (W : t.WF) {n : Nat} : t.Disc n ↔ t.IsNt n ∧ ¬ t.Gapless n := by
  constructor
  · rintro ⟨x, hx, hs⟩
    refine ⟨⟨x, hx⟩, fun h => ?_⟩
    obtain ⟨hv, hc⟩ := W.span_spec hx
    obtain ⟨a, ha, b, hb, k, hk, h1, h2⟩ := hv.skips_iff.1 hs
    rw [hc] at ha hb
    exact hk ((hc k).2 (h a b k ha hb (by omega) (by omega)))
  · rintro ⟨⟨x, hx⟩, h⟩
    refine ⟨x, hx, ?_⟩
    obtain ⟨hv, hc⟩ := W.span_spec hx
    by_contra hs
    refine h fun i j k hi hj h1 h2 => ?_
    have hns : (Node.nt x).span.skips = none := by
      cases hh : x.span.skips with
      | none => exact hh
      | some s => rw [hh] at hs; simp at hs
    rw [← hc] at hi hj ⊢
    rw [Span.mem_indices] at hi hj ⊢
    refine ⟨by omega, by omega, ?_⟩
    rw [hns]; simp

theorem gapless_term (W : t.WF) {n : Nat} (h : t.IsTerm n) : t.Gapless n := by
  intro i j k hi hj h1 h2
  obtain ⟨m, m1, m2⟩ := hi
  obtain ⟨m', m3, m4⟩ := hj
  have e1 := W.shape.dom_term h m1
  have e2 := W.shape.dom_term h m3
  subst e1
  have : i = j := by rw [← m2.startOf, ← m4.startOf, e2]
  have : k = i := by omega
  subst this
  exact ⟨m, m1, m2⟩

/-- Coverage of the new ancestors when `c` is moved to `q`. -/
theorem moved_covers_up (G : t.graph.OK) (S : t.Shape) {c q : Nat}
    (h : Moved t.IsChild t'.IsChild c q)
    (hcq : ¬ t.Dom c q) (hA : ∀ n i, t'.TermAt n i ↔ t.TermAt n i) {n i : Nat} (hn : t.Dom n q) :
    t'.Covers n i ↔ t.Covers n i ∨ t.Covers c i := by
  have hcn : ¬ t.Dom c n := fun h' => hcq (h'.trans hn)
  unfold Covers
  simp only [moved_dom_outside G S h hcq hcn, hA]
  constructor
  · rintro ⟨m, ⟨h1, _⟩ | ⟨_, h2⟩, h3⟩
    · exact .inl ⟨m, h1, h3⟩
    · exact .inr ⟨m, h2, h3⟩
  · rintro (⟨m, h1, h3⟩ | ⟨m, h1, h3⟩)
    · by_cases hc : t.Dom c m
      · exact ⟨m, .inr ⟨hn, hc⟩, h3⟩
      · exact ⟨m, .inl ⟨h1, hc⟩, h3⟩
    · exact ⟨m, .inr ⟨hn, h1⟩, h3⟩

/-- Coverage of the other nodes when `c` is moved from `p` to `q` below `p`. -/
theorem moved_covers_other (G : t.graph.OK) (S : t.Shape) {p c q : Nat} (hpc : t.IsChild p c)
    (hpq : t.Dom p q) (h : Moved t.IsChild t'.IsChild c q)
    (hcq : ¬ t.Dom c q) (hA : ∀ n i, t'.TermAt n i ↔ t.TermAt n i) {n i : Nat} (hn : ¬ t.Dom n q) :
    t'.Covers n i ↔ t.Covers n i := by
  unfold Covers
  by_cases hcn : t.Dom c n
  · simp only [moved_dom_inside G S h hcq hcn, hA]
  · simp only [moved_dom_outside G S h hcq hcn, hA]
    constructor
    · rintro ⟨m, ⟨h1, _⟩ | ⟨h2, _⟩, h3⟩
      · exact ⟨m, h1, h3⟩
      · exact absurd h2 hn
    · rintro ⟨m, h1, h3⟩
      refine ⟨m, .inl ⟨h1, fun hc => ?_⟩, h3⟩
      rcases S.dom_linear h1 hc with h4 | h4
      · rcases h4.cases_parent with h5 | ⟨d, h5, h6⟩
        · exact hcn (h5 ▸ Dom.refl)
        · rw [S.isChild_unique h6 hpc] at h5
          exact hn (h5.trans hpq)
      · exact hcn h4

/-- The post-order invariant survives moving a node from below an ancestor of `q` to a finished
node `q`. -/
theorem PInv.moved (S : t.Shape) {d : DfsPost} (I : PInv t d) {p c q : Nat}
    (hpc : t.IsChild p c) (hpq : t.Dom p q) (h : Moved t.IsChild t'.IsChild c q)
    (hq : q ∈ d.finished) (hL : ∀ n, t'.Live n ↔ t.Live n) : PInv t' d where
  fin_sub := I.fin_sub
  disc_sub := I.disc_sub
  live x hx := (hL x).2 (I.live x hx)
  cover x hx := by
    have hup : ∀ a, t.Dom a q → a ∈ d.discovered := by
      intro a ha
      induction ha using ReflTransGen.head_induction_on with
      | refl => exact I.fin_sub q hq
      | @head a b hab _ ih => exact I.above b (.inr ih) a hab
    rcases I.cover x ((hL x).1 hx) with h1 | h1 | ⟨a, h1, h2⟩
    · exact .inl h1
    · exact .inr (.inl h1)
    · refine .inr (.inr ⟨a, (h a x).2 (.inl ⟨h1, ?_⟩), h2⟩)
      rintro rfl
      rw [S.isChild_unique h1 hpc] at h2
      exact h2 (hup p hpq)
  above x hx a ha := by
    rcases (h a x).1 ha with ⟨h1, _⟩ | ⟨rfl, _⟩
    · exact I.above x hx a h1
    · exact I.fin_sub _ hq
  order pre x post hs hx hxf b hb := by
    rcases (h x b).1 hb with ⟨h1, _⟩ | ⟨rfl, _⟩
    · exact I.order pre x post hs hx hxf b h1
    · exact absurd hq hxf

theorem covers_span_iff (W : t.WF) {a b : Nat} {na nb : Node} (ha : t.graph.node? a = some na)
    (hb : t.graph.node? b = some nb) :
    na.span.coversSpan nb.span = true ↔ ∀ i, t.Covers b i → t.Covers a i := by
  obtain ⟨va, ca⟩ := W.span_spec ha
  obtain ⟨vb, cb⟩ := W.span_spec hb
  rw [Span.coversSpan_iff vb]
  constructor
  · intro h i hi; exact (ca i).1 (h ((cb i).2 hi))
  · intro h i hi; exact (ca i).2 (h i ((cb i).1 hi))

/-- Moving the branch of a skipped terminal. -/
theorem reattachSkipped_spec (W : t.WF) {q T i s j : Nat} (hq : t.IsNt q) (hT : t.TermAt T s)
    (hi : t.Covers q i) (hj : t.Covers q j) (his : i < s) (hsj : s < j) (hs : ¬ t.Covers q s)
    (log : List Move) :
    ∃ t' m, t.reattachSkipped q T log = .ok (t', log ++ [m]) ∧ t'.WF ∧ LoweredTo q t t' m ∧
      (∀ n, t'.Live n ↔ t.Live n) ∧ t'.graph.nodes.length = t.graph.nodes.length ∧
      t'.nTerminals = t.nTerminals ∧ t'.root = t.root ∧ (∀ n, t'.IsNt n ↔ t.IsNt n) ∧
      (∀ n i, t'.TermAt n i ↔ t.TermAt n i) ∧
      (∀ n, t.Gapless n → t'.Gapless n) ∧ (∀ k, t.Covers q k → t'.Covers q k) ∧ t'.Covers q s ∧
      (∀ d, PInv t d → q ∈ d.finished → PInv t' d) := by
  have G := W.graph
  have S := W.shape
  obtain ⟨xq, hxq⟩ := id hq
  obtain ⟨xT, hxT, _⟩ := id hT
  have hTlive : t.Live T := ⟨_, hxT⟩
  obtain ⟨l, hl⟩ := S.exists_anc hTlive
  -- covering the span of `q` is dominating `q`
  let K : Nat → Prop := fun p => ∀ i, t.Covers q i → t.Covers p i
  have hKdom : ∀ a, t.Dom a T → K a → t.Dom a q := by
    intro a ha hK
    obtain ⟨m, m1, m2⟩ := hi
    obtain ⟨m', m3, m4⟩ := hK i ⟨m, m1, m2⟩
    have := W.sentence.inj _ _ _ m2 m4
    subst this
    rcases S.dom_linear m1 m3 with h | h
    · exact absurd ⟨T, h.trans ha, hT⟩ hs
    · exact h
  have hdomK : ∀ a, t.Dom a q → K a := by
    rintro a ha i ⟨m, m1, m2⟩
    exact ⟨m, ha.trans m1, m2⟩
  have hTroot : T ≠ t.root := by
    rintro rfl
    have := S.dom_term ⟨xT, hxT⟩ (S.reach q hq.live')
    subst this
    rw [hxT] at hxq; simp at hxq
  have hrootl : t.root ∈ l := by
    rw [hl.mem_iff S]
    rcases (reflTransGen_iff_eq_or_transGen.1 (S.reach T hTlive)) with h | h
    · exact absurd h hTroot
    · exact h
  unfold reattachSkipped climberNew
  obtain ⟨c, p, e, h1, h2, h3, h4, h5⟩ := climb_first (β := Tree × List Move) S
    (step := fun (s : Nat × Option (Nat × Nat)) =>
    match t.climberNext s.2 with
    | (some (p, e), cur') => do
      let pn ← t.node p
      let an ← t.node q
      if pn.span.coversSpan an.span then do
        let (t', r) ← t.reattachNode q e
        let (newEdge, old) ← Res.unwrap r
        return .inr ({ t' with graph := t'.graph.setEdge newEdge old }, log ++ [(p, old, s.1)])
      else
        return .inl (p, cur')
    | (none, _) => .ok (.inr (t, log))) K (by
      intro m p e he hK
      obtain ⟨pn, hpn⟩ := (isChild_live G (parent_isChild he)).1
      have hcv : pn.span.coversSpan (Node.nt xq).span = false := by
        rw [← Bool.not_eq_true, covers_span_iff W hpn hxq]; exact hK
      simp only [he, climberNext, node_eq hpn, node_eq hxq, Res.ok_bind, hcv]
      rfl) (l := l) T t.climbFuel hl
    (by have := hl.length_lt G S hTlive; unfold climbFuel; omega)
    ⟨t.root, hrootl, hdomK _ (S.reach q hq.live')⟩
  have hpc := parent_isChild h1
  obtain ⟨r, hr, hr1, hr2, hr3, hr4⟩ := parent_some h1
  have hpT : t.Dom p T := Dom.trans (.single hpc) h3
  have hpq : t.Dom p q := hKdom p hpT h2
  have hcq : ¬ t.Dom c q := by
    intro h
    rcases h4 with rfl | h4
    · have := S.dom_term ⟨xT, hxT⟩ h
      subst this
      rw [hxT] at hxq; simp at hxq
    · exact h4 (hdomK c h)
  have hqp : q ≠ p := by
    rintro rfl
    exact hs ⟨T, hpT, hT⟩
  -- another child of `p` leads to `q`
  obtain ⟨sib, hsib1, hsib2⟩ : ∃ s, t.IsChild p s ∧ t.Dom s q := by
    rcases Relation.ReflTransGen.cases_head hpq with h | ⟨s, h, h'⟩
    · exact absurd h.symm hqp
    · exact ⟨s, h, h'⟩
  have hsibc : sib ≠ c := by rintro rfl; exact hcq hsib2
  obtain ⟨t1, e', k1, k2, k3, k4, k5, k6, k7, k8, k9, k10, k11, k12, k13, _⟩ :=
    reattachPrimary_spec W hr hr4 hq (by rw [hr2]; exact hcq)
      (.inr ⟨sib, by rw [hr2]; exact hsibc, by rw [hr1]; exact hsib1⟩)
  have W1 : t1.WF := ⟨k2, k3, k4, k13 (.inr (by rw [hr1]; exact hpq)), k5⟩
  obtain ⟨rid, rs, rt, rw'⟩ := r
  simp only at hr1 hr2 hr3 hr4 k1 k6 k7
  subst hr1 hr2 hr3
  obtain ⟨lab, hlab⟩ : ∃ lab, rw' = .primary lab := by
    cases rw' with
    | primary lab => exact ⟨lab, rfl⟩
    | secondary lab => simp [Edge.isPrimary] at hr4
  subst hlab
  -- restoring the label of the edge
  have hset : t1.setEdgeLabel e' lab = .ok { t1 with graph := t1.graph.setEdge e' (.primary lab) } := by
    unfold setEdgeLabel edge
    have : t1.graph.edge? e' = some ⟨e', q, rt, .primary none⟩ :=
      (Graph.edge?_eq k2).2 ⟨by rw [k7]; simp, rfl⟩
    rw [this]
    rfl
  obtain ⟨W2, hn2⟩ := setEdgeLabel_wf W1 hset
  have hne' : ∀ s ∈ t.graph.edges.filter (fun s => s.id ≠ rid), s.id ≠ e' := by
    have := k2.ids_nodup
    rw [k7, List.map_cons, List.nodup_cons] at this
    intro s hs he
    exact this.1 (List.mem_map.2 ⟨s, hs, he⟩)
  have hE2 : (t1.graph.setEdge e' (.primary lab)).edges =
      ⟨e', q, rt, .primary lab⟩ :: t.graph.edges.filter (fun s => s.id ≠ rid) := by
    unfold Graph.setEdge
    simp only [k7, List.map_cons, if_true, List.cons.injEq, true_and]
    conv_rhs => rw [← List.map_id (t.graph.edges.filter (fun s => s.id ≠ rid))]
    apply List.map_congr_left
    intro s hs
    rw [if_neg (hne' s hs)]; rfl
  have hM : Moved t.IsChild
      ({ t1 with graph := t1.graph.setEdge e' (.primary lab) } : Tree).IsChild rt q := by
    have : ({ t1 with graph := t1.graph.setEdge e' (.primary lab) } : Tree).IsChild = t1.IsChild := by
      funext a b
      apply propext
      unfold IsChild Graph.IsChild
      simp only [hE2, k7, List.mem_cons]
      constructor
      · rintro ⟨r, rfl | hr, g1, g2, g3⟩
        · exact ⟨_, .inl rfl, g1, g2, rfl⟩
        · exact ⟨r, .inr hr, g1, g2, g3⟩
      · rintro ⟨r, rfl | hr, g1, g2, g3⟩
        · exact ⟨_, .inl rfl, g1, g2, rfl⟩
        · exact ⟨r, .inr hr, g1, g2, g3⟩
    rw [this]; exact k6
  have hcont : ∀ n, ({ t1 with graph := t1.graph.setEdge e' (.primary lab) } : Tree).content n = t.content n := k11
  have hL : ∀ n, ({ t1 with graph := t1.graph.setEdge e' (.primary lab) } : Tree).Live n ↔ t.Live n := by
    intro n
    have := hcont n
    unfold content at this
    unfold Live Graph.Live
    cases h : t.graph.node? n with
    | none => rw [h] at this; simp at this; simp [this]
    | some nd =>
      rw [h] at this
      simp only [Option.map_some, Option.map_eq_some_iff] at this
      obtain ⟨nd', h', _⟩ := this
      simp [h']
  have hN : ∀ n, ({ t1 with graph := t1.graph.setEdge e' (.primary lab) } : Tree).IsNt n ↔ t.IsNt n := by
    intro n
    have := hcont n
    unfold content at this
    unfold IsNt
    cases h : t.graph.node? n with
    | none => rw [h] at this; simp at this; simp [this]
    | some nd =>
      rw [h] at this
      simp only [Option.map_some, Option.map_eq_some_iff] at this
      obtain ⟨nd', h', h''⟩ := this
      rw [h']
      cases nd <;> cases nd' <;> simp [Node.replaceSpan] at h'' ⊢
  have hA : ∀ n i, ({ t1 with graph := t1.graph.setEdge e' (.primary lab) } : Tree).TermAt n i ↔ t.TermAt n i := by
    intro n i
    unfold TermAt
    constructor
    · rintro ⟨x, hx, hsp⟩
      obtain ⟨nd, hnd⟩ := (hL n).1 ⟨_, hx⟩
      cases nd with
      | term y =>
        have := k10 n y hnd
        rw [show t1.graph.node? n = some (.term x) from hx] at this
        simp only [Option.some.injEq, Node.term.injEq] at this
        exact ⟨y, hnd, this ▸ hsp⟩
      | nt y =>
        obtain ⟨z, hz⟩ := (hN n).2 ⟨y, hnd⟩
        rw [hx] at hz; simp at hz
    · rintro ⟨x, hx, hsp⟩
      exact ⟨x, k10 n x hx, hsp⟩
  have hup : ∀ {n i}, t.Dom n q → (({ t1 with graph := t1.graph.setEdge e' (.primary lab) } : Tree).Covers n i ↔
      t.Covers n i ∨ t.Covers rt i) := fun hn => moved_covers_up G S hM hcq hA hn
  have hoth : ∀ {n i}, ¬ t.Dom n q → (({ t1 with graph := t1.graph.setEdge e' (.primary lab) } : Tree).Covers n i ↔
      t.Covers n i) := fun hn => moved_covers_other G S hpc hpq hM hcq hA hn
  refine ⟨{ t1 with graph := t1.graph.setEdge e' (.primary lab) }, (rs, .primary lab, rt), ?_, W2, ?_, hL,
    k12, k9, k8, hN, hA, ?_, ?_, ?_, ?_⟩
  · refine h5 _ ?_
    obtain ⟨pn, hpn⟩ := (isChild_live G hpc).1
    have hcv : pn.span.coversSpan (Node.nt xq).span = true := (covers_span_iff W hpn hxq).2 h2
    simp only [h1, climberNext, node_eq hpn, node_eq hxq, Res.ok_bind, hcv]
    have hre : t.reattachNode q rid = .ok (t1, .ok (e', .primary lab)) := by
      unfold reattachNode
      have hne : rt ≠ q := by rintro rfl; exact hcq Dom.refl
      rw [Graph.contains_iff.2 hq.live', (Graph.edge?_eq G).2 ⟨hr, rfl⟩]
      simp only [Res.assert_true, Res.ok_bind, Res.ofOption_some, if_neg hne]
      exact k1
    rw [hre]
    rfl
  · refine ⟨rid, e', hr, rfl, hq, hpq, hqp, hcq, ⟨i, s, j, his, hsj, hi, hj, hs, ⟨T, h3, hT⟩⟩,
      hE2, hcont, hA, k8, k9⟩
  · intro n hn
    by_cases hnq : t.Dom n q
    · -- `n` covers the skipped position, hence dominates the old parent
      have hns : t.Covers n s :=
        hn i j s (hdomK n hnq i hi) (hdomK n hnq j hj) (by omega) (by omega)
      obtain ⟨m, m1, m2⟩ := hns
      have := W.sentence.inj _ _ _ m2 hT
      subst this
      have hnp : t.Dom n rt := by
        rcases S.dom_linear m1 h3 with h | h
        · exact h
        · exact absurd (h.trans hnq) hcq
      have : ∀ k, ({ t1 with graph := t1.graph.setEdge e' (.primary lab) } : Tree).Covers n k ↔ t.Covers n k := by
        intro k
        rw [hup hnq]
        constructor
        · rintro (h | ⟨m', g1, g2⟩)
          · exact h
          · exact ⟨m', hnp.trans g1, g2⟩
        · exact .inl
      intro a b k
      rw [this, this, this]
      exact hn a b k
    · intro a b k
      rw [hoth hnq, hoth hnq, hoth hnq]
      exact hn a b k
  · intro k hk
    exact (hup Dom.refl).2 (.inl hk)
  · exact (hup Dom.refl).2 (.inr ⟨T, h3, hT⟩)
  · intro d I hd
    exact I.moved S hpc hpq hM hd hL

/-- What every stage of projectivization keeps. -/
structure Stage (t0 t : Tree) (log : List Move) (d : DfsPost) : Prop where
  moves : Moves t0 log t
  wf : t.WF
  inv : PInv t d
  len : t.graph.nodes.length = t0.graph.nodes.length
  nterm : t.nTerminals = t0.nTerminals
  termAt : ∀ n i, t.TermAt n i ↔ t0.TermAt n i
  live : ∀ n, t.Live n ↔ t0.Live n

open Classical in
/-- The number of positions covered by `n`. -/
noncomputable def coverage (t : Tree) (n : Nat) : Nat := ((Finset.range t.nTerminals).filter (t.Covers n)).card

theorem coverage_le (n : Nat) : t.coverage n ≤ t.nTerminals := by
  classical
  unfold coverage
  exact (Finset.card_filter_le _ _).trans (by simp)

theorem coverage_lt (hn : t'.nTerminals = t.nTerminals) {n s : Nat} (hs : s < t.nTerminals)
    (h : ∀ k, t.Covers n k → t'.Covers n k) (h1 : ¬ t.Covers n s) (h2 : t'.Covers n s) :
    t.coverage n < t'.coverage n := by
  classical
  unfold coverage
  rw [hn]
  refine Finset.card_lt_card (Finset.ssubset_iff_subset_ne.2 ⟨?_, ?_⟩)
  · intro k hk
    rw [Finset.mem_filter] at hk ⊢
    exact ⟨hk.1, h k hk.2⟩
  · intro e
    have : s ∈ (Finset.range t.nTerminals).filter (t'.Covers n) :=
      Finset.mem_filter.2 ⟨Finset.mem_range.2 hs, h2⟩
    rw [← e, Finset.mem_filter] at this
    exact h1 this.2

theorem skips_none_gapless (W : t.WF) {n : Nat} {nd : Node} (hnd : t.graph.node? n = some nd)
    (h : nd.span.skips = none) : t.Gapless n := by
  obtain ⟨hv, hc⟩ := W.span_spec hnd
  intro i j k hi hj h1 h2
  rw [← hc, Span.mem_indices] at hi hj ⊢
  refine ⟨by omega, by omega, ?_⟩
  intro sk hsk
  rw [h] at hsk; simp at hsk

/-- Filling the gaps of one node. -/
theorem fillGaps_spec {pick : Tree → Finset Nat → Option Nat} (hpick : IsOrder pick)
    {t0 t : Tree} {log : List Move} {d : DfsPost} {terminals : List Nat} {ap fuel : Nat}
    (hterm : ∀ n i, t0.TermAt n i → terminals[i]? = some n)
    (X : Stage t0 t log d) (hap : ap ∈ d.finished) (hfuel : t.nTerminals < fuel) :
    ∃ t' log', fillGaps pick terminals ap fuel (t, log) = .ok (t', log') ∧ Stage t0 t' log' d ∧
      t'.Gapless ap ∧ (∀ n, t.Gapless n → t'.Gapless n) ∧ ∃ l, log' = log ++ l ∧ MovesTo ap t l t' := by
  unfold fillGaps
  have key := loopM_rule (step := fun (s : Tree × List Move) => do
    let an ← s.1.node ap
    match an.span.skips.bind (pick s.1) with
    | some skipped => do
      let terminal ← Res.ofOption terminals[skipped]?
      let s' ← s.1.reattachSkipped ap terminal s.2
      return .inl s'
    | none => return .inr s)
    (fun s => Stage t0 s.1 s.2 d ∧ (∀ n, t.Gapless n → s.1.Gapless n) ∧
      ∃ l, s.2 = log ++ l ∧ MovesTo ap t l s.1)
    (fun s => s.1.nTerminals - s.1.coverage ap)
    (fun s => Stage t0 s.1 s.2 d ∧ s.1.Gapless ap ∧ (∀ n, t.Gapless n → s.1.Gapless n) ∧
      ∃ l, s.2 = log ++ l ∧ MovesTo ap t l s.1) ?_ fuel (t, log)
    ⟨X, fun _ h => h, [], by simp, .nil t⟩ (by simp only; omega)
  · obtain ⟨⟨t', log'⟩, h1, h2, h3, h4⟩ := key
    exact ⟨t', log', h1, h2, h3, h4⟩
  · rintro ⟨t1, log1⟩ ⟨X1, hg, l, hl, hm⟩
    simp only at X1 hg hl hm
    have W1 := X1.wf
    obtain ⟨nd, hnd⟩ := X1.inv.live ap (.inr (X1.inv.fin_sub ap hap))
    obtain ⟨hv, hc⟩ := W1.span_spec hnd
    cases hsk : nd.span.skips with
    | none =>
      right
      refine ⟨(t1, log1), ?_, X1, skips_none_gapless W1 hnd hsk, hg, l, hl, hm⟩
      simp only [node_eq hnd, Res.ok_bind, hsk]; rfl
    | some sk =>
      left
      have hne : sk.Nonempty := Finset.nonempty_iff_ne_empty.2 (fun h => hv.nonempty (h ▸ hsk))
      obtain ⟨s, hs, hps⟩ := (hpick t1 sk).1 hne
      obtain ⟨hs1, hs2⟩ := hv.inside sk hsk s hs
      have hnt : t1.IsNt ap := by
        cases nd with
        | nt x => exact ⟨x, hnd⟩
        | term x =>
          obtain ⟨i, _, x', hx', hspan⟩ := W1.sentence.pos ap ⟨x, hnd⟩
          rw [hnd] at hx'
          obtain rfl : x = x' := by simpa using hx'
          rw [show (Node.term x).span = x.span from rfl, hspan] at hsk
          simp [Span.ofIdx] at hsk
      have hi := (hc _).1 hv.start_mem
      have hj := (hc _).1 hv.last_mem
      have hsc : ¬ t1.Covers ap s := by
        rw [← hc, Span.mem_indices]
        rintro ⟨_, _, h⟩
        exact h sk hsk hs
      have hslt : s < t1.nTerminals := by
        obtain ⟨m, _, hm⟩ := hj
        obtain ⟨k, hk, hm'⟩ := W1.sentence.pos _ hm.isTerm
        have := hm.startOf.symm.trans hm'.startOf
        omega
      obtain ⟨T, hT⟩ := W1.sentence.occupied s hslt
      obtain ⟨t2, m, g1, g2, g3, g4, g5, g6, g7, g8, g9, g10, g11, g12, g13⟩ :=
        reattachSkipped_spec W1 hnt hT hi hj hs1 (by omega) hsc log1
      refine ⟨(t2, log1 ++ [m]), ?_, ⟨⟨X1.moves.snoc W1 ⟨ap, g3⟩, g2, g13 d X1.inv hap, g5.trans X1.len,
        g6.trans X1.nterm, fun n i => (g9 n i).trans (X1.termAt n i), fun n => (g4 n).trans (X1.live n)⟩,
        fun n hn => g10 n (hg n hn), l ++ [m], by simp only [hl, List.append_assoc], hm.snoc W1 g3⟩, ?_⟩
      · simp only [node_eq hnd, Res.ok_bind, hsk, Option.bind_some, hps,
          hterm T s ((X1.termAt T s).1 hT), Res.ofOption_some, g1]
        rfl
      · simp only
        have := coverage_lt g6 hslt g11 hsc g12
        have := coverage_le (t := t2) ap
        omega

/-- `projectivize` on a tree with gaps, including the number of slots for nodes. -/
theorem projectivize_slots {pick : Tree → Finset Nat → Option Nat} (hpick : IsOrder pick) (W : t.WF)
    (hp : t.isProjective = false) :
    ∃ t' log, t.projectivize pick = .ok (t', some log) ∧ t'.WF ∧ Moves t log t' ∧
      (∀ n, t'.Live n → t'.Gapless n) ∧ t'.graph.nodes.length = t.graph.nodes.length := by
  have hterm : ∀ n i, t.TermAt n i → (t.sortIndices t.terminals)[i]? = some n := fun n i h =>
    sorted_terminals_get W.sentence h
  have key := loopM_rule (step := fun (s : (Tree × List Move) × DfsPost) => do
      let (item, d) ← s.2.next s.1.1.graph
      match item with
      | some ap => do
        let s' ← fillGaps pick (t.sortIndices t.terminals) ap (t.nTerminals + 1) s.1
        if s'.1.isProjective then return .inr s' else return .inl (s', d)
      | none => return .inr s.1)
    (fun s => Stage t s.1.1 s.1.2 s.2 ∧ ∀ n ∈ s.2.finished, s.1.1.Gapless n)
    (fun s => t.graph.nodes.length + 1 - s.2.finished.card)
    (fun s => s.1.WF ∧ Moves t s.2 s.1 ∧ (∀ n, s.1.Live n → s.1.Gapless n) ∧
      s.1.graph.nodes.length = t.graph.nodes.length) ?_
    (t.graph.nodes.length + 2) ((t, []), DfsPost.new t.root)
    ⟨⟨.nil t, W, PInv.new W.shape, rfl, rfl, fun _ _ => Iff.rfl, fun _ => Iff.rfl⟩, by simp [DfsPost.new]⟩
    (by simp only [DfsPost.new, Finset.card_empty]; omega)
  · obtain ⟨⟨t', log⟩, h1, h2, h3, h4⟩ := key
    refine ⟨t', log, ?_, h2, h3, h4⟩
    unfold projectivize
    simp only [hp, Bool.not_false, if_true]
    simp only at h1
    refine Res.bind_eq_ok.2 ⟨_, h1, rfl⟩
  · rintro ⟨⟨t1, log1⟩, d⟩ ⟨X, hg⟩
    simp only at X hg
    have W1 := X.wf
    rcases X.inv.next W1.graph W1.shape with ⟨x, d', h1, h2, h3, h4, h5, h6⟩ | ⟨d', h1, h2⟩
    · have X' : Stage t t1 log1 d' := ⟨X.moves, W1, h2, X.len, X.nterm, X.termAt, X.live⟩
      have hx : x ∈ d'.finished := by rw [h5]; simp
      obtain ⟨t2, log2, g1, g2, g3, g4, _⟩ := fillGaps_spec hpick hterm X' hx
        (fuel := t.nTerminals + 1) (by have := X.nterm; omega)
      by_cases hpr : t2.isProjective = true
      · right
        refine ⟨(t2, log2), ?_, g2.wf, g2.moves, ?_, g2.len⟩
        · simp only [h1, Res.ok_bind, g1, hpr, if_true]; rfl
        · intro n hn
          have := (isProjective_iff g2.wf.count).1 hpr n
          rw [disc_iff g2.wf] at this
          simp only [not_and, not_not] at this
          obtain ⟨nd, hnd⟩ := hn
          cases nd with
          | nt x => exact this ⟨x, hnd⟩
          | term x => exact gapless_term g2.wf ⟨x, hnd⟩
      · left
        refine ⟨((t2, log2), d'), ?_, ⟨g2, ?_⟩, ?_⟩
        · simp only [h1, Res.ok_bind, g1, hpr]; rfl
        · intro n hn
          simp only at hn ⊢
          rw [h5, Finset.mem_insert] at hn
          rcases hn with rfl | hn
          · exact g3
          · exact g4 n (hg n hn)
        · simp only
          rw [h5, Finset.card_insert_of_notMem h4]
          have hcard : d.finished.card ≤ t1.graph.nodes.length :=
            (Finset.card_le_card (fun y hy => X.inv.fin_sub y hy)).trans X.inv.card_le
          rw [X.len] at hcard
          omega
    · right
      refine ⟨(t1, log1), ?_, W1, X.moves, fun n hn => hg n (h2 n hn), X.len⟩
      simp only [h1, Res.ok_bind]; rfl

/-- `projectivize` on a tree with gaps. -/
theorem projectivize_spec {pick : Tree → Finset Nat → Option Nat} (hpick : IsOrder pick) (W : t.WF)
    (hp : t.isProjective = false) :
    ∃ t' log, t.projectivize pick = .ok (t', some log) ∧ t'.WF ∧ Moves t log t' ∧
      ∀ n, t'.Live n → t'.Gapless n := by
  obtain ⟨t', log, h1, h2, h3, h4, _⟩ := projectivize_slots hpick W hp
  exact ⟨t', log, h1, h2, h3, h4⟩

theorem edge_eq_of_id (G : t.graph.OK) {r s : EdgeRec} (hr : r ∈ t.graph.edges)
    (hs : s ∈ t.graph.edges) (h : r.id = s.id) : r = s := by
  have h1 := (Graph.edge?_eq G).2 ⟨hr, rfl⟩
  have h2 := (Graph.edge?_eq G).2 ⟨hs, rfl⟩
  rw [h, h2] at h1
  simpa using h1.symm

/-! ### Consequences of a sequence of moves -/

theorem Moves.content {log : List Move} (h : Moves t log t') (n : Nat) : t'.content n = t.content n := by
  induction h with
  | nil => rfl
  | snoc _ _ hm ih =>
    obtain ⟨q, id, id', _, _, _, _, _, _, _, _, h1, _⟩ := hm
    rw [h1, ih]

theorem Moves.termAt {log : List Move} (h : Moves t log t') (n i : Nat) : t'.TermAt n i ↔ t.TermAt n i := by
  induction h with
  | nil => rfl
  | snoc _ _ hm ih =>
    obtain ⟨q, id, id', _, _, _, _, _, _, _, _, _, h1, _⟩ := hm
    rw [h1, ih]

theorem Moves.root {log : List Move} (h : Moves t log t') : t'.root = t.root ∧ t'.nTerminals = t.nTerminals := by
  induction h with
  | nil => exact ⟨rfl, rfl⟩
  | snoc _ _ hm ih =>
    obtain ⟨q, id, id', _, _, _, _, _, _, _, _, _, _, h1, h2⟩ := hm
    exact ⟨h1.trans ih.1, h2.trans ih.2⟩

/-- The primary edge records into nodes that are not moved are kept. -/
theorem Moves.kept {log : List Move} (h : Moves t log t') {r : EdgeRec}
    (hr : r.w.isPrimary = true) (hn : ∀ m ∈ log, m.2.2 ≠ r.tgt) :
    r ∈ t'.graph.edges ↔ r ∈ t.graph.edges := by
  induction h with
  | nil => rfl
  | @snoc t1 t' log m h W hm ih =>
    obtain ⟨q, id, id', g1, g2, _, _, _, _, _, g3, _⟩ := hm
    rw [← ih (fun m' hm' => hn m' (List.mem_append_left _ hm')), g3, List.mem_cons, List.mem_filter]
    have hne := hn m (by simp)
    constructor
    · rintro (rfl | ⟨h1, _⟩)
      · exact absurd rfl hne
      · exact h1
    · intro h1
      refine .inr ⟨h1, decide_eq_true fun e => hne ?_⟩
      have := edge_eq_of_id W.graph h1 g1 e
      rw [this]

/-- Secondary edges are kept. -/
theorem Moves.secondary {log : List Move} (h : Moves t log t') {r : EdgeRec}
    (hr : r.w.isPrimary = false) : r ∈ t'.graph.edges ↔ r ∈ t.graph.edges := by
  induction h with
  | nil => rfl
  | @snoc t1 t' log m h W hm ih =>
    obtain ⟨q, id, id', g1, g2, _, _, _, _, _, g3, _⟩ := hm
    rw [← ih, g3, List.mem_cons, List.mem_filter]
    constructor
    · rintro (rfl | ⟨h1, _⟩)
      · rw [g2] at hr; simp at hr
      · exact h1
    · intro h1
      refine .inr ⟨h1, decide_eq_true fun e => ?_⟩
      have := edge_eq_of_id W.graph h1 g1 e
      rw [this, g2] at hr; simp at hr

/-- Every node is attached by an edge with the content it had. -/
theorem Moves.weight {log : List Move} (h : Moves t log t') {c : Nat} {w : Edge} :
    (∃ r ∈ t'.graph.edges, r.tgt = c ∧ r.w = w) ↔ ∃ r ∈ t.graph.edges, r.tgt = c ∧ r.w = w := by
  induction h with
  | nil => rfl
  | @snoc t1 t' log m h W hm ih =>
    obtain ⟨q, id, id', g1, g2, _, _, _, _, _, g3, _⟩ := hm
    rw [← ih, g3]
    constructor
    · rintro ⟨r, hr, h1, h2⟩
      rcases List.mem_cons.1 hr with rfl | hr
      · exact ⟨_, g1, h1, h2⟩
      · exact ⟨r, (List.mem_filter.1 hr).1, h1, h2⟩
    · rintro ⟨r, hr, h1, h2⟩
      by_cases e : r.id = id
      · have := edge_eq_of_id W.graph hr g1 e
        subst this
        exact ⟨_, List.mem_cons_self, h1, h2⟩
      · exact ⟨r, List.mem_cons_of_mem _ (List.mem_filter.2 ⟨hr, decide_eq_true e⟩), h1, h2⟩

/-- The first entry for a node names its original parent and edge. -/
theorem Moves.first {log : List Move} (h : Moves t log t') {pre post : List Move} {m : Move}
    (hl : log = pre ++ m :: post) (hf : ∀ m' ∈ pre, m'.2.2 ≠ m.2.2) :
    m.2.1.isPrimary = true ∧ ∃ id, (⟨id, m.1, m.2.2, m.2.1⟩ : EdgeRec) ∈ t.graph.edges := by
  induction h generalizing post with
  | nil => simp at hl
  | @snoc t1 t' log m1 h W hm ih =>
    rcases List.eq_nil_or_concat post with rfl | ⟨post', m2, rfl⟩
    · obtain ⟨rfl, h2⟩ := List.append_inj' hl (by simp)
      obtain rfl : m1 = m := by simpa using h2
      obtain ⟨q, id, id', g1, g2, _⟩ := hm
      exact ⟨g2, id, (h.kept g2 hf).1 g1⟩
    · have : log ++ [m1] = (pre ++ m :: post') ++ [m2] := by simpa using hl
      exact ih (List.append_inj' this (by simp)).1

end Tree
end Lumberjack
