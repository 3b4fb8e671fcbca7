import Verif.Proofs.Chains
import Verif.Proofs.RemoveTerm
import Verif.Proofs.Reattach
import Verif.Spec.Gather

/-!
# `reattach_terminals`
-/

namespace Lumberjack
namespace Tree

open Relation

variable {t t' : Tree}

theorem SecondaryKept.refl (G : t.graph.OK) : SecondaryKept t t :=
  fun r _ => ⟨fun h => ⟨h, G.ends r h⟩, fun h => h.1⟩

theorem SecondaryKept.trans {t1 t2 : Tree} (h1 : SecondaryKept t t1) (h2 : SecondaryKept t1 t2)
    (hl : ∀ n, t2.Live n → t1.Live n) : SecondaryKept t t2 := by
  intro r hr
  rw [h2 r hr, h1 r hr]
  constructor
  · rintro ⟨⟨a, _, _⟩, c⟩; exact ⟨a, c⟩
  · rintro ⟨a, c, d⟩; exact ⟨⟨a, hl _ c, hl _ d⟩, c, d⟩

/-- Removing a nonterminal leaves the secondary edges not incident to it. -/
theorem removeNode_secondary (W : t.WF) {n : Nat} {x : NonTerminal} (hx : t.graph.node? n = some (.nt x)) {nd : Node}
    (h : t.removeNode n = .ok (t', .ok nd)) : SecondaryKept t t' := by
  rw [removeNode_nt hx] at h
  by_cases hr : n = t.root
  · subst hr
    obtain ⟨c, hc⟩ := W.shape.nt_child _ ⟨x, hx⟩
    by_cases hu : ∀ c', t.IsChild t.root c' → c' = c
    · obtain ⟨t'', h1, h2, h3, h4, h5, h6, h7⟩ := removeNonterminal_root W hx hc hu
      rw [h1] at h; cases h
      intro r hr
      rw [h6, List.mem_filter, h3.live_iff, h3.live_iff, decide_eq_true_eq]
      constructor
      · rintro ⟨a, b, c⟩; exact ⟨a, ⟨b, (W.graph.ends r a).1⟩, ⟨c, (W.graph.ends r a).2⟩⟩
      · rintro ⟨a, b, c⟩; exact ⟨a, b.1, c.1⟩
    · push Not at hu
      obtain ⟨c', h1, h2⟩ := hu
      rw [removeNonterminal_root_err W hx hc h1 (Ne.symm h2)] at h
      cases h
  · obtain ⟨p, hp⟩ := W.shape.exists_parent ⟨_, hx⟩ hr
    obtain ⟨t'', h1, h2, h3, h4, h5, h6, h7, h8⟩ := removeNonterminal_inner W hx hp
    rw [h1] at h; cases h
    intro r hr
    constructor
    · intro hm
      rcases h7 r hm with h | ⟨_, _, h⟩
      · exact ⟨h, h2.graph.ends r hm⟩
      · rw [h] at hr; simp [Edge.isPrimary] at hr
    · rintro ⟨a, b, c⟩
      exact h6 r a ((h3.live_iff _).1 b).1 ((h3.live_iff _).1 c).1

/-- Taking out a unary nonterminal below another node. -/
theorem removeUnary_loose {D : Nat → Prop} (W : t.Loose D) {n c : Nat} {x : NonTerminal}
    (hx : t.graph.node? n = some (.nt x)) (hc : t.OnlyChild n c) (hr : n ≠ t.root) :
    ∃ t', t.removeNode n = .ok (t', .ok (.nt x)) ∧ t'.Loose D ∧ Cut t t' n ∧ t'.root = t.root ∧
      t'.nTerminals = t.nTerminals ∧ (∀ m, m ≠ n → m ≠ c → t'.inLabel m = t.inLabel m) ∧
      t'.graph.nodes.length = t.graph.nodes.length ∧ SecondaryKept t t' := by
  have S := W.shape
  have G := W.graph
  obtain ⟨p, hp⟩ := S.exists_parent ⟨_, hx⟩ hr
  obtain ⟨t', h1, ⟨g1, g2, g3, g4⟩, h3, h4, h5, h6, h7, h8⟩ := removeNonterminal_cut G S W.sentence W.count hx hp
  refine ⟨t', (removeNode_nt hx).trans h1, ⟨g1, g2, g3, g4, ?_⟩, h3, h4, h5, ?_, h8, ?_⟩
  · intro m y hy
    have hm : m ≠ n := by rintro rfl; rw [h3.dead] at hy; simp at hy
    rw [h3.node m hm] at hy
    obtain ⟨k1, k2, k3⟩ := W.spans m y hy
    have := fun i => h3.covers_nt (i := i) (S.not_isChild_self G n) ⟨x, hx⟩ hm
    exact ⟨k1, fun i h => k2 i ((this i).1 h), fun i h h' => (this i).2 (k3 i h h')⟩
  · intro m hm hmc
    refine inLabel_congr S g2 ?_ ?_
    · rintro r hr hw rfl
      refine ⟨r, h6 r hr (fun e => hmc ?_) hm, rfl, rfl⟩
      exact hc.2 _ ⟨r, hr, e, rfl, hw⟩
    · intro p hp
      obtain ⟨_, _, h | ⟨_, h⟩⟩ := (h3.splice p m).1 hp
      · exact ⟨p, h⟩
      · exact ⟨n, h⟩
  · intro r hr
    constructor
    · intro hm
      rcases h7 r hm with h | ⟨_, _, h⟩
      · exact ⟨h, g1.ends r hm⟩
      · rw [h] at hr; simp [Edge.isPrimary] at hr
    · rintro ⟨a, b, c⟩
      exact h6 r a ((h3.live_iff _).1 b).1 ((h3.live_iff _).1 c).1

/-- What the inner loop does: the nodes that dominate only `T` disappear. -/
structure Det (D : Nat → Prop) (t : Tree) (T : Nat) (t' : Tree) : Prop where
  wf : t'.Loose D
  root : t'.root = t.root
  nterm : t'.nTerminals = t.nTerminals
  len : t'.graph.nodes.length = t.graph.nodes.length
  sub : ∀ n nd, t'.graph.node? n = some nd → t.graph.node? n = some nd
  term : ∀ n x, t.graph.node? n = some (.term x) → t'.graph.node? n = some (.term x)
  gone : ∀ n, t.Live n → ¬ t'.Live n → ∀ m, t.IsTerm m → t.Dom n m → m = T
  child : ∀ p c, c ≠ T → (t'.IsChild p c ↔ t.IsChild p c ∧ t'.Live c)
  dom : ∀ a b, t'.Live a → t'.Live b → (t'.Dom a b ↔ t.Dom a b)
  label : ∀ c, c ≠ T → t'.Live c → t'.inLabel c = t.inLabel c
  secondary : SecondaryKept t t'

theorem Det.refl {D : Nat → Prop} (W : t.Loose D) (T : Nat) : Det D t T t where
  wf := W
  root := rfl
  nterm := rfl
  len := rfl
  sub := fun _ _ h => h
  term := fun _ _ h => h
  gone := fun _ h h' => absurd h h'
  child := fun _ _ _ => ⟨fun h => ⟨h, (isChild_live W.graph h).2⟩, fun h => h.1⟩
  dom := fun _ _ _ _ => Iff.rfl
  label := fun _ _ _ => rfl
  secondary := .refl W.graph

/-- One removal. -/
theorem Det.step {D : Nat → Prop} {T p : Nat} {t1 t2 : Tree} (hD : Det D t T t1) (ho : t1.OnlyChild p T) (hT : t1.IsTerm T)
    (W2 : t2.Loose D) (hC : Cut t1 t2 p)
    (hroot : t2.root = t1.root) (hn : t2.nTerminals = t1.nTerminals)
    (hl : ∀ m, m ≠ p → m ≠ T → t2.inLabel m = t1.inLabel m) (hlen : t2.graph.nodes.length = t1.graph.nodes.length)
    (hsec : SecondaryKept t1 t2) :
    Det D t T t2 := by
  have W1 := hD.wf
  have hself := W1.shape.not_isChild_self W1.graph p
  have hlive : ∀ n, t2.Live n → n ≠ p ∧ t1.Live n := by
    rintro n ⟨nd, hnd⟩
    by_cases h : n = p
    · subst h; rw [hC.dead] at hnd; simp at hnd
    · rw [hC.node n h] at hnd; exact ⟨h, ⟨nd, hnd⟩⟩
  have hlive1 : ∀ n, t1.Live n → t.Live n := fun n ⟨nd, hnd⟩ => ⟨nd, hD.sub n nd hnd⟩
  have hpT : p ≠ T := by rintro rfl; exact hself ho.1
  obtain ⟨px, hpx⟩ := W1.shape.parent_isNt W1.graph ho.1
  refine ⟨W2, ?_, hn.trans hD.nterm, hlen.trans hD.len, ?_, ?_, ?_, ?_, ?_, ?_,
    hD.secondary.trans hsec fun n h => (hlive n h).2⟩
  · rw [hroot]; exact hD.root
  · intro n nd hnd
    have := (hlive n ⟨nd, hnd⟩).1
    rw [hC.node n this] at hnd
    exact hD.sub n nd hnd
  · intro n x hx
    have h1 := hD.term n x hx
    have : n ≠ p := by rintro rfl; rw [hpx] at h1; simp at h1
    rw [hC.node n this]; exact h1
  · intro n hn0 hn2 m hm hd
    by_cases h : n = p
    · subst h
      have hm1 : t1.IsTerm m := by obtain ⟨x, hx⟩ := hm; exact ⟨x, hD.term m x hx⟩
      have hd1 := (hD.dom n m (isChild_live W1.graph ho.1).1 hm1.live).2 hd
      rcases ReflTransGen.cases_head hd1 with rfl | ⟨c, hc, hcm⟩
      · exact absurd hm1 (by rintro ⟨x, hx⟩; rw [hpx] at hx; simp at hx)
      · rw [ho.2 c hc] at hcm
        exact W1.shape.dom_term hT hcm
    · refine hD.gone n hn0 (fun hl1 => hn2 ?_) m hm hd
      obtain ⟨nd, hnd⟩ := hl1
      exact ⟨nd, by rw [← hnd]; exact hC.node n h⟩
  · intro a c hc
    rw [hC.splice a c]
    constructor
    · rintro ⟨h1, h2, h | ⟨_, h⟩⟩
      · obtain ⟨k1, nd, k2⟩ := (hD.child a c hc).1 h
        exact ⟨k1, nd, by rw [← k2]; exact hC.node c h2⟩
      · exact absurd (ho.2 c h) hc
    · rintro ⟨h1, h2⟩
      obtain ⟨k1, k2⟩ := hlive c h2
      have h3 := (hD.child a c hc).2 ⟨h1, k2⟩
      refine ⟨?_, k1, .inl h3⟩
      rintro rfl
      exact hc (ho.2 c h3)
  · intro a b ha hb
    obtain ⟨a1, a2⟩ := hlive a ha
    obtain ⟨b1, b2⟩ := hlive b hb
    exact (hC.splice.dom_iff hself a1 b1).trans (hD.dom a b a2 b2)
  · intro c hc hl2
    obtain ⟨c1, c2⟩ := hlive c hl2
    rw [hl c c1 hc, hD.label c hc c2]

theorem siblings_zero (S : t.Shape) {T p : Nat} (hp : t.IsChild p T) :
    (t.siblings T).length = 0 ↔ t.OnlyChild p T := by
  constructor
  · intro h
    refine ⟨hp, fun c hc => ?_⟩
    by_contra hne
    have : c ∈ (t.siblings T).map (·.1) := (mem_siblings S).2 ⟨hne, p, hp, hc⟩
    rw [List.length_eq_zero_iff.1 h] at this
    simp at this
  · intro ho
    rw [List.length_eq_zero_iff]
    cases hs : t.siblings T with
    | nil => rfl
    | cons y l =>
      have : y.1 ∈ (t.siblings T).map (·.1) := by rw [hs]; simp
      obtain ⟨h1, q, h2, h3⟩ := (mem_siblings S).1 this
      rw [S.isChild_unique h2 hp] at h3
      exact absurd (ho.2 _ h3) h1

/-- The body of the inner loop. -/
def detachStep (attachment terminal : Nat) (s : Tree × Option (Nat × Nat)) :
    Res ((Tree × Option (Nat × Nat)) ⊕ Tree) :=
    if (s.1.siblings terminal).length = 0 then
      match s.1.climberNext s.2 with
      | (some (p, _), cur') =>
        if p ≠ s.1.root ∧ p ≠ attachment then do
          let (t', r) ← s.1.removeNode p
          let _ ← Res.unwrap r
          return .inl (t', cur')
        else
          .ok (.inl (s.1, cur'))
      | (none, cur') => .ok (.inl (s.1, cur'))
    else
      .ok (.inr s.1)

theorem detachLoop_eq (fuel a T : Nat) (t : Tree) :
    detachLoop fuel a T t = loopM (detachStep a T) fuel (t, t.climberNew T) := rfl

/-- One turn at a terminal that is an only child. -/
theorem detachStep_spec {D : Nat → Prop} (W : t.Loose D) {a T p : Nat} {cl : Option (Nat × Nat)} (hcl : cl.map (·.1) = some p)
    (ho : t.OnlyChild p T) (hT : t.IsTerm T) (hpr : p ≠ t.root) (hpa : p ≠ a) :
    ∃ t', detachStep a T (t, cl) = .ok (.inl (t', t.parent p)) ∧ Cut t t' p ∧
      ∀ {t0 : Tree}, Det D t0 T t → Det D t0 T t' := by
  obtain ⟨e, rfl⟩ : ∃ e, cl = some (p, e) := by
    cases cl with
    | none => simp at hcl
    | some q => simp at hcl; exact ⟨q.2, by rw [← hcl]⟩
  obtain ⟨x, hx⟩ := W.shape.parent_isNt W.graph ho.1
  obtain ⟨t', h1, h2, h3, h4, h5, h6, h7, h8⟩ := removeUnary_loose W hx ho hpr
  refine ⟨t', ?_, h3, fun hD => hD.step ho hT h2 h3 h4 h5 h6 h7 h8⟩
  unfold detachStep
  simp only
  rw [if_pos ((siblings_zero W.shape ho.1).2 ho)]
  simp only [climberNext]
  rw [if_pos ⟨hpr, hpa⟩, h1]
  rfl

/-- Two terminals: the root has no single branch down to one of them. -/
theorem two_terms (Z : t.Sentence) {T : Nat} (h2 : 2 ≤ t.nTerminals) : ∃ m, t.IsTerm m ∧ m ≠ T := by
  obtain ⟨a, ha⟩ := Z.occupied 0 (by omega)
  obtain ⟨b, hb⟩ := Z.occupied 1 (by omega)
  by_cases h : a = T
  · refine ⟨b, hb.isTerm, ?_⟩
    rintro rfl
    subst h
    exact absurd (ha.pos_unique hb) (by omega)
  · exact ⟨a, ha.isTerm, h⟩

/-- A node dominating another terminal does not have `T` as its only child. -/
theorem not_only (S : t.Shape) {T a m : Nat} (hT : t.IsTerm T) (hm : t.IsTerm m) (hne : m ≠ T) (hd : t.Dom a m) :
    ¬ t.OnlyChild a T := by
  intro ho
  rcases ReflTransGen.cases_head hd with h | ⟨c, hc, hcm⟩
  · rw [← h] at hm
    exact S.term_leaf _ _ hm ho.1
  · rw [ho.2 c hc] at hcm
    exact hne (S.dom_term hT hcm)

theorem detachLoop_spec {D : Nat → Prop} {t0 : Tree} {T m a : Nat} (hmT : m ≠ T) :
    ∀ (l : List Nat) {t : Tree} {cl : Option (Nat × Nat)} {fuel : Nat},
    t.IsTerm T → t.IsTerm m → (t.IsNt a → t.Dom a m) → t.Anc T l → cl.map (·.1) = l.head? → l.length < fuel → Det D t0 T t →
    ∃ t', loopM (detachStep a T) fuel (t, cl) = .ok t' ∧ Det D t0 T t' ∧
      ∃ p s, s ≠ T ∧ t'.IsChild p T ∧ t'.IsChild p s := by
  intro l
  induction l with
  | nil =>
    intro t cl fuel hT hm _ hanc _ _ hD
    have hr := hD.wf.shape.root_of_no_parent hT.live hanc
    have := hD.wf.shape.reach m hm.live
    rw [← hr] at this
    exact absurd (hD.wf.shape.dom_term hT this) hmT
  | cons p l ih =>
    intro t cl fuel hT hm ha hanc hcl hfuel hD
    have W := hD.wf
    have S := W.shape
    have G := W.graph
    obtain ⟨k, rfl⟩ : ∃ k, fuel = k + 1 := ⟨fuel - 1, by omega⟩
    have hp : t.IsChild p T := hanc.1
    by_cases ho : t.OnlyChild p T
    · have hpr : p ≠ t.root := by rintro rfl; exact not_only S hT hm hmT (S.reach m hm.live) ho
      have hpa : p ≠ a := by rintro rfl; exact not_only S hT hm hmT (ha (S.parent_isNt G hp)) ho
      obtain ⟨t', h1, h3, h4⟩ := detachStep_spec W hcl ho hT hpr hpa
      have hD' := h4 hD
      have hpT : T ≠ p := by rintro rfl; exact S.not_isChild_self G _ hp
      have hpm : m ≠ p := by rintro rfl; exact S.term_leaf _ _ hm hp
      rw [loopM_succ_inl h1]
      cases l with
      | nil =>
        exact absurd (S.root_of_no_parent (isChild_live G hp).1 hanc.2) hpr
      | cons q l =>
        have hq : t.IsChild q p := hanc.2.1
        have hqp : q ≠ p := by rintro rfl; exact S.not_isChild_self G _ hq
        have hnd := hanc.nodup G S
        simp only [List.nodup_cons, List.mem_cons, not_or] at hnd
        refine ih ?_ ?_ ?_ ?_ ?_ (by simp at hfuel ⊢; omega) hD'
        · obtain ⟨x, hx⟩ := hT; exact ⟨x, by rw [h3.node T hpT]; exact hx⟩
        · obtain ⟨x, hx⟩ := hm; exact ⟨x, by rw [h3.node m hpm]; exact hx⟩
        · rintro ⟨x, hx⟩
          rw [h3.node a (Ne.symm hpa)] at hx
          exact (h3.splice.dom_iff (S.not_isChild_self G p) (Ne.symm hpa) hpm).2 (ha ⟨x, hx⟩)
        · refine ⟨(h3.splice q T).2 ⟨hqp, hpT, .inr ⟨hq, hp⟩⟩, ?_⟩
          exact splice_anc h3.splice hanc.2.2 hqp hnd.2.1.2
        · rw [parent_of_anc S hanc.2]
    · refine ⟨t, loopM_succ_inr ?_, hD, ?_⟩
      · unfold detachStep
        rw [if_neg]
        exact fun h => ho ((siblings_zero S hp).1 h)
      · have : ∃ s, t.IsChild p s ∧ s ≠ T := by
          by_contra hc
          push Not at hc
          exact ho ⟨hp, hc⟩
        obtain ⟨s, hs, hne⟩ := this
        exact ⟨p, s, hne, hp, hs⟩

/-- After the loop exactly the nodes that dominate only `T` are gone. -/
theorem Det.live_iff {D : Nat → Prop} {T : Nat} (hD : Det D t T t') (hT : t.IsTerm T) (hs : ∃ p s, s ≠ T ∧ t'.IsChild p T ∧ t'.IsChild p s) (n : Nat) :
    t'.Live n ↔ t.Live n ∧ (n = T ∨ ∃ m, t.IsTerm m ∧ m ≠ T ∧ t.Dom n m) := by
  have W' := hD.wf
  have hT' : t'.IsTerm T := by obtain ⟨x, hx⟩ := hT; exact ⟨x, hD.term T x hx⟩
  constructor
  · rintro ⟨nd, hnd⟩
    refine ⟨⟨nd, hD.sub n nd hnd⟩, ?_⟩
    by_cases hnT : n = T
    · exact .inl hnT
    · refine .inr ?_
      obtain ⟨m, hm1, hm2⟩ := W'.shape.exists_terminal W'.graph n ⟨nd, hnd⟩
      have hm3 : t.IsTerm m := by obtain ⟨x, hx⟩ := hm2; exact ⟨x, hD.sub m _ hx⟩
      have hm4 := (hD.dom n m ⟨nd, hnd⟩ hm2.live).1 hm1
      by_cases hmT : m = T
      · subst hmT
        obtain ⟨p, s, h1, h2, h3⟩ := hs
        have hd : t'.Dom n p := by
          rcases ReflTransGen.cases_tail hm1 with h | ⟨b, hb, hbc⟩
          · exact absurd h.symm hnT
          · rw [W'.shape.isChild_unique h2 hbc]; exact hb
        obtain ⟨m', k1, k2⟩ := W'.shape.exists_terminal W'.graph s (isChild_live W'.graph h3).2
        refine ⟨m', by obtain ⟨x, hx⟩ := k2; exact ⟨x, hD.sub m' _ hx⟩, ?_, ?_⟩
        · rintro rfl
          exact h1 (W'.shape.siblings_not_dom W'.graph h3 h2 k1)
        · exact (hD.dom n m' ⟨nd, hnd⟩ k2.live).1 ((hd.trans (.single h3)).trans k1)
      · exact ⟨m, hm3, hmT, hm4⟩
  · rintro ⟨hl, rfl | ⟨m, h1, h2, h3⟩⟩
    · exact hT'.live
    · by_contra hc
      exact h2 (hD.gone n hl hc m h1 h3)

theorem isTerm_content {n : Nat} (h : t'.content n = t.content n) : t'.IsTerm n ↔ t.IsTerm n := by
  unfold content at h
  unfold IsTerm
  cases h1 : t'.graph.node? n with
  | none =>
    cases h2 : t.graph.node? n with
    | none => simp
    | some b => rw [h1, h2] at h; simp at h
  | some a =>
    cases h2 : t.graph.node? n with
    | none => rw [h1, h2] at h; simp at h
    | some b =>
      rw [h1, h2] at h
      cases a <;> cases b <;> simp [Node.replaceSpan] at h ⊢

theorem Gathered.isTerm {t0 : Tree} {a : Nat} {M : Nat → Prop} (I : Gathered t0 a M t) (n : Nat) : t.IsTerm n ↔ t0.IsTerm n := by
  constructor
  · intro h; exact (isTerm_content (I.content n h.live)).1 h
  · rintro ⟨x, hx⟩; exact ⟨x, I.term n x hx⟩

theorem Gath.isTerm {t0 : Tree} {a : Nat} {M : Nat → Prop} (I : Gath t0 a M t) (n : Nat) : t.IsTerm n ↔ t0.IsTerm n := by
  constructor
  · intro h; exact (isTerm_content (I.content n h.live)).1 h
  · rintro ⟨x, hx⟩; exact ⟨x, I.term n x hx⟩

/-- The attachment point keeps its ancestors. -/
theorem Gath.above {t0 : Tree} (W0 : t0.WF) {a : Nat} (ha : t0.IsNt a) {M : Nat → Prop} (hM : ∀ m, M m → t0.IsTerm m)
    (I : Gath t0 a M t) {n : Nat} (hn : t0.Dom n a) : t.Dom n a := by
  have key : ∀ b, t0.Dom n b → t0.Dom b a → t.Dom n b := by
    intro b hb
    induction hb with
    | refl => intro _; exact Dom.refl
    | tail hb hc ih =>
      rename_i b c
      intro hca
      refine (ih (Dom.trans (.single hc) hca)).tail ((I.child b c).2 (.inl ⟨hc, ?_, ?_⟩))
      · exact (I.live c).2 ⟨(isChild_live W0.graph hc).2, .inr (.inl hca)⟩
      · intro hMc
        have := W0.shape.dom_term (hM c hMc) hca
        subst this
        exact not_isTerm_isNt (hM _ hMc) ha
  exact key a hn Dom.refl

theorem Gath.dom {t0 : Tree} (W0 : t0.WF) {a : Nat} {M : Nat → Prop} (hM : ∀ m, M m → t0.IsTerm m) (I : Gath t0 a M t) {n m : Nat}
    (hn : ¬ t0.Dom n a) (hm : t0.IsTerm m) (hnt : n ≠ m) : t.Dom n m ↔ t0.Dom n m ∧ ¬ M m := by
  constructor
  · intro h
    have key : ∀ b, t.Dom n b → t0.Dom n b ∧ (b = n ∨ ¬ M b) := by
      intro b hb
      induction hb with
      | refl => exact ⟨Dom.refl, .inl rfl⟩
      | tail hb hc ih =>
        rename_i b c
        rcases (I.child b c).1 hc with ⟨h1, h2, h3⟩ | ⟨rfl, h2⟩
        · exact ⟨ih.1.tail h1, .inr h3⟩
        · exact absurd ih.1 hn
    obtain ⟨h1, h2⟩ := key m h
    exact ⟨h1, h2.resolve_left (Ne.symm hnt)⟩
  · rintro ⟨h, hMm⟩
    have key : ∀ b, t0.Dom n b → t0.Dom b m → t.Dom n b := by
      intro b hb
      induction hb with
      | refl => intro _; exact Dom.refl
      | tail hb hc ih =>
        rename_i b c
        intro hcm
        refine (ih (Dom.trans (.single hc) hcm)).tail ((I.child b c).2 (.inl ⟨hc, ?_, ?_⟩))
        · exact (I.live c).2 ⟨(isChild_live W0.graph hc).2, .inr (.inr ⟨m, hm, hMm, hcm⟩)⟩
        · intro hMc
          have := W0.shape.dom_term (hM c hMc) hcm
          subst this
          exact hMm hMc
    exact key m h Dom.refl

set_option maxHeartbeats 1000000 in
/-- Moving one more terminal. -/
theorem reattachTerminalStep_spec {t0 : Tree} (W0 : t0.WF) {a : Nat} (ha : t0.IsNt a) {M : Nat → Prop}
    (hM : ∀ m, M m → t0.IsTerm m) (I : Gath t0 a M t) {T : Nat} (hT0 : t0.IsTerm T) (hMT : ¬ M T) {f : Tree → Nat → Bool}
    (hf : f t T = true) {m0 : Nat} (hm0 : t0.IsTerm m0) (hmT : m0 ≠ T) (hm0a : t.Dom a m0) :
    ∃ t', reattachTerminalStep a f t T = .ok t' ∧ Gath t0 a (fun m => M m ∨ m = T) t' := by
  have W := I.loose
  have hT : t.IsTerm T := (I.isTerm T).2 hT0
  have hm0' : t.IsTerm m0 := (I.isTerm m0).2 hm0
  obtain ⟨l, hanc⟩ := W.shape.exists_anc hT.live
  obtain ⟨t1, h3, hD, p, s, hs1, hs2, hs3⟩ := detachLoop_spec (T := T) (a := a) hmT l (cl := t.climberNew T) (fuel := t.climbFuel)
    hT hm0' (fun _ => hm0a) hanc (parent_of_anc W.shape hanc)
    (by have := hanc.length_lt W.graph W.shape hT.live; unfold climbFuel; omega) (Det.refl W T)
  have W1 := hD.wf
  have hT1 : t1.IsTerm T := by obtain ⟨x, hx⟩ := hT; exact ⟨x, hD.term T x hx⟩
  obtain ⟨r, hr, hr1, hr2, hr3⟩ := id hs2
  obtain ⟨e, he⟩ := W1.shape.parent_of_isChild hs2
  have hid : r.id = e := by
    obtain ⟨r', k1, k2, k3, k4, k5⟩ := parent_some he
    rw [W1.shape.unique r hr r' k1 (hr2.trans k3.symm) hr3 k5]
    exact k4
  have hroot1 : t1.root = t.root := hD.root
  have hliv1 := hD.live_iff hT ⟨p, s, hs1, hs2, hs3⟩
  have hant : t1.IsNt a := by
    have hal : t.Live a := (I.live a).2 ⟨ha.live, .inr (.inl Dom.refl)⟩
    have hal1 : t1.Live a := (hliv1 a).2 ⟨hal, .inr ⟨m0, hm0', hmT, hm0a⟩⟩
    obtain ⟨nd, hnd⟩ := hal1
    cases nd with
    | nt x => exact ⟨x, hnd⟩
    | term x =>
      exact absurd ha (fun h => not_isTerm_isNt ((I.isTerm a).1 ⟨x, hD.sub a _ hnd⟩) h)
  have hnd : ¬ t1.Dom r.tgt a := by
    rw [hr2]
    intro h
    have := W1.shape.dom_term hT1 h
    rw [this] at hant
    exact not_isTerm_isNt hT1 hant
  obtain ⟨iT, hiT, hpos⟩ := W1.sentence.pos T hT1
  obtain ⟨cn, hcn⟩ := hT1.live
  obtain ⟨cv, cc⟩ := spanRight_term W1.shape ⟨iT, hpos⟩ cn hcn
  have hpos0 : t0.TermAt T iT := by
    obtain ⟨x, hx, hs⟩ := hpos
    obtain ⟨x0, hx0⟩ := hT0
    have := hD.term T x0 (I.term T x0 hx0)
    rw [hx] at this
    cases this
    exact ⟨x, hx0, hs⟩
  have hcn1 : ∀ i, i ∈ cn.span.indices ↔ i = iT := by
    intro i
    rw [cc, covers_term W1.shape hT1]
    exact ⟨fun h => h.pos_unique hpos, fun h => h ▸ hpos⟩
  obtain ⟨t2, e', k1, k2, k3, k4, k5, k6, k7, k8, k9, k10, k11, k12, k13, k14, k15, _⟩ :=
    reattachPrimary_loose W1 (hr2 ▸ hcn) cv (hr2 ▸ cc) (by
      intro i hi
      rw [hcn1] at hi
      subst hi
      rintro ⟨m, hm1, hm2⟩
      exact hMT (W0.sentence.inj _ _ _ hm2 hpos0 ▸ hm1)) hr hr3 hant hnd (.inr ⟨s, by rw [hr2]; exact hs1, by rw [hr1]; exact hs3⟩)
  have hLoose : t2.Loose (fun i => ∃ m, (M m ∨ m = T) ∧ t0.TermAt m i) := by
    refine ⟨k2, k3, k4, k5, fun n y hy => ?_⟩
    have hnl : t1.IsNt n := by
      have := k11 n
      unfold content at this
      rw [hy] at this
      cases h : t1.graph.node? n with
      | none => rw [h] at this; simp at this
      | some b =>
        cases b with
        | nt z => exact ⟨z, h⟩
        | term z => rw [k10 n z h] at hy; cases hy
    obtain ⟨x, hx⟩ := hnl
    obtain ⟨sp, j1, j2, j3⟩ := k15 n x hx
    rw [j1] at hy
    cases hy
    obtain ⟨q1, q2, q3⟩ := W1.spans n x hx
    have hnT : ¬ t1.Dom r.tgt n := by
      rw [hr2]
      intro h
      have := W1.shape.dom_term hT1 h
      subst this
      exact not_isTerm_isNt hT1 ⟨x, hx⟩
    refine ⟨j2, fun i hi => ?_, fun i hi hD' => ?_⟩
    · rcases (k14 n i hnT).1 hi with ⟨g1, g2⟩ | ⟨g1, g2⟩
      · exact (j3 i).2 (.inl ⟨q2 i g1, fun h => g2 h.1⟩)
      · exact (j3 i).2 (.inr ⟨g1, g2⟩)
    · have hne : i ∉ cn.span.indices := by
        intro h
        rw [hcn1] at h
        subst h
        exact hD' ⟨T, .inr rfl, hpos0⟩
      rcases (j3 i).1 hi with ⟨g1, _⟩ | ⟨_, g2⟩
      · refine (k14 n i hnT).2 (.inl ⟨q3 i g1 ?_, hne⟩)
        rintro ⟨m, h1, h2⟩
        exact hD' ⟨m, .inl h1, h2⟩
      · exact absurd g2 hne
  rw [hr2] at k6 k7
  have hlive2 : ∀ n, t2.Live n ↔ t1.Live n := by
    intro n
    have := k11 n
    unfold content at this
    unfold Live Graph.Live
    cases h1 : t2.graph.node? n with
    | none =>
      cases h2 : t1.graph.node? n with
      | none => simp
      | some b => rw [h1, h2] at this; simp at this
    | some a =>
      cases h2 : t1.graph.node? n with
      | none => rw [h1, h2] at this; simp at this
      | some b => simp
  have hlive1 : ∀ n, t1.Live n → t.Live n := fun n ⟨nd, hnd⟩ => ⟨nd, hD.sub n nd hnd⟩
  have hlab2 : ∀ c, c ≠ T → t2.inLabel c = t1.inLabel c := by
    intro c hc
    refine inLabel_congr W1.shape k3 ?_ ?_
    · rintro r' hr' hw' rfl
      refine ⟨r', ?_, rfl, rfl⟩
      rw [k7, List.mem_cons, List.mem_filter]
      refine .inr ⟨hr', decide_eq_true fun h => hc ?_⟩
      rw [W1.graph.edge_ext hr' hr h, hr2]
    · intro q hq
      rcases (k6 q c).1 hq with ⟨h, _⟩ | ⟨_, h⟩
      · exact ⟨q, h⟩
      · exact absurd h hc
  have hsec2 : SecondaryKept t1 t2 := by
    intro r' hr'
    rw [k7, List.mem_cons, List.mem_filter, hlive2, hlive2]
    constructor
    · rintro (h | ⟨h, _⟩)
      · rw [h] at hr'; simp [Edge.isPrimary] at hr'
      · exact ⟨h, W1.graph.ends r' h⟩
    · rintro ⟨h, _⟩
      refine .inr ⟨h, decide_eq_true fun e => ?_⟩
      rw [W1.graph.edge_ext h hr e, hr3] at hr'
      simp at hr'
  refine ⟨t2, ?_, hLoose, k8.trans (hroot1.trans I.root), k9.trans (hD.nterm.trans I.nterm),
    k12.trans (hD.len.trans I.len), ?_, ?_, ?_, ?_, ?_, ?_,
    I.secondary.trans (hD.secondary.trans hsec2 fun n h => (hlive2 n).1 h) fun n h => hlive1 n ((hlive2 n).1 h)⟩
  · unfold reattachTerminalStep
    rw [if_pos hf, detachLoop_eq]
    refine Res.bind_eq_ok.2 ⟨t1, h3, ?_⟩
    simp only [he, Res.ofOption_some, Res.ok_bind]
    refine Res.bind_eq_ok.2 ⟨(t2, .ok (e', r.w)), ?_, rfl⟩
    unfold reattachNode
    rw [Graph.contains_iff.2 hant.live, ← hid, (Graph.edge?_eq W1.graph).2 ⟨hr, rfl⟩]
    simp only [Res.assert_true, Res.ok_bind, Res.ofOption_some]
    rw [if_neg (fun h : r.tgt = a => hnd (h ▸ Dom.refl))]
    cases hw' : r.w with
    | primary l => rw [hw'] at k1; exact k1
    | secondary l => rw [hw'] at hr3; simp [Edge.isPrimary] at hr3
  · intro n x hx
    exact k10 n x (hD.term n x (I.term n x hx))
  · intro n hn
    rw [k11]
    obtain ⟨nd, hnd⟩ := (hlive2 n).1 hn
    have h := hD.sub n nd hnd
    have : t1.content n = t.content n := by unfold content; rw [hnd, h]
    rw [this]
    exact I.content n ⟨nd, h⟩
  · intro n
    rw [hlive2, hliv1, I.live]
    have habove : t0.Dom n a → ∃ m, t.IsTerm m ∧ m ≠ T ∧ t.Dom n m := fun h =>
      ⟨m0, hm0', hmT, (I.above W0 ha hM h).trans hm0a⟩
    constructor
    · rintro ⟨⟨h1, _⟩, rfl | ⟨m, g1, g2, g3⟩⟩
      · exact ⟨h1, .inl hT0⟩
      · refine ⟨h1, ?_⟩
        by_cases hr : t0.Dom n a
        · exact .inr (.inl hr)
        · by_cases hnm : n = m
          · subst hnm; exact .inl ((I.isTerm n).1 g1)
          · have g1' := (I.isTerm m).1 g1
            obtain ⟨d1, d2⟩ := (I.dom W0 hM hr g1' hnm).1 g3
            exact .inr (.inr ⟨m, g1', not_or.2 ⟨d2, g2⟩, d1⟩)
    · rintro ⟨h1, h⟩
      refine ⟨⟨h1, ?_⟩, ?_⟩
      · rcases h with h | h | ⟨m, g1, g2, g3⟩
        · exact .inl h
        · exact .inr (.inl h)
        · exact .inr (.inr ⟨m, g1, fun h => g2 (.inl h), g3⟩)
      · by_cases hnT : n = T
        · exact .inl hnT
        · refine .inr ?_
          rcases h with h | h | ⟨m, g1, g2, g3⟩
          · exact ⟨n, (I.isTerm n).2 h, hnT, Dom.refl⟩
          · exact habove h
          · by_cases hr : t0.Dom n a
            · exact habove hr
            · by_cases hnm : n = m
              · subst hnm; exact ⟨n, (I.isTerm n).2 g1, hnT, Dom.refl⟩
              · exact ⟨m, (I.isTerm m).2 g1, fun h => g2 (.inr h),
                  (I.dom W0 hM hr g1 hnm).2 ⟨g3, fun h => g2 (.inl h)⟩⟩
  · intro b c
    rw [k6 b c]
    constructor
    · rintro (⟨h, hc⟩ | ⟨h, hc⟩)
      · obtain ⟨g1, g2⟩ := (hD.child b c hc).1 h
        rcases (I.child b c).1 g1 with ⟨u1, u2, u3⟩ | ⟨u1, u2⟩
        · exact .inl ⟨u1, (hlive2 c).2 g2, not_or.2 ⟨u3, hc⟩⟩
        · exact .inr ⟨u1, .inl u2⟩
      · exact .inr ⟨h, .inr hc⟩
    · rintro (⟨h, hl, hc⟩ | ⟨h, hc | hc⟩)
      · rw [not_or] at hc
        have hl1 := (hlive2 c).1 hl
        exact .inl ⟨(hD.child b c hc.2).2 ⟨(I.child b c).2 (.inl ⟨h, hlive1 c hl1, hc.1⟩), hl1⟩, hc.2⟩
      · have hcT : c ≠ T := by rintro rfl; exact hMT hc
        have hl1 : t1.Live c := by
          obtain ⟨x, hx⟩ := hM c hc
          exact ⟨_, hD.term c x (I.term c x hx)⟩
        exact .inl ⟨(hD.child b c hcT).2 ⟨(I.child b c).2 (.inr ⟨h, hc⟩), hl1⟩, hcT⟩
      · exact .inr ⟨h, hc⟩
  · rintro c (hc | rfl)
    · have hcT : c ≠ T := by rintro rfl; exact hMT hc
      have hl1 : t1.Live c := by
        obtain ⟨x, hx⟩ := hM c hc
        exact ⟨_, hD.term c x (I.term c x hx)⟩
      rw [hlab2 c hcT, hD.label c hcT hl1]
      exact I.moved c hc
    · unfold inLabel
      have := k3.edgeLabel_of_edge (r := ⟨e', a, c, .primary none⟩) (by rw [k7]; simp) rfl
      rw [this]; rfl
  · intro c hl hc
    rw [not_or] at hc
    have hl1 := (hlive2 c).1 hl
    rw [hlab2 c hc.2, hD.label c hc.2 hl1]
    exact I.label c (hlive1 c hl1) hc.1

theorem Gathered.congr {t0 : Tree} {a : Nat} {M M' : Nat → Prop} (I : Gathered t0 a M t) (h : ∀ m, M' m ↔ M m) :
    Gathered t0 a M' t := by
  have : M' = M := funext fun m => propext (h m)
  rw [this]; exact I

theorem Gath.congr {t0 : Tree} {a : Nat} {M M' : Nat → Prop} (I : Gath t0 a M t) (h : ∀ m, M' m ↔ M m) : Gath t0 a M' t := by
  have : M' = M := funext fun m => propext (h m)
  rw [this]; exact I

theorem Gath.start (W : t.WF) (a : Nat) : Gath t a (fun _ => False) t where
  loose := W.loose _
  root := rfl
  nterm := rfl
  len := rfl
  term := fun _ _ h => h
  content := fun _ _ => rfl
  live := fun n => ⟨fun h => ⟨h, by
    obtain ⟨m, h1, h2⟩ := W.shape.exists_terminal W.graph n h
    exact .inr (.inr ⟨m, h2, id, h1⟩)⟩, fun h => h.1⟩
  child := fun p c => ⟨fun h => .inl ⟨h, (isChild_live W.graph h).2, id⟩, fun h => h.elim (fun h => h.1) (fun h => h.2.elim)⟩
  moved := fun _ h => h.elim
  label := fun _ _ _ => rfl
  secondary := .refl W.graph

theorem SpanEdit.live' (E : SpanEdit t t') (n : Nat) : t'.Live n ↔ t.Live n := E.live n

/-- The last step puts the spans right. -/
theorem Gath.finish {t0 : Tree} {a : Nat} {M : Nat → Prop} (I : Gath t0 a M t) :
    ∃ t', t.resetNtSpans = .ok t' ∧ Gathered t0 a M t' := by
  obtain ⟨t', h1, E, W⟩ := resetNtSpans_wf I.loose.graph I.loose.shape I.loose.sentence
  have hlab : ∀ c, t'.inLabel c = t.inLabel c := fun c => by
    unfold inLabel edgeLabel; rw [E.edges]
  refine ⟨t', h1, W, E.root.trans I.root, E.nTerm.trans I.nterm, E.len.trans I.len,
    fun n x hx => E.term n x (I.term n x hx), fun n hn => (E.content n).trans (I.content n ((E.live n).1 hn)),
    fun n => (E.live n).trans (I.live n), fun p c => ?_, fun c hc => (hlab c).trans (I.moved c hc),
    fun c hl hc => (hlab c).trans (I.label c ((E.live c).1 hl) hc), fun r hr => ?_⟩
  · rw [E.isChild, E.live]; exact I.child p c
  · rw [E.edges, E.live, E.live]; exact I.secondary r hr

theorem reattachLoop_spec {t0 : Tree} (W0 : t0.WF) {a : Nat} (ha : t0.IsNt a) {f : Tree → Nat → Bool} (hf : TermLocal f) :
    ∀ (l : List Nat) {t : Tree} {M : Nat → Prop}, (∀ m, M m → t0.IsTerm m) → Gath t0 a M t → l.Nodup →
    (∀ m ∈ l, t0.IsTerm m ∧ ¬ M m) →
    (∀ T, l.find? (fun m => f t0 m) = some T → ∃ m, t0.IsTerm m ∧ m ≠ T ∧ t.Dom a m) →
    ∃ t', forM' (reattachTerminalStep a f) l t = .ok t' ∧ Gath t0 a (fun m => M m ∨ (m ∈ l ∧ f t0 m = true)) t' := by
  intro l
  induction l with
  | nil => intro t M hM I _ _ _; exact ⟨t, rfl, by simpa using I⟩
  | cons T l ih =>
    intro t M hM I hnd hl h2
    rw [List.nodup_cons] at hnd
    obtain ⟨hT, hMT⟩ := hl T (by simp)
    have hfT : f t T = f t0 T := by obtain ⟨x, hx⟩ := hT; exact hf _ _ _ x (I.term T x hx) hx
    rw [forM'_cons]
    cases h : f t0 T with
    | true =>
      obtain ⟨m0, g1, g2, g3⟩ := h2 T (by rw [List.find?_cons_of_pos h])
      obtain ⟨t1, k1, k2⟩ := reattachTerminalStep_spec W0 ha hM I hT hMT (hfT.trans h) g1 g2 g3
      rw [k1, Res.ok_bind]
      obtain ⟨t2, k3, k4⟩ := ih (fun m hm => hm.elim (hM m) (fun e => e ▸ hT)) k2 hnd.2 (fun m hm =>
        ⟨(hl m (by simp [hm])).1, not_or.2 ⟨(hl m (by simp [hm])).2, fun e => hnd.1 (e ▸ hm)⟩⟩)
        (fun T' hT' => ⟨T, hT, by rintro rfl; exact hnd.1 (List.mem_of_find?_eq_some hT'),
          .single ((k2.child a T).2 (.inr ⟨rfl, .inr rfl⟩))⟩)
      refine ⟨t2, k3, ?_⟩
      refine k4.congr fun m => ?_
      simp only [List.mem_cons]
      constructor
      · rintro (h1 | ⟨h1 | h1, h2⟩)
        · exact .inl (.inl h1)
        · exact .inl (.inr h1)
        · exact .inr ⟨h1, h2⟩
      · rintro ((h1 | h1) | ⟨h1, h2⟩)
        · exact .inl h1
        · exact .inr ⟨.inl h1, by rw [h1]; exact h⟩
        · exact .inr ⟨.inr h1, h2⟩
    | false =>
      have : reattachTerminalStep a f t T = .ok t := by
        unfold reattachTerminalStep
        rw [if_neg (by rw [hfT, h]; simp)]; rfl
      rw [this, Res.ok_bind]
      obtain ⟨t2, k3, k4⟩ := ih hM I hnd.2 (fun m hm => hl m (by simp [hm]))
        (fun T' hT' => h2 T' (by rw [List.find?_cons_of_neg (by simp [h])]; exact hT'))
      refine ⟨t2, k3, ?_⟩
      refine k4.congr fun m => ?_
      simp only [List.mem_cons]
      constructor
      · rintro (h1 | ⟨h1 | h1, h2⟩)
        · exact .inl h1
        · rw [h1, h] at h2; simp at h2
        · exact .inr ⟨h1, h2⟩
      · rintro (h1 | ⟨h1, h2⟩)
        · exact .inl h1
        · exact .inr ⟨.inr h1, h2⟩

/-- The first matched terminal. -/
theorem find_terminal {f : Tree → Nat → Bool} {T : Nat} :
    t.terminals.find? (fun m => f t m) = some T ↔
      (t.IsTerm T ∧ f t T = true ∧ ∀ m, t.IsTerm m → f t m = true → T ≤ m) := by
  have hs : t.terminals.Pairwise (· < ·) := terminals_sorted
  constructor
  · intro h
    refine ⟨mem_terminals.1 (List.mem_of_find?_eq_some h), List.find?_some h, fun m hm hf => ?_⟩
    obtain ⟨_, as, bs, h1, h2⟩ := List.find?_eq_some_iff_append.1 h
    have hm' := mem_terminals.2 hm
    rw [h1] at hm' hs
    rcases List.mem_append.1 hm' with h3 | h3
    · have := h2 m h3
      rw [hf] at this; simp at this
    · rcases List.mem_cons.1 h3 with rfl | h3
      · exact le_refl _
      · exact le_of_lt ((List.pairwise_cons.1 (List.pairwise_append.1 hs).2.1).1 m h3)
  · rintro ⟨h1, h2, h3⟩
    cases h : t.terminals.find? (fun m => f t m) with
    | none =>
      rw [List.find?_eq_none] at h
      exact absurd h2 (h T (mem_terminals.2 h1))
    | some T' =>
      have k1 := mem_terminals.1 (List.mem_of_find?_eq_some h)
      have k2 : f t T' = true := List.find?_some h
      obtain ⟨_, as, bs, g1, g2⟩ := List.find?_eq_some_iff_append.1 h
      have hle := h3 T' k1 k2
      have hT' := mem_terminals.2 h1
      rw [g1] at hT' hs
      rcases List.mem_append.1 hT' with h4 | h4
      · have := g2 T h4
        rw [h2] at this; simp at this
      · rcases List.mem_cons.1 h4 with rfl | h4
        · rfl
        · have := (List.pairwise_cons.1 (List.pairwise_append.1 hs).2.1).1 T h4
          omega

theorem reattachTerminals_spec (W : t.WF) {a : Nat} (ha : t.IsNt a) {f : Tree → Nat → Bool} (hf : TermLocal f)
    (h2 : ∀ T, t.IsTerm T → f t T = true → (∀ m, t.IsTerm m → f t m = true → T ≤ m) → ∃ m, t.IsTerm m ∧ m ≠ T ∧ t.Dom a m) :
    ∃ t', t.reattachTerminals a f = .ok t' ∧ Gathered t a (fun m => t.IsTerm m ∧ f t m = true) t' := by
  obtain ⟨t1, k1, k2⟩ := reattachLoop_spec W ha hf t.terminals (fun m h => h.elim) (Gath.start W a) terminals_nodup
    (fun m hm => ⟨mem_terminals.1 hm, id⟩) (fun T hT => by
      obtain ⟨g1, g2, g3⟩ := find_terminal.1 hT
      exact h2 T g1 g2 g3)
  obtain ⟨t', k3, k4⟩ := k2.finish
  refine ⟨t', ?_, ?_⟩
  · unfold reattachTerminals
    rw [k1, Res.ok_bind, k3]
  · simpa [mem_terminals] using k4

/-- The loop for any predicate: `u n` is the tree in which it is asked about `n`. -/
theorem reattachLoop_asked {t0 : Tree} (W0 : t0.WF) {a : Nat} (ha : t0.IsNt a) (f : Tree → Nat → Bool) :
    ∀ (l : List Nat) {t : Tree} {M : Nat → Prop}, (∀ m, M m → t0.IsTerm m) → Gath t0 a M t → l.Pairwise (· < ·) →
    (∀ n ∈ l, t0.IsTerm n ∧ ∀ m, M m → m < n) →
    (∀ T, l.find? (fun m => f t m) = some T → ∃ m, t0.IsTerm m ∧ m ≠ T ∧ t.Dom a m) →
    ∃ (t' : Tree) (u : Nat → Tree) (R : Nat → Prop), forM' (reattachTerminalStep a f) l t = .ok t' ∧ Gath t0 a R t' ∧
      (∀ n, R n ↔ M n ∨ (n ∈ l ∧ f (u n) n = true)) ∧ ∀ n ∈ l, Gath t0 a (fun m => R m ∧ m < n) (u n) := by
  intro l
  induction l with
  | nil => intro t M hM I _ _ _; exact ⟨t, fun _ => t, M, rfl, I, by simp, by simp⟩
  | cons T l ih =>
    intro t M hM I hs hl h2
    rw [List.pairwise_cons] at hs
    obtain ⟨hT, hlt⟩ := hl T (by simp)
    have hMT : ¬ M T := fun h => absurd (hlt T h) (lt_irrefl T)
    have hTl : T ∉ l := fun h => lt_irrefl T (hs.1 T h)
    rw [forM'_cons]
    cases h : f t T with
    | true =>
      obtain ⟨m0, g1, g2, g3⟩ := h2 T (by rw [List.find?_cons_of_pos h])
      obtain ⟨t1, k1, k2⟩ := reattachTerminalStep_spec W0 ha hM I hT hMT h g1 g2 g3
      rw [k1, Res.ok_bind]
      obtain ⟨t2, u, R, k3, k4, k5, k6⟩ := ih (fun m hm => hm.elim (hM m) (fun e => e ▸ hT)) k2 hs.2 (fun n hn =>
        ⟨(hl n (by simp [hn])).1, fun m hm => hm.elim ((hl n (by simp [hn])).2 m) (fun e => e ▸ hs.1 n hn)⟩)
        (fun T' hT' => ⟨T, hT, by rintro rfl; exact hTl (List.mem_of_find?_eq_some hT'),
          .single ((k2.child a T).2 (.inr ⟨rfl, .inr rfl⟩))⟩)
      refine ⟨t2, Function.update u T t, R, k3, k4, fun n => ?_, fun n hn => ?_⟩
      · rw [k5]
        by_cases e : n = T
        · subst e; simp [h]
        · simp [e]
      · rcases List.mem_cons.1 hn with rfl | hn
        · rw [Function.update_self]
          refine I.congr fun m => ?_
          rw [k5]
          constructor
          · rintro ⟨(h1 | h1) | ⟨h1, _⟩, h3⟩
            · exact h1
            · omega
            · have := hs.1 m h1; omega
          · exact fun h1 => ⟨.inl (.inl h1), hlt m h1⟩
        · rw [Function.update_of_ne (fun e : n = T => hTl (e ▸ hn))]
          exact k6 n hn
    | false =>
      have : reattachTerminalStep a f t T = .ok t := by
        unfold reattachTerminalStep
        rw [if_neg (by rw [h]; simp)]; rfl
      rw [this, Res.ok_bind]
      obtain ⟨t2, u, R, k3, k4, k5, k6⟩ := ih hM I hs.2 (fun n hn => hl n (by simp [hn]))
        (fun T' hT' => h2 T' (by rw [List.find?_cons_of_neg (by simp [h])]; exact hT'))
      refine ⟨t2, Function.update u T t, R, k3, k4, fun n => ?_, fun n hn => ?_⟩
      · rw [k5]
        by_cases e : n = T
        · subst e; simp [h, hTl]
        · simp [e]
      · rcases List.mem_cons.1 hn with rfl | hn
        · rw [Function.update_self]
          refine I.congr fun m => ?_
          rw [k5]
          constructor
          · rintro ⟨h1 | ⟨h1, _⟩, h3⟩
            · exact h1
            · have := hs.1 m h1; omega
          · exact fun h1 => ⟨.inl h1, hlt m h1⟩
        · rw [Function.update_of_ne (fun e : n = T => hTl (e ▸ hn))]
          exact k6 n hn

theorem reattachTerminals_asked (W : t.WF) {a : Nat} (ha : t.IsNt a) (f : Tree → Nat → Bool)
    (h2 : ∀ T, t.IsTerm T → f t T = true → (∀ m, t.IsTerm m → f t m = true → T ≤ m) → ∃ m, t.IsTerm m ∧ m ≠ T ∧ t.Dom a m) :
    ∃ (t' : Tree) (u : Nat → Tree) (R : Nat → Prop), t.reattachTerminals a f = .ok t' ∧ Gathered t a R t' ∧
      (∀ n, R n ↔ t.IsTerm n ∧ f (u n) n = true) ∧ ∀ n, t.IsTerm n → Gath t a (fun m => R m ∧ m < n) (u n) := by
  obtain ⟨t1, u, R, k1, k2, k3, k4⟩ := reattachLoop_asked W ha f t.terminals (fun m h => h.elim) (Gath.start W a)
    terminals_sorted (fun m hm => ⟨mem_terminals.1 hm, fun _ h => h.elim⟩) (fun T hT => by
      obtain ⟨g1, g2, g3⟩ := find_terminal.1 hT
      exact h2 T g1 g2 g3)
  obtain ⟨t', k5, k6⟩ := k2.finish
  refine ⟨t', u, R, ?_, k6, ?_, fun n hn => k4 n (mem_terminals.2 hn)⟩
  · unfold reattachTerminals
    rw [k1, Res.ok_bind, k5]
  · simpa [mem_terminals] using k3

/-- Where the loop gets to if no terminal before `T` is matched. -/
theorem reattach_first {a T : Nat} {f : Tree → Nat → Bool} (hT : t.IsTerm T) (hf : f t T = true)
    (hfirst : ∀ m, t.IsTerm m → f t m = true → T ≤ m) :
    ∃ l, forM' (reattachTerminalStep a f) t.terminals t =
      (reattachTerminalStep a f t T >>= fun t' => forM' (reattachTerminalStep a f) l t') := by
  have h := find_terminal.2 ⟨hT, hf, hfirst⟩
  revert h
  generalize t.terminals = l
  induction l with
  | nil => intro h; simp at h
  | cons m l ih =>
    intro h
    rw [forM'_cons]
    by_cases hm : f t m = true
    · rw [List.find?_cons_of_pos hm] at h
      cases h
      exact ⟨l, rfl⟩
    · rw [List.find?_cons_of_neg hm] at h
      obtain ⟨l', h'⟩ := ih h
      have : reattachTerminalStep a f t m = .ok t := by
        unfold reattachTerminalStep
        rw [if_neg hm]; rfl
      rw [this, Res.ok_bind]
      exact ⟨l', h'⟩

/-- A bad attachment point. -/
theorem reattachTerminals_panics (W : t.WF) {a T : Nat} (ha : ¬ t.IsNt a) {f : Tree → Nat → Bool} (h2 : 2 ≤ t.nTerminals)
    (hT : t.IsTerm T) (hf : f t T = true) : t.reattachTerminals a f = .panic := by
  obtain ⟨T, hT, hf, hfirst⟩ : ∃ T, t.IsTerm T ∧ f t T = true ∧ ∀ m, t.IsTerm m → f t m = true → T ≤ m := by
    cases h : t.terminals.find? (fun m => f t m) with
    | none =>
      rw [List.find?_eq_none] at h
      exact absurd hf (h T (mem_terminals.2 hT))
    | some T' => exact ⟨T', find_terminal.1 h⟩
  obtain ⟨l, hl⟩ := reattach_first (a := a) hT hf hfirst
  obtain ⟨m0, hm0, hmT⟩ := two_terms W.sentence (T := T) h2
  obtain ⟨anc, hanc⟩ := W.shape.exists_anc hT.live
  obtain ⟨t1, h3, hD, p, s, hs1, hs2, hs3⟩ := detachLoop_spec (T := T) (a := a) hmT anc (cl := t.climberNew T) (fuel := t.climbFuel)
    hT hm0 (fun h => absurd h ha) hanc (parent_of_anc W.shape hanc)
    (by have := hanc.length_lt W.graph W.shape hT.live; unfold climbFuel; omega) (Det.refl (W.loose fun _ => False) T)
  have W1 := hD.wf
  have key : reattachTerminalStep a f t T = .panic := by
    unfold reattachTerminalStep
    rw [if_pos hf, detachLoop_eq, h3]
    obtain ⟨e, he⟩ := W1.shape.parent_of_isChild hs2
    obtain ⟨r, q1, q2, q3, q4, q5⟩ := parent_some he
    simp only [he, Res.ofOption_some, Res.ok_bind]
    unfold reattachNode
    by_cases hl : t1.Live a
    · rw [Graph.contains_iff.2 hl, ← q4, (Graph.edge?_eq W1.graph).2 ⟨q1, rfl⟩]
      simp only [Res.assert_true, Res.ok_bind, Res.ofOption_some]
      by_cases hta : r.tgt = a
      · rw [if_pos hta]; rfl
      · rw [if_neg hta]
        obtain ⟨nd, hnd⟩ := hl
        cases nd with
        | nt x => exact absurd ⟨x, hD.sub a _ hnd⟩ ha
        | term x =>
          cases hw : r.w with
          | secondary lab => rw [hw] at q5; simp [Edge.isPrimary] at q5
          | primary lab =>
            simp only
            unfold reattachPrimary
            rw [(Graph.edge?_eq W1.graph).2 ⟨q1, rfl⟩, node_eq hnd]
            rfl
    · have : t1.graph.contains a = false := by
        rw [← Bool.not_eq_true]
        exact fun h => hl (Graph.contains_iff.1 h)
      rw [this]; rfl
  unfold reattachTerminals
  rw [hl, key]; rfl

/-- With no terminal matched nothing happens, however many terminals there are. -/
theorem reattachTerminals_none (W : t.WF) {a : Nat} {f : Tree → Nat → Bool} (hf : ∀ m, t.IsTerm m → f t m = false) :
    t.reattachTerminals a f = .ok t := by
  have : ∀ l : List Nat, (∀ m ∈ l, t.IsTerm m) → forM' (reattachTerminalStep a f) l t = .ok t := by
    intro l
    induction l with
    | nil => intro _; rfl
    | cons m l ih =>
      intro h
      rw [forM'_cons]
      have h1 : reattachTerminalStep a f t m = .ok t := by
        unfold reattachTerminalStep
        rw [if_neg (by rw [hf m (h m (by simp))]; simp)]; rfl
      rw [h1, Res.ok_bind]
      exact ih fun m hm => h m (by simp [hm])
  unfold reattachTerminals
  rw [this _ fun m hm => mem_terminals.1 hm, Res.ok_bind, resetNtSpans_id W]

theorem single_term (W : t.WF) (h1 : t.nTerminals = 1) {a b : Nat} (ha : t.IsTerm a) (hb : t.IsTerm b) : a = b := by
  obtain ⟨i, hi', hi⟩ := W.sentence.pos a ha
  obtain ⟨j, hj', hj⟩ := W.sentence.pos b hb
  have : i = j := by omega
  subst this
  exact W.sentence.inj _ _ _ hi hj

/-- A nonterminal all whose terminals are `T` has a single child. -/
theorem sole_only (W : t.WF) {q T : Nat} (hq : t.IsNt q) (h1 : ∀ m, t.IsTerm m → t.Dom q m → m = T) : ∃ c, t.OnlyChild q c := by
  obtain ⟨c, hc⟩ := W.shape.nt_child q hq
  refine ⟨c, hc, fun d hd => ?_⟩
  obtain ⟨m, m1, m2⟩ := W.shape.exists_terminal W.graph c (isChild_live W.graph hc).2
  obtain ⟨m', m3, m4⟩ := W.shape.exists_terminal W.graph d (isChild_live W.graph hd).2
  have e1 := h1 m m2 (Dom.trans (.single hc) m1)
  have e2 := h1 m' m4 (Dom.trans (.single hd) m3)
  rw [e1] at m1
  rw [e2] at m3
  rcases W.shape.dom_linear m1 m3 with h | h
  · exact (W.shape.siblings_not_dom W.graph hc hd h).symm
  · exact W.shape.siblings_not_dom W.graph hd hc h

/-- The inner loop spins for ever when the terminal is the only one below the attachment point or
the only one at all. -/
theorem detachLoop_diverges {a b T : Nat} (hab : b = a ∨ t.root = b) : ∀ (fuel : Nat) {t' : Tree} {cl : Option (Nat × Nat)}, t'.WF →
    t'.root = t.root → t'.IsNt b ∨ t'.root = b → t'.Dom b T → (∀ m, t'.IsTerm m → t'.Dom b m → m = T) →
    t'.IsTerm T → (∀ q e, cl = some (q, e) → t'.IsNt q) → loopM (detachStep a T) fuel (t', cl) = .diverge := by
  intro fuel
  induction fuel with
  | zero => intros; rfl
  | succ k ih =>
    intro t' cl W hroot hb hd h1 hT hcl
    have hs : (t'.siblings T).length = 0 := by
      rw [List.length_eq_zero_iff]
      cases hs : t'.siblings T with
      | nil => rfl
      | cons y l =>
        have : y.1 ∈ (t'.siblings T).map (·.1) := by rw [hs]; simp
        obtain ⟨g1, q, g2, g3⟩ := (mem_siblings W.shape).1 this
        have hbq : t'.Dom b q := by
          rcases hd.cases_parent with h | ⟨d, h3, h4⟩
          · rcases hb with hb | hb
            · exact absurd hb (fun hb => not_isTerm_isNt hT (h ▸ hb))
            · rw [h, ← hb] at g2
              exact absurd g2 (W.shape.root_top q)
          · rwa [W.shape.isChild_unique g2 h4]
        obtain ⟨c, hc⟩ := sole_only W (T := T) (W.shape.parent_isNt W.graph g2) (fun m hm h => h1 m hm (hbq.trans h))
        exact absurd ((hc.2 _ g3).trans (hc.2 _ g2).symm) g1
    cases cl with
    | none =>
      rw [loopM_succ_inl (s' := (t', none))]
      · exact ih W hroot hb hd h1 hT (by simp)
      · unfold detachStep
        simp only
        rw [if_pos hs]
        rfl
    | some y =>
      obtain ⟨q, e⟩ := y
      have hq := hcl q e rfl
      have hpar : ∀ g e', t'.parent q = some (g, e') → t'.IsNt g ∧ g ≠ q := by
        intro g e' h
        obtain ⟨r, k1, k2, k3, _, k5⟩ := parent_some h
        have hc : t'.IsChild g q := ⟨r, k1, k2, k3, k5⟩
        exact ⟨W.shape.parent_isNt W.graph hc, fun e => W.shape.not_isChild_self W.graph q (e ▸ hc)⟩
      by_cases hqr : q ≠ t'.root ∧ q ≠ a
      · obtain ⟨x, hx⟩ := hq
        obtain ⟨p, hp⟩ := W.shape.exists_parent ⟨_, hx⟩ hqr.1
        obtain ⟨t2, g1, g2, g3, g4, g5, _⟩ := removeNonterminal_inner W hx hp
        have hbq : b ≠ q := by
          rintro rfl
          rcases hab with h | h
          · exact hqr.2 h
          · exact hqr.1 (hroot.trans h).symm
        have hTq : T ≠ q := by rintro rfl; exact not_isTerm_isNt hT ⟨x, hx⟩
        have hself := W.shape.not_isChild_self W.graph q
        rw [loopM_succ_inl (s' := (t2, t'.parent q))]
        · refine ih g2 (g4.trans hroot) ?_ ((g3.splice.dom_iff hself hbq hTq).2 hd) ?_ ?_ ?_
          · rcases hb with ⟨y, hy⟩ | hb
            · exact .inl ⟨y, by rw [g3.node b hbq]; exact hy⟩
            · exact .inr (g4.trans hb)
          · intro m hm hbm
            have := (g3.isTerm m).1 hm
            exact h1 m this.2 ((g3.splice.dom_iff hself hbq this.1).1 hbm)
          · exact (g3.isTerm T).2 ⟨hTq, hT⟩
          · intro g e' h
            obtain ⟨⟨y, hy⟩, h3⟩ := hpar g e' h
            exact ⟨y, by rw [g3.node g h3]; exact hy⟩
        · unfold detachStep
          simp only
          rw [if_pos hs]
          simp only [climberNext]
          rw [if_pos hqr, removeNode_nt hx, g1]
          rfl
      · rw [loopM_succ_inl (s' := (t', t'.parent q))]
        · exact ih W hroot hb hd h1 hT fun g e' h => (hpar g e' h).1
        · unfold detachStep
          simp only
          rw [if_pos hs]
          simp only [climberNext]
          rw [if_neg hqr]

end Tree
end Lumberjack
