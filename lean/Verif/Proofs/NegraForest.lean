import Verif.Proofs.NegraOrder
import Verif.Proofs.RewriteAny
import Verif.Spec.ConvertRun
import Verif.Spec.NegraForest

/-!
# The NEGRA text as a function of the ordered tree
-/

namespace Lumberjack
namespace Negra

open Lumberjack.Tree Relation

variable {t : Tree}

/-- The number of nodes above a node. -/
inductive Depth (t : Tree) : Nat → Nat → Prop
  | root : Depth t t.root 0
  | child {p c d : Nat} : Depth t p d → t.IsChild p c → Depth t c (d + 1)

theorem Depth.unique (S : t.Shape) {n d : Nat} (h : Depth t n d) : ∀ {e}, Depth t n e → d = e := by
  induction h with
  | root =>
    intro e h
    cases h with
    | root => rfl
    | child _ hc => exact absurd hc (S.root_top _)
  | child h hc ih =>
    intro e h'
    cases h' with
    | root => exact absurd hc (S.root_top _)
    | child h2 hc2 =>
      have := S.isChild_unique hc hc2
      subst this
      rw [ih h2]

theorem Depth.exists (S : t.Shape) {n : Nat} (hn : t.Live n) : ∃ d, Depth t n d := by
  have h := S.reach n hn
  have : ∀ m, t.Dom t.root m → ∃ d, Depth t m d := by
    intro m hm
    induction hm with
    | refl => exact ⟨0, .root⟩
    | tail _ hc ih =>
      obtain ⟨d, hd⟩ := ih
      exact ⟨d + 1, .child hd hc⟩
  exact this n h

theorem Depth.le_of_dom (S : t.Shape) {a b d : Nat} (h : t.Dom a b) (ha : Depth t a d) : ∃ e, Depth t b e ∧ (a = b ∨ d < e) := by
  induction h with
  | refl => exact ⟨d, ha, .inl rfl⟩
  | tail _ hc ih =>
    obtain ⟨e, he, h⟩ := ih
    refine ⟨e + 1, .child he hc, .inr ?_⟩
    rcases h with rfl | h
    · rw [ha.unique S he]; omega
    · omega

/-- Where the last of the lowest phrases below a node begins. -/
def HasLow (t : Tree) (n k : Nat) : Prop :=
  ∃ x, Lowest t x ∧ t.Dom n x ∧ t.startOf x = k ∧ ∀ y, Lowest t y → t.Dom n y → t.startOf y ≤ k

theorem HasLow.unique {n k l : Nat} (h : HasLow t n k) (h' : HasLow t n l) : k = l := by
  obtain ⟨x, h1, h2, h3, h4⟩ := h
  obtain ⟨y, g1, g2, g3, g4⟩ := h'
  have := h4 y g1 g2
  have := g4 x h1 h2
  omega

theorem HasLow.exists (W : t.WF) {n : Nat} (hn : t.IsNt n) : ∃ k, HasLow t n k := by
  obtain ⟨x, h1, h2, h3⟩ := exists_last W hn
  exact ⟨_, x, h1, h2, rfl, h3⟩

/-- The mark of a node. -/
def HasMark (t : Tree) (n : Nat) (m : Nat × Nat) : Prop := HasLow t n m.1 ∧ Depth t n m.2

theorem HasMark.unique (S : t.Shape) {n : Nat} {a b : Nat × Nat} (h : HasMark t n a) (h' : HasMark t n b) : a = b :=
  Prod.ext (h.1.unique h'.1) (h.2.unique S h'.2)

theorem HasMark.exists (W : t.WF) {n : Nat} (hn : t.IsNt n) : ∃ m, HasMark t n m := by
  obtain ⟨k, hk⟩ := HasLow.exists W hn
  obtain ⟨d, hd⟩ := Depth.exists W.shape (live_iff.2 (.inr hn))
  exact ⟨(k, d), hk, hd⟩

theorem before_of (W : t.WF) {a b : Nat} {m m' : Nat × Nat} (ha : HasMark t a m) (hb : HasMark t b m') (h : NoLater t a b)
    (hd : ¬ t.Dom a b) : Forest.isBefore m m' := by
  obtain ⟨⟨x, h1, h2, h3, h4⟩, da⟩ := ha
  obtain ⟨⟨y, g1, g2, g3, g4⟩, db⟩ := hb
  obtain ⟨z, k1, k2, k3⟩ := h x h1 h2
  have := g4 z k1 k2
  rcases Nat.lt_or_ge m.1 m'.1 with hlt | hge
  · exact .inl hlt
  · have e : t.startOf x = t.startOf y := by omega
    obtain rfl := lowest_inj W h1 g1 e
    rcases W.shape.dom_linear h2 g2 with q | q
    · exact absurd q hd
    · obtain ⟨e', he, hor⟩ := db.le_of_dom W.shape q
      rw [he.unique W.shape da] at hor
      rcases hor with rfl | hor
      · exact absurd ReflTransGen.refl hd
      · exact .inr ⟨by omega, hor⟩

theorem before_asymm {a b : Nat × Nat} (h : Forest.isBefore a b) : ¬ Forest.isBefore b a := by
  unfold Forest.isBefore at *; omega

theorem idxOf_before {m : Nat → Nat × Nat} : ∀ {l : List Nat}, l.Pairwise (fun a b => Forest.isBefore (m a) (m b)) →
    ∀ {n}, n ∈ l → l.idxOf n = (l.filter fun a => Forest.isBefore (m a) (m n)).length := by
  intro l
  induction l with
  | nil => intro _ n h; cases h
  | cons a l ih =>
    intro hp n hn
    obtain ⟨h1, h2⟩ := List.pairwise_cons.1 hp
    by_cases e : a = n
    · subst e
      rw [List.idxOf_cons_self, List.filter_cons_of_neg (by simpa using fun h => before_asymm h h), eq_comm, List.length_eq_zero_iff,
        List.filter_eq_nil_iff]
      intro b hb
      simpa using before_asymm (h1 b hb)
    · have hn' : n ∈ l := by
        rcases List.mem_cons.1 hn with h | h
        · exact absurd h.symm e
        · exact h
      rw [List.idxOf_cons_ne _ e, ih h2 hn', List.filter_cons_of_pos (by simpa using h1 n hn')]
      simp

/-! ## Marks in the ordered tree -/

theorem lastLow_rep (W : t.WF) {f : Forest} : ∀ {ids : List Nat}, t.Rep ids f →
    (f.lastLow = none → ∀ c ∈ ids, t.IsTerm c) ∧
    ∀ k, f.lastLow = some k → (∃ c ∈ ids, ∃ x, Lowest t x ∧ t.Dom c x ∧ t.startOf x = k) ∧
      ∀ c ∈ ids, ∀ y, Lowest t y → t.Dom c y → t.startOf y ≤ k := by
  induction f with
  | nil =>
    intro ids h
    rw [show ids = [] from h]
    simp [Forest.lastLow]
  | leaf e x r ih =>
    rintro ids ⟨n, ns, rfl, h1, h2, h3⟩
    obtain ⟨i1, i2⟩ := ih h3
    refine ⟨fun h c hc => ?_, fun k h => ?_⟩
    · rcases List.mem_cons.1 hc with rfl | hc
      · exact ⟨x, h1⟩
      · exact i1 h c hc
    · obtain ⟨⟨c, hc, h4⟩, h5⟩ := i2 k h
      refine ⟨⟨c, by simp [hc], h4⟩, fun c hc y hy hd => ?_⟩
      rcases List.mem_cons.1 hc with rfl | hc
      · have := W.shape.dom_term ⟨x, h1⟩ hd
        subst this
        exact (not_isTerm_isNt ⟨x, h1⟩ hy.1).elim
      · exact h5 c hc y hy hd
  | node e x k r ihk ih =>
    rintro ids ⟨n, ns, ks, rfl, h1, h2, h3, h4, h5⟩
    obtain ⟨i1, i2⟩ := ih h5
    have low : HasLow t n (k.lastLow.getD x.span.start) := by
      obtain ⟨j1, j2⟩ := ihk h4
      cases hk : k.lastLow with
      | none =>
        have hl : Lowest t n := ⟨⟨x, h1⟩, fun c hc => j1 hk c ((h3.1 c).2 hc)⟩
        refine ⟨n, hl, ReflTransGen.refl, startOf_node h1, fun y hy hd => ?_⟩
        obtain rfl := lowest_dom W.shape hl hy.1 hd
        exact Nat.le_of_eq (startOf_node h1)
      | some m =>
        obtain ⟨⟨c, hc, y, g1, g2, g3⟩, g4⟩ := j2 m hk
        refine ⟨y, g1, ReflTransGen.head ((h3.1 c).1 hc) g2, g3, fun z hz hd => ?_⟩
        rcases hd.cases_child with rfl | ⟨c', q1, q2⟩
        · have ht := hz.2 c ((h3.1 c).1 hc)
          obtain rfl := W.shape.dom_term ht g2
          exact (not_isTerm_isNt ht g1.1).elim
        · exact g4 c' ((h3.1 c').2 q1) z hz q2
    obtain ⟨y, l1, l2, l3, l4⟩ := low
    refine ⟨fun h => by simp [Forest.lastLow] at h, fun m h => ?_⟩
    simp only [Forest.lastLow, Option.some.injEq] at h
    cases hr : r.lastLow with
    | none =>
      rw [hr] at h
      simp only at h
      subst h
      refine ⟨⟨n, by simp, y, l1, l2, l3⟩, fun c hc z hz hd => ?_⟩
      rcases List.mem_cons.1 hc with rfl | hc
      · exact l4 z hz hd
      · have ht := i1 hr c hc
        obtain rfl := W.shape.dom_term ht hd
        exact (not_isTerm_isNt ht hz.1).elim
    | some m' =>
      rw [hr] at h
      simp only at h
      obtain ⟨⟨c, hc, y', g1, g2, g3⟩, g4⟩ := i2 m' hr
      refine ⟨?_, fun c hc z hz hd => ?_⟩
      · rcases Nat.le_total (k.lastLow.getD x.span.start) m' with hle | hle
        · exact ⟨c, by simp [hc], y', g1, g2, by omega⟩
        · exact ⟨n, by simp, y, l1, l2, by omega⟩
      · rcases List.mem_cons.1 hc with rfl | hc
        · have := l4 z hz hd; omega
        · have := g4 c hc z hz hd; omega

theorem hasLow_node (W : t.WF) {n : Nat} {x : NonTerminal} {ks : List Nat} {k : Forest} (h1 : t.graph.node? n = some (.nt x))
    (h3 : t.Kids n ks) (h4 : t.Rep ks k) : HasLow t n (Forest.lowOf x k) := by
  obtain ⟨⟨c, hc, y, g1, g2, g3⟩, g4⟩ := (lastLow_rep W (f := .node (t.inLabel n) x k .nil) (ids := [n])
    ⟨n, [], ks, rfl, h1, rfl, h3, h4, rfl⟩).2 _ rfl
  obtain rfl : c = n := by simpa using hc
  exact ⟨y, g1, g2, g3, fun z hz hd => g4 c hc z hz hd⟩

theorem marks_rep (W : t.WF) {f : Forest} : ∀ {ids : List Nat} {d : Nat}, t.Rep ids f → (∀ c ∈ ids, Depth t c d) → ∀ m,
    m ∈ f.marks d ↔ ∃ c ∈ ids, ∃ n, t.Dom c n ∧ t.IsNt n ∧ HasMark t n m := by
  induction f with
  | nil =>
    intro ids d h _ m
    rw [show ids = [] from h]
    simp [Forest.marks]
  | leaf e x r ih =>
    rintro ids d ⟨n, ns, rfl, h1, h2, h3⟩ hd m
    simp only [Forest.marks, ih h3 (fun c hc => hd c (by simp [hc])), List.mem_cons, exists_eq_or_imp]
    refine ⟨.inr, fun h => h.resolve_left ?_⟩
    rintro ⟨n', q1, q2, _⟩
    obtain rfl := W.shape.dom_term ⟨x, h1⟩ q1
    exact not_isTerm_isNt ⟨x, h1⟩ q2
  | node e x k r ihk ih =>
    rintro ids d ⟨n, ns, ks, rfl, h1, h2, h3, h4, h5⟩ hd m
    have hn : HasMark t n (Forest.lowOf x k, d) := ⟨hasLow_node W h1 h3 h4, hd n (by simp)⟩
    simp only [Forest.marks, List.mem_cons, List.mem_append, exists_eq_or_imp, ih h5 (fun c hc => hd c (by simp [hc])),
      ihk h4 (fun c hc => (hd n (by simp)).child ((h3.1 c).1 hc))]
    rw [← or_assoc]
    refine or_congr_left ⟨?_, ?_⟩
    · rintro (rfl | ⟨c, hc, n', q1, q2⟩)
      · exact ⟨n, .refl, ⟨x, h1⟩, hn⟩
      · exact ⟨n', .head ((h3.1 c).1 hc) q1, q2⟩
    · rintro ⟨n', q1, q2, q3⟩
      rcases q1.cases_child with rfl | ⟨c, q4, q5⟩
      · exact .inl (q3.unique W.shape hn)
      · exact .inr ⟨c, (h3.1 c).2 q4, n', q5, q2, q3⟩

/-- The numbers of the writer are those of the ordered tree. -/
theorem numberOf_num (W : t.WF) {F : Forest} (hF : t.Is F) {nts : List Nat} (B : InSequence t nts) {n : Nat} {m : Nat × Nat}
    (hn : t.IsNt n) (hm : HasMark t n m) : F.numberOf m = num t nts n := by
  have hex : ∀ a, ∃ m, t.IsNt a → HasMark t a m := by
    intro a
    by_cases h : t.IsNt a
    · obtain ⟨m, hm⟩ := HasMark.exists W h
      exact ⟨m, fun _ => hm⟩
    · exact ⟨(0, 0), fun h' => absurd h' h⟩
  choose mk hmk using hex
  have hmn : mk n = m := (hmk n hn).unique W.shape hm
  by_cases hr : n = t.root
  · subst hr
    have : m.2 = 0 := hm.2.unique W.shape .root
    simp [Forest.numberOf, num, this]
  · have hd : m.2 ≠ 0 := by
      intro h0
      have := hm.2
      rw [h0] at this
      cases this
      exact hr rfl
    have hpw : nts.Pairwise fun a b => Forest.isBefore (mk a) (mk b) := by
      refine (B.pairwise W).imp_of_mem fun {a b} ha hb h => ?_
      exact before_of W (hmk a ((B.mem a).1 ha).1) (hmk b ((B.mem b).1 hb).1) h.1 h.2
    have hmem : n ∈ nts := (B.mem n).2 ⟨hn, hr⟩
    simp only [Forest.numberOf, if_neg hd, num, if_neg hr, Nat.add_left_cancel_iff]
    rw [idxOf_before hpw hmem, hmn]
    have hset : (F.marks 0).toFinset.filter (fun a => Forest.isBefore a m) =
        ((nts.filter fun a => Forest.isBefore (mk a) m).toFinset).image mk := by
      ext a
      simp only [Finset.mem_filter, List.mem_toFinset, Finset.mem_image, List.mem_filter, decide_eq_true_eq]
      rw [marks_rep W hF (fun c hc => by simp at hc; subst hc; exact .root)]
      constructor
      · rintro ⟨⟨c, hc, b, h1, h2, h3⟩, h4⟩
        have e := (hmk b h2).unique W.shape h3
        refine ⟨b, ⟨(B.mem b).2 ⟨h2, ?_⟩, e ▸ h4⟩, e⟩
        rintro rfl
        -- nothing comes after the root
        obtain ⟨⟨x, p1, p2, p3, p4⟩, _⟩ := h3
        obtain ⟨⟨y, q1, q2, q3, q4⟩, _⟩ := hm
        have := p4 y q1 ((W.shape.reach n (live_iff.2 (.inr hn))).trans q2)
        rcases h4 with h4 | ⟨h4, h5⟩ <;> rw [← e] at h4
        · rw [e] at h4; omega
        · have : (mk t.root).2 = 0 := ((hmk _ h2).2).unique W.shape .root
          rw [← e, this] at h5
          omega
      · rintro ⟨b, ⟨h1, h2⟩, rfl⟩
        have hb := (B.mem b).1 h1
        exact ⟨⟨t.root, by simp, b, W.shape.reach b (live_iff.2 (.inr hb.1)), hb.1, hmk b hb.1⟩, h2⟩
    rw [hset, Finset.card_image_of_injOn, List.toFinset_card_of_nodup (B.nodup.filter _)]
    intro a ha b hb e
    simp only [List.coe_toFinset, List.mem_filter, Set.mem_ofPred_eq] at ha hb
    by_contra hne
    have hor : Forest.isBefore (mk a) (mk b) ∨ Forest.isBefore (mk b) (mk a) := by
      obtain ⟨i, hi, rfl⟩ := List.mem_iff_getElem.1 ha.1
      obtain ⟨j, hj, rfl⟩ := List.mem_iff_getElem.1 hb.1
      have := List.pairwise_iff_getElem.1 hpw
      rcases Nat.lt_trichotomy i j with h | h | h
      · exact .inl (this i j hi hj h)
      · subst h; exact absurd rfl hne
      · exact .inr (this j i hj hi h)
    rw [e] at hor
    rcases hor with h | h <;> exact before_asymm h h

/-! ## Rows -/

/-- Rows are determined by their nodes if there are no secondary edges. -/
theorem isAttach_unique (S : t.Shape) {g : Nat → Nat} (hp : ∀ r ∈ t.graph.edges, r.w.isPrimary = true) {n : Nat} {a b : Attach}
    (ha : IsAttach t g n a) (hb : IsAttach t g n b) : a = b := by
  obtain ⟨⟨p, h1, h2⟩, h3, h4⟩ := ha
  obtain ⟨⟨q, g1, g2⟩, g3, g4⟩ := hb
  have := S.isChild_unique h1 g1
  subst this
  have ea : a.sec = none := by
    rcases h4 with h | ⟨r, hr, _, h, _⟩
    · exact h.1
    · rw [hp r hr] at h; cases h
  have eb : b.sec = none := by
    rcases g4 with h | ⟨r, hr, _, h, _⟩
    · exact h.1
    · rw [hp r hr] at h; cases h
  cases a; cases b
  simp only [Attach.mk.injEq] at *
  exact ⟨h3.trans g3.symm, h2.trans g2.symm, ea.trans eb.symm⟩

theorem isTermRow_unique (S : t.Shape) {g : Nat → Nat} (hp : ∀ r ∈ t.graph.edges, r.w.isPrimary = true) {n : Nat} {a b : TermRow}
    (ha : IsTermRow t g n a) (hb : IsTermRow t g n b) : a = b := by
  obtain ⟨x, h1, h2, h3, h4, h5, h6⟩ := ha
  obtain ⟨y, g1, g2, g3, g4, g5, g6⟩ := hb
  rw [h1] at g1
  injection g1 with e
  injection e with e
  subst e
  have := isAttach_unique S hp h6 g6
  cases a; cases b
  simp_all

theorem isNtRow_unique (S : t.Shape) {g : Nat → Nat} (hp : ∀ r ∈ t.graph.edges, r.w.isPrimary = true) {n : Nat} {a b : NtRow}
    (ha : IsNtRow t g n a) (hb : IsNtRow t g n b) : a = b := by
  obtain ⟨x, h1, h2, h3, h4, h5⟩ := ha
  obtain ⟨y, g1, g2, g3, g4, g5⟩ := hb
  rw [h1] at g1
  injection g1 with e
  injection e with e
  subst e
  have := isAttach_unique S hp h5 g5
  cases a; cases b
  simp_all

theorem isAttach_of {g : Nat → Nat} (hp : ∀ r ∈ t.graph.edges, r.w.isPrimary = true) {p n : Nat} (h : t.IsChild p n) :
    IsAttach t g n ⟨t.inLabel n, g p, none⟩ :=
  ⟨⟨p, h, rfl⟩, rfl, .inl ⟨rfl, fun r hr _ => hp r hr⟩⟩

theorem wordRows_rep (W : t.WF) {g : Nat → Nat} {N : Nat × Nat → Nat} (hp : ∀ r ∈ t.graph.edges, r.w.isPrimary = true)
    (hN : ∀ n m, t.IsNt n → HasMark t n m → N m = g n) {f : Forest} : ∀ {ids : List Nat} {p d : Nat}, t.Rep ids f →
    (∀ c ∈ ids, t.IsChild p c) → (∀ c ∈ ids, Depth t c d) →
    (∀ i r, (i, r) ∈ f.wordRows N (g p) d → ∃ n, t.TermAt n i ∧ IsTermRow t g n r) ∧
    ∀ c ∈ ids, ∀ n i, t.Dom c n → t.TermAt n i → ∃ r, (i, r) ∈ f.wordRows N (g p) d := by
  induction f with
  | nil =>
    intro ids p d h _ _
    rw [show ids = [] from h]
    simp [Forest.wordRows]
  | leaf e x r ih =>
    rintro ids p d ⟨n, ns, rfl, h1, h2, h3⟩ hc hd
    obtain ⟨i1, i2⟩ := ih (p := p) h3 (fun c h => hc c (by simp [h])) (fun c h => hd c (by simp [h]))
    obtain ⟨i, _, hi⟩ := W.sentence.pos n ⟨x, h1⟩
    have hx : x.span.start = i := by
      obtain ⟨y, g1, g2⟩ := hi
      rw [h1] at g1
      injection g1 with q
      injection q with q
      subst q
      rw [g2]
      rfl
    refine ⟨fun j w hw => ?_, fun c hcm m j hdm hm => ?_⟩
    · rcases List.mem_cons.1 hw with hw | hw
      · simp only [Prod.mk.injEq] at hw
        obtain ⟨rfl, rfl⟩ := hw
        exact ⟨n, hx ▸ hi, x, h1, rfl, rfl, rfl, rfl, h2 ▸ isAttach_of hp (hc n (by simp))⟩
      · exact i1 j w hw
    · rcases List.mem_cons.1 hcm with rfl | hcm
      · obtain rfl := W.shape.dom_term ⟨x, h1⟩ hdm
        rw [← hi.pos_unique hm, ← hx]
        exact ⟨_, List.mem_cons_self⟩
      · obtain ⟨w, hw⟩ := i2 c hcm m j hdm hm
        exact ⟨w, List.mem_cons_of_mem _ hw⟩
  | node e x k r ihk ih =>
    rintro ids p d ⟨n, ns, ks, rfl, h1, h2, h3, h4, h5⟩ hc hd
    obtain ⟨i1, i2⟩ := ih (p := p) h5 (fun c h => hc c (by simp [h])) (fun c h => hd c (by simp [h]))
    obtain ⟨j1, j2⟩ := ihk (p := n) h4 (fun c h => (h3.1 c).1 h) (fun c h => (hd n (by simp)).child ((h3.1 c).1 h))
    have hn : N (Forest.lowOf x k, d) = g n := hN n _ ⟨x, h1⟩ ⟨hasLow_node W h1 h3 h4, hd n (by simp)⟩
    simp only [Forest.wordRows, hn, List.mem_append]
    refine ⟨fun j w hw => hw.elim (j1 j w) (i1 j w), fun c hcm m j hdm hm => ?_⟩
    rcases List.mem_cons.1 hcm with rfl | hcm
    · rcases hdm.cases_child with rfl | ⟨c', q1, q2⟩
      · obtain ⟨y, hy, _⟩ := hm
        exact (not_isTerm_isNt ⟨y, hy⟩ ⟨x, h1⟩).elim
      · obtain ⟨w, hw⟩ := j2 c' ((h3.1 c').2 q1) m j q2 hm
        exact ⟨w, .inl hw⟩
    · obtain ⟨w, hw⟩ := i2 c hcm m j hdm hm
      exact ⟨w, .inr hw⟩

theorem phraseRows_rep (W : t.WF) {g : Nat → Nat} {N : Nat × Nat → Nat} (hp : ∀ r ∈ t.graph.edges, r.w.isPrimary = true)
    (hN : ∀ n m, t.IsNt n → HasMark t n m → N m = g n) {f : Forest} : ∀ {ids : List Nat} {p d : Nat}, t.Rep ids f →
    (∀ c ∈ ids, t.IsChild p c) → (∀ c ∈ ids, Depth t c d) →
    (∀ r ∈ f.phraseRows N (g p) d, ∃ n, t.IsNt n ∧ n ≠ t.root ∧ IsNtRow t g n r) ∧
    ∀ c ∈ ids, ∀ n, t.Dom c n → t.IsNt n → ∃ r ∈ f.phraseRows N (g p) d, r.id = g n := by
  induction f with
  | nil =>
    intro ids p d h _ _
    rw [show ids = [] from h]
    simp [Forest.phraseRows]
  | leaf e x r ih =>
    rintro ids p d ⟨n, ns, rfl, h1, h2, h3⟩ hc hd
    obtain ⟨i1, i2⟩ := ih (p := p) h3 (fun c h => hc c (by simp [h])) (fun c h => hd c (by simp [h]))
    refine ⟨i1, fun c hcm m hdm hm => ?_⟩
    rcases List.mem_cons.1 hcm with rfl | hcm
    · obtain rfl := W.shape.dom_term ⟨x, h1⟩ hdm
      exact (not_isTerm_isNt ⟨x, h1⟩ hm).elim
    · exact i2 c hcm m hdm hm
  | node e x k r ihk ih =>
    rintro ids p d ⟨n, ns, ks, rfl, h1, h2, h3, h4, h5⟩ hc hd
    obtain ⟨i1, i2⟩ := ih (p := p) h5 (fun c h => hc c (by simp [h])) (fun c h => hd c (by simp [h]))
    obtain ⟨j1, j2⟩ := ihk (p := n) h4 (fun c h => (h3.1 c).1 h) (fun c h => (hd n (by simp)).child ((h3.1 c).1 h))
    have hn : N (Forest.lowOf x k, d) = g n := hN n _ ⟨x, h1⟩ ⟨hasLow_node W h1 h3 h4, hd n (by simp)⟩
    simp only [Forest.phraseRows, hn, List.mem_append, List.mem_cons]
    refine ⟨fun w hw => ?_, fun c hcm m hdm hm => ?_⟩
    · rcases hw with rfl | hw | hw
      · refine ⟨n, ⟨x, h1⟩, ?_, x, h1, rfl, rfl, rfl, h2 ▸ isAttach_of hp (hc n (by simp))⟩
        rintro rfl
        exact W.shape.root_top _ (hc _ (by simp))
      · exact j1 w hw
      · exact i1 w hw
    · rcases hcm with rfl | hcm
      · rcases hdm.cases_child with rfl | ⟨c', q1, q2⟩
        · exact ⟨_, .inl rfl, rfl⟩
        · obtain ⟨w, hw, h⟩ := j2 c' ((h3.1 c').2 q1) m q2 hm
          exact ⟨w, .inr (.inl hw), h⟩
      · obtain ⟨w, hw, h⟩ := i2 c hcm m hdm hm
        exact ⟨w, .inr (.inr hw), h⟩

theorem lookup_row {α : Type} {l : List (Nat × α)} {i : Nat} {r : α} (h : (i, r) ∈ l) : ∃ r', l.lookup i = some r' ∧ (i, r') ∈ l := by
  induction l with
  | nil => cases h
  | cons a l ih =>
    obtain ⟨j, x⟩ := a
    by_cases e : i = j
    · subst e
      exact ⟨x, by simp [List.lookup], by simp⟩
    · have h' : (i, r) ∈ l := by
        rcases List.mem_cons.1 h with h | h
        · exact absurd (Prod.mk.inj h).1 e
        · exact h
      obtain ⟨r', h1, h2⟩ := ih h'
      refine ⟨r', ?_, by simp [h2]⟩
      have : (i == j) = false := by simpa using e
      simp [List.lookup, this, h1]

theorem filterMap_range {α : Type} {f : Nat → Option α} {T : List α} (h : ∀ i x, T[i]? = some x → f i = some x) :
    (List.range T.length).filterMap f = T := by
  induction T using List.reverseRecOn with
  | nil => rfl
  | append_singleton T a ih =>
    have h1 : ∀ i x, T[i]? = some x → f i = some x := by
      intro i x hx
      refine h i x ?_
      rw [List.getElem?_append_left (List.getElem?_eq_some_iff.1 hx).1, hx]
    rw [List.length_append, List.length_singleton, List.range_succ, List.filterMap_append, ih h1]
    have := h T.length a (by simp)
    simp [this]

/-- The rows of the words are those of the ordered tree. -/
theorem wordsInOrder_eq (W : t.WF) (hp : ∀ r ∈ t.graph.edges, r.w.isPrimary = true) {F : Forest} (hF : t.Is F)
    (hr : t.IsNt t.root) {ns nts : List Nat} (B : InSequence t nts) {T : List TermRow} (hl : Leaves t ns)
    (hT : List.Forall₂ (IsTermRow t (num t nts)) ns T) : F.wordsInOrder = T := by
  obtain ⟨x, hx⟩ := hr
  obtain ⟨e, y, k, rfl, ks, h3, h4⟩ : ∃ e y k, F = .node e y k .nil ∧ ∃ ks, t.Kids t.root ks ∧ t.Rep ks k := by
    cases F with
    | nil => cases (hF : [t.root] = [])
    | leaf e z r =>
      obtain ⟨n, ns, h, h1, _⟩ := hF
      obtain ⟨rfl, rfl⟩ := List.cons.inj h
      rw [hx] at h1; cases h1
    | node e z k r =>
      obtain ⟨n, ns, ks, h, h1, h2, h3, h4, h5⟩ := hF
      obtain ⟨rfl, rfl⟩ := List.cons.inj h
      cases r with
      | nil => exact ⟨e, z, k, rfl, ks, h3, h4⟩
      | leaf _ _ _ => obtain ⟨_, _, h, _⟩ := h5; cases h
      | node _ _ _ _ => obtain ⟨_, _, _, h, _⟩ := h5; cases h
  have key := wordRows_rep W (g := num t nts) (N := (Forest.node e y k .nil).numberOf) hp
    (fun n m hn hm => numberOf_num W hF B hn hm) (p := t.root) (d := 1) h4 (fun c h => (h3.1 c).1 h)
    (fun c h => Depth.root.child ((h3.1 c).1 h))
  have h0 : num t nts t.root = 0 := by simp [num]
  rw [h0] at key
  obtain ⟨k1, k2⟩ := key
  have hall : ∀ n i, t.TermAt n i → ∃ r, (i, r) ∈ k.wordRows (Forest.node e y k .nil).numberOf 0 1 := by
    intro n i hn
    obtain ⟨z, hz, hz'⟩ := hn
    rcases (W.shape.reach n ⟨_, hz⟩).cases_child with rfl | ⟨c, q1, q2⟩
    · rw [hx] at hz; cases hz
    · exact k2 c ((h3.1 c).2 q1) n i q2 ⟨z, hz, hz'⟩
  have hlen : ((k.wordRows (Forest.node e y k .nil).numberOf 0 1).map (·.1)).toFinset.card = T.length := by
    rw [← hT.length_eq, hl.1]
    have : ((k.wordRows (Forest.node e y k .nil).numberOf 0 1).map (·.1)).toFinset = Finset.range t.nTerminals := by
      ext i
      simp only [List.mem_toFinset, List.mem_map, Prod.exists, exists_and_right, exists_eq_right, Finset.mem_range]
      constructor
      · rintro ⟨r, h⟩
        obtain ⟨n, hn, _⟩ := k1 i r h
        obtain ⟨j, hj, hj'⟩ := W.sentence.pos n ⟨_, hn.choose_spec.1⟩
        rw [hn.pos_unique hj']
        exact hj
      · intro h
        obtain ⟨n, hn⟩ := W.sentence.occupied i h
        exact hall n i hn
    rw [this, Finset.card_range]
  simp only [Forest.wordsInOrder, Forest.belowTop]
  rw [hlen]
  refine filterMap_range fun i r hr => ?_
  have hi : i < T.length := (List.getElem?_eq_some_iff.1 hr).1
  have hi' : i < ns.length := by rw [hT.length_eq]; exact hi
  have hn := hl.2 i ns[i] (List.getElem?_eq_getElem hi')
  obtain ⟨r1, h1⟩ := hall _ i hn
  obtain ⟨r2, h5, h6⟩ := lookup_row h1
  obtain ⟨m, hm, hrow⟩ := k1 i r2 h6
  rw [W.sentence.inj _ _ _ hm hn] at hrow
  have hrow' := (List.forall₂_iff_get.1 hT).2 i hi' hi
  rw [h5, ← (List.getElem?_eq_some_iff.1 hr).2]
  exact congrArg some (isTermRow_unique W.shape hp hrow hrow')

/-- The rows of the phrases are those of the ordered tree. -/
theorem phrasesInOrder_eq (W : t.WF) (hp : ∀ r ∈ t.graph.edges, r.w.isPrimary = true) {F : Forest} (hF : t.Is F)
    (hr : t.IsNt t.root) {nts : List Nat} (B : InSequence t nts) {N : List NtRow}
    (hN : List.Forall₂ (IsNtRow t (num t nts)) nts N) : F.phrasesInOrder = N := by
  obtain ⟨x, hx⟩ := hr
  obtain ⟨e, y, k, rfl, ks, h3, h4⟩ : ∃ e y k, F = .node e y k .nil ∧ ∃ ks, t.Kids t.root ks ∧ t.Rep ks k := by
    cases F with
    | nil => cases (hF : [t.root] = [])
    | leaf e z r =>
      obtain ⟨n, ns, h, h1, _⟩ := hF
      obtain ⟨rfl, rfl⟩ := List.cons.inj h
      rw [hx] at h1; cases h1
    | node e z k r =>
      obtain ⟨n, ns, ks, h, h1, h2, h3, h4, h5⟩ := hF
      obtain ⟨rfl, rfl⟩ := List.cons.inj h
      cases r with
      | nil => exact ⟨e, z, k, rfl, ks, h3, h4⟩
      | leaf _ _ _ => obtain ⟨_, _, h, _⟩ := h5; cases h
      | node _ _ _ _ => obtain ⟨_, _, _, h, _⟩ := h5; cases h
  have key := phraseRows_rep W (g := num t nts) (N := (Forest.node e y k .nil).numberOf) hp
    (fun n m hn hm => numberOf_num W hF B hn hm) (p := t.root) (d := 1) h4 (fun c h => (h3.1 c).1 h)
    (fun c h => Depth.root.child ((h3.1 c).1 h))
  have h0 : num t nts t.root = 0 := by simp [num]
  rw [h0] at key
  obtain ⟨k1, k2⟩ := key
  have hall : ∀ n ∈ nts, ∃ r ∈ k.phraseRows (Forest.node e y k .nil).numberOf 0 1, r.id = num t nts n := by
    intro n hn
    obtain ⟨hn1, hn2⟩ := (B.mem n).1 hn
    rcases (W.shape.reach n (live_iff.2 (.inr hn1))).cases_child with h | ⟨c, q1, q2⟩
    · exact absurd h.symm hn2
    · exact k2 c ((h3.1 c).2 q1) n q2 hn1
  have hnum : ∀ i (h : i < nts.length), num t nts nts[i] = 500 + i := by
    intro i h
    have := ((B.mem _).1 (List.getElem_mem h)).2
    simp [num, this, B.nodup.idxOf_getElem]
  have hlen : ((k.phraseRows (Forest.node e y k .nil).numberOf 0 1).map (·.id)).toFinset.card = N.length := by
    rw [← hN.length_eq]
    have : ((k.phraseRows (Forest.node e y k .nil).numberOf 0 1).map (·.id)).toFinset =
        (Finset.range nts.length).image (500 + ·) := by
      ext i
      simp only [List.mem_toFinset, List.mem_map, Finset.mem_image, Finset.mem_range]
      constructor
      · rintro ⟨r, h, rfl⟩
        obtain ⟨n, hn1, hn2, hrow⟩ := k1 r h
        obtain ⟨j, hj, rfl⟩ := List.mem_iff_getElem.1 ((B.mem n).2 ⟨hn1, hn2⟩)
        obtain ⟨_, _, hid, _⟩ := hrow
        exact ⟨j, hj, by rw [hid, hnum j hj]⟩
      · rintro ⟨j, hj, rfl⟩
        obtain ⟨r, h, hid⟩ := hall _ (List.getElem_mem hj)
        exact ⟨r, h, by rw [hid, hnum j hj]⟩
    rw [this, Finset.card_image_of_injective _ (fun a b h => by simpa using h), Finset.card_range]
  simp only [Forest.phrasesInOrder, Forest.belowTop]
  rw [hlen]
  refine filterMap_range fun i r hr => ?_
  have hi : i < N.length := (List.getElem?_eq_some_iff.1 hr).1
  have hi' : i < nts.length := by rw [hN.length_eq]; exact hi
  obtain ⟨r1, h1, hid1⟩ := hall _ (List.getElem_mem hi')
  rw [hnum i hi'] at hid1
  obtain ⟨r2, h2⟩ : ∃ r2, (k.phraseRows (Forest.node e y k .nil).numberOf 0 1).find? (fun r => r.id = 500 + i) = some r2 := by
    rw [← Option.isSome_iff_exists, List.find?_isSome]
    exact ⟨r1, h1, by simpa using hid1⟩
  have hid2 : r2.id = 500 + i := by simpa using List.find?_some h2
  obtain ⟨n, hn1, hn2, hrow⟩ := k1 r2 (List.mem_of_find?_eq_some h2)
  obtain ⟨j, hj, rfl⟩ := List.mem_iff_getElem.1 ((B.mem n).2 ⟨hn1, hn2⟩)
  obtain ⟨_, _, hid, _⟩ := id hrow
  rw [hnum j hj] at hid
  obtain rfl : j = i := by omega
  have hrow' := (List.forall₂_iff_get.1 hN).2 j hi' hi
  rw [h2, ← (List.getElem?_eq_some_iff.1 hr).2]
  exact congrArg some (isNtRow_unique W.shape hp hrow hrow')

/-- The text is the one of the ordered tree. -/
theorem negraText_export (W : t.WF) (hr : t.IsNt t.root) (hp : ∀ r ∈ t.graph.edges, r.w.isPrimary = true) {F : Forest}
    (hF : t.Is F) {counter c : Nat} {s : Str} (h : Convert.NegraText counter t s c) : s = F.exportText counter ∧
      c = if (featOf F.topFeatures "sentence_id".toList).isSome then counter else counter + 1 := by
  obtain ⟨ns, nts, T, N, tl, nl, h1, h2, h3, h4, h5, h6, h7, h8⟩ := h
  have hT := wordsInOrder_eq W hp hF hr h2 h1 h3
  have hN := phrasesInOrder_eq W hp hF hr h2 h4
  have e1 : tl = T.map fun r => aligned widths r.columns := by
    clear h3 hT h7 h1
    induction h5 with
    | nil => rfl
    | cons h _ ih => rw [h, ih]; rfl
  have e2 : nl = N.map fun r => aligned widths r.columns := by
    clear h4 hN h7 h1
    induction h6 with
    | nil => rfl
    | cons h _ ih => rw [h, ih]; rfl
  have e3 : F.topFeatures = rootFeatures t := by
    obtain ⟨x, hx⟩ := hr
    cases F with
    | nil => cases (hF : [t.root] = [])
    | leaf e z r =>
      obtain ⟨n, ns, h, h1, _⟩ := hF
      obtain ⟨rfl, rfl⟩ := List.cons.inj h
      rw [hx] at h1; cases h1
    | node e z k r =>
      obtain ⟨n, ns, ks, h, h1, _⟩ := hF
      obtain ⟨rfl, rfl⟩ := List.cons.inj h
      simp [Forest.topFeatures, rootFeatures, h1, Node.features]
  refine ⟨?_, by rw [h8, e3]⟩
  rw [h7]
  simp only [Forest.exportText, hT, hN, e3, ← e1, ← e2]

theorem writeTree_export (W : t.WF) (hr : t.IsNt t.root) (hp : ∀ r ∈ t.graph.edges, r.w.isPrimary = true) {F : Forest}
    (hF : t.Is F) (counter : Nat) : writeTree counter t = .ok (F.exportText counter,
      if (featOf F.topFeatures "sentence_id".toList).isSome then counter else counter + 1) := by
  obtain ⟨ns, nts, T, N, tl, nl, h1, h2, h3, h4, h5, h6, h7⟩ := writeTree_sequence W hr
    (fun r h1 h2 => by rw [hp r h1] at h2; cases h2) counter
  obtain ⟨e1, e2⟩ := negraText_export W hr hp hF ⟨ns, nts, T, N, tl, nl, h1, h2, h3, h4, h5, h6, rfl, rfl⟩
  rw [h7, ← e2, ← e1]
  rfl

end Negra
end Lumberjack
