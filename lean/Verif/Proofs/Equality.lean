import Verif.Proofs.Forest

/-!
# Equality of trees
-/

namespace Lumberjack

/-! ## Node equality -/

theorem featuresEq_iff (f g : Option Features) : featuresEq f g = true ↔ Forest.FeatSame f g := by
  unfold Forest.FeatSame featuresEq
  cases f with
  | none => cases g with
    | none => simp
    | some g => cases g with | mk es => cases es <;> simp [Features.empty]
  | some f => cases g with
    | none => cases f with | mk es => cases es <;> simp [Features.empty]
    | some g => simp

theorem Terminal.eq_iff (a b : Terminal) : a.eq b = true ↔
    a.pos = b.pos ∧ a.span = b.span ∧ a.lem = b.lem ∧ Forest.FeatSame a.features b.features := by
  unfold Terminal.eq
  rw [← featuresEq_iff]
  split_ifs with h
  · simp only [false_iff]
    rintro ⟨h1, h2, h3, _⟩
    simp_all
  · push Not at h
    simp [h]

theorem NonTerminal.eq_iff (a b : NonTerminal) : a.eq b = true ↔
    a.label = b.label ∧ a.span = b.span ∧ Forest.FeatSame a.features b.features := by
  unfold NonTerminal.eq
  rw [← featuresEq_iff]
  split_ifs with h
  · simp only [false_iff]
    rintro ⟨h1, h2, _⟩
    simp_all
  · push Not at h
    simp [h]

/-! ## What the comparison computes -/

namespace Forest

/-- The comparison of two forests below two parents that agree if `q`: stops at the end of the
shorter forest. -/
def ZipSame (q : Bool) : Forest → Forest → Bool
  | nil, _ => true
  | leaf _ _ _, nil => true
  | node _ _ _ _, nil => true
  | leaf e x r, leaf e' x' r' => x.eq x' && (q && decide (e = e')) && ZipSame q r r'
  | node e x k r, node e' x' k' r' =>
    x.eq x' && (q && decide (e = e')) && ZipSame (x.eq x') k k' && ZipSame q r r'
  | leaf _ _ _, node _ _ _ _ => false
  | node _ _ _ _, leaf _ _ _ => false

theorem ZipSame.of_same {f : Forest} : ∀ {g : Forest}, Same f g → ZipSame true f g = true := by
  induction f with
  | nil => intro g _; rfl
  | leaf e x r ih =>
    intro g h
    cases g with
    | nil => simp [Same] at h
    | leaf e' x' r' =>
      obtain ⟨rfl, h1, h2, h3, h4, h5⟩ := h
      simp [ZipSame, ih h5, (Terminal.eq_iff x x').2 ⟨h1, h2, h3, h4⟩]
    | node e' x' k' r' => simp [Same] at h
  | node e x k r ihk ihr =>
    intro g h
    cases g with
    | nil => simp [Same] at h
    | leaf e' x' r' => simp [Same] at h
    | node e' x' k' r' =>
      obtain ⟨rfl, h1, h2, h3, h4, h5⟩ := h
      simp [ZipSame, ihk h4, ihr h5, (NonTerminal.eq_iff x x').2 ⟨h1, h2, h3⟩]

theorem ZipSame.same {f : Forest} : ∀ {g : Forest} {q : Bool}, ZipSame q f g = true → f.Good → g.Good →
    f.cov = g.cov → Same f g := by
  induction f with
  | nil =>
    intro g q _ _ hg hc
    cases g with
    | nil => trivial
    | leaf e' x' r' => exact absurd (hc ▸ hg.cov_nonempty (by simp)) (by simp [cov])
    | node e' x' k' r' => exact absurd (hc ▸ hg.cov_nonempty (by simp)) (by simp [cov])
  | leaf e x r ih =>
    intro g q h hf hg hc
    cases g with
    | nil => exact absurd (hc ▸ hf.cov_nonempty (by simp)) (by simp [cov])
    | leaf e' x' r' =>
      simp only [ZipSame, Bool.and_eq_true, decide_eq_true_eq] at h
      obtain ⟨⟨h1, h2, h3⟩, h4⟩ := h
      obtain ⟨k1, k2, k3, k4⟩ := (Terminal.eq_iff _ _).1 h1
      refine ⟨h3, k1, k2, k3, k4, ih h4 hf.2.2 hg.2.2 ?_⟩
      have e1 : r.cov = (Forest.leaf e x r).cov.erase x.span.start :=
        (Finset.erase_insert hf.2.1).symm
      have e2 : r'.cov = (Forest.leaf e' x' r').cov.erase x'.span.start :=
        (Finset.erase_insert hg.2.1).symm
      rw [e1, e2, hc, k2]
    | node e' x' k' r' => simp [ZipSame] at h
  | node e x k r ihk ihr =>
    intro g q h hf hg hc
    cases g with
    | nil => exact absurd (hc ▸ hf.cov_nonempty (by simp)) (by simp [cov])
    | leaf e' x' r' => simp [ZipSame] at h
    | node e' x' k' r' =>
      simp only [ZipSame, Bool.and_eq_true, decide_eq_true_eq] at h
      obtain ⟨⟨⟨h1, h2, h3⟩, h4⟩, h5⟩ := h
      obtain ⟨k1, k2, k3⟩ := (NonTerminal.eq_iff _ _).1 h1
      obtain ⟨_, _, f3, f4, f5, f6⟩ := hf
      obtain ⟨_, _, g3, g4, g5, g6⟩ := hg
      have ek : k.cov = k'.cov := by
        ext i
        rw [← f3, ← g3, k2]
      refine ⟨h3, k1, k2, k3, ihk h4 f5 g5 ek, ihr h5 f6 g6 ?_⟩
      ext i
      have : i ∈ (Forest.node e x k r).cov ↔ i ∈ (Forest.node e' x' k' r').cov := by rw [hc]
      simp only [cov, Finset.mem_union] at this
      have d1 : i ∈ k.cov → i ∉ r.cov := fun h => Finset.disjoint_left.1 f4 h
      have d2 : i ∈ k'.cov → i ∉ r'.cov := fun h => Finset.disjoint_left.1 g4 h
      rw [ek] at this d1
      constructor
      · intro hi
        exact (this.1 (.inr hi)).resolve_left (fun hk => d1 hk hi)
      · intro hi
        exact (this.2 (.inr hi)).resolve_left (fun hk => d2 hk hi)

/-- Number of nodes. -/
def size : Forest → Nat
  | nil => 0
  | leaf _ _ r => r.size + 1
  | node _ _ k r => k.size + r.size + 1

theorem Same.size {f : Forest} : ∀ {g : Forest}, Same f g → f.size = g.size := by
  induction f with
  | nil => intro g h; cases g <;> simp_all [Same, Forest.size]
  | leaf e x r ih =>
    intro g h
    cases g with
    | nil => simp [Same] at h
    | leaf e' x' r' => simp [Forest.size, ih h.2.2.2.2.2]
    | node e' x' k' r' => simp [Same] at h
  | node e x k r ihk ihr =>
    intro g h
    cases g with
    | nil => simp [Same] at h
    | leaf e' x' r' => simp [Same] at h
    | node e' x' k' r' => simp [Forest.size, ihk h.2.2.2.2.1, ihr h.2.2.2.2.2]

theorem Same.cov {f : Forest} : ∀ {g : Forest}, Same f g → f.cov = g.cov := by
  induction f with
  | nil => intro g h; cases g <;> simp_all [Same, Forest.cov]
  | leaf e x r ih =>
    intro g h
    cases g with
    | nil => simp [Same] at h
    | leaf e' x' r' => simp [Forest.cov, ih h.2.2.2.2.2, h.2.2.1]
    | node e' x' k' r' => simp [Same] at h
  | node e x k r ihk ihr =>
    intro g h
    cases g with
    | nil => simp [Same] at h
    | leaf e' x' r' => simp [Same] at h
    | node e' x' k' r' => simp [Forest.cov, ihk h.2.2.2.2.1, ihr h.2.2.2.2.2]

theorem Same.refl (f : Forest) : Same f f := by
  induction f with
  | nil => trivial
  | leaf e x r ih => exact ⟨rfl, rfl, rfl, rfl, rfl, ih⟩
  | node e x k r ihk ihr => exact ⟨rfl, rfl, rfl, rfl, ihk, ihr⟩

theorem Same.symm {f : Forest} : ∀ {g : Forest}, Same f g → Same g f := by
  induction f with
  | nil => intro g h; cases g <;> simp_all [Same]
  | leaf e x r ih =>
    intro g h
    cases g with
    | nil => simp [Same] at h
    | leaf e' x' r' =>
      obtain ⟨h1, h2, h3, h4, h5, h6⟩ := h
      exact ⟨h1.symm, h2.symm, h3.symm, h4.symm, Eq.symm h5, ih h6⟩
    | node e' x' k' r' => simp [Same] at h
  | node e x k r ihk ihr =>
    intro g h
    cases g with
    | nil => simp [Same] at h
    | leaf e' x' r' => simp [Same] at h
    | node e' x' k' r' =>
      obtain ⟨h1, h2, h3, h4, h5, h6⟩ := h
      exact ⟨h1.symm, h2.symm, h3.symm, Eq.symm h4, ihk h5, ihr h6⟩

theorem Same.trans {f : Forest} : ∀ {g h : Forest}, Same f g → Same g h → Same f h := by
  induction f with
  | nil => intro g h h1 h2; cases g <;> cases h <;> simp_all [Same]
  | leaf e x r ih =>
    intro g h h1 h2
    cases g with
    | nil => simp [Same] at h1
    | leaf e' x' r' =>
      cases h with
      | nil => simp [Same] at h2
      | leaf e'' x'' r'' =>
        obtain ⟨a1, a2, a3, a4, a5, a6⟩ := h1
        obtain ⟨b1, b2, b3, b4, b5, b6⟩ := h2
        exact ⟨a1.trans b1, a2.trans b2, a3.trans b3, a4.trans b4, Eq.trans a5 b5, ih a6 b6⟩
      | node e'' x'' k'' r'' => simp [Same] at h2
    | node e' x' k' r' => simp [Same] at h1
  | node e x k r ihk ihr =>
    intro g h h1 h2
    cases g with
    | nil => simp [Same] at h1
    | leaf e' x' r' => simp [Same] at h1
    | node e' x' k' r' =>
      cases h with
      | nil => simp [Same] at h2
      | leaf e'' x'' r'' => simp [Same] at h2
      | node e'' x'' k'' r'' =>
        obtain ⟨a1, a2, a3, a4, a5, a6⟩ := h1
        obtain ⟨b1, b2, b3, b4, b5, b6⟩ := h2
        exact ⟨a1.trans b1, a2.trans b2, a3.trans b3, Eq.trans a4 b4, ihk a5 b5, ihr a6 b6⟩

end Forest

namespace Tree

variable {t t1 t2 : Tree}

/-! ## Counting nodes -/

theorem WF.rep_size (W : t.WF) {f : Forest} : ∀ {ids : List Nat}, t.Rep ids f →
    ids.Pairwise (fun a b => ¬ t.Dom a b ∧ ¬ t.Dom b a) →
    ∃ S : Finset Nat, S.card = f.size ∧ ∀ m, m ∈ S ↔ ∃ n ∈ ids, t.Dom n m := by
  induction f with
  | nil => intro ids h _; exact ⟨∅, rfl, by rw [show ids = [] from h]; simp⟩
  | leaf e x r ih =>
    intro ids h hp
    obtain ⟨n, ns, rfl, h4, h5, h6⟩ := h
    rw [List.pairwise_cons] at hp
    obtain ⟨S, h1, h2⟩ := ih h6 hp.2
    have hd : ∀ m, t.Dom n m ↔ m = n :=
      fun m => ⟨fun h => W.shape.dom_term ⟨x, h4⟩ h, fun h => h ▸ Dom.refl⟩
    refine ⟨insert n S, ?_, ?_⟩
    · rw [Finset.card_insert_of_notMem, h1]; rfl
      intro hm
      obtain ⟨m, hm1, hm2⟩ := (h2 n).1 hm
      exact (hp.1 m hm1).2 hm2
    · intro m
      rw [Finset.mem_insert, h2]
      simp [hd]
  | node e x k r ihk ihr =>
    intro ids h hp
    obtain ⟨n, ns, ks, rfl, h4, h5, h6, h7, h8⟩ := h
    rw [List.pairwise_cons] at hp
    obtain ⟨S, h1, h2⟩ := ihk h7 (h6.pairwise W)
    obtain ⟨S', h1', h2'⟩ := ihr h8 hp.2
    have hS : ∀ m, m ∈ S ↔ m ≠ n ∧ t.Dom n m := by
      intro m
      rw [h2]
      constructor
      · rintro ⟨c, hc, hd⟩
        have hc := (h6.1 c).1 hc
        refine ⟨?_, Dom.head hc hd⟩
        rintro rfl
        exact W.shape.acyclic W.graph m (Relation.TransGen.head' hc hd)
      · rintro ⟨hne, hd⟩
        rcases hd.cases_child with h | ⟨c, hc, hd⟩
        · exact absurd h.symm hne
        · exact ⟨c, (h6.1 c).2 hc, hd⟩
    refine ⟨insert n (S ∪ S'), ?_, ?_⟩
    · rw [Finset.card_insert_of_notMem, Finset.card_union_of_disjoint, h1, h1']; rfl
      · rw [Finset.disjoint_left]
        intro m hm hm'
        obtain ⟨b, hb, hb'⟩ := (h2' m).1 hm'
        rcases W.shape.dom_linear ((hS m).1 hm).2 hb' with h | h
        · exact (hp.1 b hb).1 h
        · exact (hp.1 b hb).2 h
      · intro hm
        rcases Finset.mem_union.1 hm with hm | hm
        · exact ((hS n).1 hm).1 rfl
        · obtain ⟨b, hb, hb'⟩ := (h2' n).1 hm
          exact (hp.1 b hb).2 hb'
    · intro m
      rw [Finset.mem_insert, Finset.mem_union, hS, h2']
      simp only [List.mem_cons, exists_eq_or_imp]
      constructor
      · rintro (rfl | h | h)
        · exact .inl Dom.refl
        · exact .inl h.2
        · exact .inr h
      · rintro (h | h)
        · by_cases e : m = n
          · exact .inl e
          · exact .inr (.inl ⟨e, h⟩)
        · exact .inr (.inr h)

theorem WF.nodeCount_eq (W : t.WF) {f : Forest} (h : t.Is f) : t.graph.nodeCount = f.size := by
  obtain ⟨S, h1, h2⟩ := W.rep_size h (List.pairwise_singleton _ _)
  rw [← h1, Graph.nodeCount, ← List.toFinset_card_of_nodup (Graph.nodeIndices_nodup _)]
  congr 1
  ext m
  rw [List.mem_toFinset, Graph.mem_nodeIndices, h2]
  simp only [List.mem_singleton, exists_eq_left]
  exact ⟨fun h => W.shape.reach m h, fun h => h.live W.graph W.shape.root_live⟩

theorem WF.root_covers (W : t.WF) (i : Nat) : t.Covers t.root i ↔ i < t.nTerminals := by
  constructor
  · rintro ⟨m, _, hm⟩
    obtain ⟨j, h1, h2⟩ := W.sentence.pos m hm.isTerm
    rw [hm.pos_unique h2]; exact h1
  · intro hi
    obtain ⟨m, hm⟩ := W.sentence.occupied i hi
    exact ⟨m, W.shape.reach m hm.isTerm.live, hm⟩

theorem WF.is_good (W : t.WF) {f : Forest} (h : t.Is f) : f.Good ∧ f.cov = Finset.range t.nTerminals := by
  obtain ⟨h1, h2⟩ := W.rep_good h (List.pairwise_singleton _ _)
  refine ⟨h1, ?_⟩
  ext i
  rw [h2, Finset.mem_range, ← W.root_covers i]
  simp

/-! ## The comparison -/

/-- One step of the comparison of two lists of nodes. -/
def eqStep (t1 t2 : Tree) (fuel : Nat) (acc : Bool) (p : Nat × Nat) : Res Bool :=
  if !acc then .ok false
  else do
    let a ← t1.node p.1
    let b ← t2.node p.2
    if !(a.eq b) then return false
    let p1 ← match t1.parent p.1 with
      | some (q, e) => do
        let x ← t1.node q
        let y ← t1.edge e
        pure (some (x, y))
      | none => pure none
    let p2 ← match t2.parent p.2 with
      | some (q, e) => do
        let x ← t2.node q
        let y ← t2.edge e
        pure (some (x, y))
      | none => pure none
    let same := match p1, p2 with
      | some (x, e), some (y, f) => x.eq y && decide (e = f)
      | none, none => true
      | _, _ => false
    if !same then return false
    subtreeEq t1 t2 fuel p.1 p.2

theorem subtreeEq_succ (fuel i1 i2 : Nat) : subtreeEq t1 t2 (fuel + 1) i1 i2 =
    ((t1.kidsOf i1).zip (t2.kidsOf i2)).foldlM (eqStep t1 t2 fuel) true := rfl

theorem eqFold_false (fuel : Nat) (l : List (Nat × Nat)) :
    l.foldlM (eqStep t1 t2 fuel) false = .ok false := by
  induction l with
  | nil => rfl
  | cons a l ih => rw [List.foldlM_cons]; exact ih

theorem WF.parentInfo (W : t.WF) {p c : Nat} {x : Node} (hc : t.IsChild p c)
    (hx : t.graph.node? p = some x) :
    ∃ e, t.parent c = some (p, e) ∧ t.node p = .ok x ∧ t.edge e = .ok (.primary (t.inLabel c)) := by
  obtain ⟨r, hr, h1, h2, h3⟩ := hc
  subst h1; subst h2
  have hl := edgeLabel_eq_of_inLabel W.shape ⟨r, hr, rfl, rfl, h3⟩
  rw [W.shape.edgeLabel_of_edge hr h3] at hl
  simp only [Option.some.injEq] at hl
  refine ⟨r.id, W.shape.parent_of_edge hr h3, ?_, ?_⟩
  · unfold node; rw [hx]; rfl
  · unfold edge
    rw [(Graph.edge?_eq W.graph).2 ⟨hr, rfl⟩]
    show Res.ok r.w = _
    rw [hl]

theorem eqStep_eq (W1 : t1.WF) (W2 : t2.WF) {p1 p2 c1 c2 : Nat} {x1 x2 a b : Node} (fuel : Nat)
    (h1 : t1.IsChild p1 c1) (h2 : t2.IsChild p2 c2) (hx1 : t1.graph.node? p1 = some x1)
    (hx2 : t2.graph.node? p2 = some x2) (ha : t1.graph.node? c1 = some a)
    (hb : t2.graph.node? c2 = some b) :
    eqStep t1 t2 fuel true (c1, c2) =
      if a.eq b && (x1.eq x2 && decide (t1.inLabel c1 = t2.inLabel c2)) then
        subtreeEq t1 t2 fuel c1 c2 else .ok false := by
  obtain ⟨e1, k1, k2, k3⟩ := W1.parentInfo h1 hx1
  obtain ⟨e2, l1, l2, l3⟩ := W2.parentInfo h2 hx2
  have ea : t1.node c1 = .ok a := by unfold node; rw [ha]; rfl
  have eb : t2.node c2 = .ok b := by unfold node; rw [hb]; rfl
  unfold eqStep
  simp only [Bool.not_true, Bool.false_eq_true, if_false, ea, eb, Res.ok_bind, k1, k2, k3, l1, l2, l3,
    Res.pure_eq, Edge.primary.injEq]
  cases a.eq b <;> cases x1.eq x2 <;> by_cases hl : t1.inLabel c1 = t2.inLabel c2 <;> simp [hl]

theorem kidsOf_term (S : t.Shape) {n : Nat} (h : t.IsTerm n) : t.kidsOf n = [] := by
  unfold kidsOf
  have : (t.children n).map (·.1) = [] := by
    rw [List.eq_nil_iff_forall_not_mem]
    intro c hc
    exact S.term_leaf n c h (mem_children_fst.1 hc)
  rw [this]; rfl

theorem eqFold_eq (W1 : t1.WF) (W2 : t2.WF) {f : Forest} : ∀ {g : Forest} {ks1 ks2 : List Nat}
    {p1 p2 : Nat} {x1 x2 : NonTerminal} {fuel : Nat}, t1.Rep ks1 f → t2.Rep ks2 g →
    (∀ c ∈ ks1, t1.IsChild p1 c) → (∀ c ∈ ks2, t2.IsChild p2 c) →
    t1.graph.node? p1 = some (.nt x1) → t2.graph.node? p2 = some (.nt x2) →
    t1.graph.nodes.length < fuel + 1 + t1.depth p1 →
    (ks1.zip ks2).foldlM (eqStep t1 t2 fuel) true = .ok (Forest.ZipSame (x1.eq x2) f g) := by
  induction f with
  | nil =>
    intro g ks1 ks2 p1 p2 x1 x2 fuel h1 _ _ _ _ _ _
    rw [show ks1 = [] from h1]
    cases g <;> rfl
  | leaf e x r ih =>
    intro g ks1 ks2 p1 p2 x1 x2 fuel h1 h2 hc1 hc2 hx1 hx2 hf
    obtain ⟨n, ns, rfl, h4, h5, h6⟩ := h1
    have hd := depth_child W1.graph W1.shape (hc1 n List.mem_cons_self)
    have hd' := depth_lt W1.graph W1.shape ⟨_, h4⟩
    have hfuel : fuel = fuel - 1 + 1 := by omega
    cases g with
    | nil => rw [show ks2 = [] from h2, List.zip_nil_right]; rfl
    | leaf e' x' r' =>
      obtain ⟨n', ns', rfl, k4, k5, k6⟩ := h2
      rw [List.zip_cons_cons, List.foldlM_cons, eqStep_eq W1 W2 fuel (hc1 n List.mem_cons_self)
        (hc2 n' List.mem_cons_self) hx1 hx2 h4 k4]
      have hsub : subtreeEq t1 t2 fuel n n' = .ok true := by
        rw [hfuel, subtreeEq_succ, kidsOf_term W1.shape ⟨x, h4⟩]; rfl
      rw [hsub, h5, k5]
      simp only [Forest.ZipSame]
      show (if (x.eq x' && (x1.eq x2 && decide (e = e'))) = true then Res.ok true else Res.ok false) >>= _ = _
      cases (x.eq x' && (x1.eq x2 && decide (e = e')))
      · exact eqFold_false _ _
      · simp only [if_true, Bool.true_and, Res.ok_bind]
        exact ih h6 k6 (fun c hc => hc1 c (List.mem_cons_of_mem _ hc))
          (fun c hc => hc2 c (List.mem_cons_of_mem _ hc)) hx1 hx2 hf
    | node e' x' k' r' =>
      obtain ⟨n', ns', ks', rfl, k4, k5, k6, k7, k8⟩ := h2
      rw [List.zip_cons_cons, List.foldlM_cons, eqStep_eq W1 W2 fuel (hc1 n List.mem_cons_self)
        (hc2 n' List.mem_cons_self) hx1 hx2 h4 k4]
      exact eqFold_false _ _
  | node e x k r ihk ihr =>
    intro g ks1 ks2 p1 p2 x1 x2 fuel h1 h2 hc1 hc2 hx1 hx2 hf
    obtain ⟨n, ns, ks, rfl, h4, h5, h6, h7, h8⟩ := h1
    have hd := depth_child W1.graph W1.shape (hc1 n List.mem_cons_self)
    have hd' := depth_lt W1.graph W1.shape ⟨_, h4⟩
    have hfuel : fuel = fuel - 1 + 1 := by omega
    cases g with
    | nil => rw [show ks2 = [] from h2, List.zip_nil_right]; rfl
    | leaf e' x' r' =>
      obtain ⟨n', ns', rfl, k4, k5, k6⟩ := h2
      rw [List.zip_cons_cons, List.foldlM_cons, eqStep_eq W1 W2 fuel (hc1 n List.mem_cons_self)
        (hc2 n' List.mem_cons_self) hx1 hx2 h4 k4]
      exact eqFold_false _ _
    | node e' x' k' r' =>
      obtain ⟨n', ns', ks', rfl, k4, k5, k6, k7, k8⟩ := h2
      rw [List.zip_cons_cons, List.foldlM_cons, eqStep_eq W1 W2 fuel (hc1 n List.mem_cons_self)
        (hc2 n' List.mem_cons_self) hx1 hx2 h4 k4]
      have hsub : subtreeEq t1 t2 fuel n n' = .ok (Forest.ZipSame (x.eq x') k k') := by
        rw [hfuel, subtreeEq_succ, ← h6.eq_kidsOf W1, ← k6.eq_kidsOf W2]
        exact ihk h7 k7 (fun c hc => (h6.1 c).1 hc) (fun c hc => (k6.1 c).1 hc) h4 k4 (by omega)
      rw [hsub, h5, k5]
      simp only [Forest.ZipSame]
      show (if (x.eq x' && (x1.eq x2 && decide (e = e'))) = true then Res.ok _ else Res.ok false) >>= _ = _
      cases (x.eq x' && (x1.eq x2 && decide (e = e')))
      · exact eqFold_false _ _
      · simp only [if_true, Bool.true_and, Res.ok_bind]
        cases Forest.ZipSame (x.eq x') k k'
        · exact eqFold_false _ _
        · simp only [Bool.true_and]
          exact ihr h8 k8 (fun c hc => hc1 c (List.mem_cons_of_mem _ hc))
            (fun c hc => hc2 c (List.mem_cons_of_mem _ hc)) hx1 hx2 hf

/-- Equality of well-formed trees returns; it is true exactly if both are single terminals or they
stand for the same forest up to forms. -/
theorem eq_spec (W1 : t1.WF) (W2 : t2.WF) {f g : Forest} (h1 : t1.Is f) (h2 : t2.Is g) :
    ∃ b, t1.eq t2 = .ok b ∧
      (b = true ↔ (t1.IsTerm t1.root ∧ t2.IsTerm t2.root) ∨ Forest.Same f g) := by
  have hg1 := W1.is_good h1
  have hg2 := W2.is_good h2
  have n1 := W1.nodeCount_eq h1
  have n2 := W2.nodeCount_eq h2
  have hsz : ∀ {t : Tree} {f : Forest}, t.WF → t.Is f →
      (t.IsTerm t.root ∧ f.size = 1 ∧ f.cov = {0}) ∨ (∃ x k, t.graph.node? t.root = some (.nt x) ∧
        f = .node none x k .nil ∧ t.Rep (t.kidsOf t.root) k ∧ k.size ≠ 0) := by
    intro t f W h
    have hg := W.is_good h
    unfold Is at h
    cases f with
    | nil => exact absurd h (by simp [Rep])
    | leaf e x r =>
      obtain ⟨n, ns, h3, h4, h5, h6⟩ := h
      simp only [List.cons.injEq] at h3
      obtain ⟨h7, h8⟩ := h3
      subst h8
      have hr : r = .nil := by
        cases r with
        | nil => rfl
        | leaf e x r => exact absurd h6 (by simp [Rep])
        | node e x k r => exact absurd h6 (by simp [Rep])
      subst hr
      refine .inl ⟨⟨x, h7 ▸ h4⟩, rfl, ?_⟩
      have h0 : 0 ∈ (Forest.leaf e x .nil).cov := by
        rw [hg.2, Finset.mem_range]
        obtain ⟨i, hi, _⟩ := W.sentence.pos n ⟨x, h4⟩
        omega
      simp only [Forest.cov, Finset.insert_empty, Finset.mem_singleton] at h0 ⊢
      rw [← h0]
    | node e x k r =>
      obtain ⟨n, ns, ks, h3, h4, h5, h6, h7, h8⟩ := h
      simp only [List.cons.injEq] at h3
      obtain ⟨h9, h10⟩ := h3
      subst h10; subst h9
      have hr : r = .nil := by
        cases r with
        | nil => rfl
        | leaf e x r => exact absurd h8 (by simp [Rep])
        | node e x k r => exact absurd h8 (by simp [Rep])
      subst hr
      refine .inr ⟨x, k, h4, ?_, h6.eq_kidsOf W ▸ h7, ?_⟩
      · rw [← h5, inLabel_root W.shape]
      · have := hg.1.1
        cases k <;> simp_all [Forest.size]
  unfold eq
  by_cases hn : t1.nTerminals = t2.nTerminals
  · rw [if_neg (by simpa using hn)]
    by_cases hc : t1.graph.nodeCount = t2.graph.nodeCount
    · rw [if_neg (by simpa using hc)]
      rw [n1, n2] at hc
      rcases hsz W1 h1 with ⟨k1, k2, k3⟩ | ⟨x, k, k1, rfl, k3, k4⟩
      · rcases hsz W2 h2 with ⟨l1, l2, l3⟩ | ⟨y, l, l1, rfl, l3, l4⟩
        · refine ⟨true, ?_, by simp [k1, l1]⟩
          rw [show t1.climbFuel = t1.graph.nodes.length + 1 from rfl, subtreeEq_succ,
            kidsOf_term W1.shape k1]
          rfl
        · exfalso
          simp only [Forest.size] at hc
          omega
      · rcases hsz W2 h2 with ⟨l1, l2, l3⟩ | ⟨y, l, l1, rfl, l3, l4⟩
        · exfalso
          simp only [Forest.size] at hc
          omega
        · have := eqFold_eq W1 W2 k3 l3 (fun c hc => ((W1.kidsOf _).1 c).1 hc)
            (fun c hc => ((W2.kidsOf _).1 c).1 hc) k1 l1 (fuel := t1.graph.nodes.length) (by omega)
          refine ⟨_, this, ?_⟩
          have hnt : ¬ t1.IsTerm t1.root := fun h => not_isTerm_isNt h ⟨x, k1⟩
          simp only [hnt, false_and, false_or]
          have hcov : (Forest.node none x k .nil).cov = (Forest.node none y l .nil).cov := by
            rw [hg1.2, hg2.2, hn]
          simp only [Forest.cov, Finset.union_empty] at hcov
          constructor
          · intro h
            have hk : x.eq y = true := by
              cases k with
              | nil => exact absurd rfl k4
              | leaf e z r =>
                cases l with
                | nil => exact absurd rfl l4
                | leaf e' z' r' => simp only [Forest.ZipSame, Bool.and_eq_true] at h; exact h.1.2.1
                | node e' z' s' r' => simp [Forest.ZipSame] at h
              | node e z s r =>
                cases l with
                | nil => exact absurd rfl l4
                | leaf e' z' r' => simp [Forest.ZipSame] at h
                | node e' z' s' r' => simp only [Forest.ZipSame, Bool.and_eq_true] at h; exact h.1.1.2.1
            obtain ⟨a1, a2, a3⟩ := (NonTerminal.eq_iff _ _).1 hk
            exact ⟨rfl, a1, a2, a3, Forest.ZipSame.same h hg1.1.2.2.2.2.1 hg2.1.2.2.2.2.1 hcov, trivial⟩
          · rintro ⟨_, a1, a2, a3, a4, _⟩
            rw [(NonTerminal.eq_iff _ _).2 ⟨a1, a2, a3⟩]
            exact Forest.ZipSame.of_same a4
    · rw [if_pos hc]
      refine ⟨false, rfl, ?_⟩
      simp only [Bool.false_eq_true, false_iff, not_or]
      rw [n1, n2] at hc
      refine ⟨?_, fun h => hc h.size⟩
      rintro ⟨a1, a2⟩
      rcases hsz W1 h1 with ⟨k1, k2, k3⟩ | ⟨x, k, k1, _⟩
      · rcases hsz W2 h2 with ⟨l1, l2, l3⟩ | ⟨y, l, l1, _⟩
        · exact hc (k2.trans l2.symm)
        · exact not_isTerm_isNt a2 ⟨y, l1⟩
      · exact not_isTerm_isNt a1 ⟨x, k1⟩
  · rw [if_pos hn]
    refine ⟨false, rfl, ?_⟩
    simp only [Bool.false_eq_true, false_iff, not_or]
    have hr : f.cov ≠ g.cov := by
      rw [hg1.2, hg2.2]
      intro h
      have := congrArg Finset.card h
      simp only [Finset.card_range] at this
      exact hn this
    refine ⟨?_, fun h => hr h.cov⟩
    rintro ⟨a1, a2⟩
    rcases hsz W1 h1 with ⟨k1, k2, k3⟩ | ⟨x, k, k1, _⟩
    · rcases hsz W2 h2 with ⟨l1, l2, l3⟩ | ⟨y, l, l1, _⟩
      · exact hr (k3.trans l3.symm)
      · exact not_isTerm_isNt a2 ⟨y, l1⟩
    · exact not_isTerm_isNt a1 ⟨x, k1⟩

end Tree
end Lumberjack
