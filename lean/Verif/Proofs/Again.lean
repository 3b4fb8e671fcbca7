import Verif.Proofs.IsoSteps
import Verif.Proofs.Chains
import Verif.Proofs.Annotate
import Verif.Proofs.Decode

/-!
# Operations done twice
-/

namespace Lumberjack
namespace Tree

variable {t u t' u' : Tree}

theorem Iso.refl (t : Tree) : Iso t t id :=
  ⟨rfl, fun _ _ _ _ h => h, fun n h => ⟨n, h, rfl⟩, fun _ _ => rfl, fun _ _ _ _ _ => Iff.rfl⟩

/-! ## Removing nodes -/

theorem Removed.self (W : t.WF) {R : Nat → Prop} (hR : ∀ n, R n → ¬ t.Live n) : Removed t t R :=
  ⟨W, rfl, hR, fun _ _ => rfl, fun _ _ _ _ => Iff.rfl, fun _ h _ _ => h, fun _ h => .inl h⟩

theorem Removed.andThen {R R' : Nat → Prop} (H : Removed t u R) (H' : Removed u u' R') :
    Removed t u' (fun n => R n ∨ R' n) where
  wf := H'.wf
  nTerm := H'.nTerm.trans H.nTerm
  gone n h := by
    intro hl
    obtain ⟨h1, h2⟩ := (H'.liveIff n).1 hl
    rcases h with h | h
    · exact H.gone n h h1
    · exact h2 h
  node n h := by rw [H'.node n fun h' => h (.inr h'), H.node n fun h' => h (.inl h')]
  dom a b ha hb := by
    rw [H'.dom a b (fun h => ha (.inr h)) (fun h => hb (.inr h)), H.dom a b (fun h => ha (.inl h)) (fun h => hb (.inl h))]
  edges r hr h1 h2 := H'.edges r (H.edges r hr (fun h => h1 (.inl h)) fun h => h2 (.inl h)) (fun h => h1 (.inr h)) fun h => h2 (.inr h)
  added r hr := by
    obtain ⟨h1, h2⟩ := H'.wf.graph.ends r hr
    have l1 := (H.liveIff _).1 ((H'.liveIff _).1 h1).1
    have l2 := (H.liveIff _).1 ((H'.liveIff _).1 h2).1
    rcases H'.added r hr with h | ⟨h, e⟩
    · exact H.added r h
    · exact .inr ⟨(H.dom _ _ l1.2 l2.2).1 h, e⟩

/-- Filtering with two predicates, one after the other. -/
theorem filter_both (W : t.WF) {f g : Tree → Nat → Bool} (hf : NodeLocal f) (hg : NodeLocal g) :
    ∃ t1 t2, t.filterNonterminals f = .ok (t1, .ok ()) ∧ t1.filterNonterminals g = .ok (t2, .ok ()) ∧ t2.root = t.root ∧
      Removed t t2 (fun n => t.IsNt n ∧ n ≠ t.root ∧ (f t n && g t n) = false) := by
  obtain ⟨t1, h1, r1, _, H1⟩ := filterNonterminals_spec W hf
  obtain ⟨t2, h2, r2, _, H2⟩ := filterNonterminals_spec H1.wf hg
  refine ⟨t1, t2, h1, h2, r2.trans r1, ?_⟩
  have H := H1.andThen H2
  have : (fun n => (t.IsNt n ∧ n ≠ t.root ∧ f t n = false) ∨ (t1.IsNt n ∧ n ≠ t1.root ∧ g t1 n = false)) =
      fun n => t.IsNt n ∧ n ≠ t.root ∧ (f t n && g t n) = false := by
    funext n
    refine propext ?_
    rw [r1, Bool.and_eq_false_iff]
    by_cases hR : t.IsNt n ∧ n ≠ t.root ∧ f t n = false
    · exact ⟨fun _ => ⟨hR.1, hR.2.1, .inl hR.2.2⟩, fun _ => .inl hR⟩
    · have hn := H1.node n hR
      have hnt : t1.IsNt n ↔ t.IsNt n := by unfold IsNt; rw [hn]
      have hgg : g t1 n = g t n := hg _ _ _ (by unfold content; rw [hn])
      rw [hnt, hgg]
      constructor
      · rintro (h | ⟨a, b, c⟩)
        · exact absurd h hR
        · exact ⟨a, b, .inr c⟩
      · rintro ⟨a, b, c | c⟩
        · exact absurd ⟨a, b, c⟩ hR
        · exact .inr ⟨a, b, c⟩
  rw [this] at H
  exact H

/-! ## Moving words -/

theorem Gathered.again {a : Nat} {M : Nat → Prop} (H : Gathered t a M t') : Gathered t' a M t' where
  wf := H.wf
  root := rfl
  nterm := rfl
  len := rfl
  term _ _ h := h
  content _ _ := rfl
  live n := by
    refine ⟨fun h => ⟨h, ?_⟩, fun h => h.1⟩
    by_cases hn : t'.IsTerm n
    · exact .inl hn
    obtain ⟨m, m1, m2⟩ := H.wf.shape.exists_terminal H.wf.graph n h
    by_cases hM : M m
    · rcases m1.cases_parent with e | ⟨p, h1, h2⟩
      · exact absurd (e ▸ m2) hn
      · rw [H.wf.shape.isChild_unique h2 ((H.child a m).2 (.inr ⟨rfl, hM⟩))] at h1
        exact .inr (.inl h1)
    · exact .inr (.inr ⟨m, m2, hM, m1⟩)
  child p c := by
    constructor
    · intro h
      by_cases hM : M c
      · exact .inr ⟨H.wf.shape.isChild_unique h ((H.child a c).2 (.inr ⟨rfl, hM⟩)), hM⟩
      · exact .inl ⟨h, (isChild_live H.wf.graph h).2, hM⟩
    · rintro (h | ⟨rfl, hM⟩)
      · exact h.1
      · exact (H.child p c).2 (.inr ⟨rfl, hM⟩)
  moved := H.moved
  label _ _ _ := rfl
  secondary r _ := ⟨fun h => ⟨h, H.wf.graph.ends r h⟩, fun h => h.1⟩

/-! ## Inserting nodes -/

theorem Inserted.refl (W : t.WF) {K : Nat → Nat → Prop} {lab : Nat → Str} (hK : ∀ p c, ¬ K p c) : Inserted t K lab t where
  wf := W
  root := rfl
  nterm := rfl
  old _ _ := rfl
  child a b _ _ := ⟨fun h => ⟨h, hK a b⟩, fun h => h.1⟩
  cover p c h := absurd h (hK p c)
  new _ h1 h2 := absurd h1 h2
  edges _ h _ := h
  follow p c _ _ h := absurd h (hK p c)
  first _ _ _ := rfl
  secondary _ h _ := h

/-! ## Collapsing -/

/-- Without unary chains nothing happens. -/
theorem collapseUnaryChains_same (W : t.WF) (delim : Str) (hno : ∀ n d, ¬ t.OnlyChild n d) : t.collapseUnaryChains delim = .ok t := by
  have climb : ∀ (l : List Nat) (cur : Nat) (cl : Option (Nat × Nat)) (fuel : Nat), t.Live cur → t.Anc cur l →
      cl.map (·.1) = l.head? → l.length < fuel → loopM (collapseStep delim) fuel (t, cur, cl) = .ok t := by
    intro l
    induction l with
    | nil =>
      intro cur cl fuel _ _ hcl hfuel
      obtain ⟨k, rfl⟩ : ∃ k, fuel = k + 1 := ⟨fuel - 1, by omega⟩
      have hcl' : cl = none := by simpa using hcl
      subst hcl'
      exact loopM_succ_inr rfl
    | cons n l ih =>
      intro cur cl fuel hlive hanc hcl hfuel
      obtain ⟨k, rfl⟩ : ∃ k, fuel = k + 1 := ⟨fuel - 1, by omega⟩
      obtain ⟨e, rfl⟩ : ∃ e, cl = some (n, e) := by
        cases cl with
        | none => simp at hcl
        | some q => simp at hcl; exact ⟨q.2, by rw [← hcl]⟩
      have hch : t.IsChild n cur := hanc.1
      obtain ⟨cn, hcn⟩ := hlive
      obtain ⟨x, hx⟩ := W.shape.parent_isNt W.graph hch
      have hs : (Node.nt x).span ≠ cn.span := fun hs => hno _ _ ((span_eq_iff W hx hcn hch).1 hs)
      have hstep : collapseStep delim (t, cur, some (n, e)) = .ok (.inl (t, n, t.parent n)) := by
        unfold collapseStep
        simp only [climberNext, node_eq hx, node_eq hcn, Res.ok_bind]
        rw [if_neg hs]
        rfl
      rw [loopM_succ_inl hstep]
      exact ih n _ k ⟨_, hx⟩ hanc.2 (parent_of_anc W.shape hanc.2) (by simp at hfuel; omega)
  unfold collapseUnaryChains
  obtain ⟨t', h1, h2, _⟩ := forM'_rule (f := collapseFrom delim) (fun as t1 => t1 = t ∧ ∀ T ∈ as, t.IsTerm T) (by
    rintro T as t1 ⟨rfl, h⟩
    have hT := h T (by simp)
    obtain ⟨l, hl⟩ := W.shape.exists_anc hT.live
    have hlen := hl.length_lt W.graph W.shape hT.live
    exact ⟨t1, climb l T _ _ hT.live hl (parent_of_anc W.shape hl) (by unfold climbFuel; omega), rfl, fun T' hT' => h T' (by simp [hT'])⟩)
    t.terminals t ⟨rfl, fun T hT => mem_terminals.1 hT⟩
  rw [h1, h2]

/-! ## Annotating words -/

theorem TermEdit.same {g : Nat → Terminal → Terminal} (E : TermEdit t t' g)
    (h : ∀ n x, t.graph.node? n = some (.term x) → g n x = x) : (∀ n, t'.graph.node? n = t.graph.node? n) := by
  intro n
  cases hn : t.graph.node? n with
  | none => exact E.none n hn
  | some nd =>
    cases nd with
    | term x => rw [E.term n x hn, h n x hn]
    | nt x => exact E.nt n x hn

/-- Edits that change nothing any more. -/
theorem TermEdit.eq {g : Nat → Terminal → Terminal} (E : TermEdit t t' g)
    (h : ∀ n x, t.graph.node? n = some (.term x) → g n x = x) : t' = t := by
  have hn := E.same h
  have hnodes : t'.graph.nodes = t.graph.nodes := by
    refine List.ext_getElem E.len fun i h1 h2 => ?_
    have := hn i
    unfold Graph.node? at this
    rw [List.getElem?_eq_getElem h1, List.getElem?_eq_getElem h2] at this
    simpa using this
  have hg : t'.graph = t.graph := by rw [E.graph, hnodes]
  have h1 := E.root
  have h2 := E.nTerm
  have h3 := E.disc
  cases t; cases t'
  simp only at hg h1 h2 h3
  subst hg h1 h2 h3
  rfl

theorem withFeature_idem (name v : Str) (x : Terminal) : withFeature name v (withFeature name v x) = withFeature name v x := by
  unfold withFeature
  simp only [Option.getD_some, Features.insert, Decoding.insertEntry_idem]

theorem ancList_congr (h : t'.IsChild = t.IsChild) (n : Nat) : t'.ancList n = t.ancList n := by
  have : t'.Anc n = t.Anc n := funext fun l => propext ⟨fun a => Anc.congr h.symm a, fun a => Anc.congr h a⟩
  unfold ancList
  rw [this]

theorem labelAt_congr {name : Str} {v : Nat → Option Str} (E : TermEdit t t' (fun n x => match v n with
    | some v => withFeature name v x
    | none => x)) (n : Nat) : t'.labelAt n = t.labelAt n := by
  unfold labelAt
  cases hn : t.graph.node? n with
  | none => rw [E.none n hn]
  | some nd =>
    cases nd with
    | term x =>
      rw [E.term n x hn]
      cases v n <;> rfl
    | nt x => rw [E.nt n x hn]

/-- Setting the same features again. -/
theorem tag_again {t'' : Tree} {name : Str} {v v' : Nat → Option Str} (E : TermEdit t t' (fun n x => match v n with
    | some v => withFeature name v x
    | none => x)) (E' : TermEdit t' t'' (fun n x => match v' n with
    | some v => withFeature name v x
    | none => x)) (hv : ∀ n, t.IsTerm n → v' n = v n) : t'' = t' := by
  refine E'.eq fun n x hx => ?_
  cases hn : t.graph.node? n with
  | none => rw [E.none n hn] at hx; cases hx
  | some nd =>
    cases nd with
    | nt y => rw [E.nt n y hn] at hx; cases hx
    | term y =>
      rw [E.term n y hn] at hx
      cases hx
      rw [hv n ⟨y, hn⟩]
      cases v n with
      | none => rfl
      | some v => exact withFeature_idem name v y

theorem tag_sameFeatures {name : Str} {v : Nat → Option Str} (E : TermEdit t t' (fun n x => match v n with
    | some v => withFeature name v x
    | none => x)) : SameButTermFeatures t t' := by
  refine SameButTermFeatures.of (fs := fun n x => (match v n with
    | some v => withFeature name v x
    | none => x).features) (E.congr fun n x _ => ?_)
  cases v n <;> rfl

theorem tag_wf {name : Str} {v : Nat → Option Str} (W : t.WF) (E : TermEdit t t' (fun n x => match v n with
    | some v => withFeature name v x
    | none => x)) : t'.WF := E.wf (fun n x => by cases v n <;> rfl) W

theorem annotateParentTag_again (W : t.WF) (name : Str) (hr : t.IsNt t.root) :
    ∃ t', t.annotateParentTag name = .ok (t', .ok ()) ∧ t'.annotateParentTag name = .ok (t', .ok ()) := by
  obtain ⟨t', h1, E⟩ := annotateParentTag_spec W name hr
  obtain ⟨x, hx⟩ := hr
  obtain ⟨t'', h2, E'⟩ := annotateParentTag_spec (tag_wf W E) name ⟨x, by rw [E.root, E.nt _ x hx]⟩
  refine ⟨t', h1, ?_⟩
  rw [h2, tag_again E E' fun n _ => ?_]
  rw [ancList_congr (termEdit_iff.1 E).isChild, show t'.labelAt = t.labelAt from funext (labelAt_congr E)]

theorem projectTagSet_again (W : t.WF) (name : Str) {f : Tree → Nat → Bool} (hf : IgnoresTermFeatures f) :
    ∃ t', t.projectTagSet name f = .ok t' ∧ t'.projectTagSet name f = .ok t' := by
  obtain ⟨t', h1, E⟩ := projectTagSet_spec W name hf
  obtain ⟨t'', h2, E'⟩ := projectTagSet_spec (tag_wf W E) name hf
  refine ⟨t', h1, ?_⟩
  rw [h2, tag_again E E' fun n _ => ?_]
  rw [ancList_congr (termEdit_iff.1 E).isChild, show t'.labelAt = t.labelAt from funext (labelAt_congr E),
    show f t' = f t from funext (hf t t' (tag_sameFeatures E))]

theorem projectIds_again (W : t.WF) (name : Str) {f : Tree → Nat → Bool} (hf : IgnoresTermFeatures f) :
    ∃ t', t.projectIds name f = .ok t' ∧ t'.projectIds name f = .ok t' := by
  obtain ⟨t', keys, h1, k1, k2, k3, E⟩ := projectIds_spec W name hf
  obtain ⟨t'', keys', h2, m1, m2, m3, E'⟩ := projectIds_spec (tag_wf W E) name hf
  have hterm : ∀ n, t'.IsTerm n ↔ t.IsTerm n := (termEdit_iff.1 E).isTerm (onTerm_kind _)
  have hanc : ∀ n, t'.ancList n = t.ancList n := ancList_congr (termEdit_iff.1 E).isChild
  have hff : f t' = f t := funext (hf t t' (tag_sameFeatures E))
  simp only [hterm, hanc, hff] at m2 m3
  have hperm : keys'.Perm keys := (List.perm_ext_iff_of_nodup m1 k1).2 fun a => by rw [k2, m2]
  have hpair : ∀ ks : List Nat, (∀ (k k' a a' : Nat), ks[k]? = some a → ks[k']? = some a' → k < k' →
      ∃ n, t.IsTerm n ∧ (t.ancList n).find? (f t) = some a ∧ ∀ m, t.IsTerm m → (t.ancList m).find? (f t) = some a' → n < m) →
      ks.Pairwise fun a a' => ∃ n, t.IsTerm n ∧ (t.ancList n).find? (f t) = some a ∧
        ∀ m, t.IsTerm m → (t.ancList m).find? (f t) = some a' → n < m := by
    intro ks h
    rw [List.pairwise_iff_getElem]
    intro i j hi hj hij
    exact h i j _ _ (List.getElem?_eq_getElem hi) (List.getElem?_eq_getElem hj) hij
  have heq : keys' = keys := by
    refine hperm.eq_of_pairwise ?_ (hpair _ m3) (hpair _ k3)
    rintro a b _ _ ⟨n, n1, n2, n3⟩ ⟨m, l1, l2, l3⟩
    have := n3 m l1 l2
    have := l3 n n1 n2
    omega
  refine ⟨t', h1, ?_⟩
  rw [h2, tag_again E E' fun n _ => ?_]
  unfold idVal
  rw [hanc, hff, heq]

theorem posEdit_idem (ns : List Nat) (tags : List Str) (n : Nat) (x : Terminal) :
    posEdit ns tags n (posEdit ns tags n x) = posEdit ns tags n x := by
  unfold posEdit
  by_cases h : n ∈ ns
  · simp only [if_pos h]
    cases tags[ns.idxOf n]? <;> rfl
  · simp only [if_neg h]

theorem annotatePos_again (t : Tree) (tags : List Str) :
    ∃ t' r, t.annotatePos tags = .ok (t', r) ∧ t'.annotatePos tags = .ok (t', r) := by
  obtain ⟨t', h1, E⟩ := annotatePos_spec t tags
  obtain ⟨t'', h2, E'⟩ := annotatePos_spec t' tags
  have hterm : ∀ n, t'.IsTerm n ↔ t.IsTerm n := (termEdit_iff.1 E).isTerm (onTerm_kind _)
  have hts : t'.terminals = t.terminals := by
    have sorted : ∀ t : Tree, t.terminals.Pairwise (· < ·) := fun t => (Graph.nodeIndices_sorted _).filter _
    refine ((List.perm_ext_iff_of_nodup terminals_nodup terminals_nodup).2 fun a => ?_).eq_of_pairwise ?_ (sorted t') (sorted t)
    · rw [mem_terminals, mem_terminals, hterm]
    · intro a b _ _ h1 h2
      omega
  refine ⟨t', _, h1, ?_⟩
  rw [h2, hts, E'.eq fun n x hx => ?_]
  rw [hts]
  cases hn : t.graph.node? n with
  | none => rw [E.none n hn] at hx; cases hx
  | some nd =>
    cases nd with
    | nt y => rw [E.nt n y hn] at hx; cases hx
    | term y =>
      rw [E.term n y hn] at hx
      cases hx
      exact posEdit_idem _ _ _ _

/-! ## Nothing left to do -/

theorem filterNonterminals_same {f : Tree → Nat → Bool} (h : ∀ n, t.IsNt n → n ≠ t.root → f t n = true) :
    t.filterNonterminals f = .ok (t, .ok ()) := by
  unfold filterNonterminals
  have hm : ∀ n ∈ t.nonterminals.filter (· ≠ t.root), f t n = true := by
    intro n hn
    rw [List.mem_filter, mem_nonterminals] at hn
    exact h n hn.1 (by simpa using hn.2)
  revert hm
  generalize t.nonterminals.filter (· ≠ t.root) = l
  induction l with
  | nil => intro _; rfl
  | cons n l ih =>
    intro hm
    rw [forE_cons_ok (s' := t)]
    · exact ih fun m h => hm m (by simp [h])
    · simp [hm n (by simp)]

theorem removeDummyNodes_same (W : t.WF) (h : ∀ n, IsDummy t n → n = t.root ∧ ∃ c d, c ≠ d ∧ t.IsChild n c ∧ t.IsChild n d) :
    t.removeDummyNodes = .ok (t, .ok ()) := by
  unfold removeDummyNodes
  rw [filterNonterminals_same]
  · obtain ⟨rn, hrn⟩ := W.shape.root_live
    simp only [Res.ok_bind, node_eq hrn]
    cases rn with
    | term x => rfl
    | nt x =>
      rw [if_neg]
      · rfl
      · rintro ⟨h1, h2⟩
        simp only [Node.nonterminal, decide_eq_true_eq] at h1
        obtain ⟨_, c, d, hcd, hc, hd⟩ := h t.root ⟨x, hrn, h1⟩
        obtain ⟨q, hq⟩ := List.length_eq_one_iff.1 h2
        have hc' := mem_children_fst.2 hc
        have hd' := mem_children_fst.2 hd
        rw [hq] at hc' hd'
        simp at hc' hd'
        exact hcd (hc'.trans hd'.symm)
  · rintro n ⟨x, hx⟩ hne
    rw [hx]
    simp only [Option.any_some, decide_eq_true_eq]
    intro hl
    exact hne (h n ⟨x, hx, hl⟩).1

theorem insertIntermediate_same (W : t.WF) (hr : t.IsNt t.root) {f : Tree → Nat → Option Str}
    (h : ∀ p c, t.IsChild p c → t.IsTerm c → f t p = none) : t.insertIntermediate f = .ok (t, .ok ()) := by
  unfold insertIntermediate
  obtain ⟨s, h1, h2, _⟩ := forE_rule (f := intermediateStep f) (fun as s => s.1 = t ∧ ∀ n ∈ as, t.IsTerm n) (by
    rintro n as ⟨t1, vis⟩ ⟨rfl, hn⟩
    have hT := hn n (by simp)
    have hne : n ≠ t1.root := by
      rintro rfl
      exact not_isTerm_isNt hT hr
    obtain ⟨p, e, k1, k2, k3, k4⟩ := W.shape.exists_parent hT.live hne
    have hp : ∃ e', t1.parent n = some (p, e') := by
      have := W.shape.exists_parent hT.live hne
      cases hh : t1.parent n with
      | none => exact absurd ⟨e, k1, k2, k3, k4⟩ (parent_none.1 hh p)
      | some q =>
        obtain ⟨r, l1, l2, l3, _, l5⟩ := parent_some (p := q.1) (e := q.2) (by rw [hh])
        have : q.1 = p := W.shape.isChild_unique (c := n) ⟨r, l1, l2, l3, l5⟩ ⟨e, k1, k2, k3, k4⟩
        exact ⟨q.2, by rw [← this]⟩
    obtain ⟨e', hp⟩ := hp
    by_cases hv : n ∈ vis
    · refine ⟨(t1, vis), ?_, rfl, fun m hm => hn m (by simp [hm])⟩
      unfold intermediateStep
      simp only [hv, if_true]
      rfl
    · refine ⟨(t1, insert n vis), ?_, rfl, fun m hm => hn m (by simp [hm])⟩
      unfold intermediateStep
      simp only [hv, if_false, hp, h p n ⟨e, k1, k2, k3, k4⟩ hT]
      rfl) t.terminals (t, ∅) ⟨rfl, fun n hn => mem_terminals.1 hn⟩
  rw [h1]
  simp only [Res.ok_bind]
  rw [h2]
  rfl

theorem removeEntry_absent {k : Str} {l : List (Str × Option Str)} (h : Features.lookupEntry k l = none) :
    Features.removeEntry k l = l := by
  induction l with
  | nil => rfl
  | cons e l ih =>
    unfold Features.lookupEntry at h
    unfold Features.removeEntry
    by_cases hk : k = e.1
    · simp [hk] at h
    · rw [if_neg hk] at h
      rw [if_neg hk, ih h]

/-- Nodes without the feature get an empty feature set if they have none. -/
theorem restoreUnaryChains_none (delim : Str)
    (h : ∀ n nd, t.graph.node? n = some nd → (nd.features.getD Features.empty).getVal unaryKey = none) :
    ∃ t', t.restoreUnaryChains delim = .ok (t', .ok ()) ∧
      NodeEdit t t' fun _ nd => nd.setFeatures (some (nd.features.getD Features.empty)) := by
  unfold restoreUnaryChains
  obtain ⟨t', h1, _, _, h2⟩ := forE_rule (f := restoreNode delim) (fun as t1 => as.Nodup ∧ (∀ n ∈ as, t.Live n) ∧
      NodeEdit t t1 fun n nd => if n ∈ as then nd else nd.setFeatures (some (nd.features.getD Features.empty))) (by
    rintro n as t1 ⟨hnd, hl, E⟩
    obtain ⟨nd, hn⟩ := hl n (by simp)
    have hn1 : t1.graph.node? n = some nd := by rw [E.node, hn]; simp
    refine ⟨t1.setNode n (nd.setFeatures (some (nd.features.getD Features.empty))), ?_, hnd.of_cons,
      fun m hm => hl m (by simp [hm]), (E.trans (NodeEdit.set hn1 _)).congr ?_⟩
    · unfold restoreNode
      have := h n nd hn
      unfold Features.getVal at this
      simp only [node_eq hn1, Res.ok_bind, Features.remove, Node.featuresMut, this, removeEntry_absent this]
      rfl
    · intro m nd' hm
      by_cases e : m = n
      · subst e
        rw [hn] at hm; cases hm
        simp [(List.nodup_cons.1 hnd).1]
      · simp [e]) t.graph.nodeIndices t ⟨Graph.nodeIndices_nodup _, fun n hn => Graph.mem_nodeIndices.1 hn,
      (NodeEdit.refl t).congr fun n nd hn => (if_pos (Graph.mem_nodeIndices.2 ⟨_, hn⟩)).symm⟩
  exact ⟨t', h1, h2.congr (by simp)⟩

end Tree
end Lumberjack
