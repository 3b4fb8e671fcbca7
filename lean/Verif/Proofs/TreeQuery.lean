import Verif.Proofs.TreeBasic
import Verif.Proofs.Res

/-!
# Reading functions on well-formed trees
-/

namespace Lumberjack
namespace Tree

open Relation

variable {t t' : Tree}

/-! ## Primary edges only -/

/-- The primary edges. -/
def primEdges (t : Tree) : List EdgeRec := t.graph.edges.filter (fun r => r.w.isPrimary)

theorem mem_primEdges {r : EdgeRec} :
    r ∈ t.primEdges ↔ r ∈ t.graph.edges ∧ r.w.isPrimary = true := by
  simp [primEdges]

theorem isChild_prim {p c : Nat} : t.IsChild p c ↔ ∃ r ∈ t.primEdges, r.src = p ∧ r.tgt = c := by
  rw [isChild_def]
  constructor
  · rintro ⟨r, h1, h2, h3, h4⟩; exact ⟨r, mem_primEdges.2 ⟨h1, h4⟩, h2, h3⟩
  · rintro ⟨r, h1, h2, h3⟩
    rw [mem_primEdges] at h1
    exact ⟨r, h1.1, h2, h3, h1.2⟩

theorem children_prim (n : Nat) :
    t.children n = (t.primEdges.filter (fun r => r.src = n)).map fun r => (r.tgt, r.id) := by
  unfold children Graph.outEdges primEdges
  rw [List.filter_filter, List.filter_filter]
  simp only [Bool.and_comm]

theorem parent_prim (n : Nat) :
    t.parent n = (t.primEdges.find? (fun r => r.tgt = n)).map fun r => (r.src, r.id) := by
  unfold parent Graph.inEdges primEdges
  rw [List.find?_filter, List.find?_filter]
  congr 2
  funext r
  simp only [Bool.and_comm, Bool.decide_and, Bool.decide_eq_true, decide_eq_true_eq]

theorem children_congr (h : t'.primEdges = t.primEdges) (n : Nat) : t'.children n = t.children n := by
  rw [children_prim, children_prim, h]

theorem parent_congr (h : t'.primEdges = t.primEdges) (n : Nat) : t'.parent n = t.parent n := by
  rw [parent_prim, parent_prim, h]

theorem isChild_congr (h : t'.primEdges = t.primEdges) {p c : Nat} :
    t'.IsChild p c ↔ t.IsChild p c := by rw [isChild_prim, isChild_prim, h]

theorem isChild_congr' (h : t'.primEdges = t.primEdges) : t'.IsChild = t.IsChild := by
  funext p c; exact propext (isChild_congr h)

theorem dom_congr (h : t'.IsChild = t.IsChild) : t'.Dom = t.Dom := by unfold Dom; rw [h]

theorem primEdges_congr (h : t'.graph.edges = t.graph.edges) : t'.primEdges = t.primEdges := by
  unfold primEdges; rw [h]

/-- Each node has at most one incoming primary edge. -/
def Uniq (t : Tree) : Prop := ∀ r₁ ∈ t.graph.edges, ∀ r₂ ∈ t.graph.edges, r₁.tgt = r₂.tgt →
    r₁.w.isPrimary = true → r₂.w.isPrimary = true → r₁ = r₂

theorem uniq_prim : t.Uniq ↔ ∀ r₁ ∈ t.primEdges, ∀ r₂ ∈ t.primEdges, r₁.tgt = r₂.tgt → r₁ = r₂ := by
  constructor
  · intro h r hr s hs e
    rw [mem_primEdges] at hr hs
    exact h r hr.1 s hs.1 e hr.2 hs.2
  · intro h r hr s hs e h1 h2
    exact h r (mem_primEdges.2 ⟨hr, h1⟩) s (mem_primEdges.2 ⟨hs, h2⟩) e

theorem Shape.congr (S : t.Shape) (he : t'.primEdges = t.primEdges) (hr : t'.root = t.root)
    (ht : ∀ n, t'.IsTerm n ↔ t.IsTerm n) (hn : ∀ n, t'.IsNt n ↔ t.IsNt n) : t'.Shape := by
  have hl : ∀ n, t'.Live n ↔ t.Live n := fun n => by rw [live_iff, live_iff, ht, hn]
  have hc : t'.IsChild = t.IsChild := isChild_congr' he
  have hd : t'.Dom = t.Dom := dom_congr hc
  constructor
  · rw [hl, hr]; exact S.root_live
  · rw [hc, hr]; exact S.root_top
  · show t'.Uniq
    rw [uniq_prim, he, ← uniq_prim]; exact S.unique
  · intro n h; rw [hd, hr]; exact S.reach n ((hl n).1 h)
  · intro n c h; rw [hc]; exact S.term_leaf n c ((ht n).1 h)
  · intro n h; rw [hc]; exact S.nt_child n ((hn n).1 h)

/-- A change of secondary edges only. -/
theorem WF.congr (W : t.WF) (hG : t'.graph.OK) (he : t'.primEdges = t.primEdges)
    (hr : t'.root = t.root) (hk : t'.nTerminals = t.nTerminals) (hm : t'.numDisc = t.numDisc)
    (hnode : ∀ n, t'.graph.node? n = t.graph.node? n) : t'.WF := by
  have hT : ∀ n, t'.IsTerm n ↔ t.IsTerm n := fun n => by unfold IsTerm; rw [hnode]
  have hN : ∀ n, t'.IsNt n ↔ t.IsNt n := fun n => by unfold IsNt; rw [hnode]
  have hA : ∀ n i, t'.TermAt n i ↔ t.TermAt n i := fun n i => by unfold TermAt; rw [hnode]
  have hd : t'.Dom = t.Dom := dom_congr (isChild_congr' he)
  refine ⟨hG, W.shape.congr he hr hT hN, ⟨?_, ?_, ?_⟩, ?_, ?_⟩
  · intro n h
    obtain ⟨i, h1, h2⟩ := W.sentence.pos n ((hT n).1 h)
    exact ⟨i, by rw [hk]; exact h1, (hA n i).2 h2⟩
  · intro i h
    rw [hk] at h
    obtain ⟨n, hn⟩ := W.sentence.occupied i h
    exact ⟨n, (hA n i).2 hn⟩
  · intro n m i h1 h2
    exact W.sentence.inj n m i ((hA n i).1 h1) ((hA m i).1 h2)
  · intro n x h
    rw [hnode] at h
    obtain ⟨h1, h2⟩ := W.spans n x h
    refine ⟨h1, fun i => ?_⟩
    rw [h2]
    unfold Covers
    simp only [hd, hA]
  · have hc := W.count
    rw [countOK_iff] at hc ⊢
    rw [hm, hc]
    congr 1
    ext n
    rw [mem_discSet, mem_discSet, Disc.congr (hnode n)]

/-! ## Spans of arbitrary nodes -/

theorem WF.span_spec (W : t.WF) {n : Nat} {nd : Node} (h : t.graph.node? n = some nd) :
    nd.span.Valid ∧ ∀ i, i ∈ nd.span.indices ↔ t.Covers n i := by
  cases nd with
  | nt x =>
    obtain ⟨h1, h2⟩ := W.spans n x h
    exact ⟨h1, fun i => by rw [← h2, Span.contains_iff]; rfl⟩
  | term x =>
    obtain ⟨i, _, y, hy, hs⟩ := W.sentence.pos n ⟨x, h⟩
    rw [h] at hy
    simp only [Option.some.injEq, Node.term.injEq] at hy
    subst hy
    have hs' : (Node.term x).span = Span.ofIdx i := hs
    rw [hs']
    refine ⟨Span.ofIdx_valid i, fun j => ?_⟩
    rw [Span.ofIdx_indices, Finset.mem_singleton, covers_term W.shape ⟨x, h⟩]
    constructor
    · rintro rfl; exact ⟨x, h, hs⟩
    · intro hj; exact hj.pos_unique ⟨x, h, hs⟩

/-- Two nodes neither of which dominates the other cover disjoint sets of positions. -/
theorem covers_disjoint (S : t.Shape) (hinj : ∀ n m i, t.TermAt n i → t.TermAt m i → n = m)
    {a b i : Nat} (ha : t.Covers a i) (hb : t.Covers b i) : t.Dom a b ∨ t.Dom b a := by
  obtain ⟨m, h1, h2⟩ := ha
  obtain ⟨m', h3, h4⟩ := hb
  rw [hinj m m' i h2 h4] at h1
  exact S.dom_linear h1 h3

theorem Shape.siblings_not_dom (G : t.graph.OK) (S : t.Shape) {p a b : Nat} (ha : t.IsChild p a)
    (hb : t.IsChild p b) (hd : t.Dom a b) : a = b := by
  rcases hd.cases_parent with h | ⟨c, hac, hcb⟩
  · exact h.symm
  · have := S.isChild_unique hcb hb
    subst this
    exact absurd (TransGen.head' ha hac) (S.acyclic G c)

/-! ## Climbing -/

theorem climberNext_cons (S : t.Shape) {n p : Nat} (h : t.IsChild p n) :
    ∃ e, t.climberNext (t.parent n) = (some (p, e), t.parent p) := by
  obtain ⟨e, he⟩ := S.parent_of_isChild h
  exact ⟨e, by rw [he]; rfl⟩

theorem climberNext_nil {n : Nat} (h : ∀ p, ¬ t.IsChild p n) :
    t.climberNext (t.parent n) = (none, none) := by
  rw [parent_none.2 h]; rfl

theorem climb_loop (S : t.Shape) {l : List Nat} : ∀ {n : Nat} (acc : List Nat) (fuel : Nat),
    t.Anc n l → l.length < fuel →
    loopM (fun (s : Option (Nat × Nat) × List Nat) =>
      match t.climberNext s.1 with
      | (some (x, _), cur') => .ok (.inl (cur', s.2 ++ [x]))
      | (none, _) => .ok (.inr s.2)) fuel (t.parent n, acc) = .ok (acc ++ l) := by
  induction l with
  | nil =>
    intro n acc fuel h hf
    obtain ⟨k, rfl⟩ : ∃ k, fuel = k + 1 := ⟨fuel - 1, by omega⟩
    rw [loopM_succ_inr (b := acc)]
    · simp
    · simp only [climberNext_nil h]
  | cons p l ih =>
    intro n acc fuel h hf
    obtain ⟨k, rfl⟩ : ∃ k, fuel = k + 1 := ⟨fuel - 1, by omega⟩
    obtain ⟨e, he⟩ := climberNext_cons S h.1
    rw [loopM_succ_inl (s' := (t.parent p, acc ++ [p]))]
    · rw [ih (acc ++ [p]) k h.2 (by simpa using hf)]; simp
    · simp only [he]

theorem climb_eq (G : t.graph.OK) (S : t.Shape) {n : Nat} {l : List Nat} (hn : t.Live n)
    (h : t.Anc n l) : t.climb n = .ok l := by
  unfold climb climberNew
  exact climb_loop S [] _ h (by have := h.length_lt G S hn; unfold climbFuel; omega)

theorem closestMatch_loop (S : t.Shape) (f : Tree → Nat → Bool) {l : List Nat} :
    ∀ {n : Nat} (fuel : Nat), t.Anc n l → l.length < fuel →
    loopM (fun (cur : Option (Nat × Nat)) =>
      match t.climberNext cur with
      | (some (x, _), cur') => if f t x then .ok (.inr (some x)) else .ok (.inl cur')
      | (none, _) => .ok (.inr none)) fuel (t.parent n) = .ok (l.find? (f t)) := by
  induction l with
  | nil =>
    intro n fuel h hf
    obtain ⟨k, rfl⟩ : ∃ k, fuel = k + 1 := ⟨fuel - 1, by omega⟩
    rw [loopM_succ_inr (b := none)]
    · rfl
    · simp only [climberNext_nil h]
  | cons p l ih =>
    intro n fuel h hf
    obtain ⟨k, rfl⟩ : ∃ k, fuel = k + 1 := ⟨fuel - 1, by omega⟩
    obtain ⟨e, he⟩ := climberNext_cons S h.1
    by_cases hp : f t p = true
    · rw [loopM_succ_inr (b := some p)]
      · simp [hp]
      · simp only [he, hp, if_true]
    · rw [loopM_succ_inl (s' := t.parent p)]
      · rw [ih k h.2 (by simpa using hf)]; simp [hp]
      · simp only [he]; rw [if_neg hp]

theorem closestMatch_eq (G : t.graph.OK) (S : t.Shape) (f : Tree → Nat → Bool) {n : Nat}
    {l : List Nat} (hn : t.Live n) (h : t.Anc n l) :
    t.closestMatch f n = .ok (l.find? (f t)) := by
  unfold closestMatch climberNew
  exact closestMatch_loop S f _ h (by have := h.length_lt G S hn; unfold climbFuel; omega)

/-! ## Siblings -/

theorem mem_siblings (S : t.Shape) {n m : Nat} :
    m ∈ (t.siblings n).map (·.1) ↔ m ≠ n ∧ ∃ p, t.IsChild p n ∧ t.IsChild p m := by
  unfold siblings
  cases hp : t.parent n with
  | none =>
    simp only [List.map_nil, List.not_mem_nil, false_iff, not_and, not_exists]
    rintro _ p h1
    exact absurd h1 (parent_none.1 hp p)
  | some pe =>
    obtain ⟨p, e⟩ := pe
    have hc := parent_isChild hp
    simp only [ne_eq, decide_not, List.mem_map, List.mem_filter, Bool.not_eq_true',
      decide_eq_false_iff_not]
    constructor
    · rintro ⟨c, ⟨h1, h2⟩, rfl⟩
      exact ⟨h2, p, hc, isChild_of_mem_children h1⟩
    · rintro ⟨h2, q, hq, hm⟩
      have := S.isChild_unique hq hc
      subst this
      obtain ⟨c, hc1, hc2⟩ := List.mem_map.1 (mem_children_fst.2 hm)
      exact ⟨c, ⟨hc1, by rw [hc2]; exact h2⟩, hc2⟩

theorem siblings_nodup (G : t.graph.OK) (S : t.Shape) (n : Nat) :
    ((t.siblings n).map (·.1)).Nodup := by
  unfold siblings
  split
  · exact (children_nodup G S _).sublist (List.Sublist.map _ List.filter_sublist)
  · simp

theorem siblings_length_zero (S : t.Shape) {n : Nat} :
    (t.siblings n).length = 0 ↔ ∀ p m, t.IsChild p n → t.IsChild p m → m = n := by
  rw [List.length_eq_zero_iff]
  constructor
  · intro h p m h1 h2
    by_contra hne
    have := (mem_siblings S (n := n) (m := m)).2 ⟨hne, p, h1, h2⟩
    rw [h] at this
    simp at this
  · intro h
    rw [← List.map_eq_nil_iff (f := (·.1)), List.eq_nil_iff_forall_not_mem]
    intro m hm
    obtain ⟨hne, p, h1, h2⟩ := (mem_siblings S).1 hm
    exact hne (h p m h1 h2)

/-! ## Sorting -/

theorem orderedInsert_congr {α : Type} {r r' : α → α → Prop} [DecidableRel r] [DecidableRel r']
    (a : α) (l : List α) (h : ∀ b ∈ l, r a b ↔ r' a b) :
    l.orderedInsert r a = l.orderedInsert r' a := by
  induction l with
  | nil => rfl
  | cons b l ih =>
    simp only [List.orderedInsert]
    have hb := h b (by simp)
    by_cases hr : r a b
    · rw [if_pos hr, if_pos (hb.1 hr)]
    · rw [if_neg hr, if_neg (fun h' => hr (hb.2 h')), ih (fun x hx => h x (by simp [hx]))]

theorem insertionSort_congr {α : Type} {r r' : α → α → Prop} [DecidableRel r] [DecidableRel r']
    (l : List α) (h : ∀ a ∈ l, ∀ b ∈ l, r a b ↔ r' a b) :
    l.insertionSort r = l.insertionSort r' := by
  induction l with
  | nil => rfl
  | cons a l ih =>
    show (l.insertionSort r).orderedInsert r a = (l.insertionSort r').orderedInsert r' a
    rw [ih (fun x hx y hy => h x (by simp [hx]) y (by simp [hy]))]
    refine orderedInsert_congr a _ (fun b hb => h a (by simp) b ?_)
    rw [List.mem_insertionSort] at hb
    simp [hb]

theorem cmpStr_self (s : Str) : cmpStr s s = .eq := by
  unfold cmpStr compareOfLessAndEq
  simp

theorem cmpNodes_self (n : Nat) : t.cmpNodes n n = .eq := by
  unfold cmpNodes
  cases h : t.graph.node? n with
  | none => rfl
  | some nd =>
    have : Span.cmp nd.span nd.span = .eq := by unfold Span.cmp; simp
    simp only [this]
    cases nd with
    | nt x => simp [cmpStr_self]
    | term x => simp [cmpStr_self]

theorem cmpNodes_of_start {a b : Nat} (ha : t.Live a) (hb : t.Live b)
    (h : t.startOf a ≠ t.startOf b) : t.cmpNodes a b = compare (t.startOf a) (t.startOf b) := by
  obtain ⟨na, ha⟩ := ha
  obtain ⟨nb, hb⟩ := hb
  have ea : t.startOf a = na.span.start := by unfold startOf; rw [ha]
  have eb : t.startOf b = nb.span.start := by unfold startOf; rw [hb]
  rw [ea, eb] at h ⊢
  unfold cmpNodes
  rw [ha, hb]
  have hc : Span.cmp na.span nb.span = compare na.span.start nb.span.start := by
    unfold Span.cmp; rw [if_pos h]
  simp only [hc]
  cases hcc : compare na.span.start nb.span.start with
  | lt => rfl
  | gt => rfl
  | eq => exact absurd (Nat.compare_eq_eq.1 hcc) h

theorem cmpNodes_le_iff {a b : Nat} (ha : t.Live a) (hb : t.Live b)
    (h : t.startOf a = t.startOf b → a = b) :
    t.cmpNodes a b ≠ .gt ↔ t.startOf a ≤ t.startOf b := by
  by_cases e : t.startOf a = t.startOf b
  · have := h e
    subst this
    rw [cmpNodes_self]
    simp
  · rw [cmpNodes_of_start ha hb e, ne_eq, Nat.compare_eq_gt]
    omega

/-- `sort_indices` sorts nodes with pairwise different first positions by first position. -/
theorem sortIndices_spec {l : List Nat} (hl : ∀ a ∈ l, t.Live a)
    (hinj : ∀ a ∈ l, ∀ b ∈ l, t.startOf a = t.startOf b → a = b) :
    (t.sortIndices l).Perm l ∧
      (t.sortIndices l).Pairwise (fun a b => t.startOf a ≤ t.startOf b) := by
  unfold sortIndices
  refine ⟨List.perm_insertionSort _ _, ?_⟩
  rw [insertionSort_congr (r' := fun a b => t.startOf a ≤ t.startOf b) l
    (fun a ha b hb => cmpNodes_le_iff (hl a ha) (hl b hb) (hinj a ha b hb))]
  have hT : Std.Total (fun a b => t.startOf a ≤ t.startOf b) := ⟨fun a b => Nat.le_total _ _⟩
  have hTr : IsTrans Nat (fun a b => t.startOf a ≤ t.startOf b) := ⟨fun a b c h1 h2 => Nat.le_trans h1 h2⟩
  exact List.pairwise_insertionSort _ _

theorem sortIndices_perm (l : List Nat) : (t.sortIndices l).Perm l := List.perm_insertionSort _ _

theorem sortIndices_strict {l : List Nat} (hl : ∀ a ∈ l, t.Live a) (hnd : l.Nodup)
    (hinj : ∀ a ∈ l, ∀ b ∈ l, t.startOf a = t.startOf b → a = b) :
    (t.sortIndices l).Pairwise (fun a b => t.startOf a < t.startOf b) := by
  obtain ⟨hp, hs⟩ := sortIndices_spec hl hinj
  have hnd' : (t.sortIndices l).Nodup := hp.nodup_iff.2 hnd
  have : (t.sortIndices l).Pairwise (fun a b => t.startOf a ≤ t.startOf b ∧ a ≠ b) := hs.and hnd'
  refine this.imp_of_mem (fun {a b} ha hb h => ?_)
  rcases Nat.lt_or_ge (t.startOf a) (t.startOf b) with h' | h'
  · exact h'
  · exact absurd (hinj a (hp.mem_iff.1 ha) b (hp.mem_iff.1 hb) (by omega)) h.2

/-- The sorted permutation is unique. -/
theorem eq_of_perm_sorted {f : Nat → Nat} {l l' : List Nat} (hp : l.Perm l')
    (h1 : l.Pairwise (fun a b => f a < f b)) (h2 : l'.Pairwise (fun a b => f a < f b)) : l = l' := by
  refine List.Perm.eq_of_pairwise (le := fun a b => f a < f b) ?_ h1 h2 hp
  intro a b _ _ h h'
  omega

/-! ## Terminals -/

theorem mem_terminals {n : Nat} : n ∈ t.terminals ↔ t.IsTerm n := by
  unfold terminals IsTerm
  rw [List.mem_filter, Graph.mem_nodeIndices]
  constructor
  · rintro ⟨⟨nd, h⟩, h2⟩
    rw [h] at h2
    cases nd with
    | nt x => simp [Node.isTerminal] at h2
    | term x => exact ⟨x, h⟩
  · rintro ⟨x, h⟩
    exact ⟨⟨_, h⟩, by rw [h]; rfl⟩

theorem mem_nonterminals {n : Nat} : n ∈ t.nonterminals ↔ t.IsNt n := by
  unfold nonterminals IsNt
  rw [List.mem_filter, Graph.mem_nodeIndices]
  constructor
  · rintro ⟨⟨nd, h⟩, h2⟩
    rw [h] at h2
    cases nd with
    | nt x => exact ⟨x, h⟩
    | term x => simp [Node.isTerminal] at h2
  · rintro ⟨x, h⟩
    exact ⟨⟨_, h⟩, by rw [h]; rfl⟩

theorem terminals_sorted : t.terminals.Pairwise (· < ·) := by
  unfold terminals Graph.nodeIndices
  exact (List.pairwise_lt_range.filter _).filter _

theorem terminals_nodup : t.terminals.Nodup := (Graph.nodeIndices_nodup _).filter _
theorem nonterminals_nodup : t.nonterminals.Nodup := (Graph.nodeIndices_nodup _).filter _

theorem TermAt.startOf {n i : Nat} (h : t.TermAt n i) : t.startOf n = i := by
  obtain ⟨x, hx, hs⟩ := h
  unfold Tree.startOf
  rw [hx]
  show x.span.start = i
  rw [hs]; rfl

theorem Sentence.termAt (Z : t.Sentence) {n : Nat} (h : t.IsTerm n) : t.TermAt n (t.startOf n) := by
  obtain ⟨i, _, hi⟩ := Z.pos n h
  rw [hi.startOf]; exact hi

theorem Sentence.startOf_inj (Z : t.Sentence) {n m : Nat} (hn : t.IsTerm n) (hm : t.IsTerm m)
    (h : t.startOf n = t.startOf m) : n = m :=
  Z.inj n m _ (Z.termAt hn) (h ▸ Z.termAt hm)

theorem Sentence.startOf_lt (Z : t.Sentence) {n : Nat} (hn : t.IsTerm n) :
    t.startOf n < t.nTerminals := by
  obtain ⟨i, h1, hi⟩ := Z.pos n hn
  rw [hi.startOf]; exact h1

/-- The terminals in sentence order. -/
theorem sorted_terminals_positions (Z : t.Sentence) :
    (t.sortIndices t.terminals).map t.startOf = List.range t.nTerminals := by
  have hl : ∀ a ∈ t.terminals, t.IsTerm a := fun a ha => mem_terminals.1 ha
  have hs := sortIndices_strict (t := t) (l := t.terminals) (fun a ha => (hl a ha).live) terminals_nodup
    (fun a ha b hb => Z.startOf_inj (hl a ha) (hl b hb))
  have hp := sortIndices_perm (t := t) t.terminals
  have h1 : ((t.sortIndices t.terminals).map t.startOf).Pairwise (· < ·) := List.pairwise_map.2 hs
  have h2 : (List.range t.nTerminals).Pairwise (· < ·) := List.pairwise_lt_range
  have hperm : ((t.sortIndices t.terminals).map t.startOf).Perm (List.range t.nTerminals) := by
    rw [List.perm_ext_iff_of_nodup (h1.imp (fun h => Nat.ne_of_lt h)) List.nodup_range]
    intro i
    rw [List.mem_map, List.mem_range]
    constructor
    · rintro ⟨n, hn, rfl⟩
      exact Z.startOf_lt (hl n (hp.mem_iff.1 hn))
    · intro hi
      obtain ⟨n, hn⟩ := Z.occupied i hi
      exact ⟨n, hp.mem_iff.2 (mem_terminals.2 hn.isTerm), hn.startOf⟩
  exact eq_of_perm_sorted (f := id) hperm h1 h2

theorem sorted_terminals_length (Z : t.Sentence) :
    (t.sortIndices t.terminals).length = t.nTerminals := by
  have := congrArg List.length (sorted_terminals_positions Z)
  simpa using this

theorem sorted_terminals_get (Z : t.Sentence) {n i : Nat} (h : t.TermAt n i) :
    (t.sortIndices t.terminals)[i]? = some n := by
  have hmem : n ∈ t.sortIndices t.terminals :=
    (sortIndices_perm _).mem_iff.2 (mem_terminals.2 h.isTerm)
  obtain ⟨k, hk, hkn⟩ := List.mem_iff_getElem.1 hmem
  have h1 : ((t.sortIndices t.terminals).map t.startOf)[k]? = some i := by
    rw [List.getElem?_map, List.getElem?_eq_getElem hk, hkn, ← h.startOf]; rfl
  rw [sorted_terminals_positions Z] at h1
  have hki : k = i := by
    rw [List.getElem?_eq_some_iff] at h1
    obtain ⟨h2, h3⟩ := h1
    simpa using h3
  subst hki
  rw [List.getElem?_eq_getElem hk, hkn]

end Tree
end Lumberjack
