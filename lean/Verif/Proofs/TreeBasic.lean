import Verif.Proofs.Graph
import Verif.Proofs.Span

/-!
# Basic facts about well-formed trees
-/

namespace Lumberjack
namespace Tree

open Relation

variable {t : Tree}

theorem isChild_def {p c : Nat} : t.IsChild p c ↔
    ∃ r ∈ t.graph.edges, r.src = p ∧ r.tgt = c ∧ r.w.isPrimary = true := Iff.rfl

/-! ## Parents and children -/

theorem parent_some {n p e : Nat} (h : t.parent n = some (p, e)) :
    ∃ r ∈ t.graph.edges, r.src = p ∧ r.tgt = n ∧ r.id = e ∧ r.w.isPrimary = true := by
  unfold parent at h
  cases hf : (t.graph.inEdges n).find? (fun r => r.w.isPrimary) with
  | none => rw [hf] at h; simp at h
  | some r =>
    rw [hf] at h
    simp only [Option.map_some, Option.some.injEq, Prod.mk.injEq] at h
    have h1 := List.mem_of_find?_eq_some hf
    have h2 := List.find?_some hf
    simp only [Graph.inEdges, List.mem_filter, decide_eq_true_eq] at h1
    exact ⟨r, h1.1, h.1, h1.2, h.2, h2⟩

theorem parent_isChild {n p e : Nat} (h : t.parent n = some (p, e)) : t.IsChild p n := by
  obtain ⟨r, hr, h1, h2, _, h4⟩ := parent_some h
  exact ⟨r, hr, h1, h2, h4⟩

theorem parent_none {n : Nat} : t.parent n = none ↔ ∀ p, ¬ t.IsChild p n := by
  unfold parent
  rw [Option.map_eq_none_iff, List.find?_eq_none]
  constructor
  · rintro h p ⟨r, hr, h1, h2, h3⟩
    exact h r (by simp [Graph.inEdges, hr, h2]) h3
  · intro h r hr hp
    simp only [Graph.inEdges, List.mem_filter, decide_eq_true_eq] at hr
    exact h r.src ⟨r, hr.1, rfl, hr.2, hp⟩

theorem parent_ne_none {n p : Nat} (h : t.IsChild p n) : ∃ q e, t.parent n = some (q, e) := by
  cases hp : t.parent n with
  | none => exact absurd h (parent_none.1 hp p)
  | some x => exact ⟨x.1, x.2, rfl⟩

theorem Shape.isChild_unique (S : t.Shape) {a b c : Nat} (h1 : t.IsChild a c) (h2 : t.IsChild b c) :
    a = b := by
  obtain ⟨r, hr, rfl, hr2, hr3⟩ := h1
  obtain ⟨s, hs, rfl, hs2, hs3⟩ := h2
  rw [S.unique r hr s hs (hr2.trans hs2.symm) hr3 hs3]

theorem Shape.parent_of_edge (S : t.Shape) {r : EdgeRec} (hr : r ∈ t.graph.edges)
    (hp : r.w.isPrimary = true) : t.parent r.tgt = some (r.src, r.id) := by
  obtain ⟨q, e, h⟩ := parent_ne_none (t := t) ⟨r, hr, rfl, rfl, hp⟩
  obtain ⟨s, hs, h1, h2, h3, h4⟩ := parent_some h
  have := S.unique s hs r hr h2 h4 hp
  subst this
  rw [h, h1, h3]

theorem Shape.parent_of_isChild (S : t.Shape) {n p : Nat} (h : t.IsChild p n) :
    ∃ e, t.parent n = some (p, e) := by
  obtain ⟨q, e, hq⟩ := parent_ne_none h
  exact ⟨e, by rw [hq, S.isChild_unique (parent_isChild hq) h]⟩

theorem mem_children {n c e : Nat} : (c, e) ∈ t.children n ↔
    ∃ r ∈ t.graph.edges, r.src = n ∧ r.tgt = c ∧ r.id = e ∧ r.w.isPrimary = true := by
  unfold children
  simp only [List.mem_map, List.mem_filter, Graph.outEdges, decide_eq_true_eq, Prod.mk.injEq]
  constructor
  · rintro ⟨r, ⟨⟨h1, h2⟩, h3⟩, h4, h5⟩
    exact ⟨r, h1, h2, h4, h5, h3⟩
  · rintro ⟨r, h1, h2, h4, h5, h3⟩
    exact ⟨r, ⟨⟨h1, h2⟩, h3⟩, h4, h5⟩

theorem mem_children_fst {n c : Nat} : c ∈ (t.children n).map (·.1) ↔ t.IsChild n c := by
  rw [List.mem_map]
  constructor
  · rintro ⟨⟨c', e⟩, h, rfl⟩
    obtain ⟨r, h1, h2, h3, _, h5⟩ := mem_children.1 h
    exact ⟨r, h1, h2, h3, h5⟩
  · rintro ⟨r, h1, h2, h3, h5⟩
    exact ⟨(c, r.id), mem_children.2 ⟨r, h1, h2, h3, rfl, h5⟩, rfl⟩

theorem isChild_of_mem_children {n : Nat} {c : Nat × Nat} (h : c ∈ t.children n) : t.IsChild n c.1 :=
  mem_children_fst.1 (List.mem_map.2 ⟨c, h, rfl⟩)

theorem primaryNeighbors_eq (g : Graph) (n : Nat) (a b c : Nat) :
    g.primaryNeighbors n = ((⟨g, a, b, c⟩ : Tree).children n).map (·.1) := by
  unfold Graph.primaryNeighbors children
  simp

theorem mem_primaryNeighbors {g : Graph} {n c : Nat} :
    c ∈ g.primaryNeighbors n ↔ g.IsChild n c := by
  rw [primaryNeighbors_eq g n 0 0 0]
  exact mem_children_fst

theorem edges_nodup (G : t.graph.OK) : t.graph.edges.Nodup := List.Nodup.of_map _ G.ids_nodup

theorem children_nodup (G : t.graph.OK) (S : t.Shape) (n : Nat) :
    ((t.children n).map (·.1)).Nodup := by
  unfold children
  rw [List.map_map]
  have hnd : ((t.graph.outEdges n).filter (fun r => r.w.isPrimary)).Nodup :=
    ((edges_nodup G).filter _).filter _
  apply List.Nodup.map_on _ hnd
  intro r hr s hs he
  simp only [List.mem_filter, Graph.outEdges, decide_eq_true_eq] at hr hs
  exact S.unique r hr.1.1 s hs.1.1 he hr.2 hs.2

/-! ## Node kinds -/

theorem live_iff {n : Nat} : t.Live n ↔ t.IsTerm n ∨ t.IsNt n := by
  constructor
  · rintro ⟨nd, h⟩
    cases nd with
    | nt x => exact .inr ⟨x, h⟩
    | term x => exact .inl ⟨x, h⟩
  · rintro (⟨x, h⟩ | ⟨x, h⟩)
    · exact ⟨_, h⟩
    · exact ⟨_, h⟩

theorem IsTerm.live {n : Nat} (h : t.IsTerm n) : t.Live n := live_iff.2 (.inl h)
theorem IsNt.live {n : Nat} (h : t.IsNt n) : t.Live n := live_iff.2 (.inr h)

theorem not_isTerm_isNt {n : Nat} (h1 : t.IsTerm n) (h2 : t.IsNt n) : False := by
  obtain ⟨x, hx⟩ := h1
  obtain ⟨y, hy⟩ := h2
  rw [hx] at hy
  simp at hy

theorem TermAt.isTerm {n i : Nat} (h : t.TermAt n i) : t.IsTerm n := ⟨h.choose, h.choose_spec.1⟩

theorem ofIdx_inj {i j : Nat} (h : Span.ofIdx i = Span.ofIdx j) : i = j := congrArg Span.start h

theorem TermAt.pos_unique {n i j : Nat} (h1 : t.TermAt n i) (h2 : t.TermAt n j) : i = j := by
  obtain ⟨x, hx, hs⟩ := h1
  obtain ⟨y, hy, hs'⟩ := h2
  rw [hx] at hy
  simp only [Option.some.injEq, Node.term.injEq] at hy
  subst hy
  exact ofIdx_inj (hs.symm.trans hs')

theorem isChild_live (G : t.graph.OK) {p c : Nat} (h : t.IsChild p c) : t.Live p ∧ t.Live c :=
  Graph.IsChild.live G h

theorem Shape.parent_isNt (G : t.graph.OK) (S : t.Shape) {p c : Nat} (h : t.IsChild p c) :
    t.IsNt p := by
  rcases live_iff.1 (isChild_live G h).1 with ht | hn
  · exact absurd h (S.term_leaf p c ht)
  · exact hn

/-! ## Dominance -/

theorem Dom.refl {n : Nat} : t.Dom n n := ReflTransGen.refl
theorem Dom.trans {a b c : Nat} (h1 : t.Dom a b) (h2 : t.Dom b c) : t.Dom a c := ReflTransGen.trans h1 h2
theorem Dom.single {a b : Nat} (h : t.IsChild a b) : t.Dom a b := ReflTransGen.single h
theorem Dom.tail {a b c : Nat} (h1 : t.Dom a b) (h2 : t.IsChild b c) : t.Dom a c := ReflTransGen.tail h1 h2
theorem Dom.head {a b c : Nat} (h1 : t.IsChild a b) (h2 : t.Dom b c) : t.Dom a c := ReflTransGen.head h1 h2

theorem Dom.live (G : t.graph.OK) {a b : Nat} (h : t.Dom a b) (ha : t.Live a) : t.Live b := by
  induction h with
  | refl => exact ha
  | tail _ h _ => exact (isChild_live G h).2

theorem Dom.live_left (G : t.graph.OK) {a b : Nat} (h : t.Dom a b) (hb : t.Live b) : t.Live a := by
  rcases ReflTransGen.cases_head h with rfl | ⟨c, hc, _⟩
  · exact hb
  · exact (isChild_live G hc).1

theorem transGen_iff {a b : Nat} : TransGen t.IsChild a b ↔ ∃ c, t.Dom a c ∧ t.IsChild c b := by
  rw [TransGen.tail'_iff]; rfl

theorem Shape.acyclic (G : t.graph.OK) (S : t.Shape) (n : Nat) : ¬ TransGen t.IsChild n n := by
  intro hcyc
  have hlive : t.Live n := by
    obtain ⟨c, _, hc⟩ := transGen_iff.1 hcyc
    exact (isChild_live G hc).2
  have key : ∀ m, t.Dom t.root m → ¬ TransGen t.IsChild m m := by
    intro m hm
    induction hm with
    | refl =>
      intro h
      obtain ⟨c, _, hc⟩ := transGen_iff.1 h
      exact S.root_top c hc
    | @tail a b _ hab ih =>
      intro h
      obtain ⟨c, hbc, hcb⟩ := transGen_iff.1 h
      have := S.isChild_unique hcb hab
      subst this
      exact ih (TransGen.head' hcb hbc)
  exact key n (S.reach n hlive) hcyc

theorem Shape.dom_antisymm (G : t.graph.OK) (S : t.Shape) {a b : Nat} (h1 : t.Dom a b) (h2 : t.Dom b a) :
    a = b := by
  by_contra hne
  rcases ReflTransGen.cases_head h1 with rfl | ⟨c, hac, hcb⟩
  · exact hne rfl
  · exact S.acyclic G a (TransGen.head' hac (hcb.trans h2))

theorem Shape.not_isChild_self (G : t.graph.OK) (S : t.Shape) (n : Nat) : ¬ t.IsChild n n :=
  fun h => S.acyclic G n (TransGen.single h)

theorem Shape.dom_linear (S : t.Shape) {a b n : Nat} (h1 : t.Dom a n) (h2 : t.Dom b n) :
    t.Dom a b ∨ t.Dom b a := by
  induction h1 with
  | refl => exact .inr h2
  | @tail c d hac hcd ih =>
    rcases ReflTransGen.cases_tail h2 with rfl | ⟨e, hbe, hed⟩
    · exact .inl (Dom.tail hac hcd)
    · have := S.isChild_unique hed hcd
      subst this
      exact ih hbe

theorem Shape.dom_term (S : t.Shape) {n m : Nat} (hn : t.IsTerm n) (h : t.Dom n m) : m = n := by
  rcases ReflTransGen.cases_head h with rfl | ⟨c, hc, _⟩
  · rfl
  · exact absurd hc (S.term_leaf n c hn)

theorem Dom.cases_child {a b : Nat} (h : t.Dom a b) : a = b ∨ ∃ c, t.IsChild a c ∧ t.Dom c b := by
  rcases ReflTransGen.cases_head h with h | ⟨c, hc, hd⟩
  · exact .inl h
  · exact .inr ⟨c, hc, hd⟩

theorem Dom.cases_parent {a b : Nat} (h : t.Dom a b) : b = a ∨ ∃ c, t.Dom a c ∧ t.IsChild c b := by
  rcases ReflTransGen.cases_tail h with h | ⟨c, hc, hd⟩
  · exact .inl h
  · exact .inr ⟨c, hc, hd⟩

theorem covers_term (S : t.Shape) {n i : Nat} (hn : t.IsTerm n) : t.Covers n i ↔ t.TermAt n i := by
  constructor
  · rintro ⟨m, hd, hm⟩
    rw [S.dom_term hn hd] at hm
    exact hm
  · intro h; exact ⟨n, Dom.refl, h⟩

theorem covers_nt {n i : Nat} (hn : t.IsNt n) :
    t.Covers n i ↔ ∃ c, t.IsChild n c ∧ t.Covers c i := by
  constructor
  · rintro ⟨m, hd, hm⟩
    rcases hd.cases_child with rfl | ⟨c, hc, hd⟩
    · exact absurd hn (fun h => not_isTerm_isNt hm.isTerm h)
    · exact ⟨c, hc, m, hd, hm⟩
  · rintro ⟨c, hc, m, hd, hm⟩
    exact ⟨m, Dom.head hc hd, hm⟩

theorem covers_dom {a b i : Nat} (h : t.Dom a b) (hb : t.Covers b i) : t.Covers a i := by
  obtain ⟨m, hd, hm⟩ := hb
  exact ⟨m, h.trans hd, hm⟩

/-! ## Climbing -/

/-- `l` lists the ancestors of `n` from its parent to the top. -/
def Anc (t : Tree) : Nat → List Nat → Prop
  | n, [] => ∀ p, ¬ t.IsChild p n
  | n, p :: l => t.IsChild p n ∧ Anc t p l

theorem Shape.exists_anc (S : t.Shape) {n : Nat} (hn : t.Live n) : ∃ l, t.Anc n l := by
  have := S.reach n hn
  induction this with
  | refl => exact ⟨[], S.root_top⟩
  | @tail a b hra hab ih =>
    by_cases ha : t.Live a
    · obtain ⟨l, hl⟩ := ih ha
      exact ⟨a :: l, hab, hl⟩
    · -- endpoints of edges are live only under `Graph.OK`; the induction itself never needs it
      have key : ∀ m, t.Dom t.root m → ∃ l, t.Anc m l := by
        intro m hm
        induction hm with
        | refl => exact ⟨[], S.root_top⟩
        | tail _ h ih => obtain ⟨l, hl⟩ := ih; exact ⟨_ :: l, h, hl⟩
      exact key b (Dom.tail hra hab)

theorem Anc.mem {n : Nat} {l : List Nat} (h : t.Anc n l) {m : Nat} (hm : m ∈ l) :
    TransGen t.IsChild m n := by
  induction l generalizing n with
  | nil => simp at hm
  | cons p l ih =>
    rcases List.mem_cons.1 hm with rfl | hm
    · exact TransGen.single h.1
    · exact TransGen.tail (ih h.2 hm) h.1

theorem Anc.mem_iff (S : t.Shape) {n : Nat} {l : List Nat} (h : t.Anc n l) {m : Nat} :
    m ∈ l ↔ TransGen t.IsChild m n := by
  refine ⟨h.mem, fun hm => ?_⟩
  induction l generalizing n with
  | nil =>
    obtain ⟨c, _, hc⟩ := transGen_iff.1 hm
    exact absurd hc (h c)
  | cons p l ih =>
    obtain ⟨c, hd, hc⟩ := transGen_iff.1 hm
    have := S.isChild_unique hc h.1
    subst this
    rcases Dom.cases_parent hd with rfl | ⟨d, hd', hdc⟩
    · simp
    · exact List.mem_cons_of_mem _ (ih h.2 (transGen_iff.2 ⟨d, hd', hdc⟩))

theorem Anc.nodup (G : t.graph.OK) (S : t.Shape) {n : Nat} {l : List Nat} (h : t.Anc n l) :
    (n :: l).Nodup := by
  induction l generalizing n with
  | nil => simp
  | cons p l ih =>
    rw [List.nodup_cons]
    exact ⟨fun hm => S.acyclic G n (h.mem hm), ih h.2⟩

theorem Anc.live (G : t.graph.OK) {n : Nat} {l : List Nat} (h : t.Anc n l) {m : Nat} (hm : m ∈ l) :
    t.Live m := by
  obtain ⟨c, hd, hc⟩ := transGen_iff.1 (h.mem hm)
  exact hd.live_left G (isChild_live G hc).1

theorem length_le_of_nodup {l : List Nat} {k : Nat} (hnd : l.Nodup) (hlt : ∀ x ∈ l, x < k) :
    l.length ≤ k := by
  have := (List.subperm_of_subset hnd (fun x hx => List.mem_range.2 (hlt x hx))).length_le
  simpa using this

theorem Anc.length_lt (G : t.graph.OK) (S : t.Shape) {n : Nat} {l : List Nat} (hn : t.Live n)
    (h : t.Anc n l) : l.length < t.graph.nodes.length := by
  have := length_le_of_nodup (h.nodup G S) (k := t.graph.nodes.length) (by
    intro x hx
    rcases List.mem_cons.1 hx with rfl | hx
    · exact Graph.Live.lt hn
    · exact Graph.Live.lt (h.live G hx))
  simpa using this

theorem Anc.unique (S : t.Shape) {n : Nat} {l l' : List Nat} (h : t.Anc n l) (h' : t.Anc n l') :
    l = l' := by
  induction l generalizing n l' with
  | nil =>
    cases l' with
    | nil => rfl
    | cons p l' => exact absurd h'.1 (h p)
  | cons p l ih =>
    cases l' with
    | nil => exact absurd h.1 (h' p)
    | cons q l' =>
      have := S.isChild_unique h.1 h'.1
      subst this
      rw [ih h.2 h'.2]

/-- The last ancestor is the root. -/
theorem Anc.last_root (S : t.Shape) {n : Nat} {l : List Nat} (hn : t.Live n) (h : t.Anc n l) :
    (n :: l).getLast (by simp) = t.root := by
  have hr := S.reach n hn
  have key : ∀ m, t.Dom t.root m → ∀ l, t.Anc m l → (m :: l).getLast (by simp) = t.root := by
    intro m hm
    induction hm with
    | refl =>
      intro l hl
      cases l with
      | nil => rfl
      | cons p l => exact absurd hl.1 (S.root_top p)
    | @tail a b _ hab ih =>
      intro l hl
      cases l with
      | nil => exact absurd hab (hl a)
      | cons p l =>
        have := S.isChild_unique hl.1 hab
        subst this
        rw [List.getLast_cons (by simp)]
        exact ih l hl.2
  exact key n hr l h

theorem Shape.root_of_no_parent (S : t.Shape) {n : Nat} (hn : t.Live n) (h : ∀ p, ¬ t.IsChild p n) :
    n = t.root := by
  rcases (S.reach n hn).cases_parent with h' | ⟨c, _, hc⟩
  · exact h'
  · exact absurd hc (h c)

theorem Shape.exists_parent (S : t.Shape) {n : Nat} (hn : t.Live n) (h : n ≠ t.root) :
    ∃ p, t.IsChild p n := by
  by_contra hno
  push Not at hno
  exact h (S.root_of_no_parent hn hno)

/-! ## Induction from the leaves -/

/-- Depth of a node: the number of its proper ancestors. -/
noncomputable def depth (t : Tree) (n : Nat) : Nat :=
  open Classical in if h : ∃ l, t.Anc n l then h.choose.length else 0

theorem depth_eq (S : t.Shape) {n : Nat} {l : List Nat} (h : t.Anc n l) : t.depth n = l.length := by
  unfold depth
  have he : ∃ l, t.Anc n l := ⟨l, h⟩
  rw [dif_pos he, Anc.unique S he.choose_spec h]

theorem depth_child (G : t.graph.OK) (S : t.Shape) {p c : Nat} (h : t.IsChild p c) :
    t.depth c = t.depth p + 1 := by
  obtain ⟨l, hl⟩ := S.exists_anc (isChild_live G h).1
  rw [depth_eq S hl, depth_eq S (l := p :: l) ⟨h, hl⟩]
  rfl

theorem depth_lt (G : t.graph.OK) (S : t.Shape) {n : Nat} (h : t.Live n) :
    t.depth n < t.graph.nodes.length := by
  obtain ⟨l, hl⟩ := S.exists_anc h
  rw [depth_eq S hl]
  exact hl.length_lt G S h

theorem depth_root (S : t.Shape) : t.depth t.root = 0 := by
  rw [depth_eq S (l := []) S.root_top]; rfl

/-- Induction from the leaves upwards: a property holds of every node if it holds of a node
whenever it holds of all its children. -/
theorem Shape.induction_up (G : t.graph.OK) (S : t.Shape) {P : Nat → Prop}
    (h : ∀ n, t.Live n → (∀ c, t.IsChild n c → P c) → P n) : ∀ n, t.Live n → P n := by
  have key : ∀ k n, t.Live n → t.graph.nodes.length - t.depth n ≤ k → P n := by
    intro k
    induction k with
    | zero =>
      intro n hn hk
      have := depth_lt G S hn
      omega
    | succ k ih =>
      intro n hn hk
      refine h n hn (fun c hc => ih c (isChild_live G hc).2 ?_)
      have := depth_child G S hc
      have := depth_lt G S (isChild_live G hc).2
      omega
  intro n hn
  exact key _ n hn le_rfl

/-- Every node of a tree with nonterminals having children dominates a terminal. -/
theorem Shape.exists_terminal (G : t.graph.OK) (S : t.Shape) : ∀ n, t.Live n →
    ∃ m, t.Dom n m ∧ t.IsTerm m := by
  refine S.induction_up G (fun n hn ih => ?_)
  rcases live_iff.1 hn with ht | hnt
  · exact ⟨n, Dom.refl, ht⟩
  · obtain ⟨c, hc⟩ := S.nt_child n hnt
    obtain ⟨m, hm, htm⟩ := ih c hc
    exact ⟨m, Dom.head hc hm, htm⟩

/-! ## The set of discontinuous nodes -/

/-- The discontinuous nonterminals. -/
def discSet (t : Tree) : Finset Nat := (Finset.range t.graph.nodes.length).filter t.Disc

theorem mem_discSet {n : Nat} : n ∈ t.discSet ↔ t.Disc n := by
  unfold discSet
  rw [Finset.mem_filter, Finset.mem_range]
  refine ⟨fun h => h.2, fun h => ⟨?_, h⟩⟩
  obtain ⟨x, hx, _⟩ := h
  exact Graph.lt_of_node? hx

theorem countOK_iff : t.CountOK ↔ t.numDisc = t.discSet.card := Iff.rfl

theorem Disc.congr {t t' : Tree} {n : Nat} (h : t'.graph.node? n = t.graph.node? n) :
    t'.Disc n ↔ t.Disc n := by unfold Disc; rw [h]

theorem isProjective_iff (h : t.CountOK) : t.isProjective = true ↔ ∀ n, ¬ t.Disc n := by
  unfold isProjective
  rw [decide_eq_true_iff, h]
  show t.discSet.card = 0 ↔ _
  rw [Finset.card_eq_zero]
  constructor
  · intro h n hn
    have := mem_discSet.2 hn
    rw [h] at this
    simp at this
  · intro h
    ext n
    rw [mem_discSet]
    simp [h n]

end Tree
end Lumberjack
