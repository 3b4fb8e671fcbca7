import Verif.Spec.Holds
import Verif.Proofs.NegraCopy
import Verif.Proofs.Alike

/-!
# A copy is written as the same text
-/

namespace Lumberjack

theorem loopM_more {σ β : Type} {step : σ → Res (σ ⊕ β)} : ∀ (k : Nat) (s : σ) (b : β), loopM step k s = .ok b →
    ∀ j, k ≤ j → loopM step j s = .ok b := by
  intro k
  induction k with
  | zero => intro s b h; simp [loopM] at h
  | succ k ih =>
    intro s b h j hj
    obtain ⟨j, rfl⟩ : ∃ i, j = i + 1 := ⟨j - 1, by omega⟩
    simp only [loopM] at h ⊢
    cases hs : step s with
    | panic => rw [hs] at h; cases h
    | diverge => rw [hs] at h; cases h
    | ok r =>
      rw [hs] at h
      cases r with
      | inl s' => exact ih s' b h j (by omega)
      | inr b' => exact h

namespace Negra

open Lumberjack.Tree

variable {t t' : Tree} {id : Nat} {info : Option Str} {φ : Nat → Nat}

theorem featSame_featOf {f g : Option Features} (h : Forest.FeatSame f g) (k : Str) : featOf f k = featOf g k := by
  have key : ∀ f : Option Features, featOf f k = ((f.getD Features.empty).getVal k).bind id := by
    intro f
    cases f with
    | none => rfl
    | some f => rfl
  rw [key, key, show f.getD Features.empty = g.getD Features.empty from h]

theorem terminalRep_features {x : Terminal} {f : Option Features} (h : Forest.FeatSame x.features f) :
    terminalRep { x with features := f } = terminalRep x := by
  have := featSame_featOf h morphKey
  unfold featOf at this
  unfold terminalRep
  simp only [this]

theorem nonterminalRep_features {x : NonTerminal} {f : Option Features} (h : Forest.FeatSame x.features f) (s : Str) :
    nonterminalRep s { x with features := f } = nonterminalRep s x := by
  have : Ptb.annotation { x with features := f } = Ptb.annotation x := (featSame_featOf h _).symm
  unfold nonterminalRep
  simp only [this]

theorem termAt_lt (W : t.WF) {n i : Nat} (h : t.TermAt n i) : i < t.nTerminals := by
  obtain ⟨j, hj, h'⟩ := W.sentence.pos n h.isTerm
  obtain ⟨x, hx, hi⟩ := h
  obtain ⟨y, hy, hj'⟩ := h'
  rw [hx] at hy
  injection hy with hy
  injection hy with hy
  subst hy
  exact ofIdx_inj (hi.symm.trans hj') ▸ hj

/-- What a copy has in common with the tree besides the content of the root. -/
structure Body (t t' : Tree) (φ : Nat → Nat) : Prop where
  wf : t'.WF
  root : t'.root = φ t.root
  root_nt : t'.IsNt t'.root
  inj : ∀ n m, t.Live n → t.Live m → φ n = φ m → n = m
  onto : ∀ n', t'.Live n' → ∃ n, t.Live n ∧ φ n = n'
  terms : ∀ n x, t.graph.node? n = some (.term x) → ∃ f, t'.graph.node? (φ n) = some (.term { x with features := f }) ∧
    Forest.FeatSame x.features f
  nts : ∀ n x, n ≠ t.root → t.graph.node? n = some (.nt x) →
    ∃ f, t'.graph.node? (φ n) = some (.nt { x with features := f }) ∧ Forest.FeatSame x.features f
  primary : ∀ p n l, t.Live p → t.Live n →
    ((∃ e ∈ t.graph.edges, e.src = p ∧ e.tgt = n ∧ e.w = .primary l) ↔
      ∃ e ∈ t'.graph.edges, e.src = φ p ∧ e.tgt = φ n ∧ e.w = .primary l)
  second : ∀ n p l, t.Live n → n ≠ t.root → t.Live p → (FirstSecondary t n p l ↔ FirstSecondary t' (φ n) (φ p) l)
  sources : ∀ r ∈ t'.graph.edges, r.w.isPrimary = false → t'.IsNt r.src

/-- The first secondary parents, given the edges. -/
theorem second_of (W : t.WF) (W' : t'.WF) (inj : ∀ n m, t.Live n → t.Live m → φ n = φ m → n = m)
    (sec_from : ∀ e' ∈ t'.graph.edges, e'.w.isPrimary = false →
      ∃ e ∈ t.graph.edges, t.secondaryParent e.tgt = some (e.src, e.id) ∧ φ e.src = e'.src ∧ φ e.tgt = e'.tgt ∧ e.w = e'.w)
    (sec_to : ∀ e ∈ t.graph.edges, e.w.isPrimary = false → e.tgt ≠ t.root →
      ∃ e' ∈ t'.graph.edges, e'.w.isPrimary = false ∧ e'.tgt = φ e.tgt) (n p : Nat) (l : Option Str) (hn : t.Live n)
    (hr : n ≠ t.root) (hp : t.Live p) : FirstSecondary t n p l ↔ FirstSecondary t' (φ n) (φ p) l := by
  constructor
  · rintro ⟨e, h1, h2, rfl, h4⟩
    obtain ⟨r, k1, k2, k3, k4, k5⟩ := secondaryParent_some h2
    obtain rfl := List.inj_on_of_nodup_map W.graph.ids_nodup k1 h1 k4
    obtain ⟨r', g1, g2, g3⟩ := sec_to r k1 k5 (k3 ▸ hr)
    cases hq : t'.secondaryParent (φ n) with
    | none =>
      rw [secondaryParent_none hq r' g1 (k3 ▸ g3)] at g2
      cases g2
    | some x =>
      obtain ⟨q, i⟩ := x
      obtain ⟨e', m1, m2, m3, m4, m5⟩ := secondaryParent_some hq
      obtain ⟨e0, j1, j2, j3, j4, j5⟩ := sec_from e' m1 m5
      have : e0.tgt = n := inj _ _ (W.graph.ends e0 j1).2 hn (j4.trans m3)
      rw [this, h2] at j2
      simp only [Option.some.injEq, Prod.mk.injEq] at j2
      obtain rfl := List.inj_on_of_nodup_map W.graph.ids_nodup j1 k1 j2.2.symm
      exact ⟨e', m1, by rw [hq, m2, m4], j3.symm, by rw [← j5, h4]⟩
  · rintro ⟨e', h1, h2, h3, h4⟩
    obtain ⟨r, k1, k2, k3, k4, k5⟩ := secondaryParent_some h2
    obtain rfl := List.inj_on_of_nodup_map W'.graph.ids_nodup k1 h1 k4
    obtain ⟨e, j1, j2, j3, j4, j5⟩ := sec_from r k1 k5
    have e1 : e.tgt = n := inj _ _ (W.graph.ends e j1).2 hn (j4.trans k3)
    have e2 : e.src = p := inj _ _ (W.graph.ends e j1).1 hp (j3.trans h3)
    exact ⟨e, j1, by rw [← e1, j2], e2, by rw [j5, h4]⟩

theorem Copy.body (C : Copy id info t t' φ) (W : t.WF)
    (hs : ∀ r ∈ t.graph.edges, r.w.isPrimary = false → t.IsNt r.src) : Body t t' φ := by
  refine ⟨C.wf, C.root, ⟨_, C.root_node.choose_spec.2⟩, C.inj, C.onto, C.terms, C.nts, C.primary,
    second_of W C.wf C.inj C.sec_from C.sec_to, ?_⟩
  intro r h1 h2
  obtain ⟨e, g1, _, g3, _, g5⟩ := C.sec_from r h1 h2
  rw [← g3]
  obtain ⟨x, hx⟩ := hs e g1 (g5 ▸ h2)
  by_cases k : e.src = t.root
  · rw [k, ← C.root]
    exact ⟨_, C.root_node.choose_spec.2⟩
  · obtain ⟨f, h, _⟩ := C.nts _ x k hx
    exact ⟨_, h⟩

namespace Body

variable (C : Body t t' φ) (W : t.WF)

include C

theorem child {p n : Nat} (hp : t.Live p) (hn : t.Live n) : t'.IsChild (φ p) (φ n) ↔ t.IsChild p n := by
  constructor
  · rintro ⟨e, h1, h2, h3, h4⟩
    cases hw : e.w with
    | secondary l => rw [hw] at h4; cases h4
    | primary l =>
      obtain ⟨e, g1, g2, g3, g4⟩ := (C.primary p n l hp hn).2 ⟨e, h1, h2, h3, hw⟩
      exact ⟨e, g1, g2, g3, by rw [g4]; rfl⟩
  · rintro ⟨e, g1, g2, g3, g4⟩
    cases hw : e.w with
    | secondary l => rw [hw] at g4; cases g4
    | primary l =>
      obtain ⟨e, k1, k2, k3, k4⟩ := (C.primary p n l hp hn).1 ⟨e, g1, g2, g3, hw⟩
      exact ⟨e, k1, k2, k3, by rw [k4]; rfl⟩

theorem live {n : Nat} (hn : t.Live n) : t'.Live (φ n) := by
  obtain ⟨nd, hnd⟩ := hn
  cases nd with
  | term x =>
    obtain ⟨f, h, _⟩ := C.terms n x hnd
    exact ⟨_, h⟩
  | nt x =>
    by_cases hr : n = t.root
    · subst hr
      obtain ⟨_, h⟩ := C.root_nt
      rw [C.root] at h
      exact ⟨_, h⟩
    · obtain ⟨f, h, _⟩ := C.nts n x hr hnd
      exact ⟨_, h⟩

theorem isTerminal {n : Nat} (hn : t.Live n) :
    (t'.graph.node? (φ n)).any Node.isTerminal = (t.graph.node? n).any Node.isTerminal := by
  obtain ⟨nd, hnd⟩ := hn
  cases nd with
  | term x =>
    obtain ⟨f, h, _⟩ := C.terms n x hnd
    rw [h, hnd]; rfl
  | nt x =>
    by_cases hr : n = t.root
    · subst hr
      obtain ⟨_, h⟩ := C.root_nt
      rw [C.root] at h
      rw [h, hnd]; rfl
    · obtain ⟨f, h, _⟩ := C.nts n x hr hnd
      rw [h, hnd]; rfl

theorem termAt {n i : Nat} (h : t.TermAt n i) : t'.TermAt (φ n) i := by
  obtain ⟨x, hx, hi⟩ := h
  obtain ⟨f, h, _⟩ := C.terms n x hx
  exact ⟨_, h, hi⟩

theorem termAt_from {n' i : Nat} (h : t'.TermAt n' i) : ∃ n, φ n = n' ∧ t.TermAt n i := by
  have h0 := h
  obtain ⟨x', hx', hi⟩ := h
  obtain ⟨n, hn, rfl⟩ := C.onto n' ⟨_, hx'⟩
  refine ⟨n, rfl, ?_⟩
  obtain ⟨nd, hnd⟩ := hn
  cases nd with
  | term x =>
    obtain ⟨f, h, _⟩ := C.terms n x hnd
    rw [hx'] at h
    injection h with h
    injection h with h
    subst h
    exact ⟨x, hnd, hi⟩
  | nt x =>
    have := C.isTerminal ⟨_, hnd⟩
    rw [hx', hnd] at this
    cases this

include W

theorem nTerminals : t'.nTerminals = t.nTerminals := by
  have key : ∀ i, i < t.nTerminals ↔ i < t'.nTerminals := by
    intro i
    constructor
    · intro h
      obtain ⟨n, hn⟩ := W.sentence.occupied i h
      exact termAt_lt C.wf (C.termAt hn)
    · intro h
      obtain ⟨n, hn⟩ := C.wf.sentence.occupied i h
      obtain ⟨m, _, hm⟩ := C.termAt_from hn
      exact termAt_lt W hm
  rcases Nat.lt_trichotomy t.nTerminals t'.nTerminals with h | h | h
  · have := (key t.nTerminals).2 h; omega
  · exact h.symm
  · have := (key t'.nTerminals).1 h; omega

theorem sorted : t'.sortIndices t'.terminals = (t.sortIndices t.terminals).map φ := by
  refine List.ext_getElem? fun i => ?_
  by_cases h : i < t.nTerminals
  · obtain ⟨n, hn⟩ := W.sentence.occupied i h
    rw [List.getElem?_map, sorted_terminals_get W.sentence hn, sorted_terminals_get C.wf.sentence (C.termAt hn)]
    rfl
  · rw [List.getElem?_eq_none, List.getElem?_eq_none]
    · rw [List.length_map, sorted_terminals_length W.sentence]; omega
    · rw [sorted_terminals_length C.wf.sentence, C.nTerminals W]; omega

/-- The parents of corresponding nodes correspond. -/
theorem parents {n : Nat} (hn : t.Live n) : (t.parent n = none ∧ t'.parent (φ n) = none) ∨
    ∃ p e e' l, t.Live p ∧ t.parent n = some (p, e) ∧ t'.parent (φ n) = some (φ p, e') ∧ t.edge e = .ok (.primary l) ∧
      t'.edge e' = .ok (.primary l) := by
  cases hp : t.parent n with
  | none =>
    refine .inl ⟨rfl, parent_none.2 fun p' hp' => ?_⟩
    obtain ⟨r, h1, h2, h3, h4⟩ := hp'
    obtain ⟨p, hl, e⟩ := C.onto p' (h2 ▸ (C.wf.graph.ends r h1).1)
    subst e
    exact parent_none.1 hp p ((C.child hl hn).1 ⟨r, h1, h2, h3, h4⟩)
  | some x =>
    obtain ⟨p, e⟩ := x
    obtain ⟨r, h1, h2, h3, h4, h5⟩ := parent_some hp
    have hl : t.Live p := h2 ▸ (W.graph.ends r h1).1
    cases hw : r.w with
    | secondary l => rw [hw] at h5; cases h5
    | primary l =>
      obtain ⟨r', g1, g2, g3, g4⟩ := (C.primary p n l hl hn).1 ⟨r, h1, h2, h3, hw⟩
      obtain ⟨e', he'⟩ := C.wf.shape.parent_of_isChild (⟨r', g1, g2, g3, by rw [g4]; rfl⟩ : t'.IsChild (φ p) (φ n))
      obtain ⟨r'', k1, k2, k3, k4, k5⟩ := parent_some he'
      have h1' := C.wf.shape.edgeLabel_of_edge g1 (by rw [g4]; rfl)
      have h2' := C.wf.shape.edgeLabel_of_edge k1 k5
      rw [g3] at h1'
      rw [k3, h1', g4] at h2'
      refine .inr ⟨p, e, e', l, hl, rfl, he', ?_, ?_⟩
      · rw [← h4, edge_ok W.graph h1, hw]
      · rw [← k4, edge_ok C.wf.graph k1]
        cases hw' : r''.w with
        | secondary l => rw [hw'] at k5; cases k5
        | primary l' =>
          rw [hw'] at h2'
          simp at h2'
          rw [h2']

/-- The secondary parents of corresponding nodes correspond. -/
theorem seconds {n : Nat} (hn : t.Live n) (hr : n ≠ t.root) : (t.secondaryParent n = none ∧ t'.secondaryParent (φ n) = none) ∨
    ∃ p e e' w, t.Live p ∧ t.secondaryParent n = some (p, e) ∧ t'.secondaryParent (φ n) = some (φ p, e') ∧ t.edge e = .ok w ∧
      t'.edge e' = .ok w ∧ ∃ r ∈ t.graph.edges, r.src = p ∧ r.w.isPrimary = false := by
  cases hp : t'.secondaryParent (φ n) with
  | none =>
    refine .inl ⟨?_, rfl⟩
    cases hs : t.secondaryParent n with
    | none => rfl
    | some x =>
      obtain ⟨p, e⟩ := x
      obtain ⟨r, h1, h2, h3, h4, h5⟩ := secondaryParent_some hs
      cases hw : r.w with
      | primary l => rw [hw] at h5; cases h5
      | secondary l =>
        obtain ⟨e', g1, g2, _⟩ := (C.second n r.src l hn hr (W.graph.ends r h1).1).1 ⟨r, h1, by rw [hs, h2, h4], rfl, hw⟩
        rw [hp] at g2
        cases g2
  | some x =>
    obtain ⟨p', e'⟩ := x
    obtain ⟨r', h1, h2, h3, h4, h5⟩ := secondaryParent_some hp
    obtain ⟨p, hl, e⟩ := C.onto p' (h2 ▸ (C.wf.graph.ends r' h1).1)
    cases hw : r'.w with
    | primary l => rw [hw] at h5; cases h5
    | secondary l =>
      obtain ⟨r, g1, g2, g3, g4⟩ := (C.second n p l hn hr hl).2 ⟨r', h1, by rw [hp, h2, h4], by rw [h2, e], hw⟩
      refine .inr ⟨r.src, r.id, e', r.w, (W.graph.ends r g1).1, g2, ?_, edge_ok W.graph g1, ?_, r, g1, rfl, by rw [g4]; rfl⟩
      · rw [g3, e]
      · rw [g4, ← h4, edge_ok C.wf.graph h1, hw]

theorem all_children {p : Nat} (hp : t.Live p) {f f' : Nat → Bool} (h : ∀ n, t.Live n → f' (φ n) = f n) :
    (t'.children (φ p)).all (fun c => f' c.1) = (t.children p).all (fun c => f c.1) := by
  rw [Bool.eq_iff_iff, List.all_eq_true, List.all_eq_true]
  constructor
  · rintro hh ⟨c, e⟩ hc
    obtain ⟨r, h1, h2, h3, _, h5⟩ := mem_children.1 hc
    have hl : t.Live c := h3 ▸ (W.graph.ends r h1).2
    have := (C.child hp hl).2 ⟨r, h1, h2, h3, h5⟩
    obtain ⟨⟨d, e'⟩, hd, rfl⟩ := List.mem_map.1 (mem_children_fst.2 this)
    rw [← h c hl]
    exact hh (φ c, e') hd
  · rintro hh ⟨c', e⟩ hc
    obtain ⟨r, h1, h2, h3, _, h5⟩ := mem_children.1 hc
    obtain ⟨c, hl, rfl⟩ := C.onto c' (h3 ▸ (C.wf.graph.ends r h1).2)
    have := (C.child hp hl).1 ⟨r, h1, h2, h3, h5⟩
    obtain ⟨⟨d, e'⟩, hd, rfl⟩ := List.mem_map.1 (mem_children_fst.2 this)
    rw [h d hl]
    exact hh (d, e') hd

theorem initialQueue {ns : List Nat} (hl : ∀ n ∈ ns, t.Live n) :
    Negra.initialQueue t' (ns.map φ) = (Negra.initialQueue t ns).map φ ∧ ∀ n ∈ Negra.initialQueue t ns, t.Live n := by
  induction ns with
  | nil => exact ⟨rfl, by simp [Negra.initialQueue]⟩
  | cons n ns ih =>
    obtain ⟨i1, i2⟩ := ih fun m hm => hl m (by simp [hm])
    rw [List.map_cons]
    unfold Negra.initialQueue
    rcases C.parents W (hl n (by simp)) with ⟨h1, h2⟩ | ⟨p, e, e', l, h0, h1, h2, _, _⟩
    · simp only [h1, h2]
      exact ⟨i1, i2⟩
    · simp only [h1, h2]
      rw [C.all_children W h0 (f := fun k => (t.graph.node? k).any Node.isTerminal)
        (f' := fun k => (t'.graph.node? k).any Node.isTerminal) (fun n hn => C.isTerminal hn)]
      split
      · refine ⟨by rw [List.map_cons, i1], ?_⟩
        intro m hm
        rcases List.mem_cons.1 hm with rfl | hm
        · exact h0
        · exact i2 m hm
      · exact ⟨i1, i2⟩

/-- Corresponding states of the numbering. -/
structure States (t : Tree) (φ : Nat → Nat) (s s' : NumState) : Prop where
  queue : s'.queue = s.queue.map φ
  live : ∀ n ∈ s.queue, t.Live n
  visited : ∀ n, t.Live n → (φ n ∈ s'.visited ↔ n ∈ s.visited)
  nts : s'.nts = s.nts.map φ

theorem step {s s' : NumState} (h : States t φ s s') :
    Rel (Sum.LiftRel (States t φ) (States t φ)) (numberStep t s) (numberStep t' s') := by
  unfold numberStep
  rw [h.queue]
  cases hq : s.queue with
  | nil =>
    simp only [List.map_nil]
    exact .ok (.inr h)
  | cons n q =>
    have hl := h.live n (by simp [hq])
    have hlq : ∀ m ∈ q, t.Live m := fun m hm => h.live m (by simp [hq, hm])
    have hroot : t'.root = φ n ↔ t.root = n := by
      rw [C.root]
      exact ⟨fun e => C.inj _ _ W.shape.root_live hl e, fun e => by rw [e]⟩
    have hins : ∀ m, t.Live m → (φ m ∈ insert (φ n) s'.visited ↔ m ∈ insert n s.visited) := by
      intro m hm
      rw [Finset.mem_insert, Finset.mem_insert, h.visited m hm]
      exact or_congr ⟨C.inj m n hm hl, fun e => by rw [e]⟩ Iff.rfl
    simp only [List.map_cons, h.visited n hl, hroot]
    split
    · exact .ok (.inl ⟨rfl, hlq, hins, h.nts⟩)
    · refine .ok (.inl ⟨?_, ?_, hins, by rw [h.nts]; simp⟩)
      · dsimp only
        rcases C.parents W hl with ⟨h1, h2⟩ | ⟨p, e, e', l, h0, h1, h2, _, _⟩
        · simp only [h1, h2]
        · simp only [h1, h2]
          rw [C.all_children W h0 (f := fun k => decide (k ∈ insert n s.visited))
            (f' := fun k => decide (k ∈ insert (φ n) s'.visited)) (fun m hm => by rw [decide_eq_decide]; exact hins m hm)]
          split <;> rfl
      · dsimp only
        rcases C.parents W hl with ⟨h1, h2⟩ | ⟨p, e, e', l, h0, h1, h2, _, _⟩
        · simp only [h1]; exact hlq
        · simp only [h1]
          split
          · intro m hm
            rcases List.mem_cons.1 hm with rfl | hm
            · exact h0
            · exact hlq m hm
          · exact hlq

theorem number {ns : List Nat} (hl : ∀ n ∈ ns, t.Live n) {s s' : NumState} (h : Negra.number t ns = .ok s)
    (h' : Negra.number t' (ns.map φ) = .ok s') : s'.nts = s.nts.map φ := by
  unfold Negra.number at h h'
  simp only at h h'
  obtain ⟨q1, q2⟩ := C.initialQueue W hl
  have k := loopM_more _ _ _ h _ (Nat.le_max_left _ ((Negra.initialQueue t' (ns.map φ)).length + t'.graph.nodes.length + 1))
  have k' := loopM_more _ _ _ h' _ (Nat.le_max_right ((Negra.initialQueue t ns).length + t.graph.nodes.length + 1) _)
  refine (Rel.loop (R := States t φ) (S := States t φ) (fun a b hab => C.step W hab) _ _ _ ⟨q1, q2, ?_, rfl⟩ s s' k k').nts
  intro n hn
  simp only [List.mem_toFinset, List.mem_map]
  constructor
  · rintro ⟨m, hm, e⟩
    exact C.inj m n (hl m hm) hn e ▸ hm
  · intro h; exact ⟨n, h, rfl⟩

theorem num {nts : List Nat} (hl : ∀ n ∈ nts, t.Live n) {n : Nat} (hn : t.Live n) :
    Negra.num t' (nts.map φ) (φ n) = Negra.num t nts n := by
  unfold Negra.num
  have hroot : φ n = t'.root ↔ n = t.root := by
    rw [C.root]
    exact ⟨fun e => C.inj _ _ hn W.shape.root_live e, fun e => by rw [e]⟩
  have hidx : (nts.map φ).idxOf (φ n) = nts.idxOf n := by
    induction nts with
    | nil => rfl
    | cons a nts ih =>
      have ha := hl a (by simp)
      rw [List.map_cons, List.idxOf_cons, List.idxOf_cons, ih fun m hm => hl m (by simp [hm])]
      have : (φ a == φ n) = (a == n) := by
        rw [Bool.eq_iff_iff, beq_iff_eq, beq_iff_eq]
        exact ⟨C.inj a n ha hn, fun e => by rw [e]⟩
      rw [this]
  simp only [hroot, hidx]

theorem parentEdgeRep {nts : List Nat} (B : BottomUp t nts) (B' : BottomUp t' (nts.map φ))
    (hs : ∀ r ∈ t.graph.edges, r.w.isPrimary = false → t.IsNt r.src) {n : Nat} (hn : t.Live n) (hr : n ≠ t.root) :
    Negra.parentEdgeRep t' (idsOf t'.root (nts.map φ)) (φ n) = Negra.parentEdgeRep t (idsOf t.root nts) n := by
  have hl : ∀ n ∈ nts, t.Live n := fun n h => live_iff.2 (.inr ((B.mem n).1 h).1)
  have hlook : ∀ q, t.IsNt q →
      lookupId (idsOf t'.root (nts.map φ)) (φ q) = lookupId (idsOf t.root nts) q := by
    intro q hq
    have hq' : t.Live q := live_iff.2 (.inr hq)
    rw [lookupId_idsOf (fun h => ((B.mem _).1 h).2 rfl)
        (by by_cases e : q = t.root; exact .inl e; exact .inr ((B.mem q).2 ⟨hq, e⟩)),
      lookupId_idsOf (fun h => ((B'.mem _).1 h).2 rfl)
        (by
          by_cases e : q = t.root
          · exact .inl (by rw [e, C.root])
          · exact .inr (List.mem_map.2 ⟨q, (B.mem q).2 ⟨hq, e⟩, rfl⟩))]
    exact congrArg (fun k => some (natToStr k)) (C.num W hl hq')
  unfold Negra.parentEdgeRep
  rcases C.parents W hn with ⟨h1, _⟩ | ⟨p, e, e', l, h0, h1, h2, h3, h4⟩
  · obtain ⟨p, hp⟩ := W.shape.exists_parent hn hr
    exact absurd hp (parent_none.1 h1 p)
  · have hpn : t.IsNt p := by
      obtain ⟨r, k1, k2, k3, _, k5⟩ := parent_some h1
      exact W.shape.parent_isNt W.graph ⟨r, k1, k2, k3, k5⟩
    simp only [h1, h2, Res.ofOption_some, Res.ok_bind, h3, h4, hlook p hpn]
    rcases C.seconds W hn hr with ⟨k1, k2⟩ | ⟨q, f, f', w, _, k1, k2, k3, k4, r, g1, g2, g3⟩
    · simp only [k1, k2]
    · simp only [k1, k2, k3, k4, Res.ok_bind, hlook q (g2 ▸ hs r g1 g3)]

theorem terminalLines {nts : List Nat} (B : BottomUp t nts) (B' : BottomUp t' (nts.map φ)) (hr : t.IsNt t.root)
    (hs : ∀ r ∈ t.graph.edges, r.w.isPrimary = false → t.IsNt r.src) {ns : List Nat} (hns : ∀ n ∈ ns, t.IsTerm n) :
    Negra.terminalLines t' (idsOf t'.root (nts.map φ)) (ns.map φ) = Negra.terminalLines t (idsOf t.root nts) ns := by
  induction ns with
  | nil => rfl
  | cons n ns ih =>
    obtain ⟨x, hx⟩ := hns n (by simp)
    obtain ⟨f, hf, hfs⟩ := C.terms n x hx
    have hp := C.parentEdgeRep W B B' hs (n := n) ⟨_, hx⟩ (fun e => not_isTerm_isNt ⟨x, hx⟩ (e ▸ hr))
    simp only [List.map_cons, Negra.terminalLines, node_eq hx, node_eq hf, Node.terminal, Res.ok_bind, Res.ofOption_some, hp,
      ih fun m hm => hns m (by simp [hm]), terminalRep_features hfs]

theorem nonterminalLines {nts : List Nat} (B : BottomUp t nts) (B' : BottomUp t' (nts.map φ))
    (hs : ∀ r ∈ t.graph.edges, r.w.isPrimary = false → t.IsNt r.src) {ns : List Nat} (hns : ∀ n ∈ ns, n ∈ nts) :
    Negra.nonterminalLines t' (idsOf t'.root (nts.map φ)) (ns.map φ) = Negra.nonterminalLines t (idsOf t.root nts) ns := by
  have hl : ∀ n ∈ nts, t.Live n := fun n h => live_iff.2 (.inr ((B.mem n).1 h).1)
  induction ns with
  | nil => rfl
  | cons n ns ih =>
    have hm := hns n (by simp)
    obtain ⟨⟨x, hx⟩, hne⟩ := (B.mem n).1 hm
    obtain ⟨f, hf, hfs⟩ := C.nts n x hne hx
    have hp := C.parentEdgeRep W B B' hs (n := n) ⟨_, hx⟩ hne
    have h1 : lookupId (idsOf t.root nts) n = some (Tree.natToStr (Negra.num t nts n)) :=
      lookupId_idsOf (fun h => ((B.mem _).1 h).2 rfl) (.inr hm)
    have h2 : lookupId (idsOf t'.root (nts.map φ)) (φ n) = some (Tree.natToStr (Negra.num t' (nts.map φ) (φ n))) :=
      lookupId_idsOf (fun h => ((B'.mem _).1 h).2 rfl) (.inr (List.mem_map.2 ⟨n, hm, rfl⟩))
    rw [C.num W hl ⟨_, hx⟩] at h2
    simp only [List.map_cons, Negra.nonterminalLines, node_eq hx, node_eq hf, Node.nonterminal, Res.ok_bind, Res.ofOption_some, hp,
      ih fun m hm => hns m (by simp [hm]), nonterminalRep_features hfs, h1, h2]

end Body

/-- The parts of the text. -/
theorem writeTree_parts (W : t.WF) (hr : t.IsNt t.root)
    (hs : ∀ r ∈ t.graph.edges, r.w.isPrimary = false → t.IsNt r.src) (counter : Nat) :
    ∃ s tl nl, number t (t.sortIndices t.terminals) = .ok s ∧ BottomUp t s.nts ∧
      terminalLines t (idsOf t.root s.nts) (t.sortIndices t.terminals) = .ok tl ∧
      nonterminalLines t (idsOf t.root s.nts) s.nts = .ok nl ∧
      writeTree counter t = .ok
        (unlines (header ((featOf (rootFeatures t) sentenceIdKey).getD (Tree.natToStr counter))
            (featOf (rootFeatures t) metadataKey) ::
          (tl ++ nl ++ [footer ((featOf (rootFeatures t) sentenceIdKey).getD (Tree.natToStr counter)), []])),
         if (featOf (rootFeatures t) sentenceIdKey).isSome then counter else counter + 1) := by
  have hperm := sortIndices_perm (t := t) t.terminals
  have hl : ∀ n, n ∈ t.sortIndices t.terminals ↔ t.IsTerm n := by
    intro n; rw [hperm.mem_iff]; exact mem_terminals
  obtain ⟨s, h1, h2, h3, h4, h5⟩ := number_ok W.graph W.shape hl
  have B := bottomUp_of h2 h3 h5
  obtain ⟨T, tl, g1, g2, g3⟩ := terminalLines_ok W B hr hs (fun n h => (hl n).1 h)
  obtain ⟨N, nl, k1, k2, k3⟩ := nonterminalLines_ok W B hs (fun n h => h)
  refine ⟨s, tl, nl, h1, B, g1, k1, ?_⟩
  obtain ⟨x, hx⟩ := hr
  have hf : ∀ k, (Node.nt x).featVal k = featOf (rootFeatures t) k := by
    intro k; unfold Node.featVal featOf rootFeatures; rw [hx]; rfl
  have e1 : ∀ id : Str, footer id = eos ++ [' '] ++ id := fun _ => rfl
  have e2 : ∀ id : Str, header id none = bos ++ [' '] ++ id := fun id => List.append_nil _
  have e3 : ∀ id m : Str, header id (some m) = bos ++ [' '] ++ id ++ [' ', ' '] ++ m := fun id m =>
    (List.append_assoc _ [' ', ' '] m).symm
  rw [← hf, ← hf]
  unfold writeTree sentenceId
  simp only [node_eq hx, Res.ok_bind]
  generalize (Node.nt x).featVal sentenceIdKey = a
  generalize (Node.nt x).featVal metadataKey = b
  cases a <;> cases b <;>
    simp only [Res.ok_bind, Res.pure_eq, h1, h4, g1, k1, e1, e2, e3, Option.getD_none, Option.getD_some,
      Option.isSome_none, Option.isSome_some, if_true, Bool.false_eq_true, if_false]

theorem featOf_headFeatures (id : Nat) (info : Option Str) :
    featOf (some (headFeatures id info)) sentenceIdKey = some (natToStr id) ∧
    featOf (some (headFeatures id info)) metadataKey = info := by
  have hne : metadataKey ≠ sentenceIdKey := by decide
  have h1 : "metadata".toList = metadataKey := rfl
  have h2 : "sentence_id".toList = sentenceIdKey := rfl
  unfold headFeatures
  rw [h1, h2]
  generalize metadataKey = m at *
  generalize sentenceIdKey = k at *
  cases info with
  | none => simp [featOf, Features.getVal, Features.lookupEntry, hne]
  | some v => simp [featOf, Features.getVal, Features.lookupEntry, hne.symm]

/-- The text of both trees, with the header and the footer each is given by its root. -/
theorem Body.writeTree (C : Body t t' φ) (W : t.WF) (hr : t.IsNt t.root)
    (hs : ∀ r ∈ t.graph.edges, r.w.isPrimary = false → t.IsNt r.src) (counter counter' : Nat) :
    ∃ ls : List Str, ∀ u c, (u = t ∧ c = counter) ∨ (u = t' ∧ c = counter') → Negra.writeTree c u = .ok
        (unlines (header ((featOf (rootFeatures u) sentenceIdKey).getD (Tree.natToStr c))
            (featOf (rootFeatures u) metadataKey) ::
          (ls ++ [footer ((featOf (rootFeatures u) sentenceIdKey).getD (Tree.natToStr c)), []])),
         if (featOf (rootFeatures u) sentenceIdKey).isSome then c else c + 1) := by
  have hnt : ∀ n, t.IsNt n → t'.IsNt (φ n) := by
    rintro n ⟨x, hx⟩
    by_cases e : n = t.root
    · subst e; rw [← C.root]; exact C.root_nt
    · obtain ⟨f, h, _⟩ := C.nts n x e hx
      exact ⟨_, h⟩
  obtain ⟨s, tl, nl, h1, B, h2, h3, h4⟩ := writeTree_parts W hr hs counter
  obtain ⟨s', tl', nl', h1', B', h2', h3', h4'⟩ := writeTree_parts C.wf C.root_nt C.sources counter'
  have hterm : ∀ n ∈ t.sortIndices t.terminals, t.IsTerm n := fun n h => mem_terminals.1 ((sortIndices_perm _).mem_iff.1 h)
  have hn : s'.nts = s.nts.map φ := C.number W (fun n h => live_iff.2 (.inl (hterm n h))) h1 (by rw [← C.sorted W]; exact h1')
  rw [hn] at B' h2' h3'
  rw [C.sorted W, C.terminalLines W B B' hr hs hterm, h2] at h2'
  rw [C.nonterminalLines W B B' hs (fun n h => h), h3] at h3'
  injection h2' with h2'
  injection h3' with h3'
  subst h2' h3'
  refine ⟨tl ++ nl, ?_⟩
  rintro u c (⟨rfl, rfl⟩ | ⟨rfl, rfl⟩)
  · exact h4
  · exact h4'

/-- A copy is written as the tree is. -/
theorem Copy.writeTree (C : Copy id info t t' φ) (W : t.WF) (hr : t.IsNt t.root)
    (hs : ∀ r ∈ t.graph.edges, r.w.isPrimary = false → t.IsNt r.src) {counter : Nat} (Hd : Head t counter id info)
    (counter' : Nat) : ∃ text c, Negra.writeTree counter t = .ok (text, c) ∧
      Negra.writeTree counter' t' = .ok (text, counter') := by
  obtain ⟨ls, h⟩ := (C.body W hs).writeTree W hr hs counter counter'
  have h4 := h t counter (.inl ⟨rfl, rfl⟩)
  have h4' := h t' counter' (.inr ⟨rfl, rfl⟩)
  have hroot : rootFeatures t' = some (headFeatures id info) := by
    obtain ⟨_, _, h⟩ := C.root_node
    unfold rootFeatures
    rw [h]; rfl
  obtain ⟨f1, f2⟩ := featOf_headFeatures id info
  rw [hroot, f1, f2] at h4'
  have n1 : (featOf (rootFeatures t) sentenceIdKey).getD (natToStr counter) = natToStr id := Hd.number
  have n2 : featOf (rootFeatures t) metadataKey = info := Hd.metadata
  rw [n1, n2] at h4
  exact ⟨_, _, h4, h4'⟩

end Negra
end Lumberjack
