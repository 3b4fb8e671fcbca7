import Verif.Proofs.NegraTrip

/-!
# The tree read back is a copy
-/

namespace Lumberjack
namespace Negra

open Lumberjack.Span Lumberjack.Tree

variable {id : Nat} {info : Option Str} {t t' : Tree} {ns nts : List Nat} {T : List TermRow} {N : List NtRow}
variable {τ ν : Nat → Nat}

theorem mem_rowEdges_sec {p n : Nat} {w : Edge} (hw : w.isPrimary = false) : (p, n, w) ∈ rowEdges T N τ ν ↔
    (∃ (i : Nat) (r : TermRow) (l : Str) (k : Nat), T[i]? = some r ∧ r.att.sec = some (l, k) ∧ n = τ i ∧ p = ν k ∧
      w = .secondary (some l)) ∨
    ∃ r ∈ N, ∃ (l : Str) (k : Nat), r.att.sec = some (l, k) ∧ n = ν r.id ∧ p = ν k ∧ w = .secondary (some l) := by
  have hatt : ∀ (a : Attach) (m : Nat), (p, n, w) ∈ a.edges ν m ↔
      ∃ (l : Str) (k : Nat), a.sec = some (l, k) ∧ n = m ∧ p = ν k ∧ w = .secondary (some l) := by
    intro a m
    unfold Attach.edges
    rw [List.mem_cons]
    constructor
    · rintro (h | h)
      · simp only [Prod.mk.injEq] at h
        rw [h.2.2] at hw
        cases hw
      · cases hs : a.sec with
        | none => rw [hs] at h; cases h
        | some x =>
          obtain ⟨l, k⟩ := x
          rw [hs] at h
          simp only [List.mem_singleton, Prod.mk.injEq] at h
          exact ⟨l, k, rfl, h.2.1, h.1, h.2.2⟩
    · rintro ⟨l, k, hs, rfl, rfl, rfl⟩
      rw [hs]
      simp
  unfold rowEdges
  simp only [List.mem_append, List.mem_flatMap, hatt, Prod.exists, List.mem_zipIdx_iff_getElem?]
  refine or_congr_left ⟨?_, ?_⟩
  · rintro ⟨r, i, h1, l, k, h2⟩; exact ⟨i, r, l, k, h1, h2⟩
  · rintro ⟨i, r, l, k, h1, h2⟩; exact ⟨r, i, h1, l, k, h2⟩

namespace Described

theorem sec_iff (D : Described id info T N t τ ν) {p n : Nat} {w : Edge} (hw : w.isPrimary = false) :
    (∃ e ∈ t.graph.edges, e.src = p ∧ e.tgt = n ∧ e.w = w) ↔
    (∃ (i : Nat) (r : TermRow) (l : Str) (k : Nat), T[i]? = some r ∧ r.att.sec = some (l, k) ∧ n = τ i ∧ p = ν k ∧
      w = .secondary (some l)) ∨
    ∃ r ∈ N, ∃ (l : Str) (k : Nat), r.att.sec = some (l, k) ∧ n = ν r.id ∧ p = ν k ∧ w = .secondary (some l) := by
  rw [← mem_rowEdges_sec hw, ← D.edges.mem_iff, List.mem_map]
  simp only [Prod.mk.injEq]

theorem in_order (D : Described id info T N t τ ν) : ∀ n m i j, t.TermAt n i → t.TermAt m j → (n < m ↔ i < j) := by
  have pos : ∀ n i, t.TermAt n i → i < T.length ∧ n = τ i := by
    rintro n i ⟨x, hx, hi⟩
    rcases D.all n ⟨_, hx⟩ with ⟨j, hj, rfl⟩ | ⟨k, hk, rfl⟩
    · have h1 := D.terms j T[j] (by simp [hj])
      rw [hx] at h1
      injection h1 with h1
      injection h1 with h1
      rw [h1] at hi
      simp [TermRow.terminal, Span.ofIdx] at hi
      subst hi
      exact ⟨hj, rfl⟩
    · obtain ⟨y, hy⟩ := D.isNt hk
      rw [hx] at hy; cases hy
  intro n m i j hn hm
  obtain ⟨h1, rfl⟩ := pos n i hn
  obtain ⟨h2, rfl⟩ := pos m j hm
  constructor
  · intro h
    rcases Nat.lt_trichotomy i j with h3 | h3 | h3
    · exact h3
    · subst h3; omega
    · have := D.order j i h3 h1; omega
  · intro h; exact D.order i j h h2

theorem tidy (D : Described id info T N t τ ν) : ∀ n nd, t.graph.node? n = some nd → nd.features ≠ some Features.empty := by
  intro n nd h
  rcases D.all n ⟨_, h⟩ with ⟨i, hi, rfl⟩ | ⟨k, hk, rfl⟩
  · rw [D.terms i T[i] (by simp [hi])] at h
    injection h with h
    subst h
    show (T[i].terminal i).features ≠ _
    cases hm : T[i].morph <;> simp [TermRow.terminal, hm, Features.empty]
  · rcases List.mem_cons.1 hk with rfl | hk
    · rw [D.root_node] at h
      injection h with h
      subst h
      show some (headFeatures id info) ≠ _
      cases info <;> simp [headFeatures, Features.empty]
    · obtain ⟨r, hr, rfl⟩ := List.mem_map.1 hk
      obtain ⟨s, hs⟩ := D.nts r hr
      rw [hs] at h
      injection h with h
      subst h
      show (r.nonterminal s).features ≠ _
      cases hm : r.ann <;> simp [NtRow.nonterminal, hm, Features.empty]

theorem sec_targets_nodup (D : Described id info T N t τ ν) (ho : OwnNumbers N) :
    ((t.graph.edges.filter (!·.w.isPrimary)).map (·.tgt)).Nodup := by
  have e1 : (t.graph.edges.filter (!·.w.isPrimary)).map (·.tgt) =
      ((t.graph.edges.map fun e => (e.src, e.tgt, e.w)).filter (fun x => !x.2.2.isPrimary)).map (·.2.1) := by
    rw [List.filter_map, List.map_map]
    rfl
  rw [e1]
  refine ((D.edges.filter _).map _).nodup_iff.2 ?_
  have hatt : ∀ (a : Attach) (m : Nat), (((a.edges ν m).filter (fun x => !x.2.2.isPrimary)).map (·.2.1)).Sublist [m] := by
    intro a m
    unfold Attach.edges
    cases a.sec with
    | none => simp [Edge.isPrimary]
    | some x => simp [Edge.isPrimary]
  have hfm : ∀ {α : Type} (L : List α) (f : α → List (Nat × Nat × Edge)) (g : α → Nat),
      (∀ a, (((f a).filter (fun x => !x.2.2.isPrimary)).map (·.2.1)).Sublist [g a]) →
      (((L.flatMap f).filter (fun x => !x.2.2.isPrimary)).map (·.2.1)).Sublist (L.map g) := by
    intro α L f g h
    induction L with
    | nil => exact List.Sublist.refl _
    | cons a L ih =>
      rw [List.flatMap_cons, List.filter_append, List.map_append]
      exact (h a).append ih
  refine List.Nodup.sublist ?_ (D.nodes_nodup ho)
  unfold rowEdges
  rw [List.filter_append, List.map_append]
  exact (hfm T.zipIdx _ (fun p => τ p.2) (fun p => hatt p.1.att (τ p.2))).append
    (hfm N _ (fun r => ν r.id) (fun r => hatt r.att (ν r.id)))

end Described

open Classical in
/-- The node of `t'` for a node of `t`. -/
noncomputable def back (t : Tree) (ns nts : List Nat) (τ ν : Nat → Nat) (n : Nat) : Nat :=
  if t.IsTerm n then τ (ns.idxOf n) else ν (num t nts n)

theorem ofIdx_inj {i j : Nat} (h : Span.ofIdx i = Span.ofIdx j) : i = j := by
  injection h

theorem live_cases {n : Nat} (h : t.Live n) : t.IsTerm n ∨ t.IsNt n := by
  obtain ⟨nd, h⟩ := h
  cases nd with
  | term x => exact .inl ⟨x, h⟩
  | nt x => exact .inr ⟨x, h⟩

section

variable (R : Rendered t ns nts T N) (E : Exportable t) (D : Described id info T N t' τ ν) (W' : t'.WF)

include R

theorem back_term {i n : Nat} (h : ns[i]? = some n) : back t ns nts τ ν n = τ i := by
  obtain ⟨x, h1, h2⟩ := R.leaves.2 i n h
  unfold back
  rw [if_pos ⟨x, h1⟩]
  congr 1
  have hm : ns.idxOf n < ns.length := List.idxOf_lt_length_of_mem (List.mem_of_getElem? h)
  have h3 : ns[ns.idxOf n]? = some n := by rw [List.getElem?_eq_getElem hm, List.getElem_idxOf]
  obtain ⟨y, g1, g2⟩ := R.leaves.2 _ n h3
  rw [h1] at g1
  injection g1 with g1
  injection g1 with g1
  subst g1
  exact ofIdx_inj (g2.symm.trans h2)

omit R in
theorem back_nt {n : Nat} (h : t.IsNt n) : back t ns nts τ ν n = ν (num t nts n) := by
  unfold back
  rw [if_neg]
  intro h'
  exact Described.not_both h' h

theorem num_mem {n : Nat} (h : t.IsNt n) : num t nts n ∈ 0 :: N.map (·.id) := by
  by_cases hn : n = t.root
  · simp [num, hn]
  · rw [R.ids]
    exact List.mem_cons_of_mem _ (List.mem_map.2 ⟨n, (R.bottom.mem n).2 ⟨h, hn⟩, rfl⟩)

include E D

theorem back_isTerm {n : Nat} (h : t.IsTerm n) : t'.IsTerm (back t ns nts τ ν n) := by
  obtain ⟨i, r, h1, h2, _⟩ := R.term_row E.wf h
  rw [back_term R h1]
  exact ⟨_, D.terms i r h2⟩

omit E in
theorem back_isNt {n : Nat} (h : t.IsNt n) : t'.IsNt (back t ns nts τ ν n) := by
  rw [back_nt h]
  exact D.isNt (num_mem R h)

theorem back_inj {n m : Nat} (hn : t.Live n) (hm : t.Live m) (h : back t ns nts τ ν n = back t ns nts τ ν m) : n = m := by
  rcases live_cases hn with hn | hn <;> rcases live_cases hm with hm | hm
  · obtain ⟨i, r, h1, h2, _⟩ := R.term_row E.wf hn
    obtain ⟨j, q, g1, g2, _⟩ := R.term_row E.wf hm
    rw [back_term R h1, back_term R g1] at h
    have := D.tau_inj (Described.lt_of_row h2) (Described.lt_of_row g2) h
    subst this
    rw [h1] at g1
    injection g1
  · exact (Described.not_both (h ▸ back_isTerm R E D hn) (back_isNt R D hm)).elim
  · exact (Described.not_both (back_isTerm R E D hm) (h ▸ back_isNt R D hn)).elim
  · rw [back_nt hn, back_nt hm] at h
    exact (Props.C51_numbers t nts R.bottom).1 n m hn hm (D.distinct _ (num_mem R hn) _ (num_mem R hm) h)

theorem back_onto {n' : Nat} (h : t'.Live n') : ∃ n, t.Live n ∧ back t ns nts τ ν n = n' := by
  rcases D.all n' h with ⟨i, hi, rfl⟩ | ⟨k, hk, rfl⟩
  · obtain ⟨n, h1, x, h2, _⟩ := R.row_term (List.getElem?_eq_getElem hi)
    exact ⟨n, ⟨_, h2⟩, back_term R h1⟩
  · rcases List.mem_cons.1 hk with rfl | hk
    · obtain ⟨x, hx⟩ := E.root
      refine ⟨t.root, ⟨_, hx⟩, ?_⟩
      rw [back_nt ⟨x, hx⟩]
      simp [num]
    · rw [R.ids] at hk
      obtain ⟨n, hn, rfl⟩ := List.mem_map.1 hk
      have hnt := ((R.bottom.mem n).1 hn).1
      obtain ⟨x, hx⟩ := (show _ from hnt)
      exact ⟨n, ⟨_, hx⟩, back_nt hnt⟩

theorem back_edge {e : EdgeRec} (he : e ∈ t.graph.edges) (hw : e.w.isPrimary = true) :
    ∃ e' ∈ t'.graph.edges, e'.src = back t ns nts τ ν e.src ∧ e'.tgt = back t ns nts τ ν e.tgt ∧ e'.w = e.w := by
  have hc : t.IsChild e.src e.tgt := ⟨e, he, rfl, rfl, hw⟩
  have hp := Rendered.parent_nt E.wf hc
  have hl := E.wf.shape.edgeLabel_of_edge he hw
  have hlab : e.w = .primary (t.inLabel e.tgt) := by
    unfold inLabel
    rw [hl]
    cases h : e.w with
    | primary l => rfl
    | secondary l => rw [h] at hw; cases hw
  rw [D.edge_iff hw, back_nt hp, hlab]
  rcases live_cases (E.wf.graph.ends e he).2 with h | h
  · obtain ⟨i, r, h1, h2, ⟨x, _, _, _, _, _, ⟨p, g1, g2⟩, g3, _⟩, _⟩ := R.term_row E.wf h
    rw [E.wf.shape.isChild_unique g1 hc] at g2
    exact .inl ⟨i, r, h2, back_term R h1, by rw [g2], by rw [g3]⟩
  · obtain ⟨i, r, h1, h2, x, _, h3, _, _, ⟨p, g1, g2⟩, g3, _⟩ := R.nt_row h
      (fun hr => E.wf.shape.root_top _ (hr ▸ hc))
    rw [E.wf.shape.isChild_unique g1 hc] at g2
    exact .inr ⟨r, List.mem_of_getElem? h2, by rw [back_nt h, h3], by rw [g2], by rw [g3]⟩

omit R in
theorem back_root : t'.root = back t ns nts τ ν t.root := by
  rw [D.root, back_nt E.root]
  simp [num]

include W'

theorem back_edge_inv {p n : Nat} {l : Option Str} (hn : t.Live n) (hp : t.Live p)
    (h : ∃ e' ∈ t'.graph.edges, e'.src = back t ns nts τ ν p ∧ e'.tgt = back t ns nts τ ν n ∧ e'.w = .primary l) :
    ∃ e ∈ t.graph.edges, e.src = p ∧ e.tgt = n ∧ e.w = .primary l := by
  obtain ⟨e', h1, h2, h3, h4⟩ := h
  have hn0 : n ≠ t.root := by
    rintro rfl
    refine W'.shape.root_top e'.src ⟨e', h1, rfl, ?_, by rw [h4]; rfl⟩
    rw [h3, back_root E D]
  obtain ⟨q, e, g1, g2, g3, g4⟩ := E.wf.shape.exists_parent hn hn0
  obtain ⟨e'', k1, k2, k3, k4⟩ := back_edge R E D g1 g4
  have : e'' = e' := W'.shape.unique _ k1 _ h1 (by rw [k3, h3, g3]) (by rw [k4]; exact g4) (by rw [h4]; rfl)
  subst this
  refine ⟨e, g1, ?_, g3, by rw [← k4, h4]⟩
  exact back_inj R E D (E.wf.graph.ends e g1).1 hp (by rw [← k2, h2])

theorem back_child {p n : Nat} (hp : t.Live p) (hn : t.Live n) :
    t'.IsChild (back t ns nts τ ν p) (back t ns nts τ ν n) ↔ t.IsChild p n := by
  constructor
  · rintro ⟨e', h1, h2, h3, h4⟩
    cases hw : e'.w with
    | secondary l => rw [hw] at h4; cases h4
    | primary l =>
      obtain ⟨e, g1, g2, g3, g4⟩ := back_edge_inv R E D W' hn hp ⟨e', h1, h2, h3, hw⟩
      exact ⟨e, g1, g2, g3, by rw [g4]; rfl⟩
  · rintro ⟨e, g1, rfl, rfl, g4⟩
    obtain ⟨e', h1, h2, h3, h4⟩ := back_edge R E D g1 g4
    exact ⟨e', h1, h2, h3, by rw [h4]; exact g4⟩

theorem back_dom {n : Nat} (hn : t.Live n) {m' : Nat} (h : t'.Dom (back t ns nts τ ν n) m') :
    ∃ m, t.Dom n m ∧ t.Live m ∧ back t ns nts τ ν m = m' := by
  induction h with
  | refl => exact ⟨n, .refl, hn, rfl⟩
  | tail _ h2 ih =>
    obtain ⟨m, h3, h4, rfl⟩ := ih
    obtain ⟨e, g1, _, g3, _⟩ := (show _ from h2)
    obtain ⟨k, k1, k2⟩ := back_onto R E D (n' := _) (g3 ▸ (W'.graph.ends e g1).2)
    subst k2
    exact ⟨k, h3.tail ((back_child R E D W' h4 k1).1 h2), k1, rfl⟩

theorem back_dom' {n m : Nat} (hn : t.Live n) (h : t.Dom n m) :
    t'.Dom (back t ns nts τ ν n) (back t ns nts τ ν m) ∧ t.Live m := by
  induction h with
  | refl => exact ⟨.refl, hn⟩
  | tail _ h2 ih =>
    obtain ⟨e, g1, _, g3, _⟩ := (show _ from h2)
    have hl := g3 ▸ (E.wf.graph.ends e g1).2
    exact ⟨ih.1.tail ((back_child R E D W' ih.2 hl).2 h2), hl⟩

omit W' in
theorem back_termAt {m i : Nat} (hm : t.Live m) : t'.TermAt (back t ns nts τ ν m) i ↔ t.TermAt m i := by
  rcases live_cases hm with h | h
  · obtain ⟨j, r, h1, h2, _, h4⟩ := R.term_row E.wf h
    rw [back_term R h1]
    have hs : t'.TermAt (τ j) j := ⟨_, D.terms j r h2, rfl⟩
    have key : ∀ (u : Tree) (n a b : Nat), u.TermAt n a → (u.TermAt n b ↔ a = b) := by
      rintro u n a b ⟨x, g1, g2⟩
      constructor
      · rintro ⟨y, k1, k2⟩
        rw [g1] at k1
        injection k1 with k1
        injection k1 with k1
        subst k1
        exact ofIdx_inj (g2.symm.trans k2)
      · rintro rfl
        exact ⟨x, g1, g2⟩
    rw [key _ _ _ _ hs, key _ _ _ _ h4]
  · constructor
    · rintro ⟨y, h1, _⟩
      exact (Described.not_both ⟨y, h1⟩ (back_isNt R D h)).elim
    · rintro ⟨y, h1, _⟩
      exact (Described.not_both ⟨y, h1⟩ h).elim

theorem back_covers {n i : Nat} (hn : t.Live n) : t'.Covers (back t ns nts τ ν n) i ↔ t.Covers n i := by
  constructor
  · rintro ⟨m', h1, h2⟩
    obtain ⟨m, g1, g2, rfl⟩ := back_dom R E D W' hn h1
    exact ⟨m, g1, (back_termAt R E D g2).1 h2⟩
  · rintro ⟨m, h1, h2⟩
    obtain ⟨g1, g2⟩ := back_dom' R E D W' hn h1
    exact ⟨_, g1, (back_termAt R E D g2).2 h2⟩

theorem back_span {n : Nat} {x y : NonTerminal} (hx : t.graph.node? n = some (.nt x))
    (hy : t'.graph.node? (back t ns nts τ ν n) = some (.nt y)) : y.span = x.span := by
  obtain ⟨h1, h2⟩ := E.wf.spans n x hx
  obtain ⟨g1, g2⟩ := W'.spans _ y hy
  refine g1.ext h1 ?_
  ext i
  rw [← Span.contains_iff, ← Span.contains_iff, g2, h2]
  exact back_covers R E D W' ⟨_, hx⟩

/-- The tree read back is a copy. -/
theorem back_copy : Copy id info t t' (back t ns nts τ ν) where
  wf := W'
  root := back_root E D
  root_node := by
    obtain ⟨x, hx⟩ := E.root
    refine ⟨x, hx, ?_⟩
    have h := D.root_node
    rw [← D.root] at h
    have hy := h
    rw [back_root E D] at hy
    rw [h, ← back_span R E D W' hx hy]
  inj := fun n m hn hm h => back_inj R E D hn hm h
  onto := fun n' h => back_onto R E D h
  terms := by
    intro n x hx
    obtain ⟨i, r, h1, h2, ⟨y, h3, h4, h5, h6, h7, _⟩, z, h8, h9⟩ := R.term_row E.wf ⟨x, hx⟩
    rw [hx] at h3 h8
    injection h3 with h3
    injection h3 with h3
    injection h8 with h8
    injection h8 with h8
    subst h3 h8
    refine ⟨_, ?_, (Rendered.featOf_only (E.terms n x hx).features).2⟩
    rw [back_term R h1, D.terms i r h2]
    unfold TermRow.terminal
    rw [h4, h5, h6, h7, ← h9]
  nts := by
    intro n x hn hx
    obtain ⟨i, r, h1, h2, y, h3, h4, h5, h6, _⟩ := R.nt_row ⟨x, hx⟩ hn
    rw [hx] at h3
    injection h3 with h3
    injection h3 with h3
    subst h3
    obtain ⟨s, hs⟩ := D.nts r (List.mem_of_getElem? h2)
    rw [h4, ← back_nt (t := t) (ns := ns) (nts := nts) (τ := τ) (ν := ν) ⟨x, hx⟩] at hs
    have := back_span R E D W' hx hs
    refine ⟨_, ?_, (Rendered.featOf_only (E.nts n x hn hx).features).2⟩
    rw [hs]
    unfold NtRow.nonterminal at this ⊢
    simp only at this
    rw [h5, h6, this]
  primary := by
    intro p n l hp hn
    constructor
    · rintro ⟨e, h1, rfl, rfl, h4⟩
      obtain ⟨e', g1, g2, g3, g4⟩ := back_edge R E D h1 (by rw [h4]; rfl)
      exact ⟨e', g1, g2, g3, g4.trans h4⟩
    · exact back_edge_inv R E D W' hn hp
  sec_from := by
    intro e' h1 hw
    have ha : ∀ n a, IsAttach t (num t nts) n a → ∀ l k, a.sec = some (l, k) →
        ∃ e ∈ t.graph.edges, t.secondaryParent n = some (e.src, e.id) ∧ back t ns nts τ ν e.src = ν k ∧ e.tgt = n ∧
          e.w = .secondary (some l) := by
      rintro n a ⟨_, _, h⟩ l k hs
      rcases h with ⟨h, _⟩ | ⟨e, g1, g2, g3, g5, g4⟩
      · rw [h] at hs; cases hs
      · rw [g4] at hs
        have hnt := E.sources e g1 g3
        have hed := E.edges e g1
        cases hw : e.w with
        | primary l => rw [hw] at g3; cases g3
        | secondary l' =>
          rw [hw] at hed hs
          obtain ⟨s, rfl, _⟩ := hed
          simp only [Edge.label, Option.getD_some, Option.some.injEq, Prod.mk.injEq] at hs
          obtain ⟨rfl, rfl⟩ := hs
          exact ⟨e, g1, g5, back_nt hnt, g2, hw⟩
    rcases (D.sec_iff hw).1 ⟨e', h1, rfl, rfl, rfl⟩ with ⟨i, r, l, k, g1, g2, g3, g4, g5⟩ | ⟨r, g1, l, k, g2, g3, g4, g5⟩
    · obtain ⟨n, k1, x, _, _, _, _, _, k2⟩ := R.row_term g1
      obtain ⟨e, m1, m5, m2, m3, m4⟩ := ha n _ k2 l k g2
      exact ⟨e, m1, m3.symm ▸ m5, by rw [m2, g4], by rw [m3, g3, back_term R k1], by rw [m4, g5]⟩
    · obtain ⟨n, k0, _, x, _, k1, _, _, k2⟩ := R.row_nt' g1
      obtain ⟨e, m1, m5, m2, m3, m4⟩ := ha n _ k2 l k g2
      exact ⟨e, m1, m3.symm ▸ m5, by rw [m2, g4], by rw [m3, g3, back_nt k0, k1], by rw [m4, g5]⟩
  sec_to := by
    intro e he hw hr
    have ha : ∀ a, IsAttach t (num t nts) e.tgt a → ∃ l k, a.sec = some (l, k) := by
      rintro a ⟨_, _, h⟩
      rcases h with ⟨_, h⟩ | ⟨_, _, _, _, _, h⟩
      · have := h e he rfl
        rw [this] at hw; cases hw
      · exact ⟨_, _, h⟩
    rcases live_cases (E.wf.graph.ends e he).2 with h | h
    · obtain ⟨i, r, h1, h2, ⟨x, _, _, _, _, _, h3⟩, _⟩ := R.term_row E.wf h
      obtain ⟨l, k, hs⟩ := ha _ h3
      obtain ⟨e', g1, _, g2, g3⟩ := (D.sec_iff (p := ν k) (n := τ i) (w := .secondary (some l)) rfl).2
        (.inl ⟨i, r, l, k, h2, hs, rfl, rfl, rfl⟩)
      exact ⟨e', g1, by rw [g3]; rfl, by rw [g2, back_term R h1]⟩
    · obtain ⟨i, r, h1, h2, x, _, h3, _, _, h4⟩ := R.nt_row h hr
      obtain ⟨l, k, hs⟩ := ha _ h4
      obtain ⟨e', g1, _, g2, g3⟩ := (D.sec_iff (p := ν k) (n := ν r.id) (w := .secondary (some l)) rfl).2
        (.inr ⟨r, List.mem_of_getElem? h2, l, k, hs, rfl, rfl, rfl⟩)
      exact ⟨e', g1, by rw [g3]; rfl, by rw [g2, back_nt h, h3]⟩
  sec_one := by
    intro e he e' he' h1 h2 h3
    exact List.inj_on_of_nodup_map (D.sec_targets_nodup R.own) (List.mem_filter.2 ⟨he, by simp [h1]⟩)
      (List.mem_filter.2 ⟨he', by simp [h2]⟩) h3
  tidy := D.tidy
  order := D.in_order

end

/-! ## A copy stands for the same forest -/

namespace Copy

variable {φ : Nat → Nat} (C : Copy id info t t' φ) (W : t.WF)

include C W

omit W in
theorem child {p n : Nat} (hp : t.Live p) (hn : t.Live n) : t'.IsChild (φ p) (φ n) ↔ t.IsChild p n := by
  constructor
  · rintro ⟨e, h1, h2, h3, h4⟩
    cases hw : e.w with
    | secondary l => rw [hw] at h4; cases h4
    | primary l =>
      obtain ⟨e, g1, g2, g3, g4⟩ := (C.primary p n l hp hn).2 ⟨e, h1, h2, h3, hw⟩
      exact ⟨e, g1, g2, g3, by rw [g4]; rfl⟩
  · rintro ⟨e, g1, g2, g3, g4⟩
    cases hw : e.w with
    | secondary l => rw [hw] at g4; cases g4
    | primary l =>
      obtain ⟨e, k1, k2, k3, k4⟩ := (C.primary p n l hp hn).1 ⟨e, g1, g2, g3, hw⟩
      exact ⟨e, k1, k2, k3, by rw [k4]; rfl⟩

theorem inLabel {n : Nat} (hn : t.Live n) : t'.inLabel (φ n) = t.inLabel n := by
  by_cases h : n = t.root
  · rw [h, ← C.root, inLabel_root C.wf.shape, inLabel_root W.shape]
  · obtain ⟨p, e, h1, h2, h3, h4⟩ := W.shape.exists_parent hn h
    have hp := (W.graph.ends e h1).1
    rw [h2] at hp
    have hl := W.shape.edgeLabel_of_edge h1 h4
    cases hw : e.w with
    | secondary l => rw [hw] at h4; cases h4
    | primary l =>
      obtain ⟨e', k1, k2, k3, k4⟩ := (C.primary p n l hp hn).1 ⟨e, h1, h2, h3, hw⟩
      have hl' := C.wf.shape.edgeLabel_of_edge k1 (by rw [k4]; rfl)
      unfold Tree.inLabel
      rw [← h3, hl, h3, ← k3, hl', k4, hw]

omit W in
theorem nt (hr : SameRoot t id info) {n : Nat} {x : NonTerminal} (hx : t.graph.node? n = some (.nt x)) :
    ∃ f, t'.graph.node? (φ n) = some (.nt { x with features := f }) ∧ Forest.FeatSame x.features f := by
  by_cases h : n = t.root
  · subst h
    obtain ⟨y, h1, h2⟩ := C.root_node
    obtain ⟨z, h3, h4, h5⟩ := hr
    rw [hx] at h1 h3
    injection h1 with h1
    injection h1 with h1
    injection h3 with h3
    injection h3 with h3
    subst h1 h3
    refine ⟨some (headFeatures id info), ?_, h5⟩
    rw [← C.root, h2, h4]; rfl
  · exact C.nts n x h hx

omit W in
theorem startOf (hr : SameRoot t id info) {n : Nat} (hn : t.Live n) : t'.startOf (φ n) = t.startOf n := by
  obtain ⟨nd, hnd⟩ := hn
  unfold Tree.startOf
  cases nd with
  | term x =>
    obtain ⟨f, h1, _⟩ := C.terms n x hnd
    rw [h1, hnd]
    rfl
  | nt x =>
    obtain ⟨f, h1, _⟩ := C.nt hr hnd
    rw [h1, hnd]
    rfl

theorem kids (hr : SameRoot t id info) {n : Nat} (hn : t.Live n) {ks : List Nat} (h : t.Kids n ks) :
    t'.Kids (φ n) (ks.map φ) ∧ ∀ k ∈ ks, t.Live k := by
  have hl : ∀ k ∈ ks, t.Live k := by
    intro k hk
    obtain ⟨e, h1, _, h3, _⟩ := (h.1 k).1 hk
    exact h3 ▸ (W.graph.ends e h1).2
  refine ⟨⟨fun c => ?_, ?_⟩, hl⟩
  · rw [List.mem_map]
    constructor
    · rintro ⟨k, hk, rfl⟩
      exact (C.child hn (hl k hk)).2 ((h.1 k).1 hk)
    · intro hc
      obtain ⟨e, h1, _, h3, _⟩ := (show _ from hc)
      obtain ⟨k, k1, rfl⟩ := C.onto c (h3 ▸ (C.wf.graph.ends e h1).2)
      exact ⟨k, (h.1 k).2 ((C.child hn k1).1 hc), rfl⟩
  · rw [List.pairwise_map]
    refine h.2.imp_of_mem fun {a b} ha hb hab => ?_
    rwa [C.startOf hr (hl a ha), C.startOf hr (hl b hb)]

theorem rep (hr : SameRoot t id info) (f : Forest) : ∀ (ids : List Nat), (∀ n ∈ ids, t.Live n) → t.Rep ids f →
    ∃ g, t'.Rep (ids.map φ) g ∧ Forest.Same f g ∧ f.leaves.map (·.form) = g.leaves.map (·.form) := by
  induction f with
  | nil =>
    intro ids _ h
    have h : ids = [] := h
    subst h
    exact ⟨.nil, rfl, trivial, rfl⟩
  | leaf e x r ih =>
    rintro ids hl ⟨n, ns, rfl, h1, h2, h3⟩
    obtain ⟨g, g1, g2, g3⟩ := ih ns (fun m hm => hl m (by simp [hm])) h3
    obtain ⟨f, k1, k2⟩ := C.terms n x h1
    refine ⟨.leaf e { x with features := f } g, ⟨φ n, ns.map φ, rfl, k1, ?_, g1⟩,
      ⟨rfl, rfl, rfl, rfl, k2, g2⟩, ?_⟩
    · rw [C.inLabel W ⟨_, h1⟩, h2]
    · simp [Forest.leaves, g3]
  | node e x k r ihk ihr =>
    rintro ids hl ⟨n, ns, ks, rfl, h1, h2, h3, h4, h5⟩
    obtain ⟨c1, c2⟩ := C.kids W hr (n := n) ⟨_, h1⟩ h3
    obtain ⟨g, g1, g2, g3⟩ := ihr ns (fun m hm => hl m (by simp [hm])) h5
    obtain ⟨gk, m1, m2, m3⟩ := ihk ks c2 h4
    obtain ⟨f, k1, k2⟩ := C.nt hr h1
    refine ⟨.node e { x with features := f } gk g, ⟨φ n, ns.map φ, ks.map φ, rfl, k1, ?_, c1, m1, g1⟩,
      ⟨rfl, rfl, rfl, k2, m2, g2⟩, ?_⟩
    · rw [C.inLabel W ⟨_, h1⟩, h2]
    · simp [Forest.leaves, g3, m3]

/-- A copy is equal to the tree. -/
theorem eq (hr : SameRoot t id info) : t.eq t' = .ok true := by
  obtain ⟨f, hf⟩ := W.is_exists
  obtain ⟨g, g1, g2, _⟩ := C.rep W hr f [t.root] (by simpa using W.shape.root_live) hf
  have hg : t'.Is g := by
    unfold Is
    rw [C.root]
    exact g1
  obtain ⟨b, h1, h2⟩ := eq_spec W C.wf hf hg
  rw [h1, h2.2 (.inr g2)]

end Copy

end Negra
end Lumberjack
