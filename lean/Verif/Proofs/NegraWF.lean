import Verif.Proofs.NegraTree
import Verif.Proofs.TreeQuery
import Verif.Proofs.Forest

/-!
# Trees described by rows
-/

namespace Lumberjack
namespace Negra

open Lumberjack.Span Lumberjack.Tree

variable {id : Nat} {info : Option Str} {T : List TermRow} {N : List NtRow} {t : Tree} {τ ν : Nat → Nat}

theorem mem_rowEdges {p n : Nat} {w : Edge} (hw : w.isPrimary = true) : (p, n, w) ∈ rowEdges T N τ ν ↔
    (∃ (i : Nat) (r : TermRow), T[i]? = some r ∧ n = τ i ∧ p = ν r.att.parent ∧ w = .primary r.att.edge) ∨
    ∃ r ∈ N, n = ν r.id ∧ p = ν r.att.parent ∧ w = .primary r.att.edge := by
  have hatt : ∀ (a : Attach) (m : Nat), (p, n, w) ∈ a.edges ν m ↔ n = m ∧ p = ν a.parent ∧ w = .primary a.edge := by
    intro a m
    unfold Attach.edges
    rw [List.mem_cons]
    constructor
    · rintro (h | h)
      · simp only [Prod.mk.injEq] at h
        exact ⟨h.2.1, h.1, h.2.2⟩
      · cases hs : a.sec with
        | none => rw [hs] at h; cases h
        | some x =>
          obtain ⟨l, k⟩ := x
          rw [hs] at h
          simp only [List.mem_singleton, Prod.mk.injEq] at h
          rw [h.2.2] at hw
          cases hw
    · rintro ⟨rfl, rfl, rfl⟩
      exact .inl rfl
  unfold rowEdges
  simp only [List.mem_append, List.mem_flatMap, hatt, Prod.exists, List.mem_zipIdx_iff_getElem?]
  refine or_congr_left ⟨?_, ?_⟩
  · rintro ⟨r, i, h1, h2⟩; exact ⟨i, r, h1, h2⟩
  · rintro ⟨i, r, h1, h2⟩; exact ⟨r, i, h1, h2⟩

namespace Described

theorem edge_iff (D : Described id info T N t τ ν) {p n : Nat} {w : Edge} (hw : w.isPrimary = true) :
    (∃ e ∈ t.graph.edges, e.src = p ∧ e.tgt = n ∧ e.w = w) ↔
    (∃ (i : Nat) (r : TermRow), T[i]? = some r ∧ n = τ i ∧ p = ν r.att.parent ∧ w = .primary r.att.edge) ∨
    ∃ r ∈ N, n = ν r.id ∧ p = ν r.att.parent ∧ w = .primary r.att.edge := by
  rw [← mem_rowEdges hw, ← D.edges.mem_iff, List.mem_map]
  simp only [Prod.mk.injEq]

theorem child_iff (D : Described id info T N t τ ν) {p n : Nat} : t.IsChild p n ↔
    (∃ (i : Nat) (r : TermRow), T[i]? = some r ∧ n = τ i ∧ p = ν r.att.parent) ∨
    ∃ r ∈ N, n = ν r.id ∧ p = ν r.att.parent := by
  constructor
  · rintro ⟨e, h1, h2, h3, h4⟩
    rcases (D.edge_iff h4).1 ⟨e, h1, h2, h3, rfl⟩ with ⟨i, r, g1, g2, g3, _⟩ | ⟨r, g1, g2, g3, _⟩
    · exact .inl ⟨i, r, g1, g2, g3⟩
    · exact .inr ⟨r, g1, g2, g3⟩
  · intro h
    rcases h with ⟨i, r, h1, h2, h3⟩ | ⟨r, h1, h2, h3⟩
    · obtain ⟨e, g1, g2, g3, g4⟩ := (D.edge_iff (w := .primary r.att.edge) rfl).2 (.inl ⟨i, r, h1, h2, h3, rfl⟩)
      exact ⟨e, g1, g2, g3, by rw [g4]; rfl⟩
    · obtain ⟨e, g1, g2, g3, g4⟩ := (D.edge_iff (w := .primary r.att.edge) rfl).2 (.inr ⟨r, h1, h2, h3, rfl⟩)
      exact ⟨e, g1, g2, g3, by rw [g4]; rfl⟩

theorem isTerm (D : Described id info T N t τ ν) {i : Nat} (h : i < T.length) : t.IsTerm (τ i) :=
  ⟨_, D.terms i T[i] (by simp [h])⟩

theorem isNt (D : Described id info T N t τ ν) {k : Nat} (h : k ∈ 0 :: N.map (·.id)) : t.IsNt (ν k) := by
  rw [List.mem_cons, List.mem_map] at h
  rcases h with rfl | ⟨r, hr, rfl⟩
  · exact ⟨_, D.root_node⟩
  · obtain ⟨s, hs⟩ := D.nts r hr
    exact ⟨_, hs⟩

theorem not_both {n : Nat} (h1 : t.IsTerm n) (h2 : t.IsNt n) : False := by
  obtain ⟨x, hx⟩ := h1
  obtain ⟨y, hy⟩ := h2
  rw [hx] at hy
  simp at hy

theorem tau_inj (D : Described id info T N t τ ν) {i j : Nat} (hi : i < T.length) (hj : j < T.length)
    (h : τ i = τ j) : i = j := by
  have h1 := D.terms i T[i] (by simp [hi])
  have h2 := D.terms j T[j] (by simp [hj])
  rw [h, h2] at h1
  simp only [Option.some.injEq, Node.term.injEq, TermRow.terminal, Terminal.mk.injEq] at h1
  have := h1.2.2.2.2
  simp [Span.ofIdx] at this
  exact this.symm

theorem tau_ne_nu (D : Described id info T N t τ ν) {i k : Nat} (hi : i < T.length) (hk : k ∈ 0 :: N.map (·.id)) :
    τ i ≠ ν k := by
  intro h
  exact not_both (D.isTerm hi) (h ▸ D.isNt hk)

theorem lt_of_row {i : Nat} {r : TermRow} (h : T[i]? = some r) : i < T.length := (List.getElem?_eq_some_iff.1 h).1

theorem mem_ids {r : NtRow} (h : r ∈ N) : r.id ∈ 0 :: N.map (·.id) :=
  List.mem_cons_of_mem _ (List.mem_map_of_mem h)

theorem id_inj (ho : OwnNumbers N) {r q : NtRow} (hr : r ∈ N) (hq : q ∈ N) (h : r.id = q.id) : r = q :=
  List.inj_on_of_nodup_map ho.1 hr hq h

theorem root_top (D : Described id info T N t τ ν) (ho : OwnNumbers N) (p : Nat) : ¬ t.IsChild p t.root := by
  rw [D.child_iff, D.root]
  rintro (⟨i, r, h1, h2, _⟩ | ⟨r, h1, h2, _⟩)
  · exact D.tau_ne_nu (lt_of_row h1) (k := 0) (by simp) h2.symm
  · have := D.distinct 0 (by simp) r.id (mem_ids h1) h2
    exact ho.2 (this ▸ List.mem_map_of_mem h1)

theorem child_unique (D : Described id info T N t τ ν) (ho : OwnNumbers N) {p q n : Nat} (h1 : t.IsChild p n)
    (h2 : t.IsChild q n) : p = q := by
  rw [D.child_iff] at h1 h2
  rcases h1 with ⟨i, r, a1, a2, a3⟩ | ⟨r, a1, a2, a3⟩ <;> rcases h2 with ⟨j, s, b1, b2, b3⟩ | ⟨s, b1, b2, b3⟩
  · have := D.tau_inj (lt_of_row a1) (lt_of_row b1) (a2.symm.trans b2)
    subst this
    rw [a1] at b1
    injection b1 with b1
    rw [a3, b3, b1]
  · exact absurd (a2.symm.trans b2) (D.tau_ne_nu (lt_of_row a1) (mem_ids b1))
  · exact absurd (b2.symm.trans a2) (D.tau_ne_nu (lt_of_row b1) (mem_ids a1))
  · have := id_inj ho a1 b1 (D.distinct _ (mem_ids a1) _ (mem_ids b1) (a2.symm.trans b2))
    rw [a3, b3, this]

/-- The nodes other than the root. -/
theorem nodes_nodup (D : Described id info T N t τ ν) (ho : OwnNumbers N) :
    ((T.zipIdx.map fun p => τ p.2) ++ N.map fun r => ν r.id).Nodup := by
  refine List.nodup_append.2 ⟨?_, ?_, ?_⟩
  · rw [List.nodup_iff_getElem?_ne_getElem?]
    intro i j hij hj he
    simp only [List.length_map, List.length_zipIdx] at hj
    simp only [List.getElem?_map, List.getElem?_zipIdx] at he
    rw [List.getElem?_eq_getElem (by omega), List.getElem?_eq_getElem (by omega)] at he
    simp at he
    have := D.tau_inj (by omega) (by omega) he
    omega
  · refine List.Nodup.map_on ?_ (List.Nodup.of_map _ ho.1)
    intro r hr q hq h
    exact id_inj ho hr hq (D.distinct _ (mem_ids hr) _ (mem_ids hq) h)
  · rintro a ha b hb rfl
    rw [List.mem_map] at ha hb
    obtain ⟨⟨r, i⟩, h1, rfl⟩ := ha
    obtain ⟨q, h2, h3⟩ := hb
    rw [List.mem_zipIdx_iff_getElem?] at h1
    exact D.tau_ne_nu (lt_of_row h1) (mem_ids h2) h3.symm

/-- The targets of the primary edges. -/
theorem targets_nodup (D : Described id info T N t τ ν) (ho : OwnNumbers N) :
    ((t.graph.edges.filter (·.w.isPrimary)).map (·.tgt)).Nodup := by
  have e1 : (t.graph.edges.filter (·.w.isPrimary)).map (·.tgt) =
      ((t.graph.edges.map fun e => (e.src, e.tgt, e.w)).filter (fun x => x.2.2.isPrimary)).map (·.2.1) := by
    rw [List.filter_map, List.map_map]
    rfl
  rw [e1]
  refine ((D.edges.filter _).map _).nodup_iff.2 ?_
  have hatt : ∀ (a : Attach) (m : Nat), ((a.edges ν m).filter (fun x => x.2.2.isPrimary)).map (·.2.1) = [m] := by
    intro a m
    unfold Attach.edges
    cases a.sec with
    | none => simp [Edge.isPrimary]
    | some x => simp [Edge.isPrimary]
  have hfm : ∀ {α : Type} (L : List α) (f : α → List (Nat × Nat × Edge)) (g : α → Nat),
      (∀ a, ((f a).filter (fun x => x.2.2.isPrimary)).map (·.2.1) = [g a]) →
      ((L.flatMap f).filter (fun x => x.2.2.isPrimary)).map (·.2.1) = L.map g := by
    intro α L f g h
    induction L with
    | nil => rfl
    | cons a L ih => rw [List.flatMap_cons, List.filter_append, List.map_append, ih, h]; rfl
  unfold rowEdges
  rw [List.filter_append, List.map_append, 
    hfm T.zipIdx _ (fun p => τ p.2) (fun p => hatt p.1.att (τ p.2)),
    hfm N _ (fun r => ν r.id) (fun r => hatt r.att (ν r.id))]
  exact D.nodes_nodup ho

theorem edge_unique (D : Described id info T N t τ ν) (ho : OwnNumbers N) : ∀ r₁ ∈ t.graph.edges, ∀ r₂ ∈ t.graph.edges,
    r₁.tgt = r₂.tgt → r₁.w.isPrimary = true → r₂.w.isPrimary = true → r₁ = r₂ := by
  intro r1 h1 r2 h2 h3 h4 h5
  exact List.inj_on_of_nodup_map (D.targets_nodup ho) (List.mem_filter.2 ⟨h1, h4⟩) (List.mem_filter.2 ⟨h2, h5⟩) h3

theorem pos_of (N : List NtRow) {r : NtRow} (h : r ∈ N) : ∃ pre post, N = pre ++ r :: post := List.append_of_mem h

/-- From any nonterminal the root is reached. -/
theorem reach_nt (D : Described id info T N t τ ν) (hc : ChildrenFirst N)
    (hpar : ∀ k ∈ parents T N, k ∈ 0 :: N.map (·.id)) :
    ∀ k ∈ 0 :: N.map (·.id), t.Dom t.root (ν k) := by
  have main : ∀ n pre r post, N = pre ++ r :: post → post.length = n → t.Dom t.root (ν r.id) := by
    intro n
    induction n using Nat.strong_induction_on with
    | _ n ih =>
      intro pre r post he hn
      have hr : r ∈ N := by rw [he]; simp
      have hch : t.IsChild (ν r.att.parent) (ν r.id) := D.child_iff.2 (.inr ⟨r, hr, rfl, rfl⟩)
      refine Relation.ReflTransGen.tail ?_ hch
      have hp := hpar _ (mem_parents.2 (.inr ⟨r, hr, rfl⟩))
      rw [List.mem_cons, List.mem_map] at hp
      rcases hp with h0 | ⟨q, hq, hqi⟩
      · rw [h0, ← D.root]
      · have hnot := hc pre r post he
        have hqp : q ∈ post := by
          rw [he, List.mem_append, List.mem_cons] at hq
          rcases hq with hq | hq | hq
          · exact absurd (hqi ▸ List.mem_map_of_mem (f := (·.id)) (List.mem_append_left [r] hq)) hnot
          · subst hq
            exact absurd (hqi ▸ List.mem_map_of_mem (f := (·.id)) (List.mem_append_right pre (List.mem_singleton_self q)))
              hnot
          · exact hq
        obtain ⟨p1, p2, rfl⟩ := List.append_of_mem hqp
        rw [← hqi]
        refine ih p2.length ?_ (pre ++ r :: p1) q p2 ?_ rfl
        · rw [← hn]; simp; omega
        · rw [he]; simp
  intro k hk
  rw [List.mem_cons, List.mem_map] at hk
  rcases hk with rfl | ⟨r, hr, rfl⟩
  · rw [← D.root]; exact Relation.ReflTransGen.refl
  · obtain ⟨pre, post, he⟩ := List.append_of_mem hr
    exact main _ pre r post he rfl

theorem shape (D : Described id info T N t τ ν) (ho : OwnNumbers N) (hc : ChildrenFirst N) (hT : T ≠ [])
    (hpar : ∀ k ∈ parents T N, k ∈ 0 :: N.map (·.id)) (hch : ∀ r ∈ N, r.id ∈ parents T N) : t.Shape := by
  have hreach := D.reach_nt hc hpar
  have hterm : ∀ i < T.length, t.Dom t.root (τ i) := by
    intro i hi
    have hch : t.IsChild (ν T[i].att.parent) (τ i) := D.child_iff.2 (.inl ⟨i, T[i], by simp [hi], rfl, rfl⟩)
    exact Relation.ReflTransGen.tail (hreach _ (hpar _ (mem_parents.2 (.inl ⟨T[i], List.getElem_mem _, rfl⟩)))) hch
  constructor
  · exact ⟨_, D.root ▸ D.root_node⟩
  · exact D.root_top ho
  · exact D.edge_unique ho
  · intro n hn
    rcases D.all n hn with ⟨i, hi, rfl⟩ | ⟨k, hk, rfl⟩
    · exact hterm i hi
    · exact hreach k hk
  · intro n c hn hcc
    rw [D.child_iff] at hcc
    rcases hcc with ⟨i, r, h1, _, h3⟩ | ⟨r, h1, _, h3⟩
    · exact not_both hn (h3 ▸ D.isNt (hpar _ (mem_parents.2 (.inl ⟨r, List.mem_of_getElem? h1, rfl⟩))))
    · exact not_both hn (h3 ▸ D.isNt (hpar _ (mem_parents.2 (.inr ⟨r, h1, rfl⟩))))
  · have hpc : ∀ k ∈ parents T N, ∃ c, t.IsChild (ν k) c := by
      intro k hk
      rcases mem_parents.1 hk with ⟨r, hr, rfl⟩ | ⟨r, hr, rfl⟩
      · obtain ⟨i, hi, rfl⟩ := List.mem_iff_getElem.1 hr
        exact ⟨τ i, D.child_iff.2 (.inl ⟨i, T[i], by simp [hi], rfl, rfl⟩)⟩
      · exact ⟨ν r.id, D.child_iff.2 (.inr ⟨r, hr, rfl, rfl⟩)⟩
    intro n hn
    have hl : t.Live n := by obtain ⟨x, hx⟩ := hn; exact ⟨_, hx⟩
    rcases D.all n hl with ⟨i, hi, rfl⟩ | ⟨k, hk, rfl⟩
    · exact absurd hn fun h => not_both (D.isTerm hi) h
    · rw [List.mem_cons, List.mem_map] at hk
      rcases hk with rfl | ⟨r, hr, rfl⟩
      · -- the path from the root to the first terminal
        have h0 : 0 < T.length := List.length_pos_iff.2 hT
        have hd := hterm 0 h0
        rw [D.root] at hd
        rcases Relation.ReflTransGen.cases_head hd with he | ⟨c, hc1, _⟩
        · exact absurd he.symm (D.tau_ne_nu h0 (by simp))
        · exact ⟨c, hc1⟩
      · exact hpc _ (hch r hr)

theorem sentence (D : Described id info T N t τ ν) : t.Sentence := by
  have hat : ∀ i (hi : i < T.length), t.TermAt (τ i) i := fun i hi =>
    ⟨_, D.terms i T[i] (by simp [hi]), rfl⟩
  have hof : ∀ n i, t.TermAt n i → i < T.length ∧ n = τ i := by
    rintro n i ⟨x, hx, hs⟩
    rcases D.all n ⟨_, hx⟩ with ⟨j, hj, rfl⟩ | ⟨k, hk, rfl⟩
    · have := D.terms j T[j] (by simp [hj])
      rw [hx] at this
      simp only [Option.some.injEq, Node.term.injEq] at this
      rw [this] at hs
      simp [TermRow.terminal, Span.ofIdx] at hs
      subst hs
      exact ⟨hj, rfl⟩
    · exact (not_both ⟨x, hx⟩ (D.isNt hk)).elim
  constructor
  · intro n hn
    have hl : t.Live n := by obtain ⟨x, hx⟩ := hn; exact ⟨_, hx⟩
    rcases D.all n hl with ⟨i, hi, rfl⟩ | ⟨k, hk, rfl⟩
    · exact ⟨i, by rw [D.nTerminals]; exact hi, hat i hi⟩
    · exact (not_both hn (D.isNt hk)).elim
  · intro i hi
    rw [D.nTerminals] at hi
    exact ⟨τ i, hat i hi⟩
  · intro n m i hn hm
    rw [(hof n i hn).2, (hof m i hm).2]

theorem spans (D : Described id info T N t τ ν) (S : t.Shape) (hc : ChildrenFirst N)
    (hT : T ≠ []) (hpar : ∀ k ∈ parents T N, k ∈ 0 :: N.map (·.id))
    (hsp : ∀ r ∈ N, ∀ x, t.graph.node? (ν r.id) = some (.nt x) →
      x.span.Valid ∧ x.span.indices = (childCoverage t.graph (ν r.id)).toFinset) : t.SpansOK := by
  have hcov : ∀ n, t.IsNt n → ∀ i, t.Covers n i ↔ ∃ c, t.IsChild n c ∧ t.Covers c i := by
    intro n hn i
    constructor
    · rintro ⟨m, hd, hm⟩
      rcases Relation.ReflTransGen.cases_head hd with he | ⟨c, h1, h2⟩
      · subst he
        obtain ⟨x, hx, _⟩ := hm
        exact (not_both ⟨x, hx⟩ hn).elim
      · exact ⟨c, h1, m, h2, hm⟩
    · rintro ⟨c, h1, m, h2, h3⟩
      exact ⟨m, Relation.ReflTransGen.head h1 h2, h3⟩
  have hterm : ∀ i (hi : i < T.length) j, j ∈ (T[i].terminal i).span.indices ↔ t.Covers (τ i) j := by
    intro i hi j
    have hx := D.terms i T[i] (by simp [hi])
    have e : j ∈ (T[i].terminal i).span.indices ↔ j = i := by
      rw [mem_indices]
      simp [TermRow.terminal, Span.ofIdx]
      omega
    rw [e]
    constructor
    · rintro rfl
      exact ⟨τ j, Relation.ReflTransGen.refl, _, hx, rfl⟩
    · rintro ⟨m, hd, hm⟩
      rcases Relation.ReflTransGen.cases_head hd with he | ⟨c, h1, _⟩
      · subst he
        obtain ⟨y, hy, hs⟩ := hm
        rw [hx] at hy
        simp only [Option.some.injEq, Node.term.injEq] at hy
        rw [← hy] at hs
        simp [TermRow.terminal, Span.ofIdx] at hs
        exact hs.symm
      · exact absurd h1 (S.term_leaf _ _ ⟨_, hx⟩)
  have main : ∀ n pre r post, N = pre ++ r :: post → pre.length = n → ∀ x, t.graph.node? (ν r.id) = some (.nt x) →
      ∀ i, i ∈ x.span.indices ↔ t.Covers (ν r.id) i := by
    intro n
    induction n using Nat.strong_induction_on with
    | _ n ih =>
      intro pre r post he hn x hx i
      have hr : r ∈ N := by rw [he]; simp
      rw [(hsp r hr x hx).2, List.mem_toFinset, mem_coverage, hcov _ ⟨x, hx⟩]
      have hkid : ∀ c, t.IsChild (ν r.id) c → ∀ nd, t.graph.node? c = some nd → (i ∈ nd.span.toVec ↔ t.Covers c i) := by
        intro c hcc nd hnd
        rw [mem_toVec]
        rcases D.child_iff.1 hcc with ⟨j, q, h1, rfl, _⟩ | ⟨q, hq, rfl, h3⟩
        · have hj := lt_of_row h1
          have h2 := D.terms j q h1
          rw [hnd] at h2
          injection h2 with h2
          subst h2
          have : q = T[j] := by
            rw [List.getElem?_eq_getElem hj] at h1
            injection h1 with h1
            exact h1.symm
          subst this
          exact hterm j hj i
        · obtain ⟨s, hs⟩ := D.nts q hq
          rw [hnd] at hs
          injection hs with hs
          subst hs
          have hpq : r.id = q.att.parent :=
            D.distinct _ (mem_ids hr) _ (hpar _ (mem_parents.2 (.inr ⟨q, hq, rfl⟩))) h3
          obtain ⟨p1, p2, hq'⟩ := List.append_of_mem hq
          -- the line of `q` comes before that of `r`
          have hlt : p1.length < pre.length := by
            by_contra hge
            have hnot := hc p1 q p2 hq'
            rw [← hpq] at hnot
            apply hnot
            have hmem : r ∈ p1 ++ [q] := by
              have h1 : N[pre.length]? = some r := by rw [he]; simp
              have h2 : N = (p1 ++ [q]) ++ p2 := by rw [hq']; simp
              rw [h2] at h1
              by_cases hl : pre.length < (p1 ++ [q]).length
              · rw [List.getElem?_append_left hl] at h1
                exact List.mem_of_getElem? h1
              · have : pre.length ≤ p1.length := by omega
                simp at hl
                omega
            exact List.mem_map_of_mem hmem
          exact ih p1.length (by omega) p1 q p2 hq' rfl _ hnd i
      constructor
      · rintro ⟨e, h1, h2, h3, nd, h4, h5⟩
        have hcc : t.IsChild (ν r.id) e.tgt := ⟨e, h1, h2, rfl, h3⟩
        exact ⟨e.tgt, hcc, (hkid _ hcc nd h4).1 h5⟩
      · rintro ⟨c, hcc, hci⟩
        obtain ⟨e, h1, h2, h3, h4⟩ := (show t.graph.IsChild (ν r.id) c from hcc)
        have hl : t.Live c := by
          rcases D.child_iff.1 hcc with ⟨j, q, h1, rfl, _⟩ | ⟨q, hq, rfl, _⟩
          · exact ⟨_, D.terms j q h1⟩
          · obtain ⟨s, hs⟩ := D.nts q hq; exact ⟨_, hs⟩
        obtain ⟨nd, hnd⟩ := hl
        exact ⟨e, h1, h2, h4, nd, by rw [h3]; exact hnd, (hkid c hcc nd hnd).2 hci⟩
  intro n x hx
  rcases D.all n ⟨_, hx⟩ with ⟨i, hi, rfl⟩ | ⟨k, hk, rfl⟩
  · exact (not_both (D.isTerm hi) ⟨x, hx⟩).elim
  · rw [List.mem_cons, List.mem_map] at hk
    rcases hk with rfl | ⟨r, hr, rfl⟩
    · rw [D.root_node] at hx
      simp only [Option.some.injEq, Node.nt.injEq] at hx
      subst hx
      have hpos : 0 < T.length := List.length_pos_iff.2 hT
      refine ⟨⟨hpos, by simp, by simp⟩, fun i => ?_⟩
      rw [← D.root]
      constructor
      · intro hi
        have hi : i < T.length := by simpa [Span.contains] using hi
        have hl : t.Live (τ i) := ⟨_, D.terms i T[i] (by simp [hi])⟩
        exact ⟨τ i, S.reach _ hl, _, D.terms i T[i] (by simp [hi]), rfl⟩
      · rintro ⟨m, _, hm⟩
        obtain ⟨j, hj, hjm⟩ := D.sentence.pos m (by obtain ⟨y, hy, _⟩ := hm; exact ⟨y, hy⟩)
        have : j = i := by
          obtain ⟨y, hy, hs⟩ := hm
          obtain ⟨y', hy', hs'⟩ := hjm
          rw [hy] at hy'
          simp only [Option.some.injEq, Node.term.injEq] at hy'
          rw [← hy', hs] at hs'
          simp [Span.ofIdx] at hs'
          exact hs'.symm
        rw [D.nTerminals, this] at hj
        simpa [Span.contains] using hj
    · obtain ⟨pre, post, he⟩ := List.append_of_mem hr
      refine ⟨(hsp r hr x hx).1, fun i => ?_⟩
      rw [contains_iff]
      exact main _ pre r post he rfl x hx i

theorem count (D : Described id info T N t τ ν) (ho : OwnNumbers N)
    (hcount : t.numDisc = N.countP (fun r => gapAt t.graph (ν r.id))) : t.CountOK := by
  unfold CountOK
  rw [hcount]
  have hd : ∀ n, t.Disc n ↔ gapAt t.graph n = true := by
    intro n
    unfold Disc gapAt
    cases t.graph.node? n with
    | none => simp
    | some nd => cases nd <;> simp
  have hset : (Finset.range t.graph.nodes.length).filter t.Disc =
      ((N.filter fun r => gapAt t.graph (ν r.id)).map fun r => ν r.id).toFinset := by
    ext n
    rw [Finset.mem_filter, List.mem_toFinset, List.mem_map]
    simp only [List.mem_filter, Finset.mem_range]
    constructor
    · rintro ⟨_, hn⟩
      have hn' := hn
      obtain ⟨x, hx, hs⟩ := hn'
      rcases D.all n ⟨_, hx⟩ with ⟨i, hi, rfl⟩ | ⟨k, hk, rfl⟩
      · exact (not_both (D.isTerm hi) ⟨x, hx⟩).elim
      · rw [List.mem_cons, List.mem_map] at hk
        rcases hk with rfl | ⟨r, hr, rfl⟩
        · rw [D.root_node] at hx
          simp only [Option.some.injEq, Node.nt.injEq] at hx
          subst hx
          simp at hs
        · exact ⟨r, ⟨hr, (hd _).1 hn⟩, rfl⟩
    · rintro ⟨r, ⟨hr, hg⟩, rfl⟩
      refine ⟨?_, (hd _).2 hg⟩
      obtain ⟨s, hs⟩ := D.nts r hr
      exact node?_lt hs
  rw [hset, List.toFinset_card_of_nodup, List.length_map, List.countP_eq_length_filter]
  refine List.Nodup.map_on ?_ ((List.Nodup.of_map _ ho.1).filter _)
  intro r hr q hq h
  exact id_inj ho (List.mem_filter.1 hr).1 (List.mem_filter.1 hq).1
    (D.distinct _ (mem_ids (List.mem_filter.1 hr).1) _ (mem_ids (List.mem_filter.1 hq).1) h)

theorem wf (D : Described id info T N t τ ν) (ho : OwnNumbers N) (hc : ChildrenFirst N) (hT : T ≠ [])
    (hpar : ∀ k ∈ parents T N, k ∈ 0 :: N.map (·.id)) (hch : ∀ r ∈ N, r.id ∈ parents T N) (G : t.graph.OK)
    (hsp : ∀ r ∈ N, ∀ x, t.graph.node? (ν r.id) = some (.nt x) →
      x.span.Valid ∧ x.span.indices = (childCoverage t.graph (ν r.id)).toFinset)
    (hcount : t.numDisc = N.countP (fun r => gapAt t.graph (ν r.id))) : t.WF :=
  have S := D.shape ho hc hT hpar hch
  ⟨G, S, D.sentence, D.spans S hc hT hpar hsp, D.count ho hcount⟩

end Described

/-! ## The tree at the end of a sentence -/

theorem withSec_edges (m : List (Nat × Nat)) (S : List (Nat × Str × Nat)) (g : Graph) :
    (withSec m S g).edges.map (fun e => (e.src, e.tgt, e.w)) =
      (S.map fun s => ((lookupIdx m s.1).getD 0, s.2.2, Edge.secondary (some s.2.1))).reverse ++
        g.edges.map (fun e => (e.src, e.tgt, e.w)) := by
  induction S generalizing g with
  | nil => rfl
  | cons s S ih =>
    obtain ⟨k, l, n⟩ := s
    unfold withSec
    rw [ih]
    simp [pushEdge]

theorem withSec_ids (m : List (Nat × Nat)) (S : List (Nat × Str × Nat)) (g : Graph)
    (h : g.edges.map (·.id) = (List.range g.edgeSlots).reverse) :
    (withSec m S g).edges.map (·.id) = (List.range (withSec m S g).edgeSlots).reverse := by
  induction S generalizing g with
  | nil => exact h
  | cons s S ih =>
    obtain ⟨k, l, n⟩ := s
    unfold withSec
    refine ih _ ?_
    simp only [pushEdge, List.map_cons, h, List.range_succ, List.reverse_append]
    rfl

theorem withSec_free (m : List (Nat × Nat)) (S : List (Nat × Str × Nat)) (g : Graph) :
    (withSec m S g).freeNodes = g.freeNodes ∧ (withSec m S g).freeEdges = g.freeEdges := by
  induction S generalizing g with
  | nil => exact ⟨rfl, rfl⟩
  | cons s S ih => unfold withSec; exact ih _

theorem flatMap_cons_perm {α β : Type} (L : List α) (f : α → β) (g : α → List β) :
    (L.flatMap fun x => f x :: g x).Perm (L.map f ++ L.flatMap g) := by
  induction L with
  | nil => exact .refl _
  | cons a L ih =>
    rw [List.flatMap_cons, List.map_cons, List.flatMap_cons, List.cons_append, List.cons_append]
    refine List.Perm.cons _ ?_
    refine (List.Perm.append_left _ ih).trans ?_
    rw [← List.append_assoc, ← List.append_assoc]
    exact List.Perm.append_right _ List.perm_append_comm

theorem zipIdx_atts {T : List TermRow} {τ : List Nat} (hl : τ.length = T.length) :
    (T.zipIdx.map fun p => (τ.getD p.2 0, p.1.att)) = List.zipWith (fun n (r : TermRow) => (n, r.att)) τ T := by
  apply List.ext_getElem?
  intro i
  simp only [List.getElem?_map, List.getElem?_zipIdx, List.getElem?_zipWith]
  by_cases h : i < T.length
  · rw [List.getElem?_eq_getElem h, List.getElem?_eq_getElem (by omega)]
    simp [List.getElem?_eq_getElem (show i < τ.length by omega)]
  · rw [List.getElem?_eq_none (by omega)]
    cases τ[i]? <;> simp

variable {b : Builder} {τl : List Nat}

theorem rowEdges_eq (h : Inv id b T N τl) : rowEdges T N (fun i => τl.getD i 0) (idx b) =
    (atts b T N τl).flatMap fun x => x.2.edges (idx b) x.1 := by
  unfold rowEdges atts
  rw [List.flatMap_append, ← zipIdx_atts h.len, List.flatMap_map, List.flatMap_map]

/-- A complete sentence with one line per nonterminal has a line for exactly the parents. -/
theorem keys_of (h : Inv id b T N τl) (ho : OwnNumbers N) (hcm : Complete T N) :
    (∀ k, k ∈ keys b ↔ k ∈ 0 :: N.map (·.id)) ∧ (∀ k ∈ parents T N, k ∈ 0 :: N.map (·.id)) ∧
      ∀ r ∈ N, r.id ∈ parents T N := by
  have hlen : (keys b).length = (0 :: N.map (·.id)).length := by
    have := (complete_iff h).1 hcm
    rw [h.proc] at this
    simp [keys, ← this]
  have hnd : (0 :: N.map (·.id)).Nodup := List.nodup_cons.2 ⟨ho.2, ho.1⟩
  have hsub : (0 :: N.map (·.id)).toFinset ⊆ (keys b).toFinset := by
    intro k hk
    rw [List.mem_toFinset, List.mem_cons, List.mem_map] at hk
    rw [List.mem_toFinset]
    rcases hk with rfl | ⟨r, hr, rfl⟩
    · exact (h.mem_keys 0).2 (.inl rfl)
    · exact h.ids r hr
  have heq := Finset.eq_of_subset_of_card_le hsub (by
    rw [List.toFinset_card_of_nodup h.core.keys_nodup, List.toFinset_card_of_nodup hnd, hlen])
  have hk : ∀ k, k ∈ keys b ↔ k ∈ 0 :: N.map (·.id) := by
    intro k
    rw [← List.mem_toFinset, ← heq, List.mem_toFinset]
  refine ⟨hk, fun k hp => (hk k).1 ((h.mem_keys k).2 (.inr hp)), fun r hr => ?_⟩
  rcases (h.mem_keys r.id).1 (h.ids r hr) with h0 | h0
  · exact absurd (h0 ▸ List.mem_map_of_mem hr) ho.2
  · exact h0

theorem finish_node? (root : Nat) (x : NonTerminal) (hx : b.graph.node? root = some (.nt x)) (n : Nat) :
    (finish b root x).graph.node? n =
      if n = root then some (.nt { x with span := ⟨0, b.nTerminals, none⟩ }) else b.graph.node? n := by
  have hlt : root < (withSec b.ntIndices b.secEdges b.graph).nodes.length := by
    rw [withSec_nodes]; exact node?_lt hx
  unfold finish
  dsimp only
  rw [node?_setNode hlt]
  split
  · rfl
  · unfold Graph.node?
    rw [withSec_nodes]

theorem finish_described (h : Inv id b T N τl) (hm : Marks id info b N) (ho : OwnNumbers N) (hk : SecKnown T N)
    (hcm : Complete T N) {root : Nat} (hr : lookupIdx b.ntIndices 0 = some root) {x : NonTerminal}
    (hx : b.graph.node? root = some (.nt x)) :
    Described id info T N (finish b root x) (fun i => τl.getD i 0) (idx b) := by
  have hroot : idx b 0 = root := idx_of_lookup hr
  obtain ⟨hkeys, hpar, hch⟩ := keys_of h ho hcm
  have hx0 := hm.root
  rw [hroot, hx] at hx0
  injection hx0 with hx0
  injection hx0 with hx0
  have hget : ∀ (i : Nat) r, T[i]? = some r → τl[i]? = some (τl.getD i 0) := by
    intro i r hi
    have hi := Described.lt_of_row hi
    rw [← h.len] at hi
    simp [hi]
  refine ⟨hroot.symm, ?_, ?_, ?_, ?_, ?_, ?_, h.nterm, ?_⟩
  · rw [finish_node? root x hx, hroot, if_pos rfl, hx0, h.nterm]
  · intro i r hi
    have h1 := h.term i r _ hi (hget i r hi)
    rw [finish_node? root x hx, if_neg]
    · exact h1
    · intro he
      rw [he, hx] at h1
      simp at h1
  · intro r hr'
    obtain ⟨s, hs⟩ := hm.done r hr'
    refine ⟨s, ?_⟩
    rw [finish_node? root x hx, if_neg]
    · exact hs
    · intro he
      rw [← hroot] at he
      have := idx_inj h.core.vals_nodup (h.ids r hr') ((h.mem_keys 0).2 (.inl rfl)) he
      exact ho.2 (this ▸ List.mem_map_of_mem hr')
  · intro j hj k hk' he
    exact idx_inj h.core.vals_nodup ((hkeys j).2 hj) ((hkeys k).2 hk') he
  · rintro n ⟨nd, hnd⟩
    have hlt : n < b.graph.nodes.length := by
      have := node?_lt hnd
      unfold finish at this
      dsimp only at this
      simpa [Graph.setNode, withSec_nodes] using this
    rcases (h.cover n).1 hlt with ⟨k, hk', rfl⟩ | hn
    · exact .inr ⟨k, (hkeys k).1 hk', rfl⟩
    · obtain ⟨i, hi, rfl⟩ := List.mem_iff_getElem.1 hn
      exact .inl ⟨i, by rw [← h.len]; exact hi, by simp [hi]⟩
  · have e1 : (finish b root x).graph.edges = (withSec b.ntIndices b.secEdges b.graph).edges := rfl
    rw [e1, withSec_edges, h.core.edges, rowEdges_eq h, h.core.sec]
    have e2 : (atts b T N τl).flatMap (fun x => x.2.edges (idx b) x.1) =
        (atts b T N τl).flatMap fun x => (idx b x.2.parent, x.1, Edge.primary x.2.edge) ::
          (secOf x.1 x.2).map fun s => ((lookupIdx b.ntIndices s.1).getD 0, s.2.2, Edge.secondary (some s.2.1)) := by
      refine List.flatMap_congr fun y hy => ?_
      unfold Attach.edges secOf
      cases hs : y.2.sec with
      | none => rfl
      | some p =>
        obtain ⟨l, k⟩ := p
        have hmem : (k, l, y.1) ∈ b.secEdges := by
          rw [h.core.sec, List.mem_flatMap]
          exact ⟨y, hy, mem_secOf.2 ⟨l, k, hs, rfl⟩⟩
        have := lookup_of_mem ((secKnown_iff h).1 hk _ hmem)
        dsimp only at this
        simp [this]
    rw [e2]
    refine List.Perm.trans ?_ (flatMap_cons_perm _ _ _).symm
    refine List.perm_append_comm.trans ?_
    refine List.Perm.append (List.reverse_perm _) ?_
    refine (List.reverse_perm _).trans ?_
    rw [List.map_flatMap]
  · intro i j hij hj
    rw [← h.len] at hj
    rw [show τl.getD i 0 = τl[i] by simp [Nat.lt_trans hij hj], show τl.getD j 0 = τl[j] by simp [hj]]
    exact List.pairwise_iff_getElem.1 h.sorted i j _ _ hij

theorem finish_ok (h : Inv id b T N τl) (hk : SecKnown T N) {root : Nat} {x : NonTerminal}
    (hx : b.graph.node? root = some (.nt x)) : (finish b root x).graph.OK := by
  have hids := withSec_ids b.ntIndices b.secEdges b.graph h.core.ids
  have hfree := withSec_free b.ntIndices b.secEdges b.graph
  have hlive : ∀ n, n < b.graph.nodes.length → (finish b root x).graph.Live n := by
    intro n hn
    unfold Graph.Live
    rw [finish_node? root x hx]
    split
    · exact ⟨_, rfl⟩
    · obtain ⟨nd, hnd, _⟩ := h.good.live n hn
      exact ⟨nd, hnd⟩
  constructor
  · show ((withSec b.ntIndices b.secEdges b.graph).edges.map (·.id)).Nodup
    rw [hids]
    exact List.nodup_reverse.2 List.nodup_range
  · intro r hr
    have : r.id ∈ (withSec b.ntIndices b.secEdges b.graph).edges.map (·.id) := List.mem_map_of_mem hr
    rw [hids, List.mem_reverse, List.mem_range] at this
    exact this
  · show (withSec b.ntIndices b.secEdges b.graph).freeEdges.Nodup
    rw [hfree.2, h.good.freeEdges]
    exact List.nodup_nil
  · show ∀ i ∈ (withSec b.ntIndices b.secEdges b.graph).freeEdges, _
    rw [hfree.2, h.good.freeEdges]
    simp
  · show (withSec b.ntIndices b.secEdges b.graph).freeNodes.Nodup
    rw [hfree.1, h.good.freeNodes]
    exact List.nodup_nil
  · show ∀ i ∈ (withSec b.ntIndices b.secEdges b.graph).freeNodes, _
    rw [hfree.1, h.good.freeNodes]
    simp
  · intro r hr
    have hm : (r.src, r.tgt, r.w) ∈ (withSec b.ntIndices b.secEdges b.graph).edges.map
        (fun e => (e.src, e.tgt, e.w)) := List.mem_map_of_mem hr
    rw [withSec_edges, List.mem_append, List.mem_reverse, List.mem_map] at hm
    rcases hm with ⟨s, hs, he⟩ | hm
    · simp only [Prod.mk.injEq] at he
      have h1 := lookup_of_mem ((secKnown_iff h).1 hk s hs)
      obtain ⟨y, hy⟩ := h.good.nts _ _ h1
      rw [h1, Option.getD_some] at he
      rw [← he.1, ← he.2.1]
      exact ⟨hlive _ (node?_lt hy), hlive _ (sec_target h hs)⟩
    · have hm' := hm
      rw [List.mem_map] at hm
      obtain ⟨e, he1, he2⟩ := hm
      simp only [Prod.mk.injEq] at he2
      have ht := h.good.ends e he1
      rw [he2.2.1] at ht
      refine ⟨hlive _ ?_, hlive _ ht⟩
      rw [h.core.edges, List.mem_reverse, List.mem_map] at hm'
      obtain ⟨y, hy, hye⟩ := hm'
      simp only [Prod.mk.injEq] at hye
      rw [← hye.1]
      have := lookup_of_mem ((h.core.mem_keys y.2.parent).2 (.inr ⟨y, hy, rfl⟩))
      obtain ⟨z, hz⟩ := h.good.nts _ _ this
      exact node?_lt hz

theorem finish_wf (h : Inv id b T N τl) (hm : Marks id info b N) (hs : Spanned b N) (ho : OwnNumbers N)
    (hc : ChildrenFirst N) (hT : T ≠ []) (hk : SecKnown T N) (hcm : Complete T N) {root : Nat}
    (hr : lookupIdx b.ntIndices 0 = some root) {x : NonTerminal} (hx : b.graph.node? root = some (.nt x)) :
    (finish b root x).WF := by
  have D := finish_described h hm ho hk hcm hr hx
  obtain ⟨hkeys, hpar, hch⟩ := keys_of h ho hcm
  have hroot : idx b 0 = root := idx_of_lookup hr
  have hne : ∀ r ∈ N, idx b r.id ≠ root := by
    intro r hr' he
    rw [← hroot] at he
    have := idx_inj h.core.vals_nodup (h.ids r hr') ((h.mem_keys 0).2 (.inl rfl)) he
    exact ho.2 (this ▸ List.mem_map_of_mem hr')
  refine D.wf ho hc hT hpar hch (finish_ok h hk hx) ?_ ?_
  · intro r hr' y hy
    have hy' := hy
    rw [finish_node? root x hx, if_neg (hne r hr')] at hy
    refine ⟨h.good.span hy, ?_⟩
    rw [hs r hr' y hy]
    ext i
    rw [List.mem_toFinset, List.mem_toFinset, mem_coverage, mem_coverage]
    have hback : ∀ e ∈ (finish b root x).graph.edges, e.w.isPrimary = true → e.tgt ≠ root := by
      intro e he hp hte
      exact D.root_top ho e.src ⟨e, he, rfl, hte, hp⟩
    have hedge : ∀ s n w, w.isPrimary = true → ((∃ e ∈ (finish b root x).graph.edges, e.src = s ∧ e.tgt = n ∧ e.w = w) ↔
        ∃ e ∈ b.graph.edges, e.src = s ∧ e.tgt = n ∧ e.w = w) := by
      intro s n w hw
      have e1 : (∃ e ∈ (finish b root x).graph.edges, e.src = s ∧ e.tgt = n ∧ e.w = w) ↔
          (s, n, w) ∈ (withSec b.ntIndices b.secEdges b.graph).edges.map (fun e => (e.src, e.tgt, e.w)) := by
        rw [List.mem_map]
        simp only [Prod.mk.injEq]
        rfl
      have e2 : (∃ e ∈ b.graph.edges, e.src = s ∧ e.tgt = n ∧ e.w = w) ↔
          (s, n, w) ∈ b.graph.edges.map (fun e => (e.src, e.tgt, e.w)) := by
        rw [List.mem_map]
        simp only [Prod.mk.injEq]
      rw [e1, e2, withSec_edges, List.mem_append]
      constructor
      · rintro (h1 | h1)
        · rw [List.mem_reverse, List.mem_map] at h1
          obtain ⟨z, _, hz⟩ := h1
          simp only [Prod.mk.injEq] at hz
          rw [← hz.2.2] at hw
          cases hw
        · exact h1
      · exact .inr
    constructor
    · rintro ⟨e, h1, h2, h3, nd, h4, h5⟩
      obtain ⟨e', g1, g2, g3, g4⟩ := (hedge e.src e.tgt e.w h3).2 ⟨e, h1, rfl, rfl, rfl⟩
      have hp : e'.w.isPrimary = true := by rw [g4]; exact h3
      refine ⟨e', g1, g2.trans h2, hp, nd, ?_, h5⟩
      rw [finish_node? root x hx, if_neg (hback e' g1 hp), g3]
      exact h4
    · rintro ⟨e, h1, h2, h3, nd, h4, h5⟩
      obtain ⟨e', g1, g2, g3, g4⟩ := (hedge e.src e.tgt e.w h3).1 ⟨e, h1, rfl, rfl, rfl⟩
      refine ⟨e', g1, g2.trans h2, by rw [g4]; exact h3, nd, ?_, h5⟩
      rw [finish_node? root x hx, if_neg (hback e h1 h3)] at h4
      rw [g3]
      exact h4
  · show b.numNonProjective = _
    rw [hm.disc]
    refine List.countP_congr fun r hr' => ?_
    unfold gapAt
    rw [finish_node? root x hx, if_neg (hne r hr')]

end Negra
end Lumberjack
