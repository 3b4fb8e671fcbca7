import Verif.Proofs.TreeQuery

/-!
# Depth-first traversals
-/

namespace Lumberjack

open Relation

/-! ## Pre-order -/

theorem Dfs.push_spec (ss : List Nat) (d : Dfs) :
    ∃ new, (Dfs.push ss d).stack = new ++ d.stack ∧
      (∀ x, x ∈ (Dfs.push ss d).discovered ↔ x ∈ new ∨ x ∈ d.discovered) ∧ new.Nodup ∧
      (∀ x ∈ new, x ∈ ss ∧ x ∉ d.discovered) ∧ ∀ s ∈ ss, s ∈ (Dfs.push ss d).discovered := by
  induction ss generalizing d with
  | nil => exact ⟨[], rfl, by simp [push], by simp, by simp, by simp⟩
  | cons s ss ih =>
    by_cases hs : s ∉ d.discovered
    · obtain ⟨new, h1, h2, h3, h4, h5⟩ := ih ⟨s :: d.stack, insert s d.discovered⟩
      have he : push (s :: ss) d = push ss ⟨s :: d.stack, insert s d.discovered⟩ := by
        simp only [push]; rw [if_pos hs]
      rw [he]
      refine ⟨new ++ [s], by rw [h1]; simp, ?_, ?_, ?_, ?_⟩
      · intro x
        rw [h2]
        simp only [Finset.mem_insert, List.mem_append, List.mem_singleton]
        tauto
      · rw [List.nodup_append]
        refine ⟨h3, by simp, ?_⟩
        intro a ha b hb
        simp only [List.mem_singleton] at hb
        subst hb
        rintro rfl
        exact (h4 a ha).2 (by simp)
      · intro x hx
        rcases List.mem_append.1 hx with hx | hx
        · have := h4 x hx
          simp only [Finset.mem_insert, not_or] at this
          exact ⟨by simp [this.1], this.2.2⟩
        · simp only [List.mem_singleton] at hx
          subst hx
          exact ⟨by simp, hs⟩
      · intro x hx
        rcases List.mem_cons.1 hx with rfl | hx
        · rw [h2]; simp
        · exact h5 x hx
    · obtain ⟨new, h1, h2, h3, h4, h5⟩ := ih d
      have he : push (s :: ss) d = push ss d := by
        simp only [push]; rw [if_neg hs]
      rw [he]
      refine ⟨new, h1, h2, h3, fun x hx => ⟨by simp [(h4 x hx).1], (h4 x hx).2⟩, ?_⟩
      intro x hx
      rcases List.mem_cons.1 hx with rfl | hx
      · rw [h2]; right; simpa using hs
      · exact h5 x hx

namespace Tree

variable {t : Tree}

/-- State of the pre-order traversal from `n`: `V` are the nodes already returned. -/
structure DInv (t : Tree) (n : Nat) (V : List Nat) (d : Dfs) : Prop where
  disc : ∀ x, x ∈ d.discovered ↔ x ∈ V ∨ x ∈ d.stack
  nodup : (V ++ d.stack).Nodup
  dom : ∀ x ∈ d.discovered, t.Dom n x
  start : n ∈ d.discovered
  closed : ∀ v ∈ V, ∀ c, t.IsChild v c → c ∈ d.discovered

theorem DInv.next {n : Nat} {V : List Nat} {d : Dfs} (I : DInv t n V d) {x : Nat} {rest : List Nat}
    (h : d.stack = x :: rest) :
    ∃ d', Dfs.next t.graph d = (some x, d') ∧ DInv t n (V ++ [x]) d' := by
  refine ⟨_, by unfold Dfs.next; rw [h], ?_⟩
  obtain ⟨new, h1, h2, h3, h4, h5⟩ := Dfs.push_spec (t.graph.primaryNeighbors x) { d with stack := rest }
  simp only at h1 h2 h4 h5
  have hx : x ∈ d.discovered := (I.disc x).2 (.inr (by rw [h]; simp))
  have hnd := I.nodup
  rw [h] at hnd
  constructor
  · intro y
    rw [h2, I.disc, h1, h]
    simp only [List.mem_append, List.mem_cons, List.not_mem_nil, or_false]
    tauto
  · rw [h1]
    have hperm : (V ++ [x] ++ (new ++ rest)).Perm (new ++ (V ++ x :: rest)) := by
      have : V ++ x :: rest = (V ++ [x]) ++ rest := by simp
      rw [this, ← List.append_assoc, ← List.append_assoc]
      exact List.Perm.append_right _ List.perm_append_comm
    rw [hperm.nodup_iff, List.nodup_append]
    refine ⟨h3, hnd, ?_⟩
    rintro a ha b hb rfl
    refine (h4 a ha).2 ((I.disc a).2 ?_)
    rw [h]
    exact List.mem_append.1 hb
  · intro y hy
    rcases (h2 y).1 hy with hy | hy
    · exact (I.dom x hx).tail (mem_primaryNeighbors.1 (h4 y hy).1)
    · exact I.dom y hy
  · exact (h2 n).2 (.inr I.start)
  · intro v hv c hc
    rcases List.mem_append.1 hv with hv | hv
    · exact (h2 c).2 (.inr (I.closed v hv c hc))
    · simp only [List.mem_singleton] at hv
      subst hv
      exact h5 c (mem_primaryNeighbors.2 hc)

theorem DInv.done {n : Nat} {V : List Nat} {d : Dfs} (I : DInv t n V d) (h : d.stack = []) :
    ∀ x, x ∈ V ↔ t.Dom n x := by
  have hd : ∀ x, x ∈ d.discovered ↔ x ∈ V := fun x => by rw [I.disc, h]; simp
  intro x
  constructor
  · intro hx; exact I.dom x ((hd x).2 hx)
  · intro hx
    induction hx with
    | refl => exact (hd n).1 I.start
    | tail _ hc ih => exact (hd _).1 (I.closed _ ih _ hc)

theorem descendentTerminals_spec (G : t.graph.OK) {n : Nat} (hn : t.Live n) :
    ∃ l, t.descendentTerminals n = .ok l ∧ l.Nodup ∧ ∀ m, m ∈ l ↔ t.Dom n m ∧ t.IsTerm m := by
  unfold descendentTerminals
  have key := loopM_rule
    (step := fun (s : Dfs × List Nat) =>
      match Dfs.next t.graph s.1 with
      | (some x, d) => do
        let nd ← t.node x
        return .inl (d, if nd.isTerminal then s.2 ++ [x] else s.2)
      | (none, _) => .ok (.inr s.2))
    (fun s => ∃ V, DInv t n V s.1 ∧ (s.2.Nodup) ∧ ∀ m, m ∈ s.2 ↔ m ∈ V ∧ t.IsTerm m)
    (fun s => (t.graph.nodes.length + 1) - (s.1.discovered.card - s.1.stack.length))
    (fun l => l.Nodup ∧ ∀ m, m ∈ l ↔ t.Dom n m ∧ t.IsTerm m) ?_
    (t.graph.nodes.length + 2) (Dfs.new n, []) ?_ ?_
  · exact key
  · rintro ⟨d, acc⟩ ⟨V, I, hnd, hacc⟩
    simp only at I hnd hacc ⊢
    cases hs : d.stack with
    | nil =>
      right
      refine ⟨acc, ?_, hnd, fun m => by rw [hacc, I.done hs]⟩
      have : Dfs.next t.graph d = (none, d) := by unfold Dfs.next; rw [hs]
      rw [this]
    | cons x rest =>
      left
      obtain ⟨d', h1, I'⟩ := I.next hs
      have hcard : ∀ {V : List Nat} {d : Dfs}, DInv t n V d →
          d.discovered.card - d.stack.length = V.length ∧ V.length ≤ t.graph.nodes.length := by
        intro V d I
        have h2 : d.discovered = (V ++ d.stack).toFinset := by
          ext y; rw [I.disc]; simp
        have h3 : d.discovered.card = V.length + d.stack.length := by
          rw [h2, List.toFinset_card_of_nodup I.nodup, List.length_append]
        refine ⟨by omega, length_le_of_nodup (List.Nodup.of_append_left I.nodup) ?_⟩
        intro y hy
        exact ((I.dom y ((I.disc y).2 (.inl hy))).live G hn).lt
      have hx : t.Live x := (I.dom x ((I.disc x).2 (.inr (by rw [hs]; simp)))).live G hn
      obtain ⟨nd, hnd'⟩ := hx
      refine ⟨(d', if nd.isTerminal then acc ++ [x] else acc), ?_, ?_, ?_⟩
      · rw [h1]
        simp only [Tree.node, hnd', Res.ofOption_some, Res.ok_bind, Res.pure_eq]
      · refine ⟨V ++ [x], I', ?_, ?_⟩
        · simp only
          split
          · rw [List.nodup_append]
            refine ⟨hnd, by simp, ?_⟩
            rintro a ha b hb rfl
            simp only [List.mem_singleton] at hb
            subst hb
            have hV := ((hacc a).1 ha).1
            have := I.nodup
            rw [hs, List.nodup_append] at this
            exact this.2.2 a hV a (by simp) rfl
          · exact hnd
        · intro m
          have hT : t.IsTerm x ↔ nd.isTerminal = true := by
            unfold IsTerm
            rw [hnd']
            cases nd <;> simp [Node.isTerminal]
          simp only
          split
          · rename_i hterm
            rw [List.mem_append, List.mem_append, hacc]
            simp only [List.mem_singleton]
            constructor
            · rintro (h | rfl)
              · exact ⟨.inl h.1, h.2⟩
              · exact ⟨.inr rfl, hT.2 hterm⟩
            · rintro ⟨h | rfl, h2⟩
              · exact .inl ⟨h, h2⟩
              · exact .inr rfl
          · rename_i hterm
            rw [hacc, List.mem_append]
            simp only [List.mem_singleton]
            constructor
            · rintro h
              exact ⟨.inl h.1, h.2⟩
            · rintro ⟨h | rfl, h2⟩
              · exact ⟨h, h2⟩
              · exact absurd (hT.1 h2) hterm
      · obtain ⟨c1, c2⟩ := hcard I
        obtain ⟨c3, c4⟩ := hcard I'
        rw [hs] at c1
        simp only
        rw [c1, c3]
        simp at c4 ⊢
        omega
  · refine ⟨[], ?_, by simp, by simp⟩
    constructor
    · intro x; simp [Dfs.new]
    · simp [Dfs.new]
    · intro x hx
      simp [Dfs.new] at hx
      subst hx
      exact Dom.refl
    · simp [Dfs.new]
    · simp
  · simp only [Dfs.new]
    omega

/-! ## Post-order -/

/-- State of the post-order traversal.  `fin` is implied to be closed only through `cover`, so that
the invariant survives attaching unfinished nodes below finished ones. -/
structure PInv (t : Tree) (d : DfsPost) : Prop where
  fin_sub : ∀ x ∈ d.finished, x ∈ d.discovered
  cover : ∀ x, t.Live x → x ∈ d.finished ∨ x ∈ d.stack ∨ ∃ p, t.IsChild p x ∧ p ∉ d.discovered
  above : ∀ x, x ∈ d.stack ∨ x ∈ d.discovered → ∀ p, t.IsChild p x → p ∈ d.discovered
  disc_sub : ∀ x ∈ d.discovered, x ∈ d.finished ∨ x ∈ d.stack
  order : ∀ pre x post, d.stack = pre ++ x :: post → x ∈ d.discovered → x ∉ d.finished →
    ∀ c, t.IsChild x c → c ∈ d.finished ∨ c ∈ pre
  live : ∀ x, x ∈ d.stack ∨ x ∈ d.discovered → t.Live x

theorem PInv.new (S : t.Shape) : PInv t (DfsPost.new t.root) where
  fin_sub := by simp [DfsPost.new]
  cover x hx := by
    by_cases h : x = t.root
    · subst h; simp [DfsPost.new]
    · obtain ⟨p, hp⟩ := S.exists_parent hx h
      exact .inr (.inr ⟨p, hp, by simp [DfsPost.new]⟩)
  above x hx p hp := by
    simp [DfsPost.new] at hx
    subst hx
    exact absurd hp (S.root_top p)
  disc_sub := by simp [DfsPost.new]
  order := by simp [DfsPost.new]
  live x hx := by
    simp [DfsPost.new] at hx
    subst hx
    exact S.root_live

theorem PInv.discover (G : t.graph.OK) (S : t.Shape) {d : DfsPost} (I : PInv t d) {x : Nat}
    {rest : List Nat} (hs : d.stack = x :: rest) (hx : x ∉ d.discovered) :
    PInv t { d with
      stack := ((t.graph.primaryNeighbors x).filter (· ∉ insert x d.discovered)).reverse ++ d.stack
      discovered := insert x d.discovered } := by
  have hnew : ∀ c, t.IsChild x c → c ∉ insert x d.discovered := by
    intro c hc hm
    rcases Finset.mem_insert.1 hm with rfl | hm
    · exact S.not_isChild_self G c hc
    · exact hx (I.above c (.inr hm) x hc)
  have hpush : ∀ c, c ∈ ((t.graph.primaryNeighbors x).filter (· ∉ insert x d.discovered)).reverse ↔
      t.IsChild x c := by
    intro c
    rw [List.mem_reverse, List.mem_filter, mem_primaryNeighbors]
    constructor
    · exact fun h => h.1
    · exact fun h => ⟨h, by simpa using hnew c h⟩
  constructor
  · intro y hy; exact Finset.mem_insert_of_mem (I.fin_sub y hy)
  · intro y hy
    rcases I.cover y hy with h | h | ⟨p, hp, hpd⟩
    · exact .inl h
    · exact .inr (.inl (List.mem_append.2 (.inr h)))
    · by_cases e : p = x
      · subst e
        exact .inr (.inl (List.mem_append.2 (.inl ((hpush y).2 hp))))
      · exact .inr (.inr ⟨p, hp, by simp [e, hpd]⟩)
  · intro y hy p hp
    rcases hy with hy | hy
    · rcases List.mem_append.1 hy with hy | hy
      · rw [S.isChild_unique hp ((hpush y).1 hy)]
        exact Finset.mem_insert_self _ _
      · exact Finset.mem_insert_of_mem (I.above y (.inl hy) p hp)
    · rcases Finset.mem_insert.1 hy with rfl | hy
      · exact Finset.mem_insert_of_mem (I.above y (.inl (by rw [hs]; simp)) p hp)
      · exact Finset.mem_insert_of_mem (I.above y (.inr hy) p hp)
  · intro y hy
    rcases Finset.mem_insert.1 hy with rfl | hy
    · exact .inr (List.mem_append.2 (.inr (by rw [hs]; simp)))
    · rcases I.disc_sub y hy with h | h
      · exact .inl h
      · exact .inr (List.mem_append.2 (.inr h))
  · intro pre y post hst hy hyf c hc
    simp only at hst
    rcases List.append_eq_append_iff.1 hst with ⟨as, h1, h2⟩ | ⟨bs, h1, h2⟩
    · -- `y` lies in the old stack
      by_cases e : y = x
      · subst e
        exact .inr (by rw [h1]; exact List.mem_append.2 (.inl ((hpush c).2 hc)))
      · rcases Finset.mem_insert.1 hy with rfl | hy
        · exact absurd rfl e
        · rcases I.order as y post h2 hy hyf c hc with h | h
          · exact .inl h
          · exact .inr (by rw [h1]; exact List.mem_append.2 (.inr h))
    · cases bs with
      | nil =>
        simp only [List.nil_append] at h2
        rw [hs] at h2
        simp only [List.cons.injEq] at h2
        obtain ⟨rfl, _⟩ := h2
        refine .inr ?_
        rw [List.append_nil] at h1
        rw [← h1]
        exact (hpush c).2 hc
      | cons b bs =>
        simp only [List.cons_append, List.cons.injEq] at h2
        obtain ⟨rfl, _⟩ := h2
        have : y ∈ ((t.graph.primaryNeighbors x).filter (· ∉ insert x d.discovered)).reverse := by
          rw [h1]; simp
        exact absurd hy (hnew y ((hpush y).1 this))
  · intro y hy
    rcases hy with hy | hy
    · rcases List.mem_append.1 hy with hy | hy
      · exact (isChild_live G ((hpush y).1 hy)).2
      · exact I.live y (.inl hy)
    · rcases Finset.mem_insert.1 hy with rfl | hy
      · exact I.live y (.inl (by rw [hs]; simp))
      · exact I.live y (.inr hy)

theorem PInv.finish {d : DfsPost} (I : PInv t d) {x : Nat}
    {rest : List Nat} (hs : d.stack = x :: rest) (hx : x ∈ d.discovered) :
    PInv t { d with stack := rest, finished := insert x d.finished } := by
  constructor
  · intro y hy
    rcases Finset.mem_insert.1 hy with rfl | hy
    · exact hx
    · exact I.fin_sub y hy
  · intro y hy
    rcases I.cover y hy with h | h | h
    · exact .inl (Finset.mem_insert_of_mem h)
    · rw [hs] at h
      rcases List.mem_cons.1 h with rfl | h
      · exact .inl (Finset.mem_insert_self _ _)
      · exact .inr (.inl h)
    · exact .inr (.inr h)
  · intro y hy p hp
    refine I.above y ?_ p hp
    rcases hy with hy | hy
    · exact .inl (by rw [hs]; simp [hy])
    · exact .inr hy
  · intro y hy
    rcases I.disc_sub y hy with h | h
    · exact .inl (Finset.mem_insert_of_mem h)
    · rw [hs] at h
      rcases List.mem_cons.1 h with rfl | h
      · exact .inl (Finset.mem_insert_self _ _)
      · exact .inr h
  · intro pre y post hst hy hyf c hc
    simp only at hst hyf
    rcases I.order (x :: pre) y post (by rw [hs, hst]; simp) hy
      (fun h => hyf (Finset.mem_insert_of_mem h)) c hc with h | h
    · exact .inl (Finset.mem_insert_of_mem h)
    · rcases List.mem_cons.1 h with rfl | h
      · exact .inl (Finset.mem_insert_self _ _)
      · exact .inr h
  · intro y hy
    refine I.live y ?_
    rcases hy with hy | hy
    · exact .inl (by rw [hs]; simp [hy])
    · exact .inr hy

theorem PInv.skip {d : DfsPost} (I : PInv t d) {x : Nat}
    {rest : List Nat} (hs : d.stack = x :: rest) (hx : x ∈ d.finished) :
    PInv t { d with stack := rest } := by
  have := I.finish hs (I.fin_sub x hx)
  rwa [Finset.insert_eq_self.2 hx] at this

theorem PInv.done (G : t.graph.OK) (S : t.Shape) {d : DfsPost} (I : PInv t d) (hs : d.stack = []) :
    ∀ x, t.Live x → x ∈ d.finished := by
  have hroot : t.root ∈ d.finished := by
    rcases I.cover t.root S.root_live with h | h | ⟨p, hp, _⟩
    · exact h
    · rw [hs] at h; simp at h
    · exact absurd hp (S.root_top p)
  have key : ∀ x, t.Dom t.root x → t.Live x → x ∈ d.finished := by
    intro x hx
    induction hx with
    | refl => exact fun _ => hroot
    | @tail a b hra hab ih =>
      intro hb
      rcases I.cover b hb with h | h | ⟨p, hp, hpd⟩
      · exact h
      · rw [hs] at h; simp at h
      · exfalso
        rw [S.isChild_unique hp hab] at hpd
        exact hpd (I.fin_sub a (ih (isChild_live G hab).1))
  exact fun x hx => key x (S.reach x hx) hx

theorem primaryNeighbors_length (g : Graph) (n : Nat) :
    (g.primaryNeighbors n).length ≤ g.edges.length := by
  unfold Graph.primaryNeighbors Graph.outEdges
  rw [List.length_map]
  exact (List.length_filter_le _ _).trans (List.length_filter_le _ _)

theorem PInv.card_le {d : DfsPost} (I : PInv t d) :
    d.discovered.card ≤ t.graph.nodes.length := by
  have : d.discovered ⊆ Finset.range t.graph.nodes.length := by
    intro x hx
    exact Finset.mem_range.2 (I.live x (.inr hx)).lt
  simpa using Finset.card_le_card this

/-- `DfsPostOrder::next` returns an unfinished node all of whose children are finished, until every
node is finished. -/
theorem PInv.next (G : t.graph.OK) (S : t.Shape) {d : DfsPost} (I : PInv t d) :
    (∃ x d', d.next t.graph = .ok (some x, d') ∧ PInv t d' ∧ t.Live x ∧ x ∉ d.finished ∧
      d'.finished = insert x d.finished ∧ ∀ c, t.IsChild x c → c ∈ d.finished) ∨
    (∃ d', d.next t.graph = .ok (none, d') ∧ ∀ x, t.Live x → x ∈ d.finished) := by
  unfold DfsPost.next
  have key := loopM_rule (step := DfsPost.step t.graph)
    (fun s => PInv t s ∧ s.finished = d.finished)
    (fun s => (t.graph.nodes.length - s.discovered.card) * (t.graph.edges.length + 1) + s.stack.length)
    (fun b => (∃ x d', b = (some x, d') ∧ PInv t d' ∧ t.Live x ∧ x ∉ d.finished ∧
      d'.finished = insert x d.finished ∧ ∀ c, t.IsChild x c → c ∈ d.finished) ∨
      (∃ d', b = (none, d') ∧ ∀ x, t.Live x → x ∈ d.finished)) ?_
    (DfsPost.fuel t.graph d) d ⟨I, rfl⟩ ?_
  · obtain ⟨b, hb, hpost⟩ := key
    rcases hpost with ⟨x, d', rfl, h⟩ | ⟨d', rfl, h⟩
    · exact .inl ⟨x, d', hb, h⟩
    · exact .inr ⟨d', hb, h⟩
  · rintro s ⟨I, hfin⟩
    cases hs : s.stack with
    | nil =>
      right
      refine ⟨(none, s), by unfold DfsPost.step; rw [hs], .inr ⟨s, rfl, ?_⟩⟩
      rw [← hfin]
      exact I.done G S hs
    | cons x rest =>
      by_cases hx : x ∈ s.discovered
      · by_cases hxf : x ∈ s.finished
        · left
          refine ⟨_, by unfold DfsPost.step; simp only [hs, hx, hxf, not_true, if_false], ⟨I.skip hs hxf, hfin⟩, ?_⟩
          simp
        · right
          refine ⟨_, by unfold DfsPost.step; simp only [hs, hx, hxf, not_true, not_false_iff, if_false, if_true],
            .inl ⟨x, _, rfl, I.finish hs hx, I.live x (.inr hx), by rw [← hfin]; exact hxf, ?_, ?_⟩⟩
          · simp only [hfin]
          · intro c hc
            rcases I.order [] x rest hs hx hxf c hc with h | h
            · rw [← hfin]; exact h
            · simp at h
      · left
        have I' := I.discover G S hs hx
        rw [hs] at I'
        refine ⟨_, by unfold DfsPost.step; simp only [hs, hx, not_false_iff, if_true], ⟨I', hfin⟩, ?_⟩
        have hc := I'.card_le
        simp only [Finset.card_insert_of_notMem hx] at hc ⊢
        rw [List.length_append, List.length_reverse]
        have h1 : ((t.graph.primaryNeighbors x).filter (· ∉ insert x s.discovered)).length ≤
            t.graph.edges.length := (List.length_filter_le _ _).trans (primaryNeighbors_length _ _)
        obtain ⟨k, hk⟩ : ∃ k, t.graph.nodes.length = s.discovered.card + 1 + k :=
          ⟨_, (Nat.add_sub_of_le hc).symm⟩
        rw [hk, Nat.add_sub_cancel_left,
          show s.discovered.card + 1 + k - s.discovered.card = k + 1 by omega, Nat.succ_mul]
        omega
  · unfold DfsPost.fuel
    have : (t.graph.nodes.length - d.discovered.card) * (t.graph.edges.length + 1) ≤
        (t.graph.nodes.length + 1) * (t.graph.edges.length + 1) :=
      Nat.mul_le_mul_right _ (by omega)
    omega

/-- The invariant only depends on the primary edges and on which nodes are live. -/
theorem PInv.congr {t' : Tree} {d : DfsPost} (I : PInv t d) (hc : t'.IsChild = t.IsChild)
    (hl : ∀ n, t'.Live n ↔ t.Live n) : PInv t' d where
  fin_sub := I.fin_sub
  cover x hx := by rw [hc]; exact I.cover x ((hl x).1 hx)
  above := by rw [hc]; exact I.above
  disc_sub := I.disc_sub
  order := by rw [hc]; exact I.order
  live x hx := (hl x).2 (I.live x hx)

end Tree
end Lumberjack
