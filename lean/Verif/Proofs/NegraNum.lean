import Verif.Model.Negra
import Verif.Proofs.TreeQuery

/-!
# The numbering of nonterminals by the NEGRA writer
-/

namespace Lumberjack
namespace Negra

open Lumberjack.Tree

variable {t : Tree}

/-- The id map after numbering the nonterminals `nts`. -/
def idsOf (root : Nat) (nts : List Nat) : List (Nat × Str) :=
  (root, ['0']) :: nts.zipIdx.map fun p => (p.1, Tree.natToStr (500 + p.2))

theorem idsOf_concat (root n : Nat) (nts : List Nat) :
    idsOf root (nts ++ [n]) = idsOf root nts ++ [(n, Tree.natToStr (500 + nts.length))] := by
  simp [idsOf, List.zipIdx_append]

structure NumInv (t : Tree) (s : NumState) : Prop where
  vis : ∀ n ∈ s.visited, t.IsTerm n ∨ n ∈ s.nts ∨ n = t.root
  terms : ∀ n, t.IsTerm n → n ∈ s.visited
  done : ∀ n ∈ s.nts, n ∈ s.visited
  nts : ∀ n ∈ s.nts, t.IsNt n ∧ n ≠ t.root
  nodup : s.nts.Nodup
  queue : ∀ n ∈ s.queue, t.IsNt n ∧ ∀ c, t.IsChild n c → c ∈ s.visited
  closed : ∀ p, t.IsNt p → (∀ c, t.IsChild p c → c ∈ s.visited) → p ∈ s.visited ∨ p ∈ s.queue
  ids : s.ids = idsOf t.root s.nts
  count : s.count = 500 + s.nts.length
  order : ∀ pre a post, s.nts = pre ++ a :: post → ∀ c, t.IsChild a c → t.IsTerm c ∨ c ∈ pre

theorem number_step (G : t.graph.OK) (S : t.Shape) (s : NumState) (h : NumInv t s) :
    (∃ s', numberStep t s = .ok (.inl s') ∧ NumInv t s' ∧
      s'.queue.length + (Finset.range t.graph.nodes.length \ s'.visited).card <
        s.queue.length + (Finset.range t.graph.nodes.length \ s.visited).card) ∨
    (∃ b, numberStep t s = .ok (.inr b) ∧ NumInv t b ∧ b.queue = []) := by
  obtain ⟨queue, visited, ids, nts, count⟩ := s
  cases queue with
  | nil => right; exact ⟨_, rfl, h, rfl⟩
  | cons n queue =>
    left
    obtain ⟨hn, hnc⟩ := h.queue n (by simp)
    by_cases hv : n ∈ visited ∨ t.root = n
    · refine ⟨⟨queue, insert n visited, ids, nts, count⟩, by simp [numberStep, hv], ?_, ?_⟩
      · constructor
        · intro m hm
          rcases Finset.mem_insert.1 hm with rfl | hm
          · rcases hv with hv | hv
            · exact h.vis _ hv
            · exact .inr (.inr hv.symm)
          · exact h.vis m hm
        · exact fun m hm => Finset.mem_insert_of_mem (h.terms m hm)
        · exact fun m hm => Finset.mem_insert_of_mem (h.done m hm)
        · exact h.nts
        · exact h.nodup
        · intro m hm
          obtain ⟨a, b⟩ := h.queue m (by simp [hm])
          exact ⟨a, fun c hc => Finset.mem_insert_of_mem (b c hc)⟩
        · intro p hp hc
          have hc' : ∀ c, t.IsChild p c → c ∈ visited := by
            intro c hpc
            rcases Finset.mem_insert.1 (hc c hpc) with rfl | hm
            · rcases hv with hv | hv
              · exact hv
              · exact absurd (hv ▸ hpc) (S.root_top p)
            · exact hm
          rcases h.closed p hp hc' with h1 | h1
          · exact .inl (Finset.mem_insert_of_mem h1)
          · simp only [List.mem_cons] at h1
            rcases h1 with rfl | h1
            · exact .inl (Finset.mem_insert_self _ _)
            · exact .inr h1
        · exact h.ids
        · exact h.count
        · exact h.order
      · have : (Finset.range t.graph.nodes.length \ insert n visited).card ≤
            (Finset.range t.graph.nodes.length \ visited).card :=
          Finset.card_le_card (Finset.sdiff_subset_sdiff (le_refl _) (Finset.subset_insert _ _))
        simp only [List.length_cons]; omega
    · have hv1 : n ∉ visited := fun h => hv (.inl h)
      have hv2 : n ≠ t.root := fun h => hv (.inr h.symm)
      have hlive : t.Live n := live_iff.2 (.inr hn)
      obtain ⟨p, hp⟩ := S.exists_parent hlive hv2
      obtain ⟨e, hpe⟩ := S.parent_of_isChild hp
      have hall : ∀ v : Finset Nat, ((t.children p).all fun c => decide (c.1 ∈ v)) = true ↔
          ∀ c, t.IsChild p c → c ∈ v := by
        intro v
        rw [List.all_eq_true]
        constructor
        · intro h c hc
          obtain ⟨x, hx, rfl⟩ := List.mem_map.1 (mem_children_fst.2 hc)
          simpa using h x hx
        · intro h c hc
          simpa using h c.1 (isChild_of_mem_children hc)
      have hnin : n ∉ nts := fun hm => hv1 (h.done n hm)
      refine ⟨⟨if ((t.children p).all fun c => decide (c.1 ∈ insert n visited)) = true then p :: queue else queue,
        insert n visited, ids ++ [(n, Tree.natToStr count)], nts ++ [n], count + 1⟩,
        by simp only [numberStep, hv, if_false, hpe], ?_, ?_⟩
      · constructor
        · intro m hm
          rcases Finset.mem_insert.1 hm with rfl | hm
          · exact .inr (.inl (by simp))
          · rcases h.vis m hm with h1 | h1 | h1
            · exact .inl h1
            · exact .inr (.inl (by simp; exact .inl h1))
            · exact .inr (.inr h1)
        · exact fun m hm => Finset.mem_insert_of_mem (h.terms m hm)
        · intro m hm
          simp only [List.mem_append, List.mem_singleton] at hm
          rcases hm with hm | rfl
          · exact Finset.mem_insert_of_mem (h.done m hm)
          · exact Finset.mem_insert_self _ _
        · intro m hm
          simp only [List.mem_append, List.mem_singleton] at hm
          rcases hm with hm | rfl
          · exact h.nts m hm
          · exact ⟨hn, hv2⟩
        · refine List.nodup_append.2 ⟨h.nodup, List.nodup_singleton _, ?_⟩
          rintro a ha b hb rfl
          simp only [List.mem_singleton] at hb
          exact hnin (hb ▸ ha)
        · intro m hm
          have old : m ∈ queue → t.IsNt m ∧ ∀ c, t.IsChild m c → c ∈ insert n visited := by
            intro hm
            obtain ⟨a, b⟩ := h.queue m (by simp [hm])
            exact ⟨a, fun c hc => Finset.mem_insert_of_mem (b c hc)⟩
          dsimp only at hm
          split at hm
          · rename_i hc
            rcases List.mem_cons.1 hm with rfl | hm
            · exact ⟨S.parent_isNt G hp, (hall _).1 hc⟩
            · exact old hm
          · exact old hm
        · intro q hq hc
          dsimp only at hc ⊢
          by_cases hqn : q = n
          · left; rw [hqn]; exact Finset.mem_insert_self _ _
          by_cases hqp : q = p
          · subst hqp
            right
            rw [if_pos ((hall _).2 hc)]
            simp
          · have hc' : ∀ c, t.IsChild q c → c ∈ visited := by
              intro c hqc
              rcases Finset.mem_insert.1 (hc c hqc) with rfl | hm
              · exact absurd (S.isChild_unique hqc hp) hqp
              · exact hm
            rcases h.closed q hq hc' with h1 | h1
            · exact .inl (Finset.mem_insert_of_mem h1)
            · right
              have h1 : q ∈ queue := by
                rcases List.mem_cons.1 h1 with h1 | h1
                · exact absurd h1 hqn
                · exact h1
              split
              · simp [h1]
              · exact h1
        · dsimp only
          have h1 : ids = idsOf t.root nts := h.ids
          have h2 : count = 500 + nts.length := h.count
          rw [idsOf_concat, h1, h2]
        · have := h.count; simp only [List.length_append, List.length_singleton] at this ⊢; omega
        · intro pre a post he c hc
          dsimp only at he
          rcases List.eq_nil_or_concat post with rfl | ⟨post', b, rfl⟩
          · obtain ⟨rfl, h2⟩ := List.append_inj' he rfl
            simp only [List.cons.injEq, and_true] at h2
            subst h2
            rcases h.vis c (hnc c hc) with h1 | h1 | h1
            · exact .inl h1
            · exact .inr h1
            · exact absurd (h1 ▸ hc) (S.root_top n)
          · rw [List.concat_eq_append, ← List.cons_append, ← List.append_assoc] at he
            obtain ⟨h1, _⟩ := List.append_inj' he rfl
            exact h.order pre a post' h1 c hc
      · have h1 : Finset.range t.graph.nodes.length \ insert n visited =
            (Finset.range t.graph.nodes.length \ visited).erase n := by
          ext x; simp only [Finset.mem_sdiff, Finset.mem_insert, Finset.mem_erase]; tauto
        have h2 : n ∈ Finset.range t.graph.nodes.length \ visited :=
          Finset.mem_sdiff.2 ⟨Finset.mem_range.2 (Graph.Live.lt hlive), hv1⟩
        have h3 := Finset.card_pos.2 ⟨n, h2⟩
        dsimp only
        rw [h1, Finset.card_erase_of_mem h2]
        split <;> simp only [List.length_cons] <;> omega

theorem mem_initialQueue (S : t.Shape) {l : List Nat} {p : Nat} : p ∈ initialQueue t l ↔
    (∃ n ∈ l, t.IsChild p n) ∧ ∀ c, t.IsChild p c → t.IsTerm c := by
  induction l with
  | nil => simp [initialQueue]
  | cons n ns ih =>
    unfold initialQueue
    cases hp : t.parent n with
    | none =>
      simp only [ih, List.mem_cons, exists_eq_or_imp]
      have := parent_none.1 hp p
      tauto
    | some x =>
      obtain ⟨q, e⟩ := x
      have hq := parent_isChild hp
      have hall : ((t.children q).all fun c => (t.graph.node? c.1).any Node.isTerminal) = true ↔
          ∀ c, t.IsChild q c → t.IsTerm c := by
        have hterm : ∀ c, (t.graph.node? c).any Node.isTerminal = true ↔ t.IsTerm c := by
          intro c
          unfold IsTerm
          cases t.graph.node? c with
          | none => simp
          | some nd => cases nd <;> simp [Node.isTerminal]
        rw [List.all_eq_true]
        constructor
        · intro h c hc
          obtain ⟨x, hx, rfl⟩ := List.mem_map.1 (mem_children_fst.2 hc)
          exact (hterm _).1 (h x hx)
        · intro h c hc
          exact (hterm _).2 (h c.1 (isChild_of_mem_children hc))
      have hpq : t.IsChild p n ↔ p = q :=
        ⟨fun h => S.isChild_unique h hq, fun h => h ▸ hq⟩
      dsimp only
      split
      · rename_i hc
        rw [hall] at hc
        simp only [List.mem_cons, ih, exists_eq_or_imp, hpq]
        constructor
        · rintro (rfl | ⟨h1, h2⟩)
          · exact ⟨.inl rfl, hc⟩
          · exact ⟨.inr h1, h2⟩
        · rintro ⟨rfl | h1, h2⟩
          · exact .inl rfl
          · exact .inr ⟨h1, h2⟩
      · rename_i hc
        rw [hall] at hc
        simp only [List.mem_cons, ih, exists_eq_or_imp, hpq]
        constructor
        · rintro ⟨h1, h2⟩; exact ⟨.inr h1, h2⟩
        · rintro ⟨rfl | h1, h2⟩
          · exact absurd h2 hc
          · exact ⟨h1, h2⟩

theorem numInv_start (G : t.graph.OK) (S : t.Shape) {l : List Nat} (hl : ∀ n, n ∈ l ↔ t.IsTerm n) :
    NumInv t ⟨initialQueue t l, l.toFinset, [(t.root, ['0'])], [], 500⟩ := by
  constructor
  · intro n hn; exact .inl ((hl n).1 (List.mem_toFinset.1 hn))
  · intro n hn; exact List.mem_toFinset.2 ((hl n).2 hn)
  · simp
  · simp
  · simp
  · intro n hn
    obtain ⟨⟨m, hm, hc⟩, h2⟩ := (mem_initialQueue S).1 hn
    exact ⟨S.parent_isNt G hc, fun c hc => List.mem_toFinset.2 ((hl c).2 (h2 c hc))⟩
  · intro p hp hc
    right
    have hc' : ∀ c, t.IsChild p c → t.IsTerm c := fun c h => (hl c).1 (List.mem_toFinset.1 (hc c h))
    obtain ⟨c, hpc⟩ := S.nt_child p hp
    exact (mem_initialQueue S).2 ⟨⟨c, (hl c).2 (hc' c hpc), hpc⟩, hc'⟩
  · rfl
  · rfl
  · simp

theorem number_ok (G : t.graph.OK) (S : t.Shape) {l : List Nat} (hl : ∀ n, n ∈ l ↔ t.IsTerm n) :
    ∃ s, number t l = .ok s ∧ s.nts.Nodup ∧ (∀ n, n ∈ s.nts ↔ t.IsNt n ∧ n ≠ t.root) ∧
      s.ids = idsOf t.root s.nts ∧
      ∀ pre a post, s.nts = pre ++ a :: post → ∀ c, t.IsChild a c → t.IsTerm c ∨ c ∈ pre := by
  have hini := numInv_start G S hl
  obtain ⟨s, h1, h2, h3⟩ := loopM_rule (step := numberStep t) (NumInv t)
    (fun s => s.queue.length + (Finset.range t.graph.nodes.length \ s.visited).card)
    (fun b => NumInv t b ∧ b.queue = []) (number_step G S)
    ((initialQueue t l).length + t.graph.nodes.length + 1) _ hini (by
      have : (Finset.range t.graph.nodes.length \ l.toFinset).card ≤ (Finset.range t.graph.nodes.length).card :=
        Finset.card_le_card Finset.sdiff_subset
      rw [Finset.card_range] at this
      dsimp only
      omega)
  refine ⟨s, h1, h2.nodup, fun n => ⟨h2.nts n, ?_⟩, h2.ids, h2.order⟩
  have hvis : ∀ n, t.Live n → n ∈ s.visited := by
    intro n hn
    refine S.induction_up G (P := fun n => n ∈ s.visited) ?_ n hn
    intro n hn hc
    rcases live_iff.1 hn with ht | hnt
    · exact h2.terms n ht
    · have := h2.closed n hnt hc
      rw [h3] at this
      simpa using this
  rintro ⟨hn, hr⟩
  rcases h2.vis n (hvis n (live_iff.2 (.inr hn))) with h | h | h
  · exact (not_isTerm_isNt h hn).elim
  · exact h
  · exact absurd h hr

end Negra
end Lumberjack
