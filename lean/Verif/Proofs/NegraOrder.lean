import Verif.Proofs.NegraWrite
import Verif.Spec.NegraOrder

/-!
# The order in which the NEGRA writer numbers the nonterminals
-/

namespace Lumberjack
namespace Negra

open Lumberjack.Tree Relation

variable {t : Tree}

theorem NoLater.refl (a : Nat) : NoLater t a a := fun x h1 h2 => ⟨x, h1, h2, Nat.le_refl _⟩

theorem NoLater.up {a b c : Nat} (h : NoLater t a b) (hd : t.Dom c b) : NoLater t a c := fun x h1 h2 =>
  let ⟨y, h3, h4, h5⟩ := h x h1 h2
  ⟨y, h3, hd.trans h4, h5⟩

theorem lowest_dom (S : t.Shape) {x y : Nat} (hx : Lowest t x) (hy : t.IsNt y) (h : t.Dom x y) : x = y := by
  rcases h.cases_head with h | ⟨c, h1, h2⟩
  · exact h
  · have hc := hx.2 c h1
    rcases h2.cases_head with h | ⟨d, h3, _⟩
    · subst h; exact (not_isTerm_isNt hc hy).elim
    · exact (S.term_leaf c d hc h3).elim

/-- The order of the queue: whatever stands before the first occurrence of a node not visited is no later. -/
structure NumOrd (t : Tree) (s : NumState) : Prop where
  ready : ∀ pre b post, s.queue = pre ++ b :: post → b ∉ pre → b ∉ s.visited → ∀ a ∈ pre, NoLater t a b
  next : ∀ m ∈ s.nts, ∀ b ∈ s.queue, b ∉ s.visited → NoLater t m b
  seq : s.nts.Pairwise (NoLater t)

theorem ord_stop {s b : NumState} (o : NumOrd t s) (h : numberStep t s = .ok (.inr b)) : NumOrd t b := by
  obtain ⟨queue, visited, ids, nts, count⟩ := s
  cases queue with
  | nil =>
    simp only [numberStep, Res.ok.injEq, Sum.inr.injEq] at h
    exact h ▸ o
  | cons n queue =>
    simp only [numberStep] at h
    split at h <;> simp at h

theorem first_split {n : Nat} {l : List Nat} (h : n ∈ l) : ∃ pre post, l = pre ++ n :: post ∧ n ∉ pre := by
  induction l with
  | nil => cases h
  | cons m l ih =>
    by_cases e : n = m
    · exact ⟨[], l, by simp [e], by simp⟩
    · obtain ⟨pre, post, h1, h2⟩ := ih (by simpa [e] using h)
      exact ⟨m :: pre, post, by simp [h1], by simp [e, h2]⟩

theorem ord_step (S : t.Shape) {s s' : NumState} (I : NumInv t s) (I' : NumInv t s') (o : NumOrd t s)
    (h : numberStep t s = .ok (.inl s')) : NumOrd t s' := by
  obtain ⟨queue, visited, ids, nts, count⟩ := s
  cases queue with
  | nil => simp [numberStep] at h
  | cons n queue =>
    have hold : ∀ pre b post, queue = pre ++ b :: post → b ∉ pre → b ∉ insert n visited →
        ∀ a ∈ n :: pre, NoLater t a b := by
      intro pre b post e h1 h2 a ha
      have hb : b ≠ n := fun e => h2 (e ▸ Finset.mem_insert_self _ _)
      exact o.ready (n :: pre) b post (by simp [e]) (by simp [hb, h1]) (fun h => h2 (Finset.mem_insert_of_mem h)) a ha
    have hnext : ∀ m ∈ nts ++ [n], ∀ b ∈ queue, b ∉ insert n visited → NoLater t m b := by
      intro m hm b hb h2
      rcases List.mem_append.1 hm with hm | hm
      · exact o.next m hm b (by simp [hb]) (fun h => h2 (Finset.mem_insert_of_mem h))
      · obtain ⟨pre, post, e, h1⟩ := first_split hb
        exact hold pre b post e h1 h2 m (by simp at hm; simp [hm])
    simp only [numberStep] at h
    split at h
    · simp only [Res.ok.injEq, Sum.inl.injEq] at h
      subst h
      exact ⟨fun pre b post e h1 h2 a ha => hold pre b post e h1 h2 a (by simp [ha]),
        fun m hm b hb h2 => hnext m (by simp [hm]) b hb h2, o.seq⟩
    · rename_i hv
      have hv1 : n ∉ visited := fun h => hv (.inl h)
      have hn := (I.queue n (by simp)).1
      obtain ⟨p, hp⟩ := S.exists_parent (live_iff.2 (.inr hn)) (fun h => hv (.inr h.symm))
      obtain ⟨e, hpe⟩ := S.parent_of_isChild hp
      simp only [hpe, Res.ok.injEq, Sum.inl.injEq] at h
      have hle : ∀ m ∈ nts ++ [n], NoLater t m n := by
        intro m hm
        rcases List.mem_append.1 hm with hm | hm
        · exact o.next m hm n (by simp) hv1
        · simp at hm; subst hm; exact NoLater.refl _
      have hseq : (nts ++ [n]).Pairwise (NoLater t) := by
        refine List.pairwise_append.2 ⟨o.seq, by simp, fun a ha b hb => ?_⟩
        simp at hb; subst hb
        exact hle a (by simp [ha])
      split at h
      · subst h
        have hin := (I'.queue p (by simp)).2
        have hpar : ∀ b ∈ queue, b ∉ insert n visited → NoLater t p b := by
          intro b hb h2 x hx hd
          rcases hd.cases_head with h | ⟨c, h3, h4⟩
          · subst h
            exact (not_isTerm_isNt (hx.2 n hp) hn).elim
          · have hc := I'.vis c (hin c h3)
            rcases hc with hc | hc | hc
            · rcases h4.cases_head with h | ⟨d, h5, _⟩
              · subst h; exact (not_isTerm_isNt hc hx.1).elim
              · exact (S.term_leaf c d hc h5).elim
            · exact hnext c hc b hb h2 x hx h4
            · exact absurd (hc ▸ h3) (S.root_top p)
        refine ⟨?_, ?_, hseq⟩
        · intro pre b post e h1 h2 a ha
          dsimp only at e h2
          cases pre with
          | nil => cases ha
          | cons q pre =>
            obtain ⟨rfl, e'⟩ := List.cons.inj e
            rcases List.mem_cons.1 ha with rfl | ha
            · exact hpar b (by simp [e']) h2
            · exact hold pre b post e' (fun h => h1 (by simp [h])) h2 a (by simp [ha])
        · intro m hm b hb h2
          dsimp only at hb h2 hm
          rcases List.mem_cons.1 hb with rfl | hb
          · exact (hle m hm).up (ReflTransGen.single hp)
          · exact hnext m hm b hb h2
      · subst h
        exact ⟨fun pre b post e h1 h2 a ha => hold pre b post e h1 h2 a (by simp [ha]), hnext, hseq⟩

theorem initialQueue_first (S : t.Shape) {l : List Nat} (hs : l.Pairwise fun a b => t.startOf a < t.startOf b) :
    ∀ pre b post, initialQueue t l = pre ++ b :: post → b ∉ pre → ∀ a ∈ pre,
      ∃ n ∈ l, t.IsChild a n ∧ ∀ m ∈ l, t.IsChild b m → t.startOf n ≤ t.startOf m := by
  induction l with
  | nil => intro pre b post e; simp [initialQueue] at e
  | cons n ns ih =>
    intro pre b post e hb a ha
    have hs' := List.pairwise_cons.1 hs
    have hlow : ∀ {q}, q ∈ initialQueue t ns → ∀ c, t.IsChild q c → t.IsTerm c := fun h => ((mem_initialQueue S).1 h).2
    unfold initialQueue at e
    cases hp : t.parent n with
    | none =>
      rw [hp] at e
      obtain ⟨m, h1, h2, h3⟩ := ih hs'.2 pre b post e hb a ha
      refine ⟨m, by simp [h1], h2, fun k hk hbk => ?_⟩
      rcases List.mem_cons.1 hk with rfl | hk
      · exact absurd hbk (parent_none.1 hp b)
      · exact h3 k hk hbk
    | some x =>
      obtain ⟨q, y⟩ := x
      have hq := parent_isChild hp
      rw [hp] at e
      dsimp only at e
      split at e
      · cases pre with
        | nil => cases ha
        | cons q' pre =>
          obtain ⟨rfl, e'⟩ := List.cons.inj e
          have hne : ¬ t.IsChild b n := fun h => hb (by simp [S.isChild_unique h hq])
          rcases List.mem_cons.1 ha with rfl | ha
          · refine ⟨n, by simp, hq, fun k hk hbk => ?_⟩
            rcases List.mem_cons.1 hk with rfl | hk
            · exact Nat.le_refl _
            · exact Nat.le_of_lt (hs'.1 k hk)
          · obtain ⟨m, h1, h2, h3⟩ := ih hs'.2 pre b post e' (fun h => hb (by simp [h])) a ha
            refine ⟨m, by simp [h1], h2, fun k hk hbk => ?_⟩
            rcases List.mem_cons.1 hk with rfl | hk
            · exact absurd hbk hne
            · exact h3 k hk hbk
      · rename_i hc
        obtain ⟨m, h1, h2, h3⟩ := ih hs'.2 pre b post e hb a ha
        refine ⟨m, by simp [h1], h2, fun k hk hbk => ?_⟩
        rcases List.mem_cons.1 hk with rfl | hk
        · exfalso
          have hbq := S.isChild_unique hbk hq
          subst hbq
          have hall := hlow (q := b) (by rw [e]; simp)
          refine hc (List.all_eq_true.2 fun c h => ?_)
          obtain ⟨z, hz⟩ := hall c.1 (isChild_of_mem_children h)
          rw [hz]; rfl
        · exact h3 k hk hbk

theorem start_child (W : t.WF) {a : Nat} (ha : Lowest t a) : ∃ c, t.IsChild a c ∧ t.startOf c = t.startOf a := by
  obtain ⟨⟨m, h1, h2⟩, _⟩ := W.startOf_spec (live_iff.2 (.inr ha.1))
  rcases h1.cases_head with h | ⟨c, h3, h4⟩
  · subst h; exact (not_isTerm_isNt h2.isTerm ha.1).elim
  · have hc := ha.2 c h3
    rcases h4.cases_head with h | ⟨d, h5, _⟩
    · subst h; exact ⟨_, h3, h2.startOf⟩
    · exact (W.shape.term_leaf c d hc h5).elim

theorem start_le_child (W : t.WF) {a c : Nat} (h : t.IsChild a c) (hc : t.IsTerm c) : t.startOf a ≤ t.startOf c :=
  (W.startOf_spec (isChild_live W.graph h).1).2 _ ⟨c, ReflTransGen.single h, W.sentence.termAt hc⟩

theorem number_sequence (W : t.WF) : ∃ s, number t (t.sortIndices t.terminals) = .ok s ∧ s.nts.Pairwise (NoLater t) := by
  have S := W.shape
  have G := W.graph
  have hl : ∀ n, n ∈ t.sortIndices t.terminals ↔ t.IsTerm n := by
    intro n; rw [(sortIndices_perm (t := t) t.terminals).mem_iff]; exact mem_terminals
  have hs : (t.sortIndices t.terminals).Pairwise fun a b => t.startOf a < t.startOf b :=
    sortIndices_strict (fun a ha => (mem_terminals.1 ha).live) terminals_nodup
      (fun a ha b hb => W.sentence.startOf_inj (mem_terminals.1 ha) (mem_terminals.1 hb))
  generalize t.sortIndices t.terminals = l at hl hs
  have hini := numInv_start G S hl
  have hord : NumOrd t ⟨initialQueue t l, l.toFinset, [(t.root, ['0'])], [], 500⟩ := by
    refine ⟨fun pre b post e hb _ a ha => ?_, by simp, by simp⟩
    dsimp only at e
    have hqa : a ∈ initialQueue t l := by rw [e]; simp [ha]
    have hqb : b ∈ initialQueue t l := by rw [e]; simp
    obtain ⟨n, h1, h2, h3⟩ := initialQueue_first S hs pre b post e hb a ha
    have la : Lowest t a := ⟨S.parent_isNt G h2, ((mem_initialQueue S).1 hqa).2⟩
    have lb : Lowest t b := by
      obtain ⟨⟨m, _, hm⟩, h⟩ := (mem_initialQueue S).1 hqb
      exact ⟨S.parent_isNt G hm, h⟩
    intro x hx hd
    have := lowest_dom S la hx.1 hd
    subst this
    obtain ⟨c, h4, h5⟩ := start_child W lb
    refine ⟨b, lb, ReflTransGen.refl, ?_⟩
    rw [← h5]
    exact Nat.le_trans (start_le_child W h2 ((hl n).1 h1)) (h3 c ((hl c).2 (lb.2 c h4)) h4)
  obtain ⟨s, h1, h2⟩ := loopM_rule (step := numberStep t) (fun s => NumInv t s ∧ NumOrd t s)
    (fun s => s.queue.length + (Finset.range t.graph.nodes.length \ s.visited).card)
    (fun b => NumOrd t b) (by
      rintro s ⟨I, o⟩
      rcases number_step G S s I with ⟨s', g1, g2, g3⟩ | ⟨b, g1, g2, g3⟩
      · exact .inl ⟨s', g1, ⟨g2, ord_step S I g2 o g1⟩, g3⟩
      · exact .inr ⟨b, g1, ord_stop o g1⟩)
    ((initialQueue t l).length + t.graph.nodes.length + 1) _ ⟨hini, hord⟩ (by
      have : (Finset.range t.graph.nodes.length \ l.toFinset).card ≤ (Finset.range t.graph.nodes.length).card :=
        Finset.card_le_card Finset.sdiff_subset
      rw [Finset.card_range] at this
      dsimp only
      omega)
  exact ⟨s, h1, h2.seq⟩

theorem inSequence_of {nts : List Nat} (B : BottomUp t nts) (h : nts.Pairwise (NoLater t)) : InSequence t nts := by
  refine ⟨B, fun i j a b ha hb hij => ?_⟩
  obtain ⟨hi, rfl⟩ := List.getElem?_eq_some_iff.1 ha
  obtain ⟨hj, rfl⟩ := List.getElem?_eq_some_iff.1 hb
  exact List.pairwise_iff_getElem.1 h i j hi hj hij

theorem exists_lowest (G : t.graph.OK) (S : t.Shape) : ∀ n, t.Live n → t.IsNt n → ∃ x, Lowest t x ∧ t.Dom n x := by
  refine S.induction_up G (P := fun n => t.IsNt n → ∃ x, Lowest t x ∧ t.Dom n x) fun n hn ih hnt => ?_
  by_cases h : ∀ c, t.IsChild n c → t.IsTerm c
  · exact ⟨n, ⟨hnt, h⟩, ReflTransGen.refl⟩
  · push Not at h
    obtain ⟨c, h1, h2⟩ := h
    have hc := (live_iff.1 (isChild_live G h1).2).resolve_left h2
    obtain ⟨x, h3, h4⟩ := ih c h1 hc
    exact ⟨x, h3, ReflTransGen.head h1 h4⟩

theorem lowest_inj (W : t.WF) {x y : Nat} (hx : Lowest t x) (hy : Lowest t y) (h : t.startOf x = t.startOf y) : x = y := by
  have h1 := (W.startOf_spec (live_iff.2 (.inr hx.1))).1
  have h2 := (W.startOf_spec (live_iff.2 (.inr hy.1))).1
  rw [h] at h1
  rcases covers_disjoint W.shape W.sentence.inj h1 h2 with h | h
  · exact lowest_dom W.shape hx hy.1 h
  · exact (lowest_dom W.shape hy hx.1 h).symm

/-- The last of the lowest nonterminals below a nonterminal. -/
theorem exists_last (W : t.WF) {n : Nat} (hn : t.IsNt n) :
    ∃ x, Lowest t x ∧ t.Dom n x ∧ ∀ y, Lowest t y → t.Dom n y → t.startOf y ≤ t.startOf x := by
  obtain ⟨x, h1, h2⟩ := exists_lowest W.graph W.shape n (live_iff.2 (.inr hn)) hn
  have hb : ∀ y, Lowest t y → t.startOf y < t.nTerminals := by
    intro y hy
    obtain ⟨c, h3, h4⟩ := start_child W hy
    rw [← h4]
    exact W.sentence.startOf_lt (hy.2 c h3)
  induction hk : t.nTerminals - t.startOf x using Nat.strong_induction_on generalizing x with
  | _ k ih =>
    by_cases hmax : ∀ y, Lowest t y → t.Dom n y → t.startOf y ≤ t.startOf x
    · exact ⟨x, h1, h2, hmax⟩
    · push Not at hmax
      obtain ⟨y, h3, h4, h5⟩ := hmax
      have := hb y h3
      exact ih _ (by omega) y h3 h4 rfl

theorem noLater_antisymm (W : t.WF) {a b : Nat} (ha : t.IsNt a) (hb : t.IsNt b) (h1 : NoLater t a b) (h2 : NoLater t b a) :
    t.Dom a b ∨ t.Dom b a := by
  obtain ⟨x, g1, g2, g3⟩ := exists_last W ha
  obtain ⟨y, k1, k2, k3⟩ := exists_last W hb
  obtain ⟨y', e1, e2, e3⟩ := h1 x g1 g2
  obtain ⟨x', f1, f2, f3⟩ := h2 y k1 k2
  have := lowest_inj W g1 k1 (by have := k3 y' e1 e2; have := g3 x' f1 f2; omega)
  subst this
  exact W.shape.dom_linear g2 k2

theorem BottomUp.dom_order {nts : List Nat} (G : t.graph.OK) (S : t.Shape) (B : BottomUp t nts) {a b : Nat} (h : t.Dom a b) :
    ∀ i j : Nat, nts[i]? = some a → nts[j]? = some b → j ≤ i := by
  induction h using ReflTransGen.head_induction_on with
  | refl =>
    intro i j hi hj
    obtain ⟨h1, e1⟩ := List.getElem?_eq_some_iff.1 hi
    obtain ⟨h2, e2⟩ := List.getElem?_eq_some_iff.1 hj
    exact Nat.le_of_eq ((List.Nodup.getElem_inj_iff B.nodup (hi := h2) (hj := h1)).1 (e2.trans e1.symm))
  | head h1 h2 ih =>
    rename_i a c
    intro i j hi hj
    have hb := (B.mem b).1 (List.mem_of_getElem? hj)
    have hc : t.IsNt c := by
      rcases h2.cases_head with h | ⟨d, h3, _⟩
      · rw [h]; exact hb.1
      · exact S.parent_isNt G h3
    have hroot : c ≠ t.root := fun e => S.root_top a (e ▸ h1)
    obtain ⟨k, hk, hk'⟩ := List.mem_iff_getElem.1 ((B.mem c).2 ⟨hc, hroot⟩)
    have hk2 : nts[k]? = some c := by rw [List.getElem?_eq_getElem hk, hk']
    have := ih k j hk2 hj
    have := B.order i k a c hi hk2 h1
    omega

theorem InSequence.pairwise (W : t.WF) {nts : List Nat} (h : InSequence t nts) :
    nts.Pairwise fun a b => NoLater t a b ∧ ¬ t.Dom a b := by
  refine List.pairwise_iff_getElem.2 fun i j hi hj hij => ?_
  have h1 : nts[i]? = some nts[i] := List.getElem?_eq_getElem hi
  have h2 : nts[j]? = some nts[j] := List.getElem?_eq_getElem hj
  refine ⟨h.later i j _ _ h1 h2 hij, fun hd => ?_⟩
  have := h.toBottomUp.dom_order W.graph W.shape hd i j h1 h2
  omega

theorem InSequence.unique (W : t.WF) {l m : List Nat} (hl : InSequence t l) (hm : InSequence t m) : l = m := by
  have hp : l.Perm m := (List.perm_ext_iff_of_nodup hl.nodup hm.nodup).2 fun n => (hl.mem n).trans (hm.mem n).symm
  refine hp.eq_of_pairwise (le := fun a b => NoLater t a b ∧ ¬ t.Dom a b) (fun a b ha hb h1 h2 => ?_)
    (hl.pairwise W) (hm.pairwise W)
  rcases noLater_antisymm W ((hl.mem a).1 ha).1 ((hm.mem b).1 hb).1 h1.1 h2.1 with h | h
  · exact absurd h h1.2
  · exact absurd h h2.2

theorem writeTree_sequence (W : t.WF) (hr : t.IsNt t.root)
    (hs : ∀ r ∈ t.graph.edges, r.w.isPrimary = false → t.IsNt r.src) (counter : Nat) :
    ∃ ns nts T N tl nl, Leaves t ns ∧ InSequence t nts ∧
      List.Forall₂ (IsTermRow t (num t nts)) ns T ∧ List.Forall₂ (IsNtRow t (num t nts)) nts N ∧
      List.Forall₂ (fun l r => l = aligned widths (TermRow.columns r)) tl T ∧
      List.Forall₂ (fun l r => l = aligned widths (NtRow.columns r)) nl N ∧
      writeTree counter t = .ok
        (unlines (header ((featOf (rootFeatures t) sentenceIdKey).getD (Tree.natToStr counter))
            (featOf (rootFeatures t) metadataKey) ::
          (tl ++ nl ++ [footer ((featOf (rootFeatures t) sentenceIdKey).getD (Tree.natToStr counter)), []])),
         if (featOf (rootFeatures t) sentenceIdKey).isSome then counter else counter + 1) := by
  obtain ⟨ns, nts, T, N, tl, nl, ⟨s, h1, rfl⟩, h2, h3, h4⟩ := writeTree_numbered W hr hs counter
  obtain ⟨s', g1, g2⟩ := number_sequence W
  rw [h1, Res.ok.injEq] at g1
  subst g1
  exact ⟨ns, s.nts, T, N, tl, nl, h2, inSequence_of h3 g2, h4⟩

end Negra
end Lumberjack
