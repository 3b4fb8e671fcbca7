import Verif.Proofs.Terminals
import Verif.Spec.Gather

/-!
# Reattaching nodes
-/

namespace Lumberjack

open Relation

/-- `R'` is `R` with the parent of `c` replaced by `q`. -/
def Moved (R R' : Nat → Nat → Prop) (c q : Nat) : Prop :=
  ∀ a b, R' a b ↔ (R a b ∧ b ≠ c) ∨ (a = q ∧ b = c)

namespace Tree

variable {t t' : Tree}

/-! ## Dominance after a move -/

section Moved

variable {c q : Nat}

theorem moved_dom_inside (G : t.graph.OK) (S : t.Shape) (h : Moved t.IsChild t'.IsChild c q)
    (hcq : ¬ t.Dom c q) {a b : Nat} (ha : t.Dom c a) : t'.Dom a b ↔ t.Dom a b := by
  constructor
  · intro hd
    induction hd with
    | refl => exact Dom.refl
    | @tail b b' _ hr ih =>
      rcases (h b b').1 hr with ⟨h1, _⟩ | ⟨rfl, rfl⟩
      · exact ih.tail h1
      · exact absurd (ha.trans ih) hcq
  · intro hd
    induction hd with
    | refl => exact Dom.refl
    | @tail b b' hd hr ih =>
      refine ih.tail ((h b b').2 (.inl ⟨hr, ?_⟩))
      rintro rfl
      exact S.acyclic G b' (transGen_iff.2 ⟨b, Dom.trans ha hd, hr⟩)

theorem moved_dom_outside (G : t.graph.OK) (S : t.Shape) (h : Moved t.IsChild t'.IsChild c q)
    (hcq : ¬ t.Dom c q) {a b : Nat} (ha : ¬ t.Dom c a) :
    t'.Dom a b ↔ (t.Dom a b ∧ ¬ t.Dom c b) ∨ (t.Dom a q ∧ t.Dom c b) := by
  have hleft : ∀ b, t.Dom a b → ¬ t.Dom c b → t'.Dom a b := by
    intro b hd
    induction hd with
    | refl => intro _; exact Dom.refl
    | @tail b b' hd hr ih =>
      intro hn
      have h1 : ¬ t.Dom c b := fun h => hn (h.tail hr)
      refine (ih h1).tail ((h b b').2 (.inl ⟨hr, ?_⟩))
      rintro rfl
      exact hn Dom.refl
  constructor
  · intro hd
    induction hd with
    | refl => exact .inl ⟨Dom.refl, ha⟩
    | @tail b b' _ hr ih =>
      rcases (h b b').1 hr with ⟨h1, h2⟩ | ⟨rfl, rfl⟩
      · rcases ih with ⟨h3, h4⟩ | ⟨h3, h4⟩
        · refine .inl ⟨h3.tail h1, fun h5 => ?_⟩
          rcases h5.cases_parent with h6 | ⟨d, h6, h7⟩
          · exact h2 h6
          · rw [S.isChild_unique h7 h1] at h6
            exact h4 h6
        · exact .inr ⟨h3, h4.tail h1⟩
      · rcases ih with ⟨h3, _⟩ | ⟨_, h4⟩
        · exact .inr ⟨h3, Dom.refl⟩
        · exact absurd h4 hcq
  · rintro (⟨h1, h2⟩ | ⟨h1, h2⟩)
    · exact hleft b h1 h2
    · refine ((hleft q h1 hcq).tail ((h q c).2 (.inr ⟨rfl, rfl⟩))).trans ?_
      exact (moved_dom_inside G S h hcq Dom.refl).2 h2

theorem moved_shape (G : t.graph.OK) (S : t.Shape) (h : Moved t.IsChild t'.IsChild c q)
    (hcq : ¬ t.Dom c q) (hroot : t'.root = t.root) (hu : t'.Uniq) (hq : t.IsNt q)
    (hT : ∀ n, t'.IsTerm n ↔ t.IsTerm n) (hN : ∀ n, t'.IsNt n ↔ t.IsNt n)
    (hsib : ∀ p, t.IsChild p c → p ≠ q → ∃ s, s ≠ c ∧ t.IsChild p s) : t'.Shape := by
  have hL : ∀ n, t'.Live n ↔ t.Live n := fun n => by rw [live_iff, live_iff, hT, hN]
  have hcr : c ≠ t.root := by
    rintro rfl
    exact hcq (S.reach q hq.live)
  refine ⟨by rw [hroot, hL]; exact S.root_live, ?_, hu, ?_, ?_, ?_⟩
  · intro p hp
    rw [hroot] at hp
    rcases (h _ _).1 hp with ⟨h1, _⟩ | ⟨_, h1⟩
    · exact S.root_top p h1
    · exact hcr h1.symm
  · intro n hn
    have hrc : ¬ t.Dom c t.root := by
      intro hd
      rcases hd.cases_parent with h1 | ⟨d, _, h1⟩
      · exact hcr h1.symm
      · exact S.root_top _ h1
    rw [hroot, moved_dom_outside G S h hcq hrc]
    by_cases hc : t.Dom c n
    · exact .inr ⟨S.reach q hq.live, hc⟩
    · exact .inl ⟨S.reach n ((hL n).1 hn), hc⟩
  · intro n b hn hb
    rcases (h _ _).1 hb with ⟨h1, _⟩ | ⟨rfl, _⟩
    · exact S.term_leaf n b ((hT n).1 hn) h1
    · exact not_isTerm_isNt ((hT n).1 hn) hq
  · intro n hn
    obtain ⟨b, hb⟩ := S.nt_child n ((hN n).1 hn)
    by_cases e : b = c
    · subst e
      by_cases eq : n = q
      · subst eq; exact ⟨b, (h _ _).2 (.inr ⟨rfl, rfl⟩)⟩
      · obtain ⟨s, h1, h2⟩ := hsib n hb eq
        exact ⟨s, (h _ _).2 (.inl ⟨h2, h1⟩)⟩
    · exact ⟨b, (h _ _).2 (.inl ⟨hb, e⟩)⟩

end Moved

/-! ## Changing one span and the counter -/

theorem changeSpan_spec (C : t.CountOK) {n : Nat} {x : NonTerminal}
    (hx : t.graph.node? n = some (.nt x)) (sp : Span) :
    ∃ t', (t.setNode n (.nt { x with span := sp })).projectivityChange x.span.continuity
        sp.continuity = .ok t' ∧ SpanEdit t t' ∧ t'.CountOK ∧
      ∀ m, t'.graph.node? m = if m = n then some (.nt { x with span := sp }) else t.graph.node? m := by
  have hnode : ∀ m k, ({ t.setNode n (.nt { x with span := sp }) with numDisc := k } : Tree).graph.node? m
      = if m = n then some (.nt { x with span := sp }) else t.graph.node? m := fun m _ =>
    Graph.node?_setNode ⟨_, hx⟩ _ m
  have hset : ∀ k, ({ t.setNode n (.nt { x with span := sp }) with numDisc := k } : Tree).discSet =
      if sp.skips.isSome then insert n t.discSet else t.discSet.erase n := by
    intro k
    ext m
    rw [mem_discSet]
    unfold Disc
    rw [hnode]
    by_cases e : m = n
    · subst e
      by_cases hs : sp.skips.isSome = true <;> simp [hs]
    · by_cases hs : sp.skips.isSome = true <;> simp [hs, e, mem_discSet, Disc]
  have hmem : n ∈ t.discSet ↔ x.span.skips.isSome = true := by
    rw [mem_discSet]; exact isNt_disc hx
  rw [countOK_iff] at C
  unfold Span.continuity
  by_cases h1 : x.span.skips.isSome = true <;> by_cases h2 : sp.skips.isSome = true
  · refine ⟨_, by rw [if_pos h1, if_pos h2]; rfl, SpanEdit.setNt hx sp _, ?_, fun m => hnode m _⟩
    rw [countOK_iff, show t.setNode n (.nt { x with span := sp }) =
      { t.setNode n (.nt { x with span := sp }) with numDisc := t.numDisc } from rfl, hset, if_pos h2,
      Finset.insert_eq_of_mem (hmem.2 h1)]
    exact C
  · refine ⟨{ t.setNode n (.nt { x with span := sp }) with numDisc := t.numDisc - 1 }, ?_,
      SpanEdit.setNt hx sp _, ?_, fun m => hnode m _⟩
    · rw [if_pos h1, if_neg h2]
      have hpos : 0 < t.numDisc := by rw [C]; exact Finset.card_pos.2 ⟨n, hmem.2 h1⟩
      show (do let n ← Res.sub t.numDisc 1; _) = _
      rw [Res.sub_of_le hpos]
      rfl
    · rw [countOK_iff, hset, if_neg h2, Finset.card_erase_of_mem (hmem.2 h1), ← C]
  · refine ⟨{ t.setNode n (.nt { x with span := sp }) with numDisc := t.numDisc + 1 }, ?_,
      SpanEdit.setNt hx sp _, ?_, fun m => hnode m _⟩
    · rw [if_neg h1, if_pos h2]; rfl
    · rw [countOK_iff, hset, if_pos h2, Finset.card_insert_of_notMem (fun h => h1 (hmem.1 h)), ← C]
  · refine ⟨_, by rw [if_neg h1, if_neg h2]; rfl, SpanEdit.setNt hx sp _, ?_, fun m => hnode m _⟩
    rw [countOK_iff, show t.setNode n (.nt { x with span := sp }) =
      { t.setNode n (.nt { x with span := sp }) with numDisc := t.numDisc } from rfl, hset, if_neg h2,
      Finset.erase_eq_of_notMem (fun h => h1 (hmem.1 h))]
    exact C

/-! ## Removing the child's positions on the way up -/

/-- The spans of the nonterminals `l` are mapped by a set operation, everything else is kept. -/
def SpansMapped (t t' : Tree) (l : List Nat) (F : Finset Nat → Finset Nat) : Prop :=
  SpanEdit t t' ∧ t'.CountOK ∧ (∀ m, m ∉ l → t'.graph.node? m = t.graph.node? m) ∧
  ∀ m ∈ l, ∀ x, t.graph.node? m = some (.nt x) →
    ∃ sp, t'.graph.node? m = some (.nt { x with span := sp }) ∧ sp.Valid ∧ sp.indices = F x.span.indices

theorem removeCoverage_spec {cov : List Nat} {l : List Nat} (hnd : l.Nodup) : ∀ {t : Tree},
    t.CountOK → (∀ m ∈ l, ∃ x, t.graph.node? m = some (.nt x) ∧ x.span.Valid ∧
      (∀ i ∈ cov, i ∈ x.span.indices) ∧ (x.span.indices \ cov.toFinset).Nonempty) →
    ∃ t', forM' (removeCoverage cov) l t = .ok t' ∧ SpansMapped t t' l (· \ cov.toFinset) := by
  induction l with
  | nil =>
    intro t C _
    exact ⟨t, rfl, SpanEdit.refl t, C, fun _ _ => rfl, by simp⟩
  | cons a l ih =>
    intro t C h
    rw [List.nodup_cons] at hnd
    obtain ⟨x, hx, hv, hin, hne⟩ := h a (by simp)
    obtain ⟨sp, cont, k1, k2, k3, k4⟩ := Span.removeIndices_spec hv cov
      (fun i hi => ⟨Span.start_le_of_mem (hin i hi), Span.lt_stop_of_mem (hin i hi)⟩) hne
    obtain ⟨t1, q1, q2, q3, q4⟩ := changeSpan_spec C hx sp
    obtain ⟨t2, r1, r2, r3, r4, r5⟩ := ih hnd.2 (t := t1) q3 (by
      intro m hm
      have hma : m ≠ a := by rintro rfl; exact hnd.1 hm
      rw [q4, if_neg hma]
      exact h m (by simp [hm]))
    refine ⟨t2, ?_, q2.trans r2, r3, ?_, ?_⟩
    · rw [forM'_cons]
      refine Res.bind_eq_ok.2 ⟨t1, ?_, r1⟩
      unfold removeCoverage
      rw [node_eq hx]
      simp only [Res.ok_bind, Node.nonterminal, Res.ofOption_some, k1]
      rw [k4]
      exact q1
    · intro m hm
      rw [List.mem_cons, not_or] at hm
      rw [r4 m hm.2, q4, if_neg hm.1]
    · intro m hm y hy
      rcases List.mem_cons.1 hm with rfl | hm'
      · rw [hx] at hy
        simp only [Option.some.injEq, Node.nt.injEq] at hy
        subst hy
        exact ⟨sp, by rw [r4 m hnd.1, q4, if_pos rfl], k2, k3⟩
      · have hma : m ≠ a := fun e => hnd.1 (e ▸ hm')
        exact r5 m hm' y (by rw [q4, if_neg hma]; exact hy)

theorem detach_loop (S : t.Shape) {newParent child : Nat} {cn : Node}
    (hcn : t.graph.node? child = some cn) {l : List Nat} :
    ∀ {n : Nat} (acc : List Nat) (fuel : Nat), t.Anc n l → l.length < fuel →
    loopM (fun (s : Option (Nat × Nat) × List Nat) =>
      match t.climberNext s.1 with
      | (some (x, _), cur') =>
        let path := s.2 ++ [x]
        if newParent = x then do
          let cn ← t.node child
          let t' ← forM' (removeCoverage cn.span.toVec) path t
          return .inr t'
        else
          .ok (.inl (cur', path))
      | (none, _) => .ok (.inr t)) fuel (t.parent n, acc) =
    if newParent ∈ l then forM' (removeCoverage cn.span.toVec)
      (acc ++ l.takeWhile (· ≠ newParent) ++ [newParent]) t else .ok t := by
  induction l with
  | nil =>
    intro n acc fuel h hf
    obtain ⟨k, rfl⟩ : ∃ k, fuel = k + 1 := ⟨fuel - 1, by omega⟩
    rw [loopM_succ_inr (b := t)]
    · simp
    · simp only [climberNext_nil h]
  | cons p l ih =>
    intro n acc fuel h hf
    obtain ⟨k, rfl⟩ : ∃ k, fuel = k + 1 := ⟨fuel - 1, by omega⟩
    obtain ⟨e, he⟩ := climberNext_cons S h.1
    by_cases hp : newParent = p
    · subst hp
      simp only [List.mem_cons, true_or, if_true, ne_eq, Bool.false_eq_true, not_false_eq_true,
        List.takeWhile_cons_of_neg, List.append_nil, decide_not, decide_true, Bool.not_true]
      simp only [loopM, he]
      rw [if_pos trivial, node_eq hcn]
      simp only [Res.ok_bind]
      cases forM' (removeCoverage cn.span.toVec) (acc ++ [newParent]) t <;> rfl
    · rw [loopM_succ_inl (s' := (t.parent p, acc ++ [p]))]
      · rw [ih (acc ++ [p]) k h.2 (by simpa using hf)]
        simp [hp, Ne.symm hp]
      · simp only [he]; rw [if_neg hp]

/-! ## Merging the child's positions on the way up -/

theorem attach_loop {t3 : Tree} (S : t3.Shape) {cs : Span} (hcs : cs.Valid) {l : List Nat} :
    ∀ {n : Nat} {s : Tree} (fuel : Nat), t3.Anc n l → l.length < fuel → l.Nodup → SpanEdit t3 s →
    s.CountOK →
    (∀ m ∈ l, ∃ x, s.graph.node? m = some (.nt x) ∧ x.span.Valid) →
    l.Pairwise (fun a b => ∀ x y, s.graph.node? a = some (.nt x) → s.graph.node? b = some (.nt y) →
      cs.indices ⊆ x.span.indices → cs.indices ⊆ y.span.indices) →
    ∃ t', loopM (fun (s : Option (Nat × Nat) × Tree) =>
      match s.2.climberNext s.1 with
      | (some (x, _), cur') => do
        let nd ← s.2.node x
        if nd.span.coversSpan cs then
          return .inr s.2
        else do
          let nt ← Res.ofOption nd.nonterminal
          let sp ← nt.span.mergeSpans cs
          let t' ← (s.2.setNode x (.nt { nt with span := sp })).projectivityChange
            nd.continuity sp.continuity
          return .inl (cur', t')
      | (none, _) => .ok (.inr s.2)) fuel (t3.parent n, s) = .ok t' ∧
      SpansMapped s t' l (· ∪ cs.indices) := by
  induction l with
  | nil =>
    intro n s fuel h hf _ hE C _ _
    obtain ⟨k, rfl⟩ : ∃ k, fuel = k + 1 := ⟨fuel - 1, by omega⟩
    refine ⟨s, ?_, SpanEdit.refl s, C, fun _ _ => rfl, by simp⟩
    rw [loopM_succ_inr (b := s)]
    simp only
    rw [parent_none.2 h]
    rfl
  | cons p l ih =>
    intro n s fuel h hf hnd hE C hv hmono
    obtain ⟨k, rfl⟩ : ∃ k, fuel = k + 1 := ⟨fuel - 1, by omega⟩
    rw [List.nodup_cons] at hnd
    obtain ⟨e, he⟩ := S.parent_of_isChild h.1
    have hsp : s.parent p = t3.parent p := parent_congr (primEdges_congr hE.edges) p
    obtain ⟨x, hx, hxv⟩ := hv p (by simp)
    rw [List.pairwise_cons] at hmono
    have hcov := Span.coversSpan_iff (s := x.span) hcs
    have hclimb : s.climberNext (t3.parent n) = (some (p, e), t3.parent p) := by
      rw [he]; show (_, s.parent p) = _; rw [hsp]
    by_cases hc : x.span.coversSpan cs = true
    · refine ⟨s, ?_, SpanEdit.refl s, C, fun _ _ => rfl, ?_⟩
      · rw [loopM_succ_inr (b := s)]
        simp only [hclimb, node_eq hx, Res.ok_bind]
        rw [if_pos (by exact hc)]
        rfl
      · intro m hm y hy
        have hsub : cs.indices ⊆ y.span.indices := by
          rcases List.mem_cons.1 hm with rfl | hm
          · rw [hx] at hy
            simp only [Option.some.injEq, Node.nt.injEq] at hy
            subst hy
            exact hcov.1 hc
          · exact hmono.1 m hm x y hx hy (hcov.1 hc)
        obtain ⟨z, hz, hzv⟩ := hv m hm
        rw [hy] at hz
        simp only [Option.some.injEq, Node.nt.injEq] at hz
        subst hz
        exact ⟨y.span, hy, hzv, (Finset.union_eq_left.2 hsub).symm⟩
    · obtain ⟨sp, m1, m2, m3⟩ := Span.mergeSpans_spec hxv hcs
      obtain ⟨t1, q1, q2, q3, q4⟩ := changeSpan_spec C hx sp
      have hkeep : ∀ m ∈ l, t1.graph.node? m = s.graph.node? m := by
        intro m hm
        rw [q4, if_neg (by rintro rfl; exact hnd.1 hm)]
      obtain ⟨t2, r1, r2, r3, r4, r5⟩ := ih (n := p) (s := t1) k h.2 (by simpa using hf) hnd.2
        (hE.trans q2) q3 (fun m hm => by rw [hkeep m hm]; exact hv m (by simp [hm]))
        (by
          refine List.Pairwise.imp_of_mem ?_ hmono.2
          intro a b ha hb hab
          rw [hkeep a ha, hkeep b hb]
          exact hab)
      refine ⟨t2, ?_, q2.trans r2, r3, ?_, ?_⟩
      · rw [loopM_succ_inl (s' := (t3.parent p, t1))]
        · exact r1
        · simp only [hclimb, node_eq hx, Res.ok_bind]
          rw [if_neg (by exact hc)]
          simp only [Node.nonterminal, Res.ofOption_some, Res.ok_bind, m1]
          exact Res.bind_eq_ok.2 ⟨t1, q1, rfl⟩
      · intro m hm
        rw [List.mem_cons, not_or] at hm
        rw [r4 m hm.2, q4, if_neg hm.1]
      · intro m hm y hy
        rcases List.mem_cons.1 hm with rfl | hm
        · rw [hx] at hy
          simp only [Option.some.injEq, Node.nt.injEq] at hy
          subst hy
          exact ⟨sp, by rw [r4 m hnd.1, q4, if_pos rfl], m2, m3⟩
        · exact r5 m hm y (by rw [hkeep m hm]; exact hy)

/-! ## The path from the old to the new parent -/

theorem takeWhile_sublist {q : Nat} {l : List Nat} (h : q ∈ l) :
    (l.takeWhile (· ≠ q) ++ [q]).Sublist l := by
  induction l with
  | nil => simp at h
  | cons a l ih =>
    by_cases e : a = q
    · subst e; simp
    · have hq : q ∈ l := (List.mem_cons.1 h).resolve_left (Ne.symm e)
      simpa [e] using ih hq

theorem mem_path (G : t.graph.OK) (S : t.Shape) {q : Nat} {l : List Nat} : ∀ {n : Nat},
    t.Anc n l → q ∈ l → ∀ m, m ∈ n :: (l.takeWhile (· ≠ q) ++ [q]) ↔ t.Dom m n ∧ t.Dom q m := by
  induction l with
  | nil => intro n _ h; simp at h
  | cons p l ih =>
    intro n h hq m
    have hqn : t.Dom q n := (h.mem hq).to_reflTransGen
    have hsplit : t.Dom m n ↔ m = n ∨ t.Dom m p := by
      constructor
      · intro hd
        rcases hd.cases_parent with h1 | ⟨c, h1, h2⟩
        · exact .inl h1.symm
        · rw [S.isChild_unique h2 h.1] at h1; exact .inr h1
      · rintro (rfl | h1)
        · exact Dom.refl
        · exact h1.tail h.1
    by_cases e : p = q
    · subst e
      simp only [ne_eq, decide_not, decide_true, Bool.not_true, Bool.false_eq_true, not_false_eq_true,
        List.takeWhile_cons_of_neg, List.nil_append, List.mem_cons, List.not_mem_nil, or_false]
      rw [hsplit]
      constructor
      · rintro (rfl | rfl)
        · exact ⟨.inl rfl, hqn⟩
        · exact ⟨.inr Dom.refl, Dom.refl⟩
      · rintro ⟨rfl | h1, h2⟩
        · exact .inl rfl
        · exact .inr (S.dom_antisymm G h1 h2)
    · have hq' : q ∈ l := (List.mem_cons.1 hq).resolve_left (Ne.symm e)
      have := ih h.2 hq' m
      rw [List.takeWhile_cons_of_pos (by simpa using e), List.cons_append, List.mem_cons, this, hsplit]
      constructor
      · rintro (rfl | ⟨h1, h2⟩)
        · exact ⟨.inl rfl, hqn⟩
        · exact ⟨.inr h1, h2⟩
      · rintro ⟨rfl | h1, h2⟩
        · exact .inl rfl
        · exact .inr ⟨h1, h2⟩

theorem WF.loose (W : t.WF) (D : Nat → Prop) : t.Loose D :=
  ⟨W.graph, W.shape, W.sentence, W.count, fun _ _ hx =>
    have h := W.span_spec hx
    ⟨h.1, fun i hi => (h.2 i).2 hi, fun i hi _ => (h.2 i).1 hi⟩⟩

/-- What the first half of `reattach_primary` does to the spans. -/
theorem detachSpans_spec {D : Nat → Prop} (W : t.Loose D) {p c q : Nat} {cn : Node} (hp : t.IsChild p c)
    (hcn : t.graph.node? c = some cn) (cc : ∀ i, i ∈ cn.span.indices ↔ t.Covers c i) (hsib : p = q ∨ ∃ s, s ≠ c ∧ t.IsChild p s) :
    ∃ t1, t.detachSpans q p c = .ok t1 ∧ SpanEdit t t1 ∧ t1.CountOK ∧
      ∀ m x, t.graph.node? m = some (.nt x) → ∃ sp, t1.graph.node? m = some (.nt { x with span := sp }) ∧
        sp.Valid ∧
        (q ≠ p → t.Dom q p → t.Dom m p → t.Dom q m → sp.indices = x.span.indices \ cn.span.indices) ∧
        (¬ (q ≠ p ∧ t.Dom q p ∧ t.Dom m p ∧ t.Dom q m) → sp = x.span) := by
  have S := W.shape
  have G := W.graph
  have hpl : t.Live p := (isChild_live G hp).1
  obtain ⟨l, hl⟩ := S.exists_anc hpl
  have hloop := detach_loop S (newParent := q) hcn (n := p) [p] t.climbFuel hl
    (by have := hl.length_lt G S hpl; unfold climbFuel; omega)
  have hmem : q ∈ l ↔ q ≠ p ∧ t.Dom q p := by
    rw [hl.mem_iff S]
    constructor
    · intro h
      refine ⟨?_, h.to_reflTransGen⟩
      rintro rfl
      exact S.acyclic G q h
    · rintro ⟨h1, h2⟩
      rcases h2.cases_parent with h3 | ⟨d, h3, h4⟩
      · exact absurd h3.symm h1
      · exact transGen_iff.2 ⟨d, h3, h4⟩
  by_cases hq : q ∈ l
  · obtain ⟨hqp, hdq⟩ := hmem.1 hq
    rw [if_pos hq] at hloop
    have hpath := mem_path G S hl hq
    obtain ⟨s, hsc, hps⟩ := hsib.resolve_left (Ne.symm hqp)
    obtain ⟨t1, h1, h2, h3, h4, h5⟩ := removeCoverage_spec (t := t) (cov := cn.span.toVec)
      (l := p :: (l.takeWhile (· ≠ q) ++ [q]))
      ((hl.nodup G S).sublist ((takeWhile_sublist hq).cons_cons _)) W.count (by
        intro m hm
        obtain ⟨hmp, _⟩ := (hpath m).1 hm
        have hmnt : t.IsNt m := by
          rcases hmp.cases_child with h | ⟨d, h, _⟩
          · rw [h]; exact S.parent_isNt G hp
          · exact S.parent_isNt G h
        obtain ⟨x, hx⟩ := hmnt
        obtain ⟨xv, xc, _⟩ := W.spans m x hx
        refine ⟨x, hx, xv, ?_, ?_⟩
        · intro i hi
          rw [Span.mem_toVec, cc] at hi
          exact xc i (covers_dom (hmp.tail hp) hi)
        · -- a terminal below the sibling
          obtain ⟨m', hm', hT⟩ := S.exists_terminal G s (isChild_live G hps).2
          obtain ⟨i, _, hi⟩ := W.sentence.pos m' hT
          refine ⟨i, ?_⟩
          rw [Finset.mem_sdiff, Span.toVec_toFinset]
          have hsi : t.Covers s i := ⟨m', hm', hi⟩
          refine ⟨xc i (covers_dom (hmp.tail hps) hsi), fun hci => ?_⟩
          rcases covers_disjoint S W.sentence.inj hsi ((cc i).1 hci) with h | h
          · exact hsc (S.siblings_not_dom G hps hp h)
          · exact hsc (S.siblings_not_dom G hp hps h).symm)
    refine ⟨t1, ?_, h2, h3, ?_⟩
    · rw [show [p] ++ l.takeWhile (· ≠ q) ++ [q] = p :: (l.takeWhile (· ≠ q) ++ [q]) by simp] at hloop
      exact hloop.trans h1
    · intro m x hx
      by_cases hm : m ∈ p :: (l.takeWhile (· ≠ q) ++ [q])
      · obtain ⟨sp, k1, k2, k3⟩ := h5 m hm x hx
        rw [Span.toVec_toFinset] at k3
        refine ⟨sp, k1, k2, fun _ _ _ _ => k3, fun hn => ?_⟩
        exact absurd ⟨hqp, hdq, (hpath m).1 hm⟩ hn
      · refine ⟨x.span, by rw [h4 m hm]; exact hx, (W.spans m x hx).1, ?_, fun _ => rfl⟩
        intro _ _ h6 h7
        exact absurd ((hpath m).2 ⟨h6, h7⟩) hm
  · rw [if_neg hq] at hloop
    refine ⟨t, hloop, SpanEdit.refl t, W.count, fun m x hx => ⟨x.span, hx, (W.spans m x hx).1, ?_, fun _ => rfl⟩⟩
    intro h1 h2
    exact absurd (hmem.2 ⟨h1, h2⟩) hq

set_option maxHeartbeats 1000000 in
/-- What `reattach_primary` does, for a child whose span is right and is not in `D`. -/
theorem reattachPrimary_loose {D : Nat → Prop} (W : t.Loose D) {r : EdgeRec} {q : Nat} {cn : Node}
    (hcn : t.graph.node? r.tgt = some cn) (cv : cn.span.Valid) (cc : ∀ i, i ∈ cn.span.indices ↔ t.Covers r.tgt i)
    (cD : ∀ i ∈ cn.span.indices, ¬ D i) (hr : r ∈ t.graph.edges)
    (hw : r.w.isPrimary = true) (hq : t.IsNt q) (hcq : ¬ t.Dom r.tgt q)
    (hsib : r.src = q ∨ ∃ s, s ≠ r.tgt ∧ t.IsChild r.src s) :
    ∃ t' e', t.reattachPrimary q r.id = .ok (t', .ok (e', r.w)) ∧ t'.graph.OK ∧ t'.Shape ∧
      t'.Sentence ∧ t'.CountOK ∧ Moved t.IsChild t'.IsChild r.tgt q ∧
      t'.graph.edges = ⟨e', q, r.tgt, .primary none⟩ :: t.graph.edges.filter (fun s => s.id ≠ r.id) ∧
      t'.root = t.root ∧ t'.nTerminals = t.nTerminals ∧
      (∀ n x, t.graph.node? n = some (.term x) → t'.graph.node? n = some (.term x)) ∧
      (∀ n, t'.content n = t.content n) ∧
      t'.graph.nodes.length = t.graph.nodes.length ∧
      (∀ n i, t.Dom r.tgt n → (t'.Covers n i ↔ t.Covers n i)) ∧
      (∀ n i, ¬ t.Dom r.tgt n → (t'.Covers n i ↔ (t.Covers n i ∧ i ∉ cn.span.indices) ∨
        (t.Dom n q ∧ i ∈ cn.span.indices))) ∧
      (∀ n x, t.graph.node? n = some (.nt x) → ∃ sp, t'.graph.node? n = some (.nt { x with span := sp }) ∧ sp.Valid ∧
        ∀ i, i ∈ sp.indices ↔ (i ∈ x.span.indices ∧ ¬ (i ∈ cn.span.indices ∧
          (q ≠ r.src ∧ t.Dom q r.src ∧ t.Dom n r.src ∧ t.Dom q n))) ∨ (t.Dom n q ∧ i ∈ cn.span.indices)) ∧
      (¬ (t.Dom q r.src ∨ t.Dom r.src q) →
        ∀ n, t.Dom n r.src → ¬ t.Dom n q → t'.graph.node? n = t.graph.node? n) := by
  classical
  have G := W.graph
  have S := W.shape
  have Z := W.sentence
  obtain ⟨id, p, c, w⟩ := r
  simp only at hcn cc hw hcq hsib ⊢
  have hpc : t.IsChild p c := ⟨_, hr, rfl, rfl, hw⟩
  have hqc : q ≠ c := by rintro rfl; exact hcq Dom.refl
  obtain ⟨t1, d1, d2, d3, d4⟩ := detachSpans_spec W (q := q) hpc hcn cc hsib
  have G1 := d2.ok G
  have hE1 := d2.edges
  obtain ⟨g2, j1, j2, j3, j4, j5⟩ := Graph.removeEdge_spec G1 (e := id) (r := ⟨id, p, c, w⟩)
    (by rw [hE1]; exact hr) rfl
  have hlive2 : ∀ m, g2.Live m ↔ t.Live m := fun m => by
    rw [← d2.live]; unfold Live Graph.Live Graph.node?; rw [j3]
  obtain ⟨g3, e', l1, l2, l3, l4, l5, l6⟩ := Graph.addEdge_spec j5
      ((hlive2 q).2 hq.live) ((hlive2 c).2 (isChild_live G hpc).2) (.primary none)
  set t3 : Tree := { t1 with graph := g3 } with ht3
  have hE3 : t3.graph.edges = ⟨e', q, c, .primary none⟩ :: t.graph.edges.filter (fun s => s.id ≠ id) := by
    rw [show t3.graph.edges = _ from l2, j2, hE1]
  have hnode3 : ∀ m, t3.graph.node? m = t1.graph.node? m := fun m => by
    unfold Graph.node?; rw [show t3.graph.nodes = t1.graph.nodes from l3.trans j3]
  have hother : ∀ s ∈ t.graph.edges, s.w.isPrimary = true → (s.id ≠ id ↔ s.tgt ≠ c) := by
    intro s hs hsw
    constructor
    · intro h e
      exact h (by rw [S.unique s hs _ hr e hsw hw])
    · intro h e
      exact h (by rw [G.edge_ext hs hr e])
  have hmoved : Moved t.IsChild t3.IsChild c q := by
    intro a b
    constructor
    · rintro ⟨s, hs, rfl, rfl, hsw⟩
      rw [hE3] at hs
      rcases List.mem_cons.1 hs with rfl | hs
      · exact .inr ⟨rfl, rfl⟩
      · rw [List.mem_filter] at hs
        have h2 : s.id ≠ id := by simpa using hs.2
        exact .inl ⟨⟨s, hs.1, rfl, rfl, hsw⟩, (hother s hs.1 hsw).1 h2⟩
    · rintro (⟨⟨s, hs, rfl, rfl, hsw⟩, hne⟩ | ⟨rfl, rfl⟩)
      · refine ⟨s, ?_, rfl, rfl, hsw⟩
        rw [hE3]
        exact List.mem_cons_of_mem _ (List.mem_filter.2 ⟨hs, by
          have := (hother s hs hsw).2 hne
          simpa using this⟩)
      · exact ⟨_, by rw [hE3]; exact List.mem_cons_self, rfl, rfl, rfl⟩
  have hT3 : ∀ n, t3.IsTerm n ↔ t.IsTerm n := fun n => by
    rw [← d2.isTerm]; unfold IsTerm; rw [hnode3]
  have hN3 : ∀ n, t3.IsNt n ↔ t.IsNt n := fun n => by
    rw [← d2.isNt]; unfold IsNt; rw [hnode3]
  have hA3 : ∀ n i, t3.TermAt n i ↔ t.TermAt n i := fun n i => by
    rw [← d2.termAt]; unfold TermAt; rw [hnode3]
  have hu : t3.Uniq := by
    intro s1 h1 s2 h2 e12 w1 w2
    rw [hE3] at h1 h2
    have hcase : ∀ s, s ∈ (⟨e', q, c, .primary none⟩ : EdgeRec) ::
        t.graph.edges.filter (fun s => s.id ≠ id) → s.w.isPrimary = true →
        s = ⟨e', q, c, .primary none⟩ ∨ (s ∈ t.graph.edges ∧ s.tgt ≠ c) := by
      intro s hs hsw
      rcases List.mem_cons.1 hs with rfl | hs
      · exact .inl rfl
      · rw [List.mem_filter] at hs
        exact .inr ⟨hs.1, (hother s hs.1 hsw).1 (by simpa using hs.2)⟩
    rcases hcase s1 h1 w1 with rfl | ⟨h3, h4⟩ <;> rcases hcase s2 h2 w2 with rfl | ⟨h5, h6⟩
    · rfl
    · exact absurd e12.symm h6
    · exact absurd e12 h4
    · exact S.unique s1 h3 s2 h5 e12 w1 w2
  have S3 : t3.Shape := by
    refine moved_shape G S hmoved hcq d2.root hu hq hT3 hN3 ?_
    intro p' hp' hne
    have := S.isChild_unique hp' hpc
    subst this
    exact hsib.resolve_left hne
  have hin : ∀ {a b}, t.Dom c a → (t3.Dom a b ↔ t.Dom a b) := fun ha =>
    moved_dom_inside G S hmoved hcq ha
  have hout : ∀ {a b}, ¬ t.Dom c a → (t3.Dom a b ↔ (t.Dom a b ∧ ¬ t.Dom c b) ∨ (t.Dom a q ∧ t.Dom c b)) :=
    fun ha => moved_dom_outside G S hmoved hcq ha
  -- the ancestors of `c` afterwards
  have hc3 : t3.Live c := by rw [live_iff, hT3, hN3, ← live_iff]; exact ⟨cn, hcn⟩
  obtain ⟨l, hl⟩ := S3.exists_anc hc3
  have hmeml : ∀ m, m ∈ l ↔ t.Dom m q := by
    intro m
    rw [hl.mem_iff S3, transGen_iff]
    constructor
    · rintro ⟨d, h1, h2⟩
      have : d = q := S3.isChild_unique h2 ((hmoved q c).2 (.inr ⟨rfl, rfl⟩))
      subst this
      by_cases hm : t.Dom c m
      · exact (hin hm).1 h1
      · rcases (hout hm).1 h1 with ⟨h3, _⟩ | ⟨h3, _⟩ <;> exact h3
    · intro h1
      have hm : ¬ t.Dom c m := fun h => hcq (h.trans h1)
      exact ⟨q, (hout hm).2 (.inl ⟨h1, hcq⟩), (hmoved q c).2 (.inr ⟨rfl, rfl⟩)⟩
  have hlnt : ∀ m ∈ l, ∃ x, t.graph.node? m = some (.nt x) := by
    intro m hm
    rcases ((hmeml m).1 hm).cases_child with h | ⟨d, h, _⟩
    · rw [h]; exact hq
    · exact S.parent_isNt G h
  have hC3 : t3.CountOK := by
    have h := d3
    rw [countOK_iff] at h ⊢
    have : t3.discSet = t1.discSet := by
      ext m; rw [mem_discSet, mem_discSet, Disc.congr (hnode3 m)]
    rw [this, ← h]
  -- covering the child means dominating it, apart from the nodes whose span was reduced
  have hdomc : ∀ m x, t.graph.node? m = some (.nt x) → t.Dom m q →
      cn.span.indices ⊆ x.span.indices → t.Dom m p := by
    intro m x hx hmq hsub
    obtain ⟨xv, _, xc⟩ := W.spans m x hx
    have h1 := cv.start_mem
    have h2 := xc _ (hsub h1) (cD _ h1)
    rcases covers_disjoint S Z.inj h2 ((cc _).1 h1) with h | h
    · rcases h.cases_parent with h3 | ⟨d, h3, h4⟩
      · subst h3; exact absurd hmq hcq
      · rw [S.isChild_unique h4 hpc] at h3; exact h3
    · exact absurd (h.trans hmq) hcq
  obtain ⟨t4, a1, a2, a3, a4, a5⟩ := attach_loop (t3 := t3) S3 cv (n := c) (s := t3) t3.climbFuel hl
    (by have := hl.length_lt l6 S3 hc3; unfold climbFuel; omega)
    (hl.nodup l6 S3).of_cons (SpanEdit.refl t3) hC3
    (by
      intro m hm
      obtain ⟨x, hx⟩ := hlnt m hm
      obtain ⟨sp, h1, h2, _⟩ := d4 m x hx
      exact ⟨_, by rw [hnode3]; exact h1, h2⟩)
    (by
      -- monotone
      have hpw : l.Pairwise (fun a b => t3.Dom b a ∧ a ≠ b) := by
        have : ∀ (l : List Nat) (n : Nat), t3.Anc n l → l.Pairwise (fun a b => t3.Dom b a ∧ a ≠ b) := by
          intro l
          induction l with
          | nil => intros; exact List.Pairwise.nil
          | cons a l ih =>
            intro n h
            refine List.pairwise_cons.2 ⟨fun b hb => ⟨(h.2.mem hb).to_reflTransGen, ?_⟩, ih a h.2⟩
            rintro rfl
            exact S3.acyclic l6 a (h.2.mem hb)
        exact this l c hl
      refine hpw.imp_of_mem ?_
      intro a b ha hb hab x y hx hy hsub
      rw [hnode3] at hx hy
      obtain ⟨xa, hxa⟩ := hlnt a ha
      obtain ⟨xb, hxb⟩ := hlnt b hb
      obtain ⟨spa, k1, k2, k3, k4⟩ := d4 a xa hxa
      obtain ⟨spb, m1, m2, m3, m4⟩ := d4 b xb hxb
      rw [hx] at k1
      rw [hy] at m1
      simp only [Option.some.injEq, Node.nt.injEq] at k1 m1
      subst k1 m1
      have haq := (hmeml a).1 ha
      have hbq := (hmeml b).1 hb
      have hpath : ¬ (q ≠ p ∧ t.Dom q p ∧ t.Dom a p ∧ t.Dom q a) := by
        rintro ⟨h1, h2, h3, h4⟩
        have := k3 h1 h2 h3 h4
        simp only at this hsub
        rw [this] at hsub
        have := hsub cv.start_mem
        rw [Finset.mem_sdiff] at this
        exact this.2 cv.start_mem
      have e1 := k4 hpath
      simp only at e1 hsub ⊢
      rw [e1] at hsub
      have hap := hdomc a xa hxa haq hsub
      have hba : t.Dom b a := by
        have hna : ¬ t.Dom c b := fun h => hcq (h.trans hbq)
        rcases (hout hna).1 hab.1 with ⟨h, _⟩ | ⟨_, h⟩
        · exact h
        · exact absurd (h.trans haq) hcq
      have hpathb : ¬ (q ≠ p ∧ t.Dom q p ∧ t.Dom b p ∧ t.Dom q b) := by
        rintro ⟨h1, h2, h3, h4⟩
        have hqb : q = b := S.dom_antisymm G h4 hbq
        subst hqb
        exact hpath ⟨h1, h2, hap, by
          have := S.dom_antisymm G hba haq
          rw [this]; exact Dom.refl⟩
      rw [m4 hpathb]
      obtain ⟨yv, yc, _⟩ := W.spans b xb hxb
      intro i hi
      exact yc i (covers_dom ((hba.trans hap).tail hpc) ((cc i).1 hi)))
  have hcov3 : ∀ n i, t.Dom c n → (t3.Covers n i ↔ t.Covers n i) := by
    intro n i hn
    unfold Covers
    simp only [hin hn, hA3]
  have hcov3' : ∀ n i, ¬ t.Dom c n → (t3.Covers n i ↔ (t.Covers n i ∧ i ∉ cn.span.indices) ∨
      (t.Dom n q ∧ i ∈ cn.span.indices)) := by
    intro n i hn
    have hic : i ∈ cn.span.indices ↔ t.Covers c i := cc i
    rw [hic]
    unfold Covers
    simp only [hout hn, hA3]
    constructor
    · rintro ⟨m, ⟨h1, h2⟩ | ⟨h1, h2⟩, h3⟩
      · refine .inl ⟨⟨m, h1, h3⟩, ?_⟩
        rintro ⟨m', h4, h5⟩
        rw [Z.inj m m' i h3 h5] at h2
        exact h2 h4
      · exact .inr ⟨h1, m, h2, h3⟩
    · rintro (⟨⟨m, h1, h2⟩, h3⟩ | ⟨h1, m, h2, h3⟩)
      · exact ⟨m, .inl ⟨h1, fun h => h3 ⟨m, h, h2⟩⟩, h2⟩
      · exact ⟨m, .inr ⟨h1, h2⟩, h3⟩
  refine ⟨t4, e', ?_, a2.ok l6, a2.shape S3, ?_, a3, ?_, ?_, ?_, ?_, ?_, ?_, ?_, ?_, ?_, ?_, ?_⟩
  · obtain ⟨y, hy⟩ := hq
    unfold reattachPrimary
    rw [(Graph.edge?_eq G).2 ⟨hr, rfl⟩, node_eq hy]
    simp only [Res.ofOption_some, Res.ok_bind, Node.isTerminal, Bool.false_eq_true, if_false]
    have hns : ¬ ((t.siblings c).length = 0 ∧ p ≠ q) := by
      rintro ⟨h1, h2⟩
      obtain ⟨s, h3, h4⟩ := hsib.resolve_left h2
      have : s ∈ (t.siblings c).map (·.1) := (mem_siblings S).2 ⟨h3, p, hpc, h4⟩
      rw [List.length_eq_zero_iff.1 h1] at this
      simp at this
    rw [if_neg hns, d1]
    simp only [Res.ok_bind, j1, Res.ofOption_some, l1]
    obtain ⟨cn3, hcn3⟩ : ∃ cn3, t3.graph.node? c = some cn3 := hc3
    refine Res.bind_eq_ok.2 ⟨cn3, node_eq hcn3, ?_⟩
    have hspan : cn3.span = cn.span := by
      rw [hnode3] at hcn3
      cases cn with
      | term x =>
        rw [d2.term c x hcn] at hcn3
        simp only [Option.some.injEq] at hcn3
        rw [← hcn3]
      | nt x =>
        obtain ⟨sp, h1, h2, h3, h4⟩ := d4 c x hcn
        have hne : ¬ (q ≠ p ∧ t.Dom q p ∧ t.Dom c p ∧ t.Dom q c) := by
          rintro ⟨_, _, h, _⟩
          exact S.acyclic G p (TransGen.head' hpc h)
        rw [h1] at hcn3
        simp only [Option.some.injEq] at hcn3
        rw [← hcn3]
        exact h4 hne
    rw [hspan]
    exact Res.bind_eq_ok.2 ⟨t4, a1, rfl⟩
  · refine a2.sentence ⟨?_, ?_, ?_⟩
    · intro n hn
      obtain ⟨i, h1, h2⟩ := Z.pos n ((hT3 n).1 hn)
      exact ⟨i, by show i < t1.nTerminals; rw [d2.nTerm]; exact h1, (hA3 n i).2 h2⟩
    · intro i hi
      have hi : i < t1.nTerminals := hi
      rw [d2.nTerm] at hi
      obtain ⟨n, hn⟩ := Z.occupied i hi
      exact ⟨n, (hA3 n i).2 hn⟩
    · intro n m i h1 h2
      exact Z.inj n m i ((hA3 n i).1 h1) ((hA3 m i).1 h2)
  · rw [a2.isChild]; exact hmoved
  · rw [a2.edges, hE3]
  · exact a2.root.trans d2.root
  · exact a2.nTerm.trans d2.nTerm
  · intro n x hx
    exact a2.term n x (by rw [hnode3]; exact d2.term n x hx)
  · intro n
    rw [a2.content, content_eq (hnode3 n), d2.content]
  · rw [a2.len, show t3.graph.nodes = t1.graph.nodes from l3.trans j3, d2.len]
  · intro n i hn; rw [a2.covers]; exact hcov3 n i hn
  · intro n i hn; rw [a2.covers]; exact hcov3' n i hn
  · intro n x hx
    obtain ⟨sp1, k1, k2, k3, k4⟩ := d4 n x hx
    have hn3 : t3.graph.node? n = some (.nt { x with span := sp1 }) := by rw [hnode3]; exact k1
    have h1 : ∀ i, i ∈ sp1.indices ↔ i ∈ x.span.indices ∧ ¬ (i ∈ cn.span.indices ∧
        (q ≠ p ∧ t.Dom q p ∧ t.Dom n p ∧ t.Dom q n)) := by
      intro i
      by_cases hpath : q ≠ p ∧ t.Dom q p ∧ t.Dom n p ∧ t.Dom q n
      · rw [k3 hpath.1 hpath.2.1 hpath.2.2.1 hpath.2.2.2, Finset.mem_sdiff]
        constructor
        · rintro ⟨h1, h2⟩; exact ⟨h1, fun h => h2 h.1⟩
        · rintro ⟨h1, h2⟩; exact ⟨h1, fun h => h2 ⟨h, hpath⟩⟩
      · rw [k4 hpath]
        exact ⟨fun h => ⟨h, fun h => hpath h.2⟩, fun h => h.1⟩
    by_cases hnq : t.Dom n q
    · obtain ⟨sp, h2, h3, h4⟩ := a5 n ((hmeml n).2 hnq) _ hn3
      refine ⟨sp, h2, h3, fun i => ?_⟩
      have h4 : sp.indices = sp1.indices ∪ cn.span.indices := h4
      rw [h4, Finset.mem_union, h1]
      constructor
      · rintro (h | h)
        · exact .inl h
        · exact .inr ⟨hnq, h⟩
      · rintro (h | h)
        · exact .inl h
        · exact .inr h.2
    · refine ⟨sp1, by rw [a4 n (fun h => hnq ((hmeml n).1 h))]; exact hn3, k2, fun i => ?_⟩
      rw [h1]
      exact ⟨.inl, fun h => h.resolve_right fun h => hnq h.1⟩
  · intro hrel n hnp hnq
    rw [a4 n (fun h => hnq ((hmeml n).1 h)), hnode3]
    rw [not_or] at hrel
    cases hx : t.graph.node? n with
    | none => exact d2.none n hx
    | some nd =>
      cases nd with
      | term x => exact d2.term n x hx
      | nt x =>
        obtain ⟨sp1, k1, k2, k3, k4⟩ := d4 n x hx
        rw [k1, k4 (fun h => hrel.1 h.2.1)]

/-- What `reattach_primary` does. -/
theorem reattachPrimary_spec (W : t.WF) {r : EdgeRec} {q : Nat} (hr : r ∈ t.graph.edges)
    (hw : r.w.isPrimary = true) (hq : t.IsNt q) (hcq : ¬ t.Dom r.tgt q)
    (hsib : r.src = q ∨ ∃ s, s ≠ r.tgt ∧ t.IsChild r.src s) :
    ∃ t' e', t.reattachPrimary q r.id = .ok (t', .ok (e', r.w)) ∧ t'.graph.OK ∧ t'.Shape ∧
      t'.Sentence ∧ t'.CountOK ∧ Moved t.IsChild t'.IsChild r.tgt q ∧
      t'.graph.edges = ⟨e', q, r.tgt, .primary none⟩ :: t.graph.edges.filter (fun s => s.id ≠ r.id) ∧
      t'.root = t.root ∧ t'.nTerminals = t.nTerminals ∧
      (∀ n x, t.graph.node? n = some (.term x) → t'.graph.node? n = some (.term x)) ∧
      (∀ n, t'.content n = t.content n) ∧
      t'.graph.nodes.length = t.graph.nodes.length ∧
      (t.Dom q r.src ∨ t.Dom r.src q → t'.SpansOK) ∧
      (¬ (t.Dom q r.src ∨ t.Dom r.src q) →
        ∀ n, t.Dom n r.src → ¬ t.Dom n q → t'.graph.node? n = t.graph.node? n) := by
  classical
  have G := W.graph
  have S := W.shape
  have Z := W.sentence
  have hpc : t.IsChild r.src r.tgt := ⟨_, hr, rfl, rfl, hw⟩
  obtain ⟨cn, hcn⟩ := (isChild_live G hpc).2
  obtain ⟨cv, cc⟩ := W.span_spec hcn
  obtain ⟨t', e', k1, k2, k3, k4, k5, k6, k7, k8, k9, k10, k11, k12, k13, k14, k15, k16⟩ :=
    reattachPrimary_loose (W.loose fun _ => False) hcn cv cc (fun _ _ => id) hr hw hq hcq hsib
  refine ⟨t', e', k1, k2, k3, k4, k5, k6, k7, k8, k9, k10, k11, k12, ?_, k16⟩
  intro hrel
  rw [spansOK_iff]
  rintro n hn nd hnd
  have hn' : t.IsNt n := by
    have hl : t.Live n := by
      obtain ⟨y, hy⟩ := hn
      have := k11 n
      unfold content at this
      rw [hy] at this
      cases h : t.graph.node? n with
      | none => rw [h] at this; simp at this
      | some b => exact ⟨b, h⟩
    rcases live_iff.1 hl with ⟨x, hx⟩ | h
    · exact absurd hn (fun h => not_isTerm_isNt ⟨x, k10 n x hx⟩ h)
    · exact h
  obtain ⟨x, hx⟩ := hn'
  have xc : ∀ i, i ∈ x.span.indices ↔ t.Covers n i := (W.span_spec hx).2
  obtain ⟨sp, hsp, spv, spi⟩ := k15 n x hx
  rw [hsp] at hnd
  simp only [Option.some.injEq] at hnd
  subst hnd
  refine ⟨spv, fun i => ?_⟩
  show i ∈ sp.indices ↔ _
  rw [spi, xc]
  by_cases hcn' : t.Dom r.tgt n
  · have h1 : ¬ t.Dom n q := fun h => hcq (hcn'.trans h)
    have h2 : ¬ t.Dom n r.src := fun h => S.acyclic G r.src (TransGen.head' hpc (hcn'.trans h))
    rw [k13 n i hcn']
    simp [h1, h2]
  · rw [k14 n i hcn']
    by_cases hnq : t.Dom n q
    · by_cases hi : i ∈ cn.span.indices <;> simp [hi, hnq]
    · by_cases hi : i ∈ cn.span.indices
      · simp only [hi, hnq, not_true, and_false, false_and, or_false, true_and, iff_false, not_and]
        intro h1
        rcases covers_disjoint S Z.inj h1 ((cc i).1 hi) with h | h
        · rcases h.cases_parent with h3 | ⟨d, h3, h4⟩
          · subst h3; exact absurd Dom.refl hcn'
          · rw [S.isChild_unique h4 hpc] at h3
            rcases hrel with h5 | h5
            · by_cases hqp : q = r.src
              · subst hqp; exact absurd h3 hnq
              · rcases S.dom_linear h3 h5 with h6 | h6
                · exact absurd h6 hnq
                · exact fun h => h hqp h5 h3 h6
            · exact absurd (h3.trans h5) hnq
        · exact absurd h hcn'
      · simp [hi]

end Tree
end Lumberjack
