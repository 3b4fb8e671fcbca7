import Verif.Proofs.Reattach

/-!
# Reattachment in general

What every successful reattachment does, whether or not the result is a tree.
-/

namespace Lumberjack
namespace Tree

open Relation

variable {t t' : Tree}

theorem projectivityChange_eq {b a : Continuity} (h : t.projectivityChange b a = .ok t') :
    ∃ k, t' = { t with numDisc := k } := by
  unfold projectivityChange at h
  split at h
  · simp only [Res.ok.injEq] at h; exact ⟨_, h.symm⟩
  · obtain ⟨n, _, h2⟩ := Res.bind_eq_ok.1 h
    simp only [Res.pure_eq, Res.ok.injEq] at h2; exact ⟨_, h2.symm⟩
  · simp only [Res.ok.injEq] at h; exact ⟨t.numDisc, h.symm⟩

theorem changeSpan_edit {n : Nat} {x : NonTerminal} {sp : Span} {b a : Continuity}
    (hn : t.graph.node? n = some (.nt x))
    (h : (t.setNode n (.nt { x with span := sp })).projectivityChange b a = .ok t') : SpanEdit t t' := by
  obtain ⟨k, rfl⟩ := projectivityChange_eq h
  exact SpanEdit.setNt hn sp k

theorem removeCoverage_edit {cov : List Nat} {n : Nat} (h : removeCoverage cov t n = .ok t') :
    SpanEdit t t' := by
  unfold removeCoverage at h
  obtain ⟨nd, h1, h⟩ := Res.bind_eq_ok.1 h
  obtain ⟨x, h2, h⟩ := Res.bind_eq_ok.1 h
  obtain ⟨⟨sp, af⟩, h3, h⟩ := Res.bind_eq_ok.1 h
  rw [node_ok] at h1
  cases nd with
  | term _ => simp [Node.nonterminal] at h2
  | nt y =>
    simp only [Node.nonterminal, Res.ofOption_some, Res.ok.injEq] at h2
    subst h2
    exact changeSpan_edit h1 h

theorem removeCoverage_all_edit {cov : List Nat} {l : List Nat} : ∀ {t : Tree},
    forM' (removeCoverage cov) l t = .ok t' → SpanEdit t t' := by
  induction l with
  | nil => intro t h; simp at h; subst h; exact SpanEdit.refl _
  | cons n l ih =>
    intro t h
    rw [forM'_cons] at h
    obtain ⟨t1, h1, h2⟩ := Res.bind_eq_ok.1 h
    exact (removeCoverage_edit h1).trans (ih h2)

theorem detachSpans_edit {q p c : Nat} (h : t.detachSpans q p c = .ok t') : SpanEdit t t' := by
  unfold detachSpans at h
  refine loopM_sat (fun _ => True) (fun t' => SpanEdit t t') ?_ trivial h
  rintro ⟨cur, path⟩ _
  cases hc : t.climberNext cur with
  | mk item cur' =>
    cases item with
    | none => exact SpanEdit.refl t
    | some y =>
      obtain ⟨x, e⟩ := y
      simp only
      by_cases hq : q = x
      · rw [if_pos hq]
        cases h1 : t.node c with
        | ok cn =>
          simp only [Res.ok_bind]
          cases h2 : forM' (removeCoverage cn.span.toVec) (path ++ [x]) t with
          | ok t2 => exact removeCoverage_all_edit h2
          | panic => trivial
          | diverge => trivial
        | panic => trivial
        | diverge => trivial
      · rw [if_neg hq]; trivial

theorem attachSpans_edit {c : Nat} {cs : Span} (h : t.attachSpans c cs = .ok t') : SpanEdit t t' := by
  unfold attachSpans at h
  refine loopM_sat (fun (s : Option (Nat × Nat) × Tree) => SpanEdit t s.2) (fun t' => SpanEdit t t') ?_
    (SpanEdit.refl t) h
  rintro ⟨cur, s⟩ hs
  simp only at hs ⊢
  cases hc : s.climberNext cur with
  | mk item cur' =>
    cases item with
    | none => exact hs
    | some y =>
      obtain ⟨x, e⟩ := y
      simp only
      cases h1 : s.node x with
      | ok nd =>
        simp only [Res.ok_bind]
        by_cases hcov : nd.span.coversSpan cs = true
        · rw [if_pos hcov]; exact hs
        · rw [if_neg hcov]
          cases nd with
          | term z => trivial
          | nt z =>
            simp only [Node.nonterminal, Res.ofOption_some, Res.ok_bind]
            cases h2 : z.span.mergeSpans cs with
            | ok sp =>
              simp only [Res.ok_bind]
              cases h3 : (s.setNode x (.nt { z with span := sp })).projectivityChange
                (Node.nt z).continuity sp.continuity with
              | ok t2 => exact hs.trans (changeSpan_edit (node_ok.1 h1) h3)
              | panic => trivial
              | diverge => trivial
            | panic => trivial
            | diverge => trivial
      | panic => trivial
      | diverge => trivial

/-- Everything a returning `reattach_primary` does apart from spans. -/
theorem reattachPrimary_any (G : t.graph.OK) {q e : Nat} {res : Except Err (Nat × Edge)}
    (h : t.reattachPrimary q e = .ok (t', res)) :
    (∃ er, res = .error er ∧ t' = t) ∨
    ∃ r e', r ∈ t.graph.edges ∧ r.id = e ∧ res = .ok (e', r.w) ∧ t.IsNt q ∧
      (r.src = q ∨ (t.siblings r.tgt).length ≠ 0) ∧
      t'.graph.OK ∧
      t'.graph.edges = ⟨e', q, r.tgt, .primary none⟩ :: t.graph.edges.filter (fun s => s.id ≠ e) ∧
      t'.root = t.root ∧ t'.nTerminals = t.nTerminals ∧ (∀ n, t'.content n = t.content n) ∧
      (∀ n x, t.graph.node? n = some (.term x) → t'.graph.node? n = some (.term x)) := by
  unfold reattachPrimary at h
  obtain ⟨r, h1, h⟩ := Res.bind_eq_ok.1 h
  rw [Res.ofOption_eq_ok] at h1
  obtain ⟨hr, rfl⟩ := (Graph.edge?_eq G).1 h1
  obtain ⟨np, h2, h⟩ := Res.bind_eq_ok.1 h
  rw [node_ok] at h2
  cases np with
  | term z =>
    simp only [Node.isTerminal, if_true, Res.pure_eq, Res.ok.injEq, Prod.mk.injEq] at h
    exact .inl ⟨_, h.2.symm, h.1.symm⟩
  | nt z =>
    simp only [Node.isTerminal, Bool.false_eq_true, if_false] at h
    by_cases hs : (t.siblings r.tgt).length = 0 ∧ r.src ≠ q
    · rw [if_pos hs] at h
      simp only [Res.pure_eq, Res.ok.injEq, Prod.mk.injEq] at h
      exact .inl ⟨_, h.2.symm, h.1.symm⟩
    · rw [if_neg hs] at h
      right
      obtain ⟨t1, d1, h⟩ := Res.bind_eq_ok.1 h
      obtain ⟨⟨g2, old⟩, d2, h⟩ := Res.bind_eq_ok.1 h
      obtain ⟨⟨g3, e'⟩, d3, h⟩ := Res.bind_eq_ok.1 h
      obtain ⟨cn, d4, h⟩ := Res.bind_eq_ok.1 h
      obtain ⟨t4, d5, h⟩ := Res.bind_eq_ok.1 h
      simp only [Res.pure_eq, Res.ok.injEq, Prod.mk.injEq] at h
      obtain ⟨rfl, rfl⟩ := h
      have E1 := detachSpans_edit d1
      have E2 := attachSpans_edit d5
      obtain ⟨g2', j1, j2, j3, j4, j5⟩ := Graph.removeEdge_spec (E1.ok G) (e := r.id) (r := r)
        (by rw [E1.edges]; exact hr) rfl
      rw [Res.ofOption_eq_ok, j1] at d2
      simp only [Option.some.injEq, Prod.mk.injEq] at d2
      obtain ⟨rfl, rfl⟩ := d2
      have hlive : ∀ m, g2'.Live m ↔ t.Live m := fun m => by
        rw [← E1.live]; unfold Live Graph.Live Graph.node?; rw [j3]
      obtain ⟨g3', e'', l1, l2, l3, l4, l5, l6⟩ := Graph.addEdge_spec j5
        ((hlive q).2 ⟨_, h2⟩) ((hlive r.tgt).2 (G.ends r hr).2) (.primary none)
      rw [l1] at d3
      simp only [Res.ok.injEq, Prod.mk.injEq] at d3
      obtain ⟨rfl, rfl⟩ := d3
      have hnode : ∀ m, ({ t1 with graph := g3' } : Tree).graph.node? m = t1.graph.node? m := fun m => by
        show g3'.node? m = _
        unfold Graph.node?; rw [l3, j3]
      refine ⟨r, e'', hr, rfl, rfl, ⟨z, h2⟩, ?_, E2.ok l6, ?_, E2.root.trans E1.root,
        E2.nTerm.trans E1.nTerm, ?_, ?_⟩
      · rw [not_and_or] at hs
        rcases hs with hs | hs
        · exact .inr hs
        · exact .inl (by simpa using hs)
      · rw [E2.edges]
        show g3'.edges = _
        rw [l2, j2, E1.edges]
      · intro n
        rw [E2.content, content_eq (hnode n), E1.content]
      · intro n x hx
        exact E2.term n x (by rw [hnode]; exact E1.term n x hx)

/-- Attaching a node below one of its own descendants makes a cycle. -/
theorem reattachPrimary_cycle (W : t.WF) {q : Nat} {r : EdgeRec} {v : Nat × Edge}
    (hr : r ∈ t.graph.edges) (hw : r.w.isPrimary = true) (hd : t.Dom r.tgt q)
    (h : t.reattachPrimary q r.id = .ok (t', .ok v)) : ¬ t'.WF := by
  intro W'
  rcases reattachPrimary_any W.graph h with ⟨er, h1, _⟩ | ⟨r', e', h1, h2, h3, h4, _, h5, h6, _⟩
  · simp at h1
  · have := W.graph.edge_ext h1 hr h2
    subst this
    have hkeep : ∀ {a b}, t.IsChild a b → b ≠ r'.tgt → t'.IsChild a b := by
      rintro a b ⟨s, hs, rfl, rfl, hsw⟩ hb
      refine ⟨s, ?_, rfl, rfl, hsw⟩
      rw [h6]
      refine List.mem_cons_of_mem _ (List.mem_filter.2 ⟨hs, ?_⟩)
      have : s.id ≠ r'.id := fun e => hb (by rw [W.graph.edge_ext hs h1 e])
      simpa using this
    have hdom : t'.Dom r'.tgt q := by
      induction hd with
      | refl => exact Dom.refl
      | @tail b c hab hbc ih =>
        have hbn : t.IsNt b := W.shape.parent_isNt W.graph hbc
        have hne : c ≠ r'.tgt := by
          rintro rfl
          exact W.shape.acyclic W.graph _ (TransGen.tail' hab hbc)
        have : ∀ {x y : Nat}, t.Dom x y → x = r'.tgt → t'.Dom x y := by
          intro x y hxy hx
          induction hxy with
          | refl => exact Dom.refl
          | @tail y z hxy hyz ih2 =>
            refine ih2.tail (hkeep hyz ?_)
            rintro rfl
            subst hx
            exact W.shape.acyclic W.graph _ (TransGen.tail' hxy hyz)
        exact (this hab rfl).tail (hkeep hbc hne)
    have hedge : t'.IsChild q r'.tgt := ⟨⟨e', q, r'.tgt, .primary none⟩, by rw [h6]; exact List.mem_cons_self, rfl, rfl, rfl⟩
    exact W'.shape.acyclic W'.graph _ (TransGen.tail' hdom hedge)

/-- The exact condition under which a reattached tree is well formed. -/
theorem reattachPrimary_wf_iff (W : t.WF) {q : Nat} {r : EdgeRec} {v : Nat × Edge}
    (hr : r ∈ t.graph.edges) (hw : r.w.isPrimary = true)
    (h : t.reattachPrimary q r.id = .ok (t', .ok v)) :
    t'.WF ↔ ¬ t.Dom r.tgt q ∧ (t.Dom q r.src ∨ t.Dom r.src q) := by
  have hpc : t.IsChild r.src r.tgt := ⟨r, hr, rfl, rfl, hw⟩
  by_cases hd : t.Dom r.tgt q
  · have := reattachPrimary_cycle W hr hw hd h
    tauto
  · rcases reattachPrimary_any W.graph h with ⟨er, h1, _⟩ | ⟨r', e', h1, h2, h3, h4, hs, _⟩
    · simp at h1
    · have := W.graph.edge_ext h1 hr h2
      subst this
      have hsib : r'.src = q ∨ ∃ s, s ≠ r'.tgt ∧ t.IsChild r'.src s := by
        rcases hs with hs | hs
        · exact .inl hs
        · right
          cases hl : t.siblings r'.tgt with
          | nil => rw [hl] at hs; simp at hs
          | cons y l =>
            have : y.1 ∈ (t.siblings r'.tgt).map (·.1) := by rw [hl]; simp
            obtain ⟨k1, p, k2, k3⟩ := (mem_siblings W.shape).1 this
            rw [W.shape.isChild_unique k2 hpc] at k3
            exact ⟨y.1, k1, k3⟩
      obtain ⟨t2, e2, k1, k2, k3, k4, k5, k6, k7, k8, k9, k10, k11, k12, k13, k14⟩ :=
        reattachPrimary_spec W hr hw h4 hd hsib
      rw [h] at k1
      simp only [Res.ok.injEq, Prod.mk.injEq] at k1
      obtain ⟨rfl, _⟩ := k1
      by_cases hrel : t.Dom q r'.src ∨ t.Dom r'.src q
      · exact ⟨fun _ => ⟨hd, hrel⟩, fun _ => ⟨k2, k3, k4, k13 hrel, k5⟩⟩
      · refine ⟨fun W' => ?_, fun h => absurd h.2 hrel⟩
        exfalso
        obtain ⟨y, hy⟩ := W.shape.parent_isNt W.graph hpc
        have hy' := k14 hrel r'.src Dom.refl (fun h => hrel (.inr h))
        rw [hy] at hy'
        obtain ⟨_, yc⟩ := W.span_spec hy
        obtain ⟨_, yc'⟩ := W'.span_spec hy'
        obtain ⟨cn, hcn⟩ := (isChild_live W.graph hpc).2
        obtain ⟨cv, cc⟩ := W.span_spec hcn
        have hi := (cc _).1 cv.start_mem
        obtain ⟨m, hm1, hm2⟩ := (yc' _).1 ((yc _).2 (covers_dom (Dom.single hpc) hi))
        have hsrc : ¬ t.Dom r'.tgt r'.src := fun hh =>
          W.shape.acyclic W.graph _ (TransGen.head' hpc hh)
        have ha : ∀ i, t'.TermAt m i → t.TermAt m i := by
          rintro i ⟨x, hx, hxs⟩
          have hT : t.IsTerm m := (content_term (k11 m)).1 ⟨x, hx⟩
          obtain ⟨x', hx'⟩ := hT
          rw [k10 m x' hx'] at hx
          simp only [Option.some.injEq, Node.term.injEq] at hx
          subst hx
          exact ⟨x', hx', hxs⟩
        obtain ⟨m', hm3, hm4⟩ := hi
        have := W.sentence.inj _ _ _ (ha _ hm2) hm4
        subst this
        rcases (moved_dom_outside W.graph W.shape k6 hd hsrc).1 hm1 with ⟨_, h6⟩ | ⟨h6, _⟩
        · exact h6 hm3
        · exact hrel (.inr h6)

end Tree
end Lumberjack
