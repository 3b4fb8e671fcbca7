import Verif.Proofs.Reset

/-!
# A sufficient check for well-formedness

Used to show that concrete trees meet the hypotheses of the theorems.
-/

namespace Lumberjack

/-- All conditions of `Graph.OK`, computed. -/
def Graph.check (g : Graph) : Bool :=
  decide ((g.edges.map (·.id)).Nodup) && g.edges.all (fun r => decide (r.id < g.edgeSlots)) &&
  decide g.freeEdges.Nodup &&
  g.freeEdges.all (fun i => decide (i < g.edgeSlots) && g.edges.all (fun r => decide (r.id ≠ i))) &&
  decide g.freeNodes.Nodup &&
  g.freeNodes.all (fun i => decide (i < g.nodes.length) && (g.node? i).isNone) &&
  g.edges.all (fun r => (g.node? r.src).isSome && (g.node? r.tgt).isSome)

theorem Graph.ok_of_check {g : Graph} (h : g.check = true) : g.OK := by
  simp only [Graph.check, Bool.and_eq_true, decide_eq_true_eq, List.all_eq_true] at h
  obtain ⟨⟨⟨⟨⟨⟨h1, h2⟩, h3⟩, h4⟩, h5⟩, h6⟩, h7⟩ := h
  refine ⟨h1, h2, h3, h4, h5, ?_, ?_⟩
  · intro i hi
    obtain ⟨a, b⟩ := h6 i hi
    exact ⟨a, by simpa using b⟩
  · intro r hr
    obtain ⟨a, b⟩ := h7 r hr
    exact ⟨Option.isSome_iff_exists.1 a, Option.isSome_iff_exists.1 b⟩

namespace Tree

/-- Is the root reached by climbing from `n` in at most `k` steps? -/
def reachB (t : Tree) : Nat → Nat → Bool
  | 0, n => decide (n = t.root)
  | k + 1, n => decide (n = t.root) || match t.parent n with
    | some (p, _) => reachB t k p
    | none => false

theorem reachB_sound {t : Tree} {k n : Nat} (h : t.reachB k n = true) : t.Dom t.root n := by
  induction k generalizing n with
  | zero => simp only [reachB, decide_eq_true_eq] at h; subst h; exact Dom.refl
  | succ k ih =>
    simp only [reachB, Bool.or_eq_true, decide_eq_true_eq] at h
    rcases h with rfl | h
    · exact Dom.refl
    · cases hp : t.parent n with
      | none => rw [hp] at h; simp at h
      | some q =>
        rw [hp] at h
        exact (ih h).tail (parent_isChild hp)

/-- Conditions of `Shape`, `Sentence` and the graph, computed. -/
def checkShape (t : Tree) : Bool :=
  (t.graph.node? t.root).isSome &&
  t.graph.edges.all (fun r => !(r.w.isPrimary && decide (r.tgt = t.root))) &&
  t.graph.edges.all (fun r => t.graph.edges.all (fun s =>
    !(decide (r.tgt = s.tgt) && r.w.isPrimary && s.w.isPrimary) || decide (r = s))) &&
  (List.range t.graph.nodes.length).all (fun n => (t.graph.node? n).isNone ||
    t.reachB t.graph.nodes.length n) &&
  t.graph.edges.all (fun r => !(r.w.isPrimary && (t.graph.node? r.src).any Node.isTerminal)) &&
  (List.range t.graph.nodes.length).all (fun n =>
    !(t.graph.node? n).any (fun nd => !nd.isTerminal) ||
      t.graph.edges.any (fun r => r.w.isPrimary && decide (r.src = n)))

theorem shape_of_check {t : Tree} (h : t.checkShape = true) : t.Shape := by
  simp only [checkShape, Bool.and_eq_true, List.all_eq_true, Bool.or_eq_true, Bool.not_eq_true',
    decide_eq_true_eq, Bool.and_eq_false_iff, decide_eq_false_iff_not, List.any_eq_true,
    List.mem_range] at h
  obtain ⟨⟨⟨⟨⟨h1, h2⟩, h3⟩, h4⟩, h5⟩, h6⟩ := h
  refine ⟨Option.isSome_iff_exists.1 h1, ?_, ?_, ?_, ?_, ?_⟩
  · rintro p ⟨r, hr, _, e, hp⟩
    rcases h2 r hr with h | h
    · rw [hp] at h; simp at h
    · exact h e
  · intro r hr s hs e hp hq
    rcases h3 r hr s hs with h | h
    · rcases h with (h | h) | h
      · exact absurd e h
      · rw [hp] at h; simp at h
      · rw [hq] at h; simp at h
    · exact h
  · rintro n ⟨nd, hn⟩
    rcases h4 n (Graph.lt_of_node? hn) with h | h
    · rw [hn] at h; simp at h
    · exact reachB_sound h
  · rintro n c ⟨x, hx⟩ ⟨r, hr, rfl, _, hp⟩
    rcases h5 r hr with h | h
    · rw [hp] at h; simp at h
    · rw [hx] at h; simp [Node.isTerminal] at h
  · rintro n ⟨x, hx⟩
    rcases h6 n (Graph.lt_of_node? hx) with h | h
    · rw [hx] at h; simp [Node.isTerminal] at h
    · obtain ⟨r, hr, hp, e⟩ := h
      exact ⟨r.tgt, r, hr, e, rfl, hp⟩

/-- The position of a terminal with a one-position span. -/
def posB (t : Tree) (n : Nat) : Option Nat := match t.graph.node? n with
  | some (.term x) => if x.span = Span.ofIdx x.span.start then some x.span.start else none
  | _ => none

theorem posB_iff {t : Tree} {n i : Nat} : t.posB n = some i ↔ t.TermAt n i := by
  unfold posB TermAt
  cases h : t.graph.node? n with
  | none => simp
  | some nd =>
    cases nd with
    | nt x => simp
    | term x =>
      simp only [Option.some.injEq, Node.term.injEq, exists_eq_left']
      constructor
      · intro h
        split at h
        · rename_i e
          simp only [Option.some.injEq] at h
          rw [← h]; exact e
        · simp at h
      · intro h
        rw [h]
        simp [Span.ofIdx]

/-- Conditions of `Sentence`, computed. -/
def checkSentence (t : Tree) : Bool :=
  (List.range t.graph.nodes.length).all (fun n => !(t.graph.node? n).any Node.isTerminal ||
    (t.posB n).any (fun i => decide (i < t.nTerminals))) &&
  (List.range t.nTerminals).all (fun i => (List.range t.graph.nodes.length).any (fun n =>
    decide (t.posB n = some i))) &&
  (List.range t.graph.nodes.length).all (fun n => (List.range t.graph.nodes.length).all (fun m =>
    (t.posB n).isNone || decide (t.posB n ≠ t.posB m) || decide (n = m)))

theorem sentence_of_check {t : Tree} (h : t.checkSentence = true) : t.Sentence := by
  simp only [checkSentence, Bool.and_eq_true, List.all_eq_true, Bool.or_eq_true, Bool.not_eq_true',
    decide_eq_true_eq, List.any_eq_true, List.mem_range] at h
  obtain ⟨⟨h1, h2⟩, h3⟩ := h
  refine ⟨?_, ?_, ?_⟩
  · rintro n ⟨x, hx⟩
    rcases h1 n (Graph.lt_of_node? hx) with h | h
    · rw [hx] at h; simp [Node.isTerminal] at h
    · cases hp : t.posB n with
      | none => rw [hp] at h; simp at h
      | some i =>
        rw [hp] at h
        exact ⟨i, by simpa using h, posB_iff.1 hp⟩
  · intro i hi
    obtain ⟨n, _, hn⟩ := h2 i hi
    exact ⟨n, posB_iff.1 hn⟩
  · intro n m i hn hm
    have hn' := hn
    have hm' := hm
    obtain ⟨x, hx, _⟩ := hn'
    obtain ⟨y, hy, _⟩ := hm'
    rw [← posB_iff] at hn hm
    rcases h3 n (Graph.lt_of_node? hx) m (Graph.lt_of_node? hy) with (h | h) | h
    · rw [hn] at h; simp at h
    · exact absurd (hn.trans hm.symm) h
    · exact h

/-- A well-formedness check: the structural conditions, and spans unchanged by recomputation. -/
def checkWF (t : Tree) : Bool :=
  t.graph.check && t.checkShape && t.checkSentence && decide (t.resetNtSpans = .ok t)

theorem wf_of_check {t : Tree} (h : t.checkWF = true) : t.WF := by
  simp only [checkWF, Bool.and_eq_true, decide_eq_true_eq] at h
  obtain ⟨⟨⟨h1, h2⟩, h3⟩, h4⟩ := h
  obtain ⟨t', e, _, W⟩ := resetNtSpans_wf (Graph.ok_of_check h1) (shape_of_check h2)
    (sentence_of_check h3)
  rw [h4] at e
  simp only [Res.ok.injEq] at e
  subst e
  exact W

end Tree
end Lumberjack
