import Verif.Spec.NodeApi
import Verif.Proofs.Span
import Verif.Proofs.Equality
import Verif.Props.Span

/-!
# Single nodes and edges (C75)
-/

namespace Lumberjack
namespace Props

/-- C75: the attributes make up the node. -/
theorem C75_attributes (a b : Node) (h : a.attrs = b.attrs) : a = b := by
  cases a with
  | nt x => cases b with
    | nt y =>
      cases x; cases y
      simp only [Node.attrs, Attrs.mk.injEq, Node.label, Node.features, Node.span] at h
      obtain ⟨-, -, rfl, -, rfl, rfl⟩ := h
      rfl
    | term y => simp [Node.attrs, Node.isTerminal] at h
  | term x => cases b with
    | nt y => simp [Node.attrs, Node.isTerminal] at h
    | term y =>
      cases x; cases y
      simp only [Node.attrs, Attrs.mk.injEq, Node.label, Node.features, Node.span, Node.terminal, Option.map_some,
        Option.bind_some, Option.some.injEq, Terminal.lemma?] at h
      obtain ⟨-, rfl, rfl, rfl, rfl, rfl⟩ := h
      rfl

/-- C75: `set_label` changes the label, nothing else, and returns the old one. -/
theorem C75_set_label (n : Node) (l : Str) :
    (n.replaceLabel l).1.attrs = { n.attrs with label := l } ∧ (n.replaceLabel l).2 = n.label := by
  cases n <;> exact ⟨rfl, rfl⟩

/-- C75: `set_features` changes the features, nothing else, and returns the old ones. -/
theorem C75_set_features (n : Node) (f : Option Features) :
    (n.replaceFeatures f).1.attrs = { n.attrs with features := f } ∧ (n.replaceFeatures f).2 = n.features := by
  cases n <;> exact ⟨rfl, rfl⟩

/-- C75: `features_mut` gives the features that are there, or new empty ones that the node has from then on; nothing
else changes. -/
theorem C75_features_mut (n : Node) :
    n.openFeatures.1.attrs = { n.attrs with features := some n.openFeatures.2 } ∧
      (∀ f, n.features = some f → n.openFeatures.2 = f) ∧
      (n.features = none → ∀ k, n.openFeatures.2.getVal k = none) := by
  have e : ∀ k, Features.empty.getVal k = none := fun _ => rfl
  cases n with
  | nt x =>
    cases x with | mk l fs s =>
    cases fs with
    | none => exact ⟨rfl, fun _ h => (by cases h), fun _ k => e k⟩
    | some f => exact ⟨rfl, fun _ h => Option.some.inj h, fun h => by cases h⟩
  | term x =>
    cases x with | mk w p l fs s =>
    cases fs with
    | none => exact ⟨rfl, fun _ h => (by cases h), fun _ k => e k⟩
    | some f => exact ⟨rfl, fun _ h => Option.some.inj h, fun h => by cases h⟩

/-- C75: `terminal_mut` is there for terminals only; `set_form` and `set_lemma` change the form or the lemma, nothing
else, and return the old one. -/
theorem C75_terminal_mut (n : Node) (w : Str) (l : Option Str) :
    (n.attrs.terminal = false → n.onTerminal (·.setForm w) = none ∧ n.onTerminal (·.setLemma l) = none) ∧
    (n.attrs.terminal = true →
      (∃ n' old, n.onTerminal (·.setForm w) = some (n', old) ∧ n'.attrs = { n.attrs with form := some w } ∧
        n.attrs.form = some old) ∧
      ∃ n' old, n.onTerminal (·.setLemma l) = some (n', old) ∧ n'.attrs = { n.attrs with lemma? := l } ∧
        n.attrs.lemma? = old) := by
  cases n with
  | nt x => exact ⟨fun _ => ⟨rfl, rfl⟩, fun h => (Bool.noConfusion h)⟩
  | term x => exact ⟨fun h => (Bool.noConfusion h), fun _ => ⟨⟨_, _, rfl, rfl, rfl⟩, _, _, rfl, rfl, rfl⟩⟩

/-- C75: the methods of the terminal or nonterminal inside are those of the node. -/
theorem C75_inner (l : Str) (f : Option Features) :
    (∀ n : Node, n.attrs.terminal = false → (∀ α (g : NonTerminal → NonTerminal × α), ∃ x, n.nonterminal = some x ∧
        n.onNonTerminal g = some (.nt (g x).1, (g x).2)) ∧
      n.onNonTerminal (·.setLabel l) = some (n.replaceLabel l) ∧
      n.onNonTerminal (·.setFeatures f) = some (n.replaceFeatures f) ∧
      n.onNonTerminal (·.featuresMut) = some n.openFeatures ∧ n.terminal = none) ∧
    (∀ n : Node, n.attrs.terminal = true → n.onTerminal (·.setLabel l) = some (n.replaceLabel l) ∧
      n.onTerminal (·.setFeatures f) = some (n.replaceFeatures f) ∧
      n.onTerminal (·.featuresMut) = some n.openFeatures ∧ n.nonterminal = none ∧
      ∀ α (g : NonTerminal → NonTerminal × α), n.onNonTerminal g = none) := by
  constructor <;> intro n h <;> cases n
  · exact ⟨fun _ _ => ⟨_, rfl, rfl⟩, rfl, rfl, rfl, rfl⟩
  · cases h
  · cases h
  · exact ⟨rfl, rfl, rfl, rfl, fun _ _ => rfl⟩

/-- C75: a nonterminal can be given any span, a terminal only one that covers exactly one position; nothing else
changes. `set_span` behind `nonterminal_mut` does the same and returns the old span. -/
theorem C75_set_span (n : Node) (s : Span) (hs : s.Built) :
    (n.attrs.terminal = false ∨ (∃ i, ∀ j, s.contains j = true ↔ j = i) →
      ∃ n', n.setSpan s = .ok n' ∧ n'.attrs = { n.attrs with span := s }) ∧
    (n.attrs.terminal = true → (¬ ∃ i, ∀ j, s.contains j = true ↔ j = i) → ∃ e, n.setSpan s = .error e) ∧
    (n.attrs.terminal = false → ∃ n', n.onNonTerminal (·.setSpan s) = some (n', n.attrs.span) ∧
      n'.attrs = { n.attrs with span := s }) := by
  have hv := hs.valid
  have key : (∃ i, ∀ j, s.contains j = true ↔ j = i) ↔ s.nIndices = 1 := by
    rw [← hv.card_indices, Finset.card_eq_one]
    constructor
    · rintro ⟨i, h⟩
      refine ⟨i, Finset.ext fun j => ?_⟩
      rw [← Span.contains_iff, h, Finset.mem_singleton]
    · rintro ⟨i, h⟩
      refine ⟨i, fun j => ?_⟩
      rw [Span.contains_iff, h, Finset.mem_singleton]
  cases n with
  | nt x =>
    refine ⟨fun _ => ⟨_, rfl, rfl⟩, fun h => (Bool.noConfusion h), fun _ => ⟨_, rfl, rfl⟩⟩
  | term x =>
    refine ⟨fun h => ?_, fun _ h => ?_, fun h => (Bool.noConfusion h)⟩
    · rcases h with h | h
      · cases h
      · have h1 := key.1 h
        have h2 : s.skips.isSome = false := by
          rw [Bool.eq_false_iff, ne_eq, hv.skips_iff]
          rintro ⟨a, ha, b, hb, k, hk, h3, h4⟩
          obtain ⟨i, hi⟩ := h
          rw [← Span.contains_iff, hi] at ha hb
          omega
        refine ⟨.term { x with span := s }, ?_, rfl⟩
        simp [Node.setSpan, h1, h2]
    · rw [key] at h
      by_cases h2 : s.skips.isSome
      · exact ⟨_, by simp only [Node.setSpan, h2, if_true]; rfl⟩
      · exact ⟨_, by simp only [Node.setSpan, h2, h, ne_eq, not_false_eq_true, if_true]; rfl⟩

/-- C75: `extend_span` adds the position after the last one to a nonterminal and refuses terminals. -/
theorem C75_extend_span (n : Node) (hs : n.span.Built) :
    (n.attrs.terminal = true → ∃ e, n.extendSpan = .error e) ∧
    (n.attrs.terminal = false → ∃ n' s, n.extendSpan = .ok n' ∧ n'.attrs = { n.attrs with span := s } ∧
      ∀ i, s.contains i = true ↔ n.span.contains i = true ∨ i = n.span.stop) := by
  cases n with
  | term x => exact ⟨fun _ => ⟨_, rfl⟩, fun h => (Bool.noConfusion h)⟩
  | nt x =>
    refine ⟨fun h => (Bool.noConfusion h), fun _ => ⟨_, x.span.extend, rfl, rfl, fun i => ?_⟩⟩
    have hv : x.span.Valid := Span.Built.valid hs
    have hin := hv.inside
    have hlt := hv.lt
    change x.span.extend.contains i = true ↔ x.span.contains i = true ∨ i = x.span.stop
    rw [Span.contains_iff, Span.contains_iff, Span.mem_indices, Span.mem_indices]
    simp only [Span.extend]
    constructor
    · rintro ⟨h1, h2, h3⟩
      by_cases he : i = x.span.stop
      · exact .inr he
      · exact .inl ⟨h1, by omega, h3⟩
    · rintro (⟨h1, h2, h3⟩ | rfl)
      · exact ⟨h1, by omega, h3⟩
      · exact ⟨by omega, by omega, fun sk hsk h => by have := hin sk hsk _ h; omega⟩

/-- C75: a node is discontinuous exactly if its span has a gap. -/
theorem C75_continuity (n : Node) (hs : n.span.Built) :
    (n.continuity = .discontinuous ↔ Span.HasGap n.span.indices) ∧
      ∀ x, n.nonterminal = some x → x.continuity = n.continuity := by
  refine ⟨?_, fun x hx => ?_⟩
  · rw [← hs.valid.skips_iff, Node.continuity, Span.continuity]
    cases n.span.skips <;> simp
  · cases n with
    | term y => cases hx
    | nt y => cases hx; rfl

/-- C75: `merge_spans` and `remove_indices` of a nonterminal do to its span what the methods of the span do (C04, C05),
change nothing else, and tell whether there is a gap afterwards. -/
theorem C75_spans (x : NonTerminal) (s : Span) (v : List Nat) (hx : x.span.Built) (hs : s.Built) :
    (∃ m c, x.span.mergeSpans s = .ok m ∧ x.mergeSpans s = .ok ({ x with span := m }, c) ∧
      (c = .discontinuous ↔ Span.HasGap (x.span.indices ∪ s.indices))) ∧
    (∀ m c, x.span.removeIndices v = .ok (m, c) → x.removeIndices v = .ok ({ x with span := m }, c)) ∧
    (x.span.removeIndices v = .panic → x.removeIndices v = .panic) := by
  refine ⟨?_, fun m c h => ?_, fun h => ?_⟩
  · obtain ⟨m, h1, h2, h3⟩ := C04_merge x.span s hx hs
    refine ⟨m, _, h1, by rw [NonTerminal.mergeSpans, h1]; rfl, ?_⟩
    rw [← h3]
    cases m.skips <;> simp
  · rw [NonTerminal.removeIndices, h]; rfl
  · rw [NonTerminal.removeIndices, h]; rfl

/-- C75: two nodes are equal exactly if they are of the same kind and agree in label, lemma, span and features, where
no features are as good as empty ones.  The form is not compared. -/
theorem C75_eq (a b : Node) : a.eq b = true ↔ a.attrs.terminal = b.attrs.terminal ∧ a.attrs.label = b.attrs.label ∧
    a.attrs.lemma? = b.attrs.lemma? ∧ a.attrs.span = b.attrs.span ∧
    a.attrs.features.getD Features.empty = b.attrs.features.getD Features.empty := by
  have hf : ∀ f g : Option Features, featuresEq f g = true ↔ f.getD Features.empty = g.getD Features.empty := by
    intro f g
    exact featuresEq_iff f g
  cases a with
  | nt x => cases b with
    | nt y =>
      simp only [Node.eq, NonTerminal.eq, Node.attrs, Node.isTerminal, Node.label, Node.terminal, Node.span, Node.features]
      split
      · rename_i h
        simp only [Bool.false_eq_true, false_iff]
        rintro ⟨-, h1, -, h2, -⟩
        rcases h with h | h
        · exact h h1
        · exact h h2
      · rename_i h
        simp only [not_or, ne_eq, not_not] at h
        simp [h.1, h.2, hf]
    | term y => simp [Node.eq, Node.attrs, Node.isTerminal]
  | term x => cases b with
    | nt y => simp [Node.eq, Node.attrs, Node.isTerminal]
    | term y =>
      simp only [Node.eq, Terminal.eq, Node.attrs, Node.isTerminal, Node.label, Node.terminal, Node.span, Node.features,
        Option.bind_some, Terminal.lemma?]
      split
      · rename_i h
        simp only [Bool.false_eq_true, false_iff]
        rintro ⟨-, h1, h2, h3, -⟩
        rcases h with h | h | h
        · exact h h1
        · exact h h3
        · exact h h2
      · rename_i h
        simp only [not_or, ne_eq, not_not] at h
        simp [h.1, h.2.1, h.2.2, hf]

/-- C75: equality of nodes is an equivalence relation. -/
theorem C75_equivalence (a b c : Node) : a.eq a = true ∧ (a.eq b = true → b.eq a = true) ∧
    (a.eq b = true → b.eq c = true → a.eq c = true) := by
  simp only [C75_eq]
  refine ⟨by simp, ?_, ?_⟩
  · rintro ⟨h1, h2, h3, h4, h5⟩
    exact ⟨h1.symm, h2.symm, h3.symm, h4.symm, h5.symm⟩
  · rintro ⟨h1, h2, h3, h4, h5⟩ ⟨g1, g2, g3, g4, g5⟩
    exact ⟨h1.trans g1, h2.trans g2, h3.trans g3, h4.trans g4, h5.trans g5⟩

/-- C75: nodes are displayed as label, terminals as part of speech and form; two terminals whose parts of speech have no
space are displayed the same exactly if these and the forms are the same. -/
theorem C75_display (a b : Node) :
    (∀ w, a.attrs.form = some w → a.display = a.attrs.label ++ " ".toList ++ w) ∧
    (a.attrs.terminal = false → a.display = a.attrs.label) ∧
    (a.attrs.terminal = true → b.attrs.terminal = true → ' ' ∉ a.attrs.label → ' ' ∉ b.attrs.label →
      (a.display = b.display ↔ a.attrs.label = b.attrs.label ∧ a.attrs.form = b.attrs.form)) ∧
    (∀ x, a.terminal = some x → x.display = a.display) ∧ (∀ x, a.nonterminal = some x → x.display = a.display) := by
  refine ⟨?_, ?_, ?_, ?_, ?_⟩
  · intro w hw
    cases a with
    | nt x => cases hw
    | term x =>
      cases hw
      simp [Node.display, Node.attrs, Node.label]
  · intro h
    cases a with
    | nt x => rfl
    | term x => cases h
  · intro h h' ha hb
    cases a with
    | nt x => cases h
    | term x => cases b with
      | nt y => cases h'
      | term y =>
        simp only [Node.display, Node.attrs, Node.label, Node.terminal, Option.map_some, Option.some.injEq] at ha hb ⊢
        constructor
        · intro e
          have t1 := congrArg (List.takeWhile (· ≠ ' ')) e
          have tw : ∀ p w : Str, ' ' ∉ p → List.takeWhile (fun c => decide (c ≠ ' ')) (p ++ ' ' :: w) = p := by
            intro p w hp
            rw [List.takeWhile_append_of_pos (fun c hc => by simp; rintro rfl; exact hp hc)]
            simp
          rw [tw _ _ ha, tw _ _ hb] at t1
          rw [t1] at e
          exact ⟨t1, (List.cons.inj (List.append_cancel_left e)).2⟩
        · rintro ⟨e1, e2⟩
          rw [e1, e2]
  · intro x hx
    cases a with
    | nt y => cases hx
    | term y => cases hx; rfl
  · intro x hx
    cases a with
    | nt y => cases hx; rfl
    | term y => cases hx

/-- C75: edges: `set_label` changes the label, not whether the edge is primary, and returns the old one; the kind and
the label make up the edge; it is displayed as its label, or `--`. -/
theorem C75_edge (e e' : Edge) (l : Option Str) :
    (e.replaceLabel l).1.label = l ∧ (e.replaceLabel l).1.isPrimary = e.isPrimary ∧ (e.replaceLabel l).2 = e.label ∧
    (e = e' ↔ e.isPrimary = e'.isPrimary ∧ e.label = e'.label) ∧
    (Edge.newPrimary l).isPrimary = true ∧ (Edge.newPrimary l).label = l ∧
    (Edge.newSecondary l).isPrimary = false ∧ (Edge.newSecondary l).label = l ∧
    e.display = e.label.getD "--".toList := by
  refine ⟨by cases e <;> rfl, by cases e <;> rfl, by cases e <;> rfl, ?_, rfl, rfl, rfl, rfl, ?_⟩
  · cases e <;> cases e' <;> simp [Edge.isPrimary, Edge.label]
  · cases e with
    | primary x => cases x <;> rfl
    | secondary x => cases x <;> rfl

/-! ## The hypotheses are met -/

example : (Span.mk 0 3 (some {1})).Built ∧ (∃ e, (Node.term (Terminal.new ['a'] ['N'] 2)).setSpan ⟨0, 3, some {1}⟩ = .error e) ∧
    (Node.term (Terminal.new ['a'] ['N'] 2)).display = "N a".toList := by
  refine ⟨.fromVec (v := [0, 2]) (by decide), ⟨.discTerminalSpan, rfl⟩, rfl⟩

example := (C75_extend_span (.nt (NonTerminal.new ['S'] ⟨0, 4, some {1}⟩)) built_023).2 rfl
example := (C75_continuity (.nt (NonTerminal.new ['S'] ⟨0, 4, some {1}⟩)) built_023).2 _ rfl
example := C75_spans (NonTerminal.new ['S'] ⟨0, 4, some {1}⟩) (Span.ofIdx 1) [0] built_023 (.ofIdx 1)

/-- Without the condition on spaces the display is ambiguous. -/
example : (Node.term (Terminal.new "b c".toList ['a'] 0)).display = (Node.term (Terminal.new ['c'] "a b".toList 0)).display := by
  decide

example := C75_set_span (.term (Terminal.new ['a'] ['N'] 2)) (Span.ofIdx 4) (.ofIdx 4) |>.1 (.inr ⟨4, by
  intro j; rw [Span.contains_iff, Span.mem_indices]; simp [Span.ofIdx]; omega⟩)

example := C75_eq (.term ⟨['a'], ['N'], none, none, Span.ofIdx 0⟩) (.term ⟨['b'], ['N'], none, some Features.empty, Span.ofIdx 0⟩)
  |>.2 ⟨rfl, rfl, rfl, rfl, rfl⟩

end Props
end Lumberjack
