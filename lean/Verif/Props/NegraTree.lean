import Verif.Proofs.NegraWF
import Verif.Props.NegraRead

/-!
# Reading the NEGRA format: the tree of a sentence (C50)
-/

namespace Lumberjack
namespace Props

open Negra

/-- C50: every tree that is read comes from a sentence of the file. If every nonterminal but the root has one
line, the tree is what the rows say, apart from spans. If moreover no line comes after that of its parent, the
tree is well formed. -/
theorem C50_read (ls rest : List Str) (t : Tree) (h : readerNext ls = .ok (some (.ok t), rest)) :
    ∃ pre hd body f id info T N, ls = pre ++ hd :: (body ++ f :: rest) ∧ (∀ l ∈ pre, ¬ IsFrame l) ∧
      Opens hd id info ∧ Rows body T N ∧ Closes f id ∧
      (OwnNumbers N → ∃ τ ν, Described id info T N t τ ν) ∧ (OwnNumbers N → ChildrenFirst N → t.WF) := by
  obtain ⟨pre, hd, body, f, id, info, T, N, rfl, h1, h2, h3, h4, h5, h6, h7, h8⟩ := (C49_tree ls rest).1 ⟨t, h⟩
  refine ⟨pre, hd, body, f, id, info, T, N, rfl, h1, h2, h3, h5, ?_⟩
  obtain ⟨b, τ, i1, i2, i3, i4⟩ := sentence_inv (id := id) (info := info) h3 h4
  rw [next_outside h1, next_opens h2, i4, next_footer h5.1] at h
  rcases footer_ok i1 h5 with ⟨g1, _⟩ | ⟨_, g1, _⟩ | ⟨_, _, g1, _⟩ | ⟨g1, g2, g3, root, x, g4, g5, g6⟩
  · exact absurd h7 g1
  · exact absurd h8 g1
  · exact absurd g1 h6
  · rw [g6] at h
    simp only [Res.ok_bind, Res.pure_eq, Res.ok.injEq, Prod.mk.injEq, Option.some.injEq, Except.ok.injEq,
      and_true] at h
    subst h
    exact ⟨fun ho => ⟨_, _, finish_described i1 (i2 ho) ho h7 h8 g4 g5⟩,
      fun ho hc => finish_wf i1 (i2 ho) (i3 ho hc) ho hc h6 h7 h8 g4 g5⟩

/-- C50: a sentence that opens and closes with the same number, has terminals followed by one line for each
number named as a parent but 0, children before parents, and whose secondary parents are known, is read as a
well-formed tree with the nodes and edges its rows say. -/
theorem C50_sentence (hd f : Str) (body rest : List Str) (id : Nat) (info : Option Str) (T : List TermRow)
    (N : List NtRow) (h1 : Opens hd id info) (h2 : Rows body T N) (h3 : Processable T N) (h4 : Closes f id)
    (h5 : T ≠ []) (h6 : SecKnown T N) (h7 : Complete T N) (h8 : OwnNumbers N) (h9 : ChildrenFirst N) :
    ∃ t τ ν, readerNext (hd :: (body ++ f :: rest)) = .ok (some (.ok t), rest) ∧ Described id info T N t τ ν ∧ t.WF := by
  obtain ⟨b, τ, i1, i2, i3, i4⟩ := sentence_inv (id := id) (info := info) h2 h3
  rw [next_opens h1, i4, next_footer h4.1]
  rcases footer_ok i1 h4 with ⟨g1, _⟩ | ⟨_, g1, _⟩ | ⟨_, _, g1, _⟩ | ⟨g1, g2, g3, root, x, g4, g5, g6⟩
  · exact absurd h6 g1
  · exact absurd h7 g1
  · exact absurd g1 h5
  · rw [g6]
    exact ⟨_, _, _, rfl, finish_described i1 (i2 h8) h8 h6 h7 g4 g5,
      finish_wf i1 (i2 h8) (i3 h8 h9) h8 h9 h5 h6 h7 g4 g5⟩

/-- The hypotheses of C50 hold of a sentence with a secondary edge and a gap. -/
example : ∃ t τ ν, readerNext ["#BOS 1".toList, "a -- X -- -- 500".toList, "b -- X -- -- 0 SB 500".toList,
    "c -- X -- HD 500".toList, "#500 -- A -- -- 0".toList, "#EOS 1".toList] = .ok (some (.ok t), []) ∧
    Described 1 none [⟨"a".toList, none, "X".toList, none, ⟨none, 500, none⟩⟩,
      ⟨"b".toList, none, "X".toList, none, ⟨none, 0, some ("SB".toList, 500)⟩⟩,
      ⟨"c".toList, none, "X".toList, none, ⟨some "HD".toList, 500, none⟩⟩]
      [⟨500, "A".toList, none, ⟨none, 0, none⟩⟩] t τ ν ∧ t.WF := by
  refine C50_sentence "#BOS 1".toList "#EOS 1".toList
    ["a -- X -- -- 500".toList, "b -- X -- -- 0 SB 500".toList, "c -- X -- HD 500".toList,
      "#500 -- A -- -- 0".toList] [] 1 none _ _
    ⟨by decide +kernel, "#BOS".toList, "1".toList, [], by decide +kernel, by decide +kernel, rfl⟩
    ⟨["a -- X -- -- 500".toList, "b -- X -- -- 0 SB 500".toList, "c -- X -- HD 500".toList],
      ["#500 -- A -- -- 0".toList], rfl, ?_, ?_⟩ ⟨by simp, ?_⟩ ⟨by decide +kernel, by decide +kernel⟩ (by simp)
    (by unfold SecKnown; decide) (by unfold Complete; decide) (by unfold OwnNumbers; decide) ?_
  · exact .cons ⟨by decide +kernel, by decide +kernel⟩ (.cons ⟨by decide +kernel, by decide +kernel⟩
      (.cons ⟨by decide +kernel, by decide +kernel⟩ .nil))
  · refine .cons ⟨?_, by decide +kernel, by decide +kernel⟩ .nil
    unfold IsFrame
    decide +kernel
  · intro pre r post h
    cases pre with
    | nil =>
      simp only [List.nil_append, List.cons.injEq] at h
      rw [← h.1]
      decide
    | cons a pre => simp at h
  · intro pre r post h
    cases pre with
    | nil =>
      simp only [List.nil_append, List.cons.injEq] at h
      rw [← h.1]
      decide
    | cons a pre => simp at h

/-! ## Not every tree that is read is well formed -/

/-- Does the tree of a sentence satisfy a test? -/
private def firstTree (ls : List Str) (test : Tree → Bool) : Bool := match readerNext ls with
  | .ok (some (.ok t), _) => test t
  | _ => false

private theorem firstTree_spec {ls : List Str} {test : Tree → Bool} (h : firstTree ls test = true) :
    ∃ t rest, readerNext ls = .ok (some (.ok t), rest) ∧ test t = true := by
  unfold firstTree at h
  split at h
  · rename_i t rest hr
    exact ⟨t, rest, hr, h⟩
  · cases h

private theorem child_le {t : Tree} (W : t.WF) {p c : Nat} {x y : NonTerminal} (h : t.IsChild p c)
    (hp : t.graph.node? p = some (.nt x)) (hc : t.graph.node? c = some (.nt y)) (i : Nat)
    (hi : y.span.contains i = true) : x.span.contains i = true := by
  rw [(W.spans p x hp).2 i]
  obtain ⟨m, h1, h2⟩ := ((W.spans c y hc).2 i).1 hi
  exact ⟨m, Relation.ReflTransGen.head h h1, h2⟩

/-- Two nonterminals that name each other as parent: the reader returns a graph whose root has no
children. -/
theorem C50_cycle_accepted : ∃ t rest, readerNext (["#BOS 1", "a -- X -- -- 500", "#500 -- A -- -- 501",
    "#501 -- B -- -- 500", "#EOS 1"].map String.toList) = .ok (some (.ok t), rest) ∧ ¬ t.WF := by
  obtain ⟨t, rest, h1, h2⟩ := firstTree_spec (ls := ["#BOS 1", "a -- X -- -- 500", "#500 -- A -- -- 501",
    "#501 -- B -- -- 500", "#EOS 1"].map String.toList)
    (test := fun t => decide (t.graph.edges.all fun e => e.src ≠ t.root) &&
      (match t.graph.node? t.root with | some (.nt _) => true | _ => false)) (by decide +kernel)
  refine ⟨t, rest, h1, fun W => ?_⟩
  simp only [Bool.and_eq_true, decide_eq_true_eq, List.all_eq_true] at h2
  obtain ⟨h2, h3⟩ := h2
  split at h3
  · rename_i x hx
    obtain ⟨c, e, he, hs, _⟩ := W.shape.nt_child _ ⟨x, hx⟩
    exact h2 e he hs
  · cases h3

/-- A nonterminal whose line comes after that of its parent is missing from the span of the parent. -/
theorem C50_late_child : ∃ t rest, readerNext (["#BOS 1", "a -- X -- -- 500", "b -- X -- -- 501",
    "#501 -- A -- -- 0", "#500 -- B -- -- 501", "#EOS 1"].map String.toList) = .ok (some (.ok t), rest) ∧ ¬ t.WF := by
  obtain ⟨t, rest, h1, h2⟩ := firstTree_spec (ls := ["#BOS 1", "a -- X -- -- 500", "b -- X -- -- 501",
    "#501 -- A -- -- 0", "#500 -- B -- -- 501", "#EOS 1"].map String.toList)
    (test := fun t => t.graph.edges.any fun e => e.w.isPrimary &&
      match t.graph.node? e.src, t.graph.node? e.tgt with
      | some (.nt x), some (.nt y) => y.span.contains 0 && !x.span.contains 0
      | _, _ => false) (by decide +kernel)
  refine ⟨t, rest, h1, fun W => ?_⟩
  simp only [List.any_eq_true, Bool.and_eq_true] at h2
  obtain ⟨e, he, hp, h2⟩ := h2
  split at h2
  · rename_i x y hx hy
    simp only [Bool.and_eq_true, Bool.not_eq_true'] at h2
    have := child_le W ⟨e, he, rfl, rfl, hp⟩ hx hy 0 h2.1
    rw [h2.2] at this
    cases this
  · cases h2

/-- Two lines for one nonterminal and none for another: the reader counts the lines only, and returns a graph
in which the first has two parents. -/
theorem C50_double_line_accepted : ∃ t rest, readerNext (["#BOS 1", "a -- X -- -- 500", "b -- X -- -- 501",
    "#500 -- A -- -- 0", "#500 -- B -- -- 501", "#EOS 1"].map String.toList) = .ok (some (.ok t), rest) ∧ ¬ t.WF := by
  obtain ⟨t, rest, h1, h2⟩ := firstTree_spec (ls := ["#BOS 1", "a -- X -- -- 500", "b -- X -- -- 501",
    "#500 -- A -- -- 0", "#500 -- B -- -- 501", "#EOS 1"].map String.toList)
    (test := fun t => t.graph.edges.any fun e => e.w.isPrimary && t.graph.edges.any fun e' =>
      e'.w.isPrimary && decide (e.tgt = e'.tgt) && decide (e.src ≠ e'.src)) (by decide +kernel)
  refine ⟨t, rest, h1, fun W => ?_⟩
  simp only [List.any_eq_true, Bool.and_eq_true, decide_eq_true_eq] at h2
  obtain ⟨e, he, hp, e', he', ⟨hp', ht⟩, hs⟩ := h2
  exact hs (congrArg _ (W.shape.unique e he e' he' ht hp hp'))

end Props
end Lumberjack
