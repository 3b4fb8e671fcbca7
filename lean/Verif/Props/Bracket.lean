import Verif.Proofs.PtbRead
import Verif.Proofs.Grown
import Verif.Proofs.Check
import Verif.Spec.Examples

/-!
# Bracketed formats (C41 – C47)
-/

namespace Lumberjack
namespace Props

open Lumberjack.Tree
open Bracketed
open Ptb (Format treeToString stringToTree readAll)

/-- The result of writing `t` and reading the text is a well-formed tree standing for the same
labelled, ordered forest, word forms included, and `t` compares equal to it. -/
def SurvivesText (f : Format) (t : Tree) : Prop :=
  ∃ s t', treeToString f t = .ok (.ok s) ∧ stringToTree f s = .ok (.ok t') ∧ t'.WF ∧
    t.eq t' = .ok true ∧ ∀ F, t.Is F → t'.Is F

theorem survives {t : Tree} (W : t.WF) (hp : t.isProjective = true) {f : Format} (hw : t.Writable f)
    (ho : t.OnlyAnnotated)
    (hf : f ≠ .tueba → (∀ n, t.inLabel n = none) ∧ ∀ n x, t.graph.node? n = some (.nt x) → x.features = none) :
    SurvivesText f t := by
  obtain ⟨F, hF⟩ := W.is_exists
  obtain ⟨s, t', h1, h2, h3, h4, h5⟩ := Ptb.round_trip W hp hF (Ptb.Rep.clean hw hF)
  rw [Ptb.Rep.written_eq ho hf hF] at h5
  obtain ⟨b, hb, hb'⟩ := eq_spec W h3 hF h5
  refine ⟨s, t', h1, h2, h3, ?_, fun G hG => ?_⟩
  · rw [hb, hb'.2 (.inr (Forest.Same.refl F))]
  · rwa [Rep.unique hG hF]

/-- C41: round trip in the simple format. -/
theorem C41_round_trip_simple (t : Tree) (W : t.WF) (hp : t.isProjective = true)
    (hterm : ∀ n x, t.graph.node? n = some (.term x) →
      Word x.form ∧ Word x.pos ∧ x.lem = none ∧ x.features = none)
    (hnt : ∀ n x, t.graph.node? n = some (.nt x) → Word x.label ∧ x.features = none)
    (hedge : ∀ n, t.inLabel n = none) : SurvivesText .simple t := by
  refine survives W hp ⟨fun n x h => ?_, fun n x h => ⟨(hnt n x h).1, trivial⟩, fun _ => trivial⟩
    ⟨fun n x h => ?_, fun n x h => ?_⟩ fun _ => ⟨hedge, fun n x h => (hnt n x h).2⟩
  · obtain ⟨h1, h2, -, -⟩ := hterm n x h
    rw [Ptb.escape_word h1, Ptb.escape_word h2]; exact ⟨h2, h1⟩
  · obtain ⟨h1, h2, h3, h4⟩ := hterm n x h
    exact ⟨h1, Ptb.escape_word h2, h3, h4⟩
  · rw [(hnt n x h).2]; rfl

/-- C42: round trip in the TueBa format, with edge labels and annotations. -/
theorem C42_round_trip_tueba (t : Tree) (W : t.WF) (hp : t.isProjective = true)
    (hterm : ∀ n x, t.graph.node? n = some (.term x) →
      Word x.form ∧ Word x.pos ∧ ':' ∉ x.pos ∧ '=' ∉ x.pos ∧ x.lem = none ∧ x.features = none)
    (hnt : ∀ n x, t.graph.node? n = some (.nt x) → Word x.label ∧ ':' ∉ x.label ∧ '=' ∉ x.label ∧
      (x.features = none ∨ ∃ a, x.features = annotated (some a) ∧ Word a ∧ ':' ∉ a ∧ '=' ∉ a))
    (hedge : ∀ n e, t.inLabel n = some e → Word e ∧ ':' ∉ e ∧ e ≠ "--".toList) : SurvivesText .tueba t := by
  refine survives W hp ⟨fun n x h => ?_, fun n x h => ?_, fun n e he => ?_⟩
    ⟨fun n x h => ?_, fun n x h => ?_⟩ fun h => absurd rfl h
  · obtain ⟨h1, h2, h3, h4, -, -⟩ := hterm n x h
    rw [Ptb.escape_word h1, Ptb.escape_word h2]; exact ⟨⟨.inr h2, h3, h4⟩, h1⟩
  · obtain ⟨h1, h2, h3, h4⟩ := hnt n x h
    refine ⟨⟨.inr h1, h2, h3⟩, fun s hs => ?_⟩
    rcases h4 with h4 | ⟨a, h4, h5, h6⟩
    · rw [h4] at hs; simp [annotationOf] at hs
    · rw [h4, Ptb.annotationOf_annotated] at hs; simp at hs; subst hs; exact ⟨.inr h5, h6⟩
  · obtain ⟨h1, h2, h3⟩ := hedge n e he; exact ⟨.inr h1, h2, h3⟩
  · obtain ⟨h1, h2, -, -, h3, h4⟩ := hterm n x h
    exact ⟨h1, Ptb.escape_word h2, h3, h4⟩
  · obtain ⟨-, -, -, h4⟩ := hnt n x h
    rcases h4 with h4 | ⟨a, h4, -⟩
    · rw [h4]; rfl
    · rw [h4, Ptb.annotationOf_annotated]

/-- C43: round trip in the PTB format, without annotations. -/
theorem C43_round_trip_ptb (t : Tree) (W : t.WF) (hp : t.isProjective = true)
    (hterm : ∀ n x, t.graph.node? n = some (.term x) →
      Word x.form ∧ Word x.pos ∧ '-' ∉ x.pos ∧ x.lem = none ∧ x.features = none)
    (hnt : ∀ n x, t.graph.node? n = some (.nt x) → Word x.label ∧ '-' ∉ x.label ∧ x.features = none)
    (hedge : ∀ n, t.inLabel n = none) : SurvivesText .ptb t := by
  refine survives W hp ⟨fun n x h => ?_, fun n x h => ?_, fun _ => trivial⟩
    ⟨fun n x h => ?_, fun n x h => ?_⟩ fun _ => ⟨hedge, fun n x h => (hnt n x h).2.2⟩
  · obtain ⟨h1, h2, h3, -⟩ := hterm n x h
    rw [Ptb.escape_word h1, Ptb.escape_word h2]; exact ⟨⟨h2, h3⟩, h1⟩
  · obtain ⟨h1, h2, h3⟩ := hnt n x h
    rw [h3]; exact ⟨⟨h1, h2⟩, fun s hs => by simp [annotationOf] at hs⟩
  · obtain ⟨h1, h2, -, h3, h4⟩ := hterm n x h
    exact ⟨h1, Ptb.escape_word h2, h3, h4⟩
  · rw [(hnt n x h).2.2]; rfl

/-- C41 – C43: what is read back in general, for every tree whose strings can be represented: see
`Forest.written`. -/
theorem C43_written (t : Tree) (W : t.WF) (hp : t.isProjective = true) (f : Format) (hw : t.Writable f)
    (F : Forest) (hF : t.Is F) :
    ∃ s t', treeToString f t = .ok (.ok s) ∧ stringToTree f s = .ok (.ok t') ∧ t'.WF ∧
      t'.isProjective = true ∧ t'.Is (F.written f) :=
  Ptb.round_trip W hp hF (Ptb.Rep.clean hw hF)

/-- C43: if a node has an annotation, the tree read back from PTB text is never equal to the original,
because the annotation has grown by a dash. -/
theorem C43_annotation_changes (t : Tree) (W : t.WF) (hp : t.isProjective = true) (hw : t.Writable .ptb)
    (n : Nat) (x : NonTerminal) (a : Str) (hn : t.graph.node? n = some (.nt x)) (ha : annotationOf x.features = some a) :
    ∃ s t', treeToString .ptb t = .ok (.ok s) ∧ stringToTree .ptb s = .ok (.ok t') ∧ t.eq t' = .ok false := by
  obtain ⟨F, hF⟩ := W.is_exists
  obtain ⟨s, t', h1, h2, h3, h4, h5⟩ := Ptb.round_trip W hp hF (Ptb.Rep.clean hw hF)
  obtain ⟨b, hb, hb'⟩ := eq_spec W h3 hF h5
  refine ⟨s, t', h1, h2, ?_⟩
  rw [hb]
  cases b with
  | false => rfl
  | true =>
    exfalso
    rcases hb'.1 rfl with ⟨⟨y, hy⟩, -⟩ | h
    · have hd := W.shape.dom_term ⟨y, hy⟩ (W.shape.reach n ⟨_, hn⟩)
      rw [hd] at hn; rw [hy] at hn; simp at hn
    · have := Is.all_conv W.shape hF (Ptb.not_same_written h) hn
      simp only [ha] at this
      simp at this

/-- C44: writing terminates without panic; it is an error exactly if the tree is not projective. -/
theorem C44_writing_total (t : Tree) (W : t.WF) (f : Format) :
    if t.isProjective = true then ∃ s, treeToString f t = .ok (.ok s)
    else treeToString f t = .ok (.error .nonProjective) := by
  split
  · rename_i hp
    obtain ⟨F, hF⟩ := W.is_exists
    obtain ⟨s, h, _⟩ := Ptb.treeToString_ok W hp hF f
    exact ⟨s, h⟩
  · rename_i hp
    exact Ptb.treeToString_err hp f

/-- C44: the text written is the bracketing of the tree. -/
theorem C44_text (t : Tree) (W : t.WF) (hp : t.isProjective = true) (F : Forest) (hF : t.Is F) (f : Format) :
    ∃ s, treeToString f t = .ok (.ok s) ∧ (F.brackets f).text (sepOf f) = [s] :=
  Ptb.treeToString_ok W hp hF f

/-- C45: parsing terminates without panic on every text; it succeeds exactly on bracketings. -/
theorem C45_parsing_total (f : Format) (s : Str) :
    ∃ r, stringToTree f s = .ok r ∧ ((∃ t, r = .ok t) ↔ ∃ b, Brackets.Single b ∧ Reads s b) := by
  by_cases h : ∃ b, Brackets.Single b ∧ Reads s b
  · obtain ⟨b, hb, hr⟩ := h
    obtain ⟨t, h1, -⟩ := Ptb.stringToTree_ok (f := f) hr hb
    exact ⟨_, h1, fun _ => ⟨b, hb, hr⟩, fun _ => ⟨t, rfl⟩⟩
  · refine ⟨_, Ptb.stringToTree_err h, ?_, fun h' => absurd h' h⟩
    rintro ⟨t, ht⟩; cases ht

/-- C45: the tree parsed from a bracketing is well formed and projective, has exactly the words of the
text in order, and has the labels, edge labels and annotations the tags stand for. -/
theorem C45_parsed_tree (f : Format) (s : Str) (b : Brackets) (hb : b.Single) (hr : Reads s b) :
    ∃ t, stringToTree f s = .ok (.ok t) ∧ t.WF ∧ t.isProjective = true ∧ t.nTerminals = b.words.length ∧
      (∀ n x, t.graph.node? n = some (.term x) → b.words[x.span.start]? = some x.form) ∧
      t.Is ((b.forest f 0).setTop none) := by
  obtain ⟨t, h1, W, hp, hF⟩ := Ptb.stringToTree_ok (f := f) hr hb
  refine ⟨t, h1, W, hp, ?_, fun n x hn => ?_, hF⟩
  · rw [← (W.is_seq hp hF).2, Ptb.setTop_leaves, ← (Ptb.forest_leaves (f := f) (k := 0)).1, List.length_map]
  · have := Is.all_conv W.shape hF (Ptb.setTop_all (Ptb.forest_words (f := f) (W := b.words) (k := 0)
      fun i w hi => by simpa using hi)) hn
    exact this.1

/-- C45: a text is a bracketing in at most one way. -/
theorem C45_unambiguous (s : Str) (b b' : Brackets) (hb : b.Single) (hb' : b'.Single) (h : Reads s b)
    (h' : Reads s b') : b = b' := Ptb.reads_unique h h' hb hb'

/-- C46: printing what was parsed in the simple or TueBa format and parsing again gives an equal tree,
and printing that gives the same text. -/
theorem C46_reprint (f : Format) (hf : f = .simple ∨ f = .tueba) (s : Str) (t : Tree)
    (h : stringToTree f s = .ok (.ok t)) :
    ∃ s' t', treeToString f t = .ok (.ok s') ∧ stringToTree f s' = .ok (.ok t') ∧
      t.eq t' = .ok true ∧ (∀ F, t.Is F ↔ t'.Is F) ∧ treeToString f t' = .ok (.ok s') := by
  have hf : f ≠ .ptb := by rcases hf with rfl | rfl <;> simp
  obtain ⟨s', t', F, h1, h2, W, W', h3, h4, h5⟩ := Ptb.reprint hf h
  obtain ⟨b, hb, hb'⟩ := eq_spec W W' h3 h4
  refine ⟨s', t', h1, h2, by rw [hb, hb'.2 (.inr (Forest.Same.refl F))], fun G => ⟨fun hG => ?_, fun hG => ?_⟩, h5⟩
  · rwa [Rep.unique hG h3]
  · rwa [Rep.unique hG h4]

/-- Parsing a text and printing the tree. -/
def reprintText (f : Format) (s : Str) : Res (Except Err Str) := do
  match ← stringToTree f s with
  | .ok t => treeToString f t
  | .error e => return .error e

/-- C46: not so in the PTB format: an annotation grows with every round. -/
theorem C46_ptb_grows : reprintText .ptb "(S-SBJ (N a))".toList = .ok (.ok "(S--SBJ (N a))".toList) ∧
    reprintText .ptb "(S--SBJ (N a))".toList = .ok (.ok "(S---SBJ (N a))".toList) := by decide +kernel

/-- C46: and a tag starting with a dash is lost in the PTB format, so that the text written is not
accepted any more. -/
theorem C46_ptb_unreadable : reprintText .ptb "(S (-LRB- x))".toList = .ok (.ok "(S ( x))".toList) ∧
    reprintText .ptb "(S ( x))".toList = .ok (.error (.parse 10)) := by decide +kernel

/-- C46: what printing a parsed tree gives in the PTB format, for every text: tags of words are cut at their first dash,
and the first dash of any other tag is doubled.  The text is accepted again exactly if no tag of a word starts with a
dash. -/
theorem C46_ptb (s : Str) (b : Brackets) (hb : b.Single) (hr : Reads s b) :
    ∃ s', reprintText .ptb s = .ok (.ok s') ∧ b.grown.text [' '] = [s'] ∧ b.grown.Single ∧
      (b.NoDashFirst → Reads s' b.grown ∧ b.grown.NoDashFirst) ∧
      (¬ b.NoDashFirst → ∃ e, stringToTree .ptb s' = .ok (.error e)) := by
  obtain ⟨t, h1, W, hp, hF⟩ := Ptb.stringToTree_ok (f := .ptb) hr hb
  obtain ⟨s', h2, h3⟩ := Ptb.treeToString_ok W hp hF .ptb
  rw [Ptb.setTop_brackets, Ptb.forest_brackets (Ptb.reads_wordy hr)] at h3
  refine ⟨s', by simp only [reprintText, h1, Res.ok_bind, h2], h3, Ptb.grown_single hb, fun hn => ?_, fun hn => ?_⟩
  · obtain ⟨w1, w2⟩ := Ptb.grown_wordy (Ptb.reads_wordy hr) hn
    exact ⟨Ptb.reads_text_one (f := .ptb) w1 h3, w2⟩
  · exact ⟨_, Ptb.stringToTree_err (Ptb.untagged_unread (Ptb.grown_almost (Ptb.reads_wordy hr)) (Ptb.grown_untagged (Ptb.reads_wordy hr) hn) h3)⟩

/-- C46: so a text in which no tag of a word starts with a dash can be parsed and printed any number of times, and each
time the first dash of every tag of an inner node is doubled. -/
theorem C46_ptb_rounds (s : Str) (b : Brackets) (hb : b.Single) (hr : Reads s b) (hn : b.NoDashFirst) :
    ∃ texts : Nat → Str, texts 0 = s ∧ ∀ k, Reads (texts k) (Brackets.grown^[k] b) ∧
      reprintText .ptb (texts k) = .ok (.ok (texts (k + 1))) := by
  have step : ∀ x : { p : Str × Brackets // p.2.Single ∧ Reads p.1 p.2 ∧ p.2.NoDashFirst },
      ∃ y : { p : Str × Brackets // p.2.Single ∧ Reads p.1 p.2 ∧ p.2.NoDashFirst },
        reprintText .ptb x.1.1 = .ok (.ok y.1.1) ∧ y.1.2 = x.1.2.grown := by
    rintro ⟨⟨s, b⟩, hb, hr, hn⟩
    obtain ⟨s', h1, h2, h3, h4, _⟩ := C46_ptb s b hb hr
    exact ⟨⟨(s', b.grown), h3, (h4 hn).1, (h4 hn).2⟩, h1, rfl⟩
  choose next hnext using step
  have key : ∀ k, (next^[k] ⟨(s, b), hb, hr, hn⟩).1.2 = Brackets.grown^[k] b := by
    intro k
    induction k with
    | zero => rfl
    | succ k ih => rw [Function.iterate_succ_apply', Function.iterate_succ_apply', (hnext _).2, ih]
  refine ⟨fun k => (next^[k] ⟨(s, b), hb, hr, hn⟩).1.1, rfl, fun k => ⟨?_, ?_⟩⟩
  · rw [← key k]; exact (next^[k] ⟨(s, b), hb, hr, hn⟩).2.2.1
  · simp only [Function.iterate_succ_apply']; exact (hnext _).1

/-- A text of this kind, and one that is not. -/
example : ∃ b, b.Single ∧ Reads "(S-SBJ (N-1 a))".toList b ∧ b.NoDashFirst ∧
    (Brackets.grown b).text [' '] = ["(S--SBJ (N a))".toList] := by
  refine ⟨.node "S-SBJ".toList (.leaf "N-1".toList "a".toList .nil) .nil, rfl, ?_, by simp [Brackets.NoDashFirst], by decide +kernel⟩
  exact Ptb.reads_text_one (f := .ptb) (b := .node "S-SBJ".toList (.leaf "N-1".toList "a".toList .nil) .nil)
    ⟨by unfold Word; decide +kernel, by decide, ⟨by unfold Word; decide +kernel, by unfold Word; decide +kernel, trivial⟩, trivial⟩
    (by decide +kernel)

/-- C47: with one tree per line, the items are the results of parsing the lines that do not start with
`%`, in order. -/
theorem C47_single_line (f : Format) (lines : List Str) (fuel : Nat) (hfuel : lines.length < fuel) :
    ∃ items, readAll f .single fuel lines = .ok items ∧
      List.Forall₂ (fun l r => stringToTree f l = .ok r) (lines.filter fun l => l.head? ≠ some '%') items :=
  Ptb.readAll_single f fuel lines hfuel

/-- C47: in multi-line mode, the items are the results of parsing the texts of the complete groups, in
order. -/
theorem C47_multi_line (f : Format) (lines texts : List Str) (h : Groups lines texts) (fuel : Nat)
    (hfuel : lines.length < fuel) :
    ∃ items, readAll f .multi fuel lines = .ok items ∧
      List.Forall₂ (fun s r => stringToTree f s = .ok r) texts items := by
  rcases Ptb.readAll_multi f fuel lines hfuel with ⟨ts, items, h1, h2, h3⟩ | ⟨-, h1⟩
  · rw [Ptb.groups_unique h h1]; exact ⟨items, h2, h3⟩
  · exact absurd ⟨texts, h⟩ h1

/-- C47: a file whose lines are not groups (some group closes more brackets than it opened) makes the
reader panic. -/
theorem C47_multi_line_panic (f : Format) (lines : List Str) (fuel : Nat) (hfuel : lines.length < fuel) :
    readAll f .multi fuel lines = .panic ↔ ¬ ∃ texts, Groups lines texts := by
  rcases Ptb.readAll_multi f fuel lines hfuel with ⟨ts, items, h1, h2, h3⟩ | ⟨h1, h2⟩
  · rw [h2]; simp; exact ⟨ts, h1⟩
  · rw [h1]; simp only [true_iff]; exact h2

/-! ## The hypotheses are met -/

instance (s : Str) : Decidable (Word s) := by unfold Word; infer_instance

theorem node_all {t : Tree} {P : Node → Prop} (h : ∀ o ∈ t.graph.nodes, ∀ nd, o = some nd → P nd) {n : Nat} {nd : Node}
    (hn : t.graph.node? n = some nd) : P nd := by
  unfold Graph.node? at hn
  rw [Option.join_eq_some_iff] at hn
  exact h _ (List.mem_of_getElem? hn) nd rfl

theorem edge_all {t : Tree} {P : Str → Prop} (h : ∀ r ∈ t.graph.edges, ∀ l, r.w.label = some l → P l) {n : Nat} {l : Str}
    (hn : t.inLabel n = some l) : P l := by
  unfold Tree.inLabel edgeLabel at hn
  cases hf : t.graph.edges.find? (fun r => decide (r.tgt = n) && r.w.isPrimary) with
  | none => rw [hf] at hn; simp at hn
  | some r => rw [hf] at hn; exact h r (List.mem_of_find?_eq_some hf) l (by simpa using hn)

/-- A tree with edge labels and an annotation: `(S:-- (NP=x:SB (D:-- the) (N:HD dog)) (V:OC barks))`. -/
def edgy : Tree :=
  ⟨⟨[Examples.nt "S" ⟨0, 3, none⟩, Examples.tm "barks" "V" 2,
      some (.nt ⟨"NP".toList, annotated (some "x".toList), ⟨0, 2, none⟩⟩), Examples.tm "dog" "N" 1, Examples.tm "the" "D" 0],
    [], [⟨3, 2, 4, .primary none⟩, ⟨2, 2, 3, .primary (some "HD".toList)⟩, ⟨1, 0, 2, .primary (some "SB".toList)⟩,
      ⟨0, 0, 1, .primary (some "OC".toList)⟩], 4, []⟩, 3, 0, 0⟩

theorem edgy_wf : edgy.WF := wf_of_check (by decide +kernel)

theorem proj_plain_term : ∀ n x, Examples.proj.graph.node? n = some (.term x) →
    Word x.form ∧ Word x.pos ∧ '-' ∉ x.pos ∧ x.lem = none ∧ x.features = none := by
  intro n x h
  have := node_all (t := Examples.proj) (P := fun nd => match nd with
    | .term x => Word x.form ∧ Word x.pos ∧ '-' ∉ x.pos ∧ x.lem = none ∧ x.features = none
    | .nt x => Word x.label ∧ '-' ∉ x.label ∧ x.features = none) ?_ h
  · exact this
  · simp only [Examples.proj, List.mem_cons, List.not_mem_nil, or_false]
    rintro o (rfl | rfl | rfl | rfl | rfl) nd hnd <;> cases hnd <;> decide

theorem proj_plain_nt : ∀ n x, Examples.proj.graph.node? n = some (.nt x) →
    Word x.label ∧ '-' ∉ x.label ∧ x.features = none := by
  intro n x h
  have := node_all (t := Examples.proj) (P := fun nd => match nd with
    | .term x => Word x.form ∧ Word x.pos ∧ '-' ∉ x.pos ∧ x.lem = none ∧ x.features = none
    | .nt x => Word x.label ∧ '-' ∉ x.label ∧ x.features = none) ?_ h
  · exact this
  · simp only [Examples.proj, List.mem_cons, List.not_mem_nil, or_false]
    rintro o (rfl | rfl | rfl | rfl | rfl) nd hnd <;> cases hnd <;> decide

theorem proj_plain_edge : ∀ n, Examples.proj.inLabel n = none := by
  intro n
  cases h : Examples.proj.inLabel n with
  | none => rfl
  | some l => exact (edge_all (t := Examples.proj) (P := fun _ => False) (by decide) h).elim

/-- C41, C43: the hypotheses are met by a tree of three words. -/
example : SurvivesText .simple Examples.proj ∧ SurvivesText .ptb Examples.proj :=
  ⟨C41_round_trip_simple _ (wf_of_check (by decide +kernel)) (by decide)
    (fun n x h => ⟨(proj_plain_term n x h).1, (proj_plain_term n x h).2.1, (proj_plain_term n x h).2.2.2⟩)
    (fun n x h => ⟨(proj_plain_nt n x h).1, (proj_plain_nt n x h).2.2⟩) proj_plain_edge,
   C43_round_trip_ptb _ (wf_of_check (by decide +kernel)) (by decide) proj_plain_term proj_plain_nt proj_plain_edge⟩

theorem edgy_nodes : ∀ n nd, edgy.graph.node? n = some nd → match nd with
    | .term x => Word x.form ∧ Word x.pos ∧ '-' ∉ x.pos ∧ ':' ∉ x.pos ∧ '=' ∉ x.pos ∧ x.lem = none ∧ x.features = none
    | .nt x => Word x.label ∧ '-' ∉ x.label ∧ ':' ∉ x.label ∧ '=' ∉ x.label ∧
      (x.features = none ∨ x.features = annotated (some "x".toList)) := by
  intro n nd h
  refine node_all (t := edgy) (P := fun nd => match nd with
    | .term x => Word x.form ∧ Word x.pos ∧ '-' ∉ x.pos ∧ ':' ∉ x.pos ∧ '=' ∉ x.pos ∧ x.lem = none ∧ x.features = none
    | .nt x => Word x.label ∧ '-' ∉ x.label ∧ ':' ∉ x.label ∧ '=' ∉ x.label ∧
      (x.features = none ∨ x.features = annotated (some "x".toList))) ?_ h
  simp only [edgy, List.mem_cons, List.not_mem_nil, or_false]
  rintro o (rfl | rfl | rfl | rfl | rfl) nd hnd <;> cases hnd <;> decide

/-- C42: the hypotheses are met by a tree with edge labels and an annotation. -/
example : SurvivesText .tueba edgy := by
  refine C42_round_trip_tueba _ edgy_wf (by decide) (fun n x h => ?_) (fun n x h => ?_) (fun n e h => ?_)
  · obtain ⟨h1, h2, -, h3⟩ := edgy_nodes n _ h; exact ⟨h1, h2, h3⟩
  · obtain ⟨h1, -, h2, h3, h4⟩ := edgy_nodes n _ h
    exact ⟨h1, h2, h3, h4.imp id fun h5 => ⟨_, h5, by decide, by decide, by decide⟩⟩
  · exact edge_all (t := edgy) (P := fun e => Word e ∧ ':' ∉ e ∧ e ≠ "--".toList) (by decide) h

/-- C43: the hypotheses of `C43_annotation_changes` are met. -/
example : ∃ s t', treeToString .ptb edgy = .ok (.ok s) ∧ stringToTree .ptb s = .ok (.ok t') ∧
    edgy.eq t' = .ok false := by
  refine C43_annotation_changes _ edgy_wf (by decide) ⟨fun n x h => ?_, fun n x h => ?_, fun _ => trivial⟩ 2 _ _ rfl rfl
  · obtain ⟨h1, h2, h3, -⟩ := edgy_nodes n _ h
    rw [Ptb.escape_word h1, Ptb.escape_word h2]; exact ⟨⟨h2, h3⟩, h1⟩
  · obtain ⟨h1, h2, -, -, h4⟩ := edgy_nodes n _ h
    refine ⟨⟨h1, h2⟩, fun s hs => ?_⟩
    rcases h4 with h4 | h4
    · rw [h4] at hs; simp [annotationOf] at hs
    · rw [h4, Ptb.annotationOf_annotated] at hs; simp at hs; subst hs; exact .inr (by decide)

/-- C44: a projective and a non-projective tree. -/
example : treeToString .tueba edgy = .ok (.ok "(S:--(NP=x:SB(D:-- the)(N:HD dog))(V:OC barks))".toList) ∧
    Examples.disc.WF ∧ Examples.disc.isProjective = false :=
  ⟨by decide +kernel, wf_of_check (by decide +kernel), by decide⟩

/-- C45, C46: a text with irregular white space that is a bracketing, and one that is not. -/
example : reprintText .tueba "( S:--(N=a:HD  x\n) (V y))".toList = .ok (.ok "(S:--(N:HD x)(V:-- y))".toList) ∧
    reprintText .tueba "(S:-- (N x)".toList = .ok (.error (.parse 10)) := by decide +kernel

theorem prefix_pair {α : Type} {a b : α} {p : List α} (h : p <+: [a, b]) : p = [] ∨ p = [a] ∨ p = [a, b] := by
  cases p with
  | nil => exact .inl rfl
  | cons c p =>
    obtain ⟨rfl, h'⟩ := List.cons_prefix_cons.1 h
    cases p with
    | nil => exact .inr (.inl rfl)
    | cons d p =>
      obtain ⟨rfl, h''⟩ := List.cons_prefix_cons.1 h'
      rw [List.prefix_nil.1 h'']; exact .inr (.inr rfl)

/-- C47: a file with a comment, a bracketing on two lines and an unfinished rest. -/
theorem groups_example : Groups ["%comment".toList, "(S".toList, "(N a))".toList, [], "(S ".toList] ["(S(N a))".toList] := by
  refine .skip (.inr rfl) (.group (g := ["(S".toList, "(N a))".toList]) ⟨⟨_, rfl, by unfold Skipped; decide⟩, ?_, by decide⟩
    (.skip (.inl rfl) (.tail (by simp [Skipped]) ?_)))
  · intro p hp h1 h2
    rcases prefix_pair hp with rfl | rfl | rfl
    · exact absurd rfl h1
    · unfold OpenEnd; decide
    · exact absurd rfl h2
  · intro p hp h1
    cases p with
    | nil => exact absurd rfl h1
    | cons c p =>
      obtain ⟨rfl, h'⟩ := List.cons_prefix_cons.1 hp
      rw [List.prefix_nil.1 h']; unfold OpenEnd; decide

/-- C47: a surplus closing bracket makes the multi-line reader panic. -/
example : readAll .simple .multi 2 ["(S (N a)))".toList] = .panic := by
  refine (C47_multi_line_panic _ _ _ (by decide)).2 ?_
  rintro ⟨ts, h⟩
  have := Ptb.groups_start (g := ["(S (N a)))".toList]) (rest := []) ⟨_, rfl, by unfold Skipped; decide⟩ ?_ (by decide) h
  · exact absurd this.1.closed (by decide)
  · intro p hp h1 h2
    cases p with
    | nil => exact absurd rfl h1
    | cons c p =>
      obtain ⟨rfl, h'⟩ := List.cons_prefix_cons.1 hp
      rw [List.prefix_nil.1 h'] at h2; exact absurd rfl h2

end Props
end Lumberjack
