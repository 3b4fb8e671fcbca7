import Verif.Proofs.TagRead
import Verif.Props.Convert
import Verif.Proofs.Check

/-!
# Trees stored as tags (C66, C67)
-/

namespace Lumberjack
namespace Props

open Lumberjack.Tree Lumberjack.Convert Conllx

/-! ## C66 -/

/-- C66: collapsing, annotating with absolute ancestors, converting to CONLLX and reading back gives the skeleton of
the tree: words, tags, inner nodes and labels. -/
theorem C66_absolute (t : Tree) (W : t.WF) (hp : t.isProjective = true) (H : t.Storable "abs_ancestor".toList) :
    ∃ t1 t2 toks t' f f', t.collapseUnaryChains ['_'] = .ok t1 ∧ t1.annotateAbsolute = .ok (t2, .ok ()) ∧
      toConllx t2 = .ok toks ∧ tryFromAbsolute toks = .ok (.ok t') ∧ t'.WF ∧ t'.isProjective = true ∧
      t.Is f ∧ t'.Is f' ∧ f'.norm = f.skeleton.norm := by
  obtain ⟨t1, t2, toks, t', f, f', h1, h2, h3, _, h4⟩ := absolute_skeleton W hp H
  exact ⟨t1, t2, toks, t', f, f', h1, h2, h3, h4⟩

/-- C66, with relative ancestors; here no label may be `NONE`. -/
theorem C66_relative (t : Tree) (W : t.WF) (hp : t.isProjective = true) (H : t.Storable "rel_ancestor".toList)
    (hN : ∀ n x, t.graph.node? n = some (.nt x) → x.label ≠ "NONE".toList) :
    ∃ t1 t2 toks t' f f', t.collapseUnaryChains ['_'] = .ok t1 ∧ t1.annotateRelative = .ok (t2, .ok ()) ∧
      toConllx t2 = .ok toks ∧ Conllx.tryFromRelative toks = .ok (.ok t') ∧ t'.WF ∧ t'.isProjective = true ∧
      t.Is f ∧ t'.Is f' ∧ f'.norm = f.skeleton.norm := by
  obtain ⟨t1, t2, toks, t', f, f', h1, h2, h3, _, h4⟩ := relative_skeleton W hp H hN
  exact ⟨t1, t2, toks, t', f, f', h1, h2, h3, h4⟩

/-- C66: if the tool can convert a file to the simple format, it can convert it to tags, and converting the tags to the
simple format gives the same text. -/
theorem C66_tool (k : TagKind) (f : InFormat) (multiline multiline' : Bool) (pick pick' : Tree → Finset Nat → Option Nat)
    (src : Source) (lines : List Str) (items : List (Except Err Tree)) (b : Bool) (ws : List Written)
    (hs : Stream f multiline src items b) (hO : f = .negra → Orderly src.lines) (H : ∀ t, .ok t ∈ items → k.Holds t)
    (hm : main f multiline pick (plain .simple) src none = (ws, .finished)) :
    ∃ ss : List (List Token), main f multiline pick (plain k.output) src none = (ss.map .sentence, .finished) ∧
      main k.input multiline' pick' (plain .simple) ⟨lines, ss.map some⟩ none = (ws, .finished) :=
  via_tags k hs hO H hm

/-- C66: for formats other than NEGRA only the labels and the height matter. -/
theorem C66_labels (k : TagKind) (f : InFormat) (hf : f ≠ .negra) (multiline multiline' : Bool)
    (pick pick' : Tree → Finset Nat → Option Nat) (src : Source) (lines : List Str) (items : List (Except Err Tree)) (b : Bool)
    (ws : List Written) (hs : Stream f multiline src items b) (H : ∀ t, .ok t ∈ items → k.Names t)
    (hm : main f multiline pick (plain .simple) src none = (ws, .finished)) :
    ∃ ss : List (List Token), main f multiline pick (plain k.output) src none = (ss.map .sentence, .finished) ∧
      main k.input multiline' pick' (plain .simple) ⟨lines, ss.map some⟩ none = (ws, .finished) :=
  via_tags k hs (fun h => absurd h hf) (fun t ht => (stream_light hf hs ht).2.2 k (H t ht)) hm

/-! ## C67 -/

/-- C67: what trees read from tags are like: projective, without lemmas, features and most of the reserved characters. -/
theorem C67_read (k : TagKind) (multiline : Bool) (src : Source) (items : List (Except Err Tree)) (b : Bool)
    (hs : Stream k.input multiline src items b) (t : Tree) (ht : .ok t ∈ items) :
    t.isProjective = true ∧ BareWords t ∧
      ∀ n x, t.graph.node? n = some (.nt x) → ∀ c ∈ ['_', '~', '|', ':'], c ∉ x.label :=
  ⟨(stream_light (by cases k <;> decide) hs ht).1, (stream_light (by cases k <;> decide) hs ht).2.1, stream_labels k hs ht⟩

/-- C67: converting to one kind of tags and then to the other (or the same) gives what converting directly gives. -/
theorem C67_between (k k' : TagKind) (f : InFormat) (hf : f ≠ .negra) (multiline multiline' : Bool)
    (pick pick' : Tree → Finset Nat → Option Nat) (src : Source) (lines : List Str) (ts : List Tree)
    (hs : Stream f multiline src (ts.map .ok) true) (H : ∀ t ∈ ts, k.Names t ∧ k'.Names t) :
    ∃ ss ss' : List (List Token), main f multiline pick (plain k.output) src none = (ss.map .sentence, .finished) ∧
      main f multiline pick (plain k'.output) src none = (ss'.map .sentence, .finished) ∧
      main k.input multiline' pick' (plain k'.output) ⟨lines, ss.map some⟩ none = (ss'.map .sentence, .finished) := by
  have hL := fun t ht => stream_light hf hs (t := t) (List.mem_map_of_mem ht)
  exact tags_to_tags k k' hs (fun h => absurd h hf) (fun t ht => (hL t ht).1)
    (fun t ht => ⟨(hL t ht).2.2 k (H t ht).1, (hL t ht).2.2 k' (H t ht).2, (hL t ht).2.1⟩)

/-- C67, also for NEGRA files: there words must have neither lemmas nor features. -/
theorem C67_negra (k k' : TagKind) (f : InFormat) (multiline multiline' : Bool)
    (pick pick' : Tree → Finset Nat → Option Nat) (src : Source) (lines : List Str) (ts : List Tree)
    (hs : Stream f multiline src (ts.map .ok) true) (hO : f = .negra → Orderly src.lines)
    (hp : ∀ t ∈ ts, t.isProjective = true) (H : ∀ t ∈ ts, k.Holds t ∧ k'.Holds t ∧ BareWords t) :
    ∃ ss ss' : List (List Token), main f multiline pick (plain k.output) src none = (ss.map .sentence, .finished) ∧
      main f multiline pick (plain k'.output) src none = (ss'.map .sentence, .finished) ∧
      main k.input multiline' pick' (plain k'.output) ⟨lines, ss.map some⟩ none = (ss'.map .sentence, .finished) :=
  tags_to_tags k k' hs hO hp H

/-- C67: converting tags to tags of the same kind normalises them: converting once more changes nothing. -/
theorem C67_stable (k : TagKind) (multiline multiline' : Bool) (pick pick' : Tree → Finset Nat → Option Nat) (src : Source)
    (lines : List Str) (ts : List Tree) (hs : Stream k.input multiline src (ts.map .ok) true)
    (H : ∀ t ∈ ts, (∀ n x, t.graph.node? n = some (.nt x) → x.label ≠ [] ∧ '+' ∉ x.label ∧
      (k = .relative → x.label ≠ "NONE".toList)) ∧ ∀ f, t.Is f → f.height < 2 ^ 63) :
    ∃ ss : List (List Token), main k.input multiline pick (plain k.output) src none = (ss.map .sentence, .finished) ∧
      main k.input multiline' pick' (plain k.output) ⟨lines, ss.map some⟩ none = (ss.map .sentence, .finished) := by
  have hN : ∀ t ∈ ts, k.Names t := by
    intro t ht
    obtain ⟨h1, h2⟩ := H t ht
    refine ⟨fun n x hx => ⟨(h1 n x hx).1, fun c hc => ?_⟩, fun hk n x hx => (h1 n x hx).2.2 hk, h2⟩
    by_cases hp : c = '+'
    · subst hp; exact (h1 n x hx).2.1
    · refine (C67_read k multiline src _ _ hs t (List.mem_map_of_mem ht)).2.2 n x hx c ?_
      simp only [List.mem_cons, List.not_mem_nil, or_false] at hc ⊢
      tauto
  obtain ⟨ss, ss', h1, h2, h3⟩ := C67_between k k k.input (by cases k <;> decide) multiline multiline' pick pick' src lines ts hs
    (fun t ht => ⟨hN t ht, hN t ht⟩)
  rw [h1] at h2
  refine ⟨ss, h1, ?_⟩
  rw [h3, ← h2]

/-! ## The hypotheses are met -/

/-- A test for the conditions on labels and height. -/
def namesTest (t : Tree) : Bool := t.checkWF && decide (t.graph.nodes.length < 2 ^ 63) &&
  t.graph.nodes.all fun o => match o with
    | some (.nt x) => decide (x.label ≠ []) && decide (x.label ≠ "NONE".toList) &&
        ['_', '+', '~', '|', ':'].all (fun c => !x.label.contains c)
    | _ => true

/-- A test for the conditions on the features. -/
def featsTest (k : TagKind) (t : Tree) : Bool := t.graph.nodes.all fun o => match o with
  | some nd => decide ((nd.features.getD Features.empty).getVal Forest.chainKey = none) && (match nd with
    | .term x => decide ((x.features.getD Features.empty).entries.Pairwise (fun a b => a.1 < b.1)) &&
      (x.features.getD Features.empty).entries.all fun e => decide (e.1 = k.feature) ||
        (splitOn '|' (Features.printOne e)).all fun p => decide ((Features.parseOne p).1 ≠ k.feature)
    | .nt _ => true)
  | none => true

private theorem node_test {t : Tree} {P : Option Node → Bool} (h : t.graph.nodes.all P = true) {n : Nat} {nd : Node}
    (hn : t.graph.node? n = some nd) : P (some nd) = true := by
  rw [List.all_eq_true] at h
  unfold Graph.node? at hn
  cases he : t.graph.nodes[n]? with
  | none => rw [he] at hn; cases hn
  | some o =>
    rw [he] at hn
    obtain rfl : o = some nd := hn
    exact h _ (List.mem_of_getElem? he)

theorem names_of_test {t : Tree} (h : namesTest t = true) (k : TagKind) : k.Names t := by
  unfold namesTest at h
  simp only [Bool.and_eq_true, decide_eq_true_eq] at h
  obtain ⟨⟨h1, h2⟩, h3⟩ := h
  have key : ∀ n x, t.graph.node? n = some (.nt x) → TagLabel x.label ∧ x.label ≠ "NONE".toList := by
    intro n x hx
    have := node_test h3 hx
    simp only [Bool.and_eq_true, decide_eq_true_eq] at this
    refine ⟨⟨this.1.1, fun c hc => ?_⟩, this.1.2⟩
    have := (List.all_eq_true.1 this.2) c hc
    simpa using this
  exact ⟨fun n x hx => (key n x hx).1, fun _ n x hx => (key n x hx).2,
    fun f hf => Nat.lt_of_le_of_lt (height_le (wf_of_check h1) hf) h2⟩

theorem holds_of_test {t : Tree} {k : TagKind} (h : namesTest t = true) (h' : featsTest k t = true) : k.Holds t := by
  have N := names_of_test h k
  refine ⟨⟨fun n nd hn => ?_, fun n x hx => ?_, fun n x hx => ?_, N.label, N.height⟩, N.notNone⟩
  · have := node_test (P := _) (show List.all _ _ = true from h') hn
    simp only [Bool.and_eq_true, decide_eq_true_eq] at this
    exact this.1
  · have := node_test (P := _) (show List.all _ _ = true from h') hx
    simp only [Bool.and_eq_true, decide_eq_true_eq] at this
    exact this.2.1
  · have := node_test (P := _) (show List.all _ _ = true from h') hx
    simp only [Bool.and_eq_true, decide_eq_true_eq, List.all_eq_true, Bool.or_eq_true] at this
    intro e he hne p hp
    rcases this.2.2 e he with h | h
    · exact absurd h hne
    · exact h p hp

/-- `(S (NP (D the) (N dog)) (V barks))` with edge labels, a lemma, an annotation, features and a secondary edge. -/
def rich : Tree :=
  ⟨⟨[Examples.nt "S" ⟨0, 3, none⟩, some (.term { Terminal.new "barks".toList "V".toList 2 with lem := some "bark".toList }),
      some (.nt { NonTerminal.new "NP".toList ⟨0, 2, none⟩ with features := some ⟨[("node_annotation".toList, some "x".toList)]⟩ }),
      some (.term { Terminal.new "dog".toList "N".toList 1 with features := some ⟨[("a".toList, none), ("morph".toList, some "sg".toList)]⟩ }),
      Examples.tm "the" "D" 0],
    [], [⟨4, 2, 1, .secondary (some "R".toList)⟩, ⟨3, 2, 4, .primary (some "NK".toList)⟩, Examples.pe 2 2 3,
      ⟨1, 0, 2, .primary (some "SB".toList)⟩, Examples.pe 0 0 1], 5, []⟩, 3, 0, 0⟩

theorem rich_wf : rich.WF := wf_of_check (by decide +kernel)

example := C66_absolute rich rich_wf (by decide) (holds_of_test (k := .absolute) (by decide +kernel) (by decide +kernel)).storable
example := C66_relative rich rich_wf (by decide) (holds_of_test (k := .relative) (by decide +kernel) (by decide +kernel)).storable
  ((names_of_test (by decide +kernel) .relative).notNone rfl)

private theorem ended {α β : Type} {p : α × β} {b : β} (h : p.2 = b) : p = (p.1, b) := by
  subst h; rfl

/-- A NEGRA file with lemmas and morphology. -/
def morphFile : Source := ⟨["#BOS 1", "a la X Sg HD 500", "c -- X -- -- 500", "b -- P Pl -- 0", "#500 -- A -- -- 0",
  "#EOS 1"].map String.toList, []⟩

theorem morphFile_orderly : Orderly morphFile.lines :=
  orderly_one (by decide) (by decide +kernel) (by decide +kernel) (by decide +kernel)

/-- The NEGRA file, by way of either kind of tags. -/
example (k : TagKind) : ∃ ss : List (List Token),
    main .negra false minPick (plain k.output) morphFile none = (ss.map .sentence, .finished) ∧
    main k.input true minPick (plain .simple) ⟨[], ss.map some⟩ none =
      (([.text "(VROOT (A (X a) (X c)) (P b))\n".toList]), .finished) := by
  obtain ⟨t, h1, h2⟩ := onlyItem_spec (f := .negra) (multiline := false) (src := morphFile)
    (test := fun t => namesTest t && featsTest .absolute t && featsTest .relative t) (by decide +kernel)
  simp only [Bool.and_eq_true] at h2
  exact C66_tool k .negra false true minPick minPick morphFile [] _ _ _ h1 (fun _ => morphFile_orderly) (by
    intro u hu
    obtain rfl : u = t := by simpa using hu
    cases k
    · exact holds_of_test h2.1.1 h2.1.2
    · exact holds_of_test h2.1.1 h2.2) (by decide +kernel)

/-- A TueBa file. -/
def tuebaFile : Source := ⟨["(S (NP=x:SB (D:HD a) (N b)) (VX (VF (V c))))".toList], []⟩

example (k : TagKind) : ∃ ss : List (List Token),
    main .tueba false minPick (plain k.output) tuebaFile none = (ss.map .sentence, .finished) ∧
    main k.input true minPick (plain .simple) ⟨[], ss.map some⟩ none =
      (([.text "(S (NP (D a) (N b)) (VX (VF (V c))))\n".toList]), .finished) := by
  obtain ⟨t, h1, h2⟩ := onlyItem_spec (f := .tueba) (multiline := false) (src := tuebaFile)
    (test := namesTest) (by decide +kernel)
  exact C66_labels k .tueba (by decide) false true minPick minPick tuebaFile [] _ _ _ h1 (by
    intro u hu
    obtain rfl : u = t := by simpa using hu
    exact names_of_test h2 k) (by decide +kernel)

example (k k' : TagKind) : ∃ ss ss' : List (List Token),
    main .tueba false minPick (plain k.output) tuebaFile none = (ss.map .sentence, .finished) ∧
    main .tueba false minPick (plain k'.output) tuebaFile none = (ss'.map .sentence, .finished) ∧
    main k.input false minPick (plain k'.output) ⟨[], ss.map some⟩ none = (ss'.map .sentence, .finished) := by
  obtain ⟨t, h1, h2⟩ := onlyItem_spec (f := .tueba) (multiline := false) (src := tuebaFile)
    (test := namesTest) (by decide +kernel)
  exact C67_between k k' .tueba (by decide) false false minPick minPick tuebaFile [] [t] h1 (by
    intro u hu
    obtain rfl : u = t := by simpa using hu
    exact ⟨names_of_test h2 k, names_of_test h2 k'⟩)

/-- A NEGRA file without lemmas and morphology. -/
def bareFile : Source := ⟨["#BOS 1", "a -- X -- HD 500", "c -- X -- -- 500", "b -- P -- -- 0", "#500 -- A -- -- 0",
  "#EOS 1"].map String.toList, []⟩

/-- A test for words without lemmas and features. -/
def bareTest (t : Tree) : Bool := t.graph.nodes.all fun o => match o with
  | some (.term x) => decide (x.lem = none) && decide (x.features.getD Features.empty = Features.empty)
  | _ => true

theorem bare_of_test {t : Tree} (h : bareTest t = true) : BareWords t := fun n x hx => by
  have := node_test (P := _) (show List.all _ _ = true from h) hx
  simpa only [Bool.and_eq_true, decide_eq_true_eq] using this

example : ∃ ss ss' : List (List Token),
    main .negra false minPick (plain .absolute) bareFile none = (ss.map .sentence, .finished) ∧
    main .negra false minPick (plain .relative) bareFile none = (ss'.map .sentence, .finished) ∧
    main .absolute false minPick (plain .relative) ⟨[], ss.map some⟩ none = (ss'.map .sentence, .finished) := by
  obtain ⟨t, h1, h2⟩ := onlyItem_spec (f := .negra) (multiline := false) (src := bareFile)
    (test := fun t => namesTest t && featsTest .absolute t && featsTest .relative t && bareTest t && t.isProjective)
    (by decide +kernel)
  simp only [Bool.and_eq_true] at h2
  exact C67_negra .absolute .relative .negra false false minPick minPick bareFile [] [t] h1
    (fun _ => orderly_one (by decide) (by decide +kernel) (by decide +kernel) (by decide +kernel))
    (by intro u hu; obtain rfl : u = t := by simpa using hu
        exact h2.2)
    (by intro u hu; obtain rfl : u = t := by simpa using hu
        exact ⟨holds_of_test h2.1.1.1.1 h2.1.1.1.2, holds_of_test h2.1.1.1.1 h2.1.1.2, bare_of_test h2.1.2⟩)

/-- Tags as a tagger could predict them: the last word has an ancestor, and there is a chain. -/
def predicted : Source := ⟨[], [some [tagged "a" "abs_ancestor:NP_N+3~X", tagged "b" "abs_ancestor:S+1", tagged "c" "abs_ancestor:VP+2"]]⟩

example : ∃ ss : List (List Token), main .absolute false minPick (plain .absolute) predicted none = (ss.map .sentence, .finished) ∧
    main .absolute false minPick (plain .absolute) ⟨[], ss.map some⟩ none = (ss.map .sentence, .finished) ∧
    ss.map some ≠ predicted.sentences := by
  obtain ⟨t, h1, h2⟩ := onlyItem_spec (f := .absolute) (multiline := false) (src := predicted)
    (test := namesTest) (by decide +kernel)
  have N := names_of_test h2 .relative
  obtain ⟨ss, g1, g2⟩ := C67_stable .absolute false false minPick minPick predicted [] [t] h1 (by
    intro u hu
    obtain rfl : u = t := by simpa using hu
    exact ⟨fun n x hx => ⟨(N.label n x hx).1, (N.label n x hx).2 _ (by simp), fun _ => N.notNone rfl n x hx⟩, N.height⟩)
  refine ⟨ss, g1, g2, fun h => ?_⟩
  have : (main .absolute false minPick (plain .absolute) predicted none).1 ≠
      [.sentence [tagged "a" "abs_ancestor:NP_N+3~X", tagged "b" "abs_ancestor:S+1", tagged "c" "abs_ancestor:VP+2"]] := by
    decide +kernel
  rw [show main .absolute false minPick (plain .absolute) predicted none = _ from g1] at this
  refine this ?_
  unfold predicted at h
  have h : ss = [[tagged "a" "abs_ancestor:NP_N+3~X", tagged "b" "abs_ancestor:S+1", tagged "c" "abs_ancestor:VP+2"]] :=
    List.map_injective_iff.2 (Option.some_injective _) h
  rw [h]; rfl

/-! ## The provisos are needed -/

/-- The sentences of an output. -/
def sentencesOf (ws : List Written) : List (Option (List Token)) :=
  ws.map fun w => match w with
    | .sentence s => some s
    | .text _ => none

/-- Convert text to tags and these to the simple format. -/
def throughTags (k : TagKind) (s : String) : List Written × End :=
  main k.input false minPick (plain .simple)
    ⟨[], sentencesOf (main .simple false minPick (plain k.output) ⟨[s.toList], []⟩ none).1⟩ none

/-- C66: a delimiter in a label changes the text, or the tags cannot be read; so do relative tags with the label
`NONE`. -/
theorem C66_reserved :
    throughTags .absolute "(A_B (N a) (V b))" = ([.text "(A (B (N a) (V b)))\n".toList], .finished) ∧
    throughTags .relative "(NONE (N a) (V b))" = ([.text "(DUMMY (N a) (V b))\n".toList], .finished) ∧
    throughTags .absolute "(NONE (N a) (V b))" = ([.text "(NONE (N a) (V b))\n".toList], .finished) ∧
    (throughTags .absolute "(A+B (N a) (V b))").2 ≠ .finished :=
  ⟨by decide +kernel, by decide +kernel, by decide +kernel, by decide +kernel⟩

/-- Convert tags to tags of the same kind, once and twice. -/
def twice (k : TagKind) (toks : List Token) : (List Written × End) × (List Written × End) :=
  let ws := main k.input false minPick (plain k.output) ⟨[], [some toks]⟩ none
  (ws, main k.input false minPick (plain k.output) ⟨[], sentencesOf ws.1⟩ none)

/-- A token with a tag of speech and features. -/
def token (form feats : String) : Token := ⟨form.toList, none, some ['_'], some feats.toList⟩

/-- C67: an empty label (absolute tags) and the label `NONE` (relative tags) are lost in the second conversion. -/
theorem C67_not_stable :
    twice .absolute [tagged "a" "abs_ancestor:S+1", tagged "b" "abs_ancestor:+2"] =
      (([.sentence [token "a" "abs_ancestor:S+1", token "b" "abs_ancestor:NONE~|unary_chain:"]], .finished),
        ([.sentence [token "a" "abs_ancestor:S+1", token "b" "abs_ancestor:NONE"]], .finished)) ∧
    twice .relative [tagged "a" "rel_ancestor:NONE+1", tagged "b" "rel_ancestor:NONE"] =
      (([.sentence [token "a" "rel_ancestor:NONE", token "b" "rel_ancestor:NONE"]], .finished),
        ([.sentence [token "a" "rel_ancestor:DUMMY", token "b" "rel_ancestor:NONE"]], .finished)) :=
  ⟨by decide +kernel, by decide +kernel⟩

end Props
end Lumberjack
