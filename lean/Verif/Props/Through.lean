import Verif.Proofs.Through
import Verif.Props.Cross

/-!
# Going through a bracketed format (C80)
-/

namespace Lumberjack
namespace Props

open Lumberjack.Tree Lumberjack.Convert

/-- C80: if a bracketed format can hold all trees of an input, the tool converts the input to this format, and running
it on the result writes and ends like running it on the input, with whatever options, output format and POS
sentences. -/
theorem C80_through (f : InFormat) (g : Ptb.Format) (multiline multiline' : Bool)
    (pick pick' : Tree → Finset Nat → Option Nat) (hpick : IsOrder pick) (hpick' : IsOrder pick') (src : Source)
    (ss : List (Option (List Conllx.Token))) (ts : List Tree) (hs : Stream f multiline src (ts.map .ok) true)
    (H : ∀ t ∈ ts, t.HeldBy g) :
    ∃ wn, main f multiline pick (plain (bracketOutput g)) src none = (wn, .finished) ∧
      (∀ o pos, (∀ t ∈ ts, Suits o t) → main (bracketInput g) multiline' pick' o ⟨Negra.lines (textOf wn), ss⟩ pos =
        main f multiline pick o src pos) ∧
      ∀ out, (out = .negra → ∀ t ∈ ts, t.IsNt t.root) →
        main (bracketInput g) multiline' pick' (plain out) ⟨Negra.lines (textOf wn), ss⟩ none =
          main f multiline pick (plain out) src none :=
  through hpick hpick' ss g hs fun t ht => heldBy_exact (H t ht)

/-- C80: in the simple and in the TueBa format the trees of every file in this format can be held.  So normalising a file
first never makes a difference. -/
theorem C80_normalise (f : Ptb.Format) (hf : f = .simple ∨ f = .tueba) (multiline multiline' : Bool)
    (pick pick' : Tree → Finset Nat → Option Nat) (hpick : IsOrder pick) (hpick' : IsOrder pick') (src : Source)
    (ss : List (Option (List Conllx.Token))) (ts : List Tree)
    (hs : Stream (bracketInput f) multiline src (ts.map .ok) true) :
    ∃ wn, main (bracketInput f) multiline pick (plain (bracketOutput f)) src none = (wn, .finished) ∧
      (∀ o pos, (∀ t ∈ ts, Enough o t) → main (bracketInput f) multiline' pick' o ⟨Negra.lines (textOf wn), ss⟩ pos =
        main (bracketInput f) multiline pick o src pos) ∧
      ∀ out, (out = .negra → ∀ t ∈ ts, t.IsNt t.root) →
        main (bracketInput f) multiline' pick' (plain out) ⟨Negra.lines (textOf wn), ss⟩ none =
          main (bracketInput f) multiline pick (plain out) src none := by
  have hp : ∀ t ∈ ts, ∃ s, Ptb.stringToTree f s = .ok (.ok t) := fun t ht =>
    stream_parsed hs t (List.mem_map_of_mem ht)
  obtain ⟨wn, h1, h2, h3⟩ := through (m' := multiline') hpick hpick' ss f hs fun t ht => by
    obtain ⟨s, h⟩ := hp t ht
    exact parsed_exact (by rcases hf with rfl | rfl <;> simp) h
  refine ⟨wn, h1, fun o pos hE => h2 o pos fun t ht => ?_, h3⟩
  obtain ⟨s, h⟩ := hp t ht
  exact (ptb_read h).suits (hE t ht)

/-- C80: a bracketed file in whatever format can be converted to the TueBa format first, if no label, tag or annotation
has a colon or an equals sign. -/
theorem C80_to_tueba (f : Ptb.Format) (multiline multiline' : Bool)
    (pick pick' : Tree → Finset Nat → Option Nat) (hpick : IsOrder pick) (hpick' : IsOrder pick') (src : Source)
    (ss : List (Option (List Conllx.Token))) (ts : List Tree)
    (hs : Stream (bracketInput f) multiline src (ts.map .ok) true) (hn : ∀ t ∈ ts, t.NoSigns) :
    ∃ wn, main (bracketInput f) multiline pick (plain .tueba) src none = (wn, .finished) ∧
      (∀ o pos, (∀ t ∈ ts, Enough o t) → main .tueba multiline' pick' o ⟨Negra.lines (textOf wn), ss⟩ pos =
        main (bracketInput f) multiline pick o src pos) ∧
      ∀ out, (out = .negra → ∀ t ∈ ts, t.IsNt t.root) →
        main .tueba multiline' pick' (plain out) ⟨Negra.lines (textOf wn), ss⟩ none =
          main (bracketInput f) multiline pick (plain out) src none := by
  have hp : ∀ t ∈ ts, ∃ s, Ptb.stringToTree f s = .ok (.ok t) := fun t ht =>
    stream_parsed hs t (List.mem_map_of_mem ht)
  obtain ⟨wn, h1, h2, h3⟩ := through (m' := multiline') hpick hpick' ss .tueba hs fun t ht => by
    obtain ⟨s, h⟩ := hp t ht
    exact parsed_tueba h (hn t ht)
  refine ⟨wn, h1, fun o pos hE => h2 o pos fun t ht => ?_, h3⟩
  obtain ⟨s, h⟩ := hp t ht
  exact (ptb_read h).suits (hE t ht)

/-- C80: for trees without gaps whose strings the format `g` can represent, from whatever input and with whatever lemmas
and features: from `g` to the simple format, and from the TueBa format to every bracketed format, the tool writes what
it writes for the input. -/
theorem C80_bracketed (f : InFormat) (g h : Ptb.Format) (hg : h = .simple ∨ g = .tueba) (multiline multiline' : Bool)
    (pick pick' : Tree → Finset Nat → Option Nat) (src : Source) (ss : List (Option (List Conllx.Token))) (ts : List Tree)
    (hs : Stream f multiline src (ts.map .ok) true)
    (H : ∀ t ∈ ts, t.WF ∧ t.isProjective = true ∧ t.Writable g) :
    ∃ wn ws, main f multiline pick (plain (bracketOutput g)) src none = (wn, .finished) ∧ ws.length = ts.length ∧
      main f multiline pick (plain (bracketOutput h)) src none = (ws, .finished) ∧
      main (bracketInput g) multiline' pick' (plain (bracketOutput h)) ⟨Negra.lines (textOf wn), ss⟩ none =
        (ws, .finished) :=
  lossy ss g h hg hs H

/-- C80: a colon in a label makes a difference. -/
theorem C80_colon_lost :
    main .simple false minPick (plain .tueba) ⟨["(S:x (N a))".toList], []⟩ none =
      ([.text "(S:x:--(N:-- a))\n".toList], .finished) ∧
    main .tueba false minPick (plain .simple) ⟨Negra.lines "(S:x:--(N:-- a))\n".toList, []⟩ none =
      ([.text "(S (N a))\n".toList], .finished) := by decide +kernel

/-! ## The hypotheses are met -/

open Bracketed in
/-- A check that the TueBa format can hold a tree but for gaps. -/
def clearB (t : Tree) : Bool :=
  t.checkWF && (t.graph.edges.all fun e => e.w.isPrimary) &&
  (t.graph.nodes.all fun o => match o with
    | none => true
    | some (.term x) => decide (Word x.form ∧ Word x.pos ∧ ':' ∉ x.pos ∧ '=' ∉ x.pos) && x.lem.isNone && x.features.isNone
    | some (.nt x) => decide (Word x.label ∧ ':' ∉ x.label ∧ '=' ∉ x.label) && x.features.isNone) &&
  t.graph.edges.all fun e => match e.w.label with
    | none => true
    | some l => decide (Word l ∧ ':' ∉ l ∧ l ≠ "--".toList)

theorem clearB_sound {t : Tree} (h : clearB t = true) : t.WF ∧ t.NoSecondary ∧ t.Writable .tueba ∧ t.OnlyAnnotated := by
  simp only [clearB, Bool.and_eq_true, List.all_eq_true] at h
  obtain ⟨⟨⟨h1, h3⟩, h4⟩, h5⟩ := h
  have ht : ∀ n x, t.graph.node? n = some (.term x) → (Bracketed.Word x.form ∧ Bracketed.Word x.pos ∧ ':' ∉ x.pos ∧ '=' ∉ x.pos) ∧
      x.lem = none ∧ x.features = none := by
    intro n x hx
    have := h4 (some (.term x)) (by
      unfold Graph.node? at hx
      exact List.mem_of_getElem? (Option.join_eq_some_iff.1 hx))
    simp only [Bool.and_eq_true, decide_eq_true_eq, Option.isNone_iff_eq_none] at this
    exact ⟨this.1.1, this.1.2, this.2⟩
  have hn : ∀ n x, t.graph.node? n = some (.nt x) → (Bracketed.Word x.label ∧ ':' ∉ x.label ∧ '=' ∉ x.label) ∧
      x.features = none := by
    intro n x hx
    have := h4 (some (.nt x)) (by
      unfold Graph.node? at hx
      exact List.mem_of_getElem? (Option.join_eq_some_iff.1 hx))
    simpa only [Bool.and_eq_true, decide_eq_true_eq, Option.isNone_iff_eq_none] using this
  refine ⟨wf_of_check h1, h3, ⟨fun n x hx => ?_, fun n x hx => ?_, fun n l hl => ?_⟩, ⟨fun n x hx => ?_, fun n x hx => ?_⟩⟩
  · obtain ⟨⟨k1, k2, k3, k4⟩, _⟩ := ht n x hx
    rw [Ptb.escape_word k1, Ptb.escape_word k2]
    exact ⟨⟨.inr k2, k3, k4⟩, k1⟩
  · obtain ⟨⟨k1, k2, k3⟩, k4⟩ := hn n x hx
    rw [k4]
    exact ⟨⟨.inr k1, k2, k3⟩, by intro s hs; cases hs⟩
  · have := edge_all (t := t) (P := fun l => Bracketed.Word l ∧ ':' ∉ l ∧ l ≠ "--".toList) (by
      intro e he
      have := h5 e he
      cases hw : e.w.label with
      | none => simp
      | some l => rw [hw] at this; simpa using this) hl
    exact ⟨.inr this.1, this.2⟩
  · obtain ⟨⟨k1, k2, k3, k4⟩, k5, k6⟩ := ht n x hx
    exact ⟨k1, Ptb.escape_word k2, k5, k6⟩
  · rw [(hn n x hx).2]; rfl

/-- A check that the TueBa format can hold a tree. -/
def heldB (t : Tree) : Bool := clearB t && t.isProjective

theorem heldB_sound {t : Tree} (h : heldB t = true) : t.HeldBy .tueba := by
  rw [heldB, Bool.and_eq_true] at h
  obtain ⟨h1, h2, h3, h4⟩ := clearB_sound h.1
  exact ⟨h1, h.2, h2, h3, h4, fun h => absurd rfl h⟩

/-- Two trees in the simple format. -/
def throughFile : List Str := ["(S (NP (D a) (N b)) (V c))", "(S (X d) ($. e))"].map String.toList

theorem throughFile_trees : ∃ ts : List Tree, Stream .simple false ⟨throughFile, []⟩ (ts.map .ok) true ∧ ts.length = 2 ∧
    ∀ t ∈ ts, t.HeldBy .tueba ∧ ∀ o, Suits o t := by
  obtain ⟨ts, h1, h2, h3⟩ := allTrees_spec (r := Ptb.readAll .simple .single 3 throughFile) (n := 2)
    (test := fun t => heldB t && fitB t) (by decide +kernel)
  refine ⟨ts, (ptb_stream .simple .simple false (next_bracket .simple false) 3 throughFile [] _ h1).1, h2, fun t ht => ?_⟩
  have := h3 t ht
  rw [Bool.and_eq_true] at this
  exact ⟨heldB_sound this.1, fun o => (fitB_sound this.2 o).1⟩

/-- The TueBa format can hold the trees of a file in the simple format. -/
example : ∃ wn, main .simple false minPick (plain .tueba) ⟨throughFile, []⟩ none = (wn, .finished) ∧
    ∀ o pos, main .tueba true minPick o ⟨Negra.lines (textOf wn), []⟩ pos =
      main .simple false minPick o ⟨throughFile, []⟩ pos := by
  obtain ⟨ts, h1, _, h2⟩ := throughFile_trees
  obtain ⟨wn, k1, k2, _⟩ := C80_through .simple .tueba false true minPick minPick minPick_order minPick_order _ [] ts h1
    fun t ht => (h2 t ht).1
  exact ⟨wn, k1, fun o pos => k2 o pos fun t ht => (h2 t ht).2 o⟩

/-- Through TueBa to PTB. -/
example : ∃ wn ws, main .simple false minPick (plain .tueba) ⟨throughFile, []⟩ none = (wn, .finished) ∧ ws.length = 2 ∧
    main .simple false minPick (plain .ptb) ⟨throughFile, []⟩ none = (ws, .finished) ∧
    main .tueba false minPick (plain .ptb) ⟨Negra.lines (textOf wn), []⟩ none = (ws, .finished) := by
  obtain ⟨ts, h1, hl, h2⟩ := throughFile_trees
  have := C80_bracketed .simple .tueba .ptb (.inr rfl) false false minPick minPick _ [] ts h1
    fun t ht => ⟨(h2 t ht).1.wf, (h2 t ht).1.noGap, (h2 t ht).1.writable⟩
  rwa [hl] at this

/-- Normalising a file with annotations, edge labels and white space. -/
example : ∃ wn, main .tueba true minPick (plain .tueba) ⟨["( S (NP=x:SB (D a)".toList, " (N b)) (V c) )".toList], []⟩ none = (wn, .finished) ∧
    ∀ o pos, main .tueba false minPick o ⟨Negra.lines (textOf wn), []⟩ pos =
      main .tueba true minPick o ⟨["( S (NP=x:SB (D a)".toList, " (N b)) (V c) )".toList], []⟩ pos := by
  obtain ⟨t, h1, h2⟩ := onlyItem_spec (f := .tueba) (multiline := true)
    (src := ⟨["( S (NP=x:SB (D a)".toList, " (N b)) (V c) )".toList], []⟩) (test := fun t => decide (2 ≤ t.nTerminals))
    (by decide +kernel)
  obtain ⟨wn, k1, k2, _⟩ := C80_normalise .tueba (.inr rfl) true false minPick minPick minPick_order minPick_order _ [] [t] h1
  refine ⟨wn, k1, fun o pos => k2 o pos fun u hu => .inl ?_⟩
  rw [List.mem_singleton.1 hu]
  exact of_decide_eq_true h2

def noSignsB (t : Tree) : Bool :=
  t.graph.nodes.all fun o => match o with
    | none => true
    | some nd => decide (':' ∉ nd.label ∧ '=' ∉ nd.label ∧
        ∀ a ∈ (Bracketed.annotationOf nd.features).toList, ':' ∉ a ∧ '=' ∉ a)

theorem noSignsB_sound {t : Tree} (h : noSignsB t = true) : t.NoSigns := by
  intro n nd hn
  unfold noSignsB at h
  rw [List.all_eq_true] at h
  have := h (some nd) (by
    unfold Graph.node? at hn
    exact List.mem_of_getElem? (Option.join_eq_some_iff.1 hn))
  simp only [decide_eq_true_eq] at this
  exact ⟨this.1, this.2.1, fun a ha => this.2.2 a (by simp [ha])⟩

/-- A file in the PTB format, with an annotation. -/
example : ∃ wn, main .ptb false minPick (plain .tueba) ⟨["(S (NP-SBJ (D a) (N b)) (V c))".toList], []⟩ none = (wn, .finished) ∧
    main .tueba false minPick (plain .ptb) ⟨Negra.lines (textOf wn), []⟩ none =
      main .ptb false minPick (plain .ptb) ⟨["(S (NP-SBJ (D a) (N b)) (V c))".toList], []⟩ none := by
  obtain ⟨t, h1, h2⟩ := onlyItem_spec (f := .ptb) (multiline := false)
    (src := ⟨["(S (NP-SBJ (D a) (N b)) (V c))".toList], []⟩) (test := noSignsB) (by decide +kernel)
  obtain ⟨wn, k1, _, k3⟩ := C80_to_tueba .ptb false false minPick minPick minPick_order minPick_order _ [] [t] h1
    fun u hu => by rw [List.mem_singleton.1 hu]; exact noSignsB_sound h2
  exact ⟨wn, k1, k3 .ptb (by simp)⟩

end Props
end Lumberjack
