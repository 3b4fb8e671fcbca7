import Verif.Proofs.CheckExport
import Verif.Proofs.Cross
import Verif.Props.Convert

/-!
# Going through the NEGRA format (C73)
-/

namespace Lumberjack
namespace Props

open Lumberjack.Tree Lumberjack.Convert

/-- C73: if all trees of an input in whatever format have no gaps and can be held by the NEGRA format, the tool converts
the input to NEGRA, and converts the result to a bracketed format: one line per tree, with the tree as it was but for
the root, which is labelled `VROOT` and has no annotation. -/
theorem C73_any_root (f : InFormat) (g : Ptb.Format) (multiline multiline' : Bool)
    (pick pick' : Tree → Finset Nat → Option Nat) (src : Source) (ss : List (Option (List Conllx.Token)))
    (ts : List Tree) (hs : Stream f multiline src (ts.map .ok) true) (H : Numbered ts)
    (hp : ∀ t ∈ ts, t.isProjective = true) :
    ∃ wn bs, main f multiline pick (plain .negra) src none = (wn, .finished) ∧
      List.Forall₂ (fun t s => ∃ F, t.Is F ∧ (F.underVroot.brackets g).text (Bracketed.sepOf g) = [s]) ts bs ∧
      main .negra multiline' pick' (plain (bracketOutput g)) ⟨Negra.lines (textOf wn), ss⟩ none =
        (bs.map fun s => .text (s ++ ['\n']), .finished) :=
  via_negra g hs H hp

/-- C73: if moreover the roots are labelled `VROOT` and have no annotation, going through NEGRA changes nothing: converting
to NEGRA and the result to a bracketed format writes what converting to the bracketed format writes. -/
theorem C73_through_negra (f : InFormat) (g : Ptb.Format) (multiline multiline' : Bool)
    (pick pick' : Tree → Finset Nat → Option Nat) (src : Source) (ss : List (Option (List Conllx.Token)))
    (ts : List Tree) (hs : Stream f multiline src (ts.map .ok) true) (H : Numbered ts)
    (hp : ∀ t ∈ ts, t.isProjective = true) (hr : ∀ t ∈ ts, TopVroot t) :
    ∃ wn ws, main f multiline pick (plain .negra) src none = (wn, .finished) ∧ ws.length = ts.length ∧
      main f multiline pick (plain (bracketOutput g)) src none = (ws, .finished) ∧
      main .negra multiline' pick' (plain (bracketOutput g)) ⟨Negra.lines (textOf wn), ss⟩ none = (ws, .finished) := by
  obtain ⟨wn, bs, h1, h2, h3⟩ := via_negra (m' := multiline') (pick := pick) (pick' := pick') (ss := ss) g hs H hp
  refine ⟨wn, _, h1, by rw [List.length_map, h2.length_eq], direct g hs ?_ ?_, h3⟩
  · intro t ht
    obtain ⟨i, hi⟩ := List.getElem?_of_mem ht
    exact ⟨(H i t hi).1.wf, hp t ht⟩
  · clear hs H hp h1 h3
    induction h2 with
    | nil => exact .nil
    | cons h _ ih =>
      obtain ⟨F, hF, h⟩ := h
      refine .cons ⟨F, hF, ?_⟩ (ih fun u hu => hr u (by simp [hu]))
      rw [← underVroot_brackets g hF (hr _ (by simp))]
      exact h

/-- C73: trees without number and metadata, as the bracketed formats give them, are numbered by the writer. -/
theorem C73_numbered (ts : List Tree) (h : ∀ t ∈ ts, Negra.Exportable t ∧
      Negra.featOf (Negra.rootFeatures t) "sentence_id".toList = none ∧
      Negra.featOf (Negra.rootFeatures t) "metadata".toList = none) (hl : ts.length ≤ 2 ^ 64) : Numbered ts := by
  intro i t ht
  obtain ⟨E, h1, h2⟩ := h t (List.mem_of_getElem? ht)
  refine ⟨E, _, none, by rw [h1]; rfl, ?_, h2, by simp⟩
  have hi := (List.getElem?_eq_some_iff.1 ht).1
  have := List.length_filter_le (fun u => (Negra.featOf (Negra.rootFeatures u) "sentence_id".toList).isNone) (ts.take i)
  rw [List.length_take] at this
  omega

private theorem ended {α β : Type} {p : α × β} {b : β} (h : p.2 = b) : p = (p.1, b) := by
  subst h; rfl

/-- C73: another root is lost. -/
theorem C73_root_lost :
    main .simple false minPick (plain .simple) ⟨["(S (N a))".toList], []⟩ none = ([.text "(S (N a))\n".toList], .finished) ∧
    (∃ wn, main .simple false minPick (plain .negra) ⟨["(S (N a))".toList], []⟩ none = (wn, .finished) ∧
      main .negra false minPick (plain .simple) ⟨Negra.lines (textOf wn), []⟩ none =
        ([.text "(VROOT (N a))\n".toList], .finished)) :=
  ⟨by decide +kernel, _, ended (by decide +kernel), by decide +kernel⟩

/-! ## The hypotheses are met -/

/-- Are all items of the reader trees, and do they satisfy a test? -/
def allTrees (r : Res (List (Except Err Tree))) (n : Nat) (test : Tree → Bool) : Bool :=
  match r with
  | .ok items => decide (items.length = n) && items.all fun it => match it with
    | .ok t => test t
    | .error _ => false
  | _ => false

theorem allTrees_spec {r : Res (List (Except Err Tree))} {n : Nat} {test : Tree → Bool} (h : allTrees r n test = true) :
    ∃ ts : List Tree, r = .ok (ts.map .ok) ∧ ts.length = n ∧ ∀ t ∈ ts, test t = true := by
  unfold allTrees at h
  split at h
  · rename_i items
    rw [Bool.and_eq_true, decide_eq_true_eq] at h
    obtain ⟨rfl, h⟩ := h
    induction items with
    | nil => exact ⟨[], rfl, rfl, by simp⟩
    | cons it items ih =>
      simp only [List.all_cons, Bool.and_eq_true] at h
      obtain ⟨ts, h1, h2, h3⟩ := ih h.2
      simp only [Res.ok.injEq] at h1
      cases it with
      | error e => cases h.1
      | ok t =>
        refine ⟨t :: ts, by rw [h1]; rfl, by simp [h2], ?_⟩
        intro u hu
        rcases List.mem_cons.1 hu with rfl | hu
        · exact h.1
        · exact h3 u hu
  · cases h

def topB (t : Tree) : Bool :=
  match t.graph.node? t.root with
  | some (.nt x) => decide (x.label = "VROOT".toList) && (Bracketed.annotationOf x.features).isNone
  | _ => false

theorem topB_sound {t : Tree} (h : topB t = true) : TopVroot t := by
  unfold topB at h
  split at h
  · rename_i x hx
    rw [Bool.and_eq_true, decide_eq_true_eq, Option.isNone_iff_eq_none] at h
    exact ⟨x, hx, h.1, h.2⟩
  · cases h

/-- The conditions for going through NEGRA unchanged. -/
def crossB (t : Tree) : Bool :=
  Negra.exportB t && (Negra.featOf (Negra.rootFeatures t) "sentence_id".toList).isNone &&
    (Negra.featOf (Negra.rootFeatures t) "metadata".toList).isNone && t.isProjective && topB t

theorem crossB_sound {t : Tree} (h : crossB t = true) : (Negra.Exportable t ∧
      Negra.featOf (Negra.rootFeatures t) "sentence_id".toList = none ∧
      Negra.featOf (Negra.rootFeatures t) "metadata".toList = none) ∧ t.isProjective = true ∧ TopVroot t := by
  simp only [crossB, Bool.and_eq_true, Option.isNone_iff_eq_none] at h
  exact ⟨⟨Negra.export_of_check h.1.1.1.1, h.1.1.1.2, h.1.1.2⟩, h.1.2, topB_sound h.2⟩

/-- Two trees in the TueBa format, with annotations and edge labels. -/
def vrootFile : List Str :=
  ["(VROOT(S=x:HD(NP:SB(D:-- a)(N b))(V:OC c)))", "(VROOT(X d)($.:PU e))"].map String.toList

/-- Through NEGRA the TueBa file stays what it is. -/
example : ∃ wn ws, main .tueba false minPick (plain .negra) ⟨vrootFile, []⟩ none = (wn, .finished) ∧ ws.length = 2 ∧
    main .tueba false minPick (plain .tueba) ⟨vrootFile, []⟩ none = (ws, .finished) ∧
    main .negra false minPick (plain .tueba) ⟨Negra.lines (textOf wn), []⟩ none = (ws, .finished) := by
  obtain ⟨ts, h1, h2, h3⟩ := allTrees_spec (r := Ptb.readAll .tueba .single 3 vrootFile) (n := 2) (test := crossB)
    (by decide +kernel)
  have hs := (ptb_stream .tueba .tueba false (next_bracket .tueba false) 3 vrootFile [] _ h1).1
  have := C73_through_negra .tueba .tueba false false minPick minPick _ [] ts hs
    (C73_numbered ts (fun t ht => (crossB_sound (h3 t ht)).1) (by rw [h2]; decide))
    (fun t ht => (crossB_sound (h3 t ht)).2.1) (fun t ht => (crossB_sound (h3 t ht)).2.2)
  rwa [h2] at this

/-- Without a root `VROOT` the first theorem still applies. -/
example : ∃ wn bs, main .simple false minPick (plain .negra) ⟨["(S (A (B a) (B b)))".toList], []⟩ none = (wn, .finished) ∧
    main .negra false minPick (plain .simple) ⟨Negra.lines (textOf wn), []⟩ none =
      ((bs : List Str).map fun s => .text (s ++ ['\n']), .finished) := by
  obtain ⟨t, h1, h2⟩ := onlyItem_spec (f := .simple) (multiline := false) (src := ⟨["(S (A (B a) (B b)))".toList], []⟩)
    (test := fun t => Negra.exportB t && (Negra.featOf (Negra.rootFeatures t) "sentence_id".toList).isNone &&
      (Negra.featOf (Negra.rootFeatures t) "metadata".toList).isNone && t.isProjective) (by decide +kernel)
  simp only [Bool.and_eq_true, Option.isNone_iff_eq_none] at h2
  obtain ⟨wn, bs, k1, _, k2⟩ := C73_any_root .simple .simple false false minPick minPick _ [] [t] h1
    (C73_numbered [t] (by simpa using ⟨Negra.export_of_check h2.1.1.1, h2.1.1.2, h2.1.2⟩) (by simp)) (by simpa using h2.2)
  exact ⟨wn, bs, k1, k2⟩

end Props
end Lumberjack
