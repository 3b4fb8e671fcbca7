import Verif.Proofs.TruncateWritten
import Verif.Proofs.LineEnds
import Verif.Proofs.Check
import Verif.Props.Bracket
import Verif.Props.NegraTrip
import Verif.Spec.Examples

/-!
# C68, C69: input that arrives in parts, files that were cut, line endings
-/

namespace Lumberjack
namespace Props

open Lumberjack.Tree Lumberjack.Convert Lumberjack.Bracketed

/-! ## More input -/

/-- C68: more input after what has been read does not change the items that were read, in any format; a reader that
crashed crashes at the same place. -/
theorem C68_more_input (f : InFormat) (m : Bool) (src more : Source) (items items' : List (Except Err Tree)) (b b' : Bool)
    (h : Stream f m src items b) (h' : Stream f m (src.followedBy more) items' b') :
    items <+: items' ∧ (b = false → items' = items ∧ b' = false) := by
  obtain ⟨h1, h2⟩ := stream_grows h more
  refine ⟨h2 _ _ h', fun hb => ?_⟩
  have hc := h1 hb
  have : ∀ {s i i' c c'}, Stream f m s i c → Stream f m s i' c' → i' = i ∧ c' = c := by
    intro s i i' c c' g
    induction g generalizing i' c' with
    | stop e => intro g'; cases g' with
      | stop => exact ⟨rfl, rfl⟩
      | crash e' => rw [e] at e'; cases e'
      | item e' => rw [e] at e'; cases e'
    | crash e => intro g'; cases g' with
      | stop e' => rw [e] at e'; cases e'
      | crash => exact ⟨rfl, rfl⟩
      | item e' => rw [e] at e'; cases e'
    | item e _ ih => intro g'; cases g' with
      | stop e' => rw [e] at e'; cases e'
      | crash e' => rw [e] at e'; cases e'
      | item e' g' =>
        rw [e] at e'
        cases e'
        obtain ⟨rfl, rfl⟩ := ih g'
        exact ⟨rfl, rfl⟩
  exact this hc h'

/-- C68: what the conversion tool has written for the beginning of the input it also writes, first, for the whole
input; if it stopped early, with an error or a panic, then the rest of the input makes no difference. -/
theorem C68_more_output (f : InFormat) (m : Bool) (pick : Tree → Finset Nat → Option Nat) (o : Options)
    (src more : Source) (pos : Option (List PosItem)) :
    (main f m pick o src pos).1 <+: (main f m pick o (src.followedBy more) pos).1 ∧
      ((main f m pick o src pos).2 ≠ .finished →
        main f m pick o (src.followedBy more) pos = main f m pick o src pos) :=
  main_grows f m pick o src more pos

/-- C68: text after a line feed only adds lines. -/
theorem C68_whole_lines (q r : Str) : Negra.lines (q ++ '\n' :: r) = Negra.lines (q ++ ['\n']) ++ Negra.lines r :=
  Negra.lines_newline q r

/-! ## The beginning of a file -/

/-- C68: if a NEGRA file is read without errors, then from every beginning of it, cut at any character, the first
trees are read, and after them at most one error, at the end. No other tree, and no panic. -/
theorem C68_negra (text p : Str) (ts : List Tree) (fuel : Nat)
    (h : Negra.readAll fuel (Negra.lines text) = .ok (ts.map .ok)) (hp : p <+: text) :
    ∃ k tail, k ≤ ts.length ∧
      Negra.readAll ((Negra.lines p).length + 1) (Negra.lines p) = .ok ((ts.take k).map .ok ++ tail) ∧
      (tail = [] ∨ ∃ e, tail = [.error e]) := by
  obtain ⟨k, tail, h1, h2, h3⟩ := Negra.readAll_prefix h hp
  exact ⟨k, tail, h1, h2 _ (by omega), h3⟩

/-- C68: the same for a bracketed file with one tree per line. -/
theorem C68_single_line (f : Ptb.Format) (text p : Str) (ts : List Tree)
    (h : Ptb.readAll f .single ((Negra.lines text).length + 1) (Negra.lines text) = .ok (ts.map .ok)) (hp : p <+: text) :
    ∃ k tail, k ≤ ts.length ∧
      Ptb.readAll f .single ((Negra.lines p).length + 1) (Negra.lines p) = .ok ((ts.take k).map .ok ++ tail) ∧
      (tail = [] ∨ ∃ e, tail = [.error e]) := by
  obtain ⟨k, tail, h1, h2, h3⟩ := Ptb.readAll_single_prefix (by omega) h hp
  exact ⟨k, tail, h1, h2 _ (by omega), h3⟩

/-- C68: the same for a bracketed file with trees on several lines, if its brackets are closed at the end. -/
theorem C68_multi_line (f : Ptb.Format) (text p : Str) (texts : List Str) (ts : List Tree)
    (hW : Whole (Negra.lines text) texts) (h : List.Forall₂ (fun s t => Ptb.stringToTree f s = .ok (.ok t)) texts ts)
    (hp : p <+: text) :
    Ptb.readAll f .multi ((Negra.lines text).length + 1) (Negra.lines text) = .ok (ts.map .ok) ∧
    ∃ k tail, k ≤ ts.length ∧
      Ptb.readAll f .multi ((Negra.lines p).length + 1) (Negra.lines p) = .ok ((ts.take k).map .ok ++ tail) ∧
      (tail = [] ∨ ∃ e, tail = [.error e]) := by
  constructor
  · obtain ⟨items, h1, h2⟩ := C47_multi_line f _ _ (Ptb.Whole.groups hW) ((Negra.lines text).length + 1) (by omega)
    rw [h1, Ptb.items_unique h2 (List.forall₂_map_right_iff.2 h)]
  · obtain ⟨k, tail, h1, h2, h3⟩ := Ptb.readAll_multi_prefix hW h hp
    exact ⟨k, tail, h1, h2 _ (by omega), h3⟩

/-- C68: it does not hold if the brackets of the file are not closed at the end: the beginning of a file can have a tree
that the file does not have, or make the reader panic. -/
theorem C68_unfinished (f : Ptb.Format) :
    Ptb.readAll f .multi 2 (Negra.lines "(A b)(".toList) = .ok [] ∧
    (∃ t, Ptb.readAll f .multi 2 (Negra.lines "(A b)".toList) = .ok [.ok t]) ∧
    Ptb.readAll f .multi 2 (Negra.lines "(A b))((".toList) = .ok [] ∧
    Ptb.readAll f .multi 2 (Negra.lines "(A b))".toList) = .panic := by
  refine ⟨?_, ?_, ?_, ?_⟩
  · cases f <;> decide +kernel
  · have key : ∀ r, (match r with | .ok [.ok _] => true | _ => false) = true →
        ∃ t, r = (Res.ok [Except.ok t] : Res (List (Except Err Tree))) := by
      intro r hr
      split at hr
      · exact ⟨_, rfl⟩
      · cases hr
    apply key
    cases f <;> decide +kernel
  · cases f <;> decide +kernel
  · cases f <;> decide +kernel

/-- C68: the beginning of a bracketing is not a bracketing, except for white space at the end. -/
theorem C68_bracketing (f : Ptb.Format) (q s : Str) (t t' : Tree) (hq : q <+: s)
    (h : Ptb.stringToTree f q = .ok (.ok t)) (h' : Ptb.stringToTree f s = .ok (.ok t')) :
    t = t' ∧ ∃ d, Space d ∧ s = q ++ d :=
  Ptb.parsed_prefix hq h h'

/-! ## Output that was interrupted -/

/-- C68: a NEGRA file that was being written when the program stopped. The text `p` has the sentences before position
`i` and some of the sentence at that position. The trees before it are read, all of them, as copies of those
written; the tree itself is read exactly if nothing but line feeds at the end is missing, and otherwise there is no
other tree, and at most one error. -/
theorem C68_interrupted_negra (ts : List Tree) (ids : Nat → Nat) (infos : Nat → Option Str) (counter : Nat)
    (H : ∀ (i : Nat) (t : Tree), ts[i]? = some t → Negra.Exportable t ∧ Negra.Head t (counter + ((ts.take i).filter
      fun u => (Negra.featOf (Negra.rootFeatures u) "sentence_id".toList).isNone).length) (ids i) (infos i)) :
    ∃ ts' : List Tree, ts'.length = ts.length ∧
      (∀ (i : Nat) (t t' : Tree), ts[i]? = some t → ts'[i]? = some t' → ∃ φ, Negra.Copy (ids i) (infos i) t t' φ) ∧
      ∀ i, i < ts.length → ∃ pre full, Negra.writeTrees counter (ts.take i) = .ok pre ∧
        Negra.writeTrees counter (ts.take (i + 1)) = .ok full ∧ pre <+: full ∧ ∀ p, pre <+: p → p <+: full →
        if full.length ≤ p.length + 2 then
          Negra.readAll ((Negra.lines p).length + 1) (Negra.lines p) = .ok ((ts'.take (i + 1)).map .ok)
        else ∃ tail, Negra.readAll ((Negra.lines p).length + 1) (Negra.lines p) = .ok ((ts'.take i).map .ok ++ tail) ∧
          (tail = [] ∨ ∃ e, tail = [.error e]) := by
  obtain ⟨bs, ts', h1, h2, h3, h4⟩ := Negra.written_blocks ts ids infos counter H
  refine ⟨ts', h2, h4, fun i hi => ⟨_, _, h3 i, h3 (i + 1), ?_, fun p hp hp' => ?_⟩⟩
  · have hb : i < bs.length := by rw [h1.length_eq, h2]; exact hi
    rw [List.take_add_one, List.getElem?_eq_getElem hb, Option.toList_some, Negra.unlines_flat]
    exact List.prefix_append _ _
  · obtain ⟨tail, g1, g2⟩ := Negra.file_cut h1 (by rw [h1.length_eq, h2]; exact hi) hp hp'
    split
    · next hl =>
      rw [if_pos hl] at g2
      obtain ⟨t', e1, rfl⟩ := g2
      rw [g1 _ (by omega), List.take_add_one, e1]
      simp
    · next hl =>
      rw [if_neg hl] at g2
      exact ⟨tail, g1 _ (by omega), g2⟩

/-- C68: a bracketed file that was being written when the program stopped: the lines of the trees before position `i`
and some of the line of the tree at that position. The trees before it are read; the tree itself is read exactly if
its text is complete, and otherwise there is one error if the reader takes single lines and there is any text, and
nothing if it looks for closed brackets. -/
theorem C68_interrupted_brackets (f : Ptb.Format) (m : Bool) (ts : List Tree)
    (H : ∀ t ∈ ts, t.WF ∧ t.isProjective = true ∧ t.Writable f) :
    ∃ (ls : List Str) (ts' : List Tree), List.Forall₂ (fun t s => Ptb.treeToString f t = .ok (.ok s)) ts ls ∧
      List.Forall₂ (fun t t' => ∀ F, t.Is F → t'.Is (F.written f)) ts ts' ∧
      ∀ i s part, ls[i]? = some s → part <+: s → ∃ tail : List (Except Err Tree),
        Ptb.readAll f (if m then .multi else .single)
          ((Negra.lines ((ls.take i).flatMap (· ++ ['\n']) ++ part)).length + 1)
          (Negra.lines ((ls.take i).flatMap (· ++ ['\n']) ++ part)) = .ok ((ts'.take i).map .ok ++ tail) ∧
        (part = s → ∃ t, ts'[i]? = some t ∧ tail = [.ok t]) ∧
        (part ≠ s → m = true ∨ part = [] → tail = []) ∧
        (part ≠ s → m = false ∧ part ≠ [] → ∃ e, tail = [.error e]) := by
  obtain ⟨ls, ts', h1, h2, h3, h4⟩ := Ptb.written_pieces H
  refine ⟨ls, ts', h1, h4, fun i s part hi hp => ?_⟩
  obtain ⟨tail, g1, g2⟩ := Ptb.pieces_cut m h2 h3 hi hp
  exact ⟨tail, g1 _ (Nat.lt_succ_self _), g2⟩

/-! ## Line endings -/

/-- C69: the lines of a text are what stands before the line endings, be these a line feed or a carriage return and a
line feed, in any mixture, and the rest of the text if there is any. -/
theorem C69_lines (ls : List (Str × Str)) (last : Str) (h : ∀ x ∈ ls, EndedLine x.1 x.2) (hl : '\n' ∉ last) :
    Negra.lines (endedText ls ++ last) = ls.map (·.1) ++ if last = [] then [] else [last] :=
  Negra.lines_ended h last hl

/-- C69: every text has this form. -/
theorem C69_every_text (text : Str) :
    ∃ ls last, text = endedText ls ++ last ∧ (∀ x ∈ ls, EndedLine x.1 x.2) ∧ '\n' ∉ last :=
  Negra.ended_exists text

/-- C69: two texts with the same lines, but different line endings, with or without one at the end of the file, are
converted to the same output. -/
theorem C69_same_output (f : InFormat) (m : Bool) (pick : Tree → Finset Nat → Option Nat) (o : Options)
    (ss : List (Option (List Conllx.Token))) (pos : Option (List PosItem)) (lines : List Str) (last : Str)
    (es es' : List Str) (e : Str) (h : List.Forall₂ EndedLine lines es) (h' : List.Forall₂ EndedLine lines es')
    (hl : EndedLine last e) (hn : last ≠ []) :
    let text := endedText (lines.zip es) ++ last ++ e
    let text' := endedText (lines.zip es') ++ last
    main f m pick o ⟨Negra.lines text, ss⟩ pos = main f m pick o ⟨Negra.lines text', ss⟩ pos := by
  have hz : ∀ {es : List Str}, List.Forall₂ EndedLine lines es →
      (∀ x ∈ lines.zip es, EndedLine x.1 x.2) ∧ (lines.zip es).map (·.1) = lines := by
    intro es hf
    clear h h'
    induction hf with
    | nil => simp
    | cons g _ ih =>
      refine ⟨fun x hx => ?_, by simp [ih.2]⟩
      rw [List.zip_cons_cons] at hx
      rcases List.mem_cons.1 hx with rfl | hx
      · exact g
      · exact ih.1 x hx
  have e1 : Negra.lines (endedText (lines.zip es') ++ last) = lines ++ [last] := by
    rw [C69_lines _ _ (hz h').1 hl.one, if_neg hn, (hz h').2]
  have e2 : Negra.lines (endedText (lines.zip es) ++ last ++ e) = lines ++ [last] := by
    have := C69_lines (lines.zip es ++ [(last, e)]) [] (by
      intro x hx
      rcases List.mem_append.1 hx with hx | hx
      · exact (hz h).1 x hx
      · rw [List.mem_singleton.1 hx]; exact hl) (by simp)
    rw [if_pos rfl, List.map_append, (hz h).2] at this
    simpa [endedText] using this
  show main f m pick o ⟨Negra.lines (endedText (lines.zip es) ++ last ++ e), ss⟩ pos =
    main f m pick o ⟨Negra.lines (endedText (lines.zip es') ++ last), ss⟩ pos
  rw [e1, e2]

/-! ## The hypotheses are met -/

/-- C68: two sentences of NEGRA. -/
example : ∃ ts' : List Tree, ts'.length = 2 ∧
    ∀ i, i < 2 → ∃ pre full, Negra.writeTrees 0 ([sample, sample].take i) = .ok pre ∧
      Negra.writeTrees 0 ([sample, sample].take (i + 1)) = .ok full ∧ pre <+: full ∧ ∀ p, pre <+: p → p <+: full →
      if full.length ≤ p.length + 2 then
        Negra.readAll ((Negra.lines p).length + 1) (Negra.lines p) = .ok ((ts'.take (i + 1)).map .ok)
      else ∃ tail, Negra.readAll ((Negra.lines p).length + 1) (Negra.lines p) = .ok ((ts'.take i).map .ok ++ tail) ∧
        (tail = [] ∨ ∃ e, tail = [.error e]) := by
  have hid : (Negra.featOf (Negra.rootFeatures sample) "sentence_id".toList).isNone = false := by decide +kernel
  obtain ⟨ts', h1, -, h2⟩ := C68_interrupted_negra [sample, sample] (fun _ => 17) (fun _ => some "u v".toList) 0 (by
    intro i t ht
    have : t = sample := by
      match i, ht with
      | 0, ht => simpa using ht.symm
      | 1, ht => simpa using ht.symm
      | i + 2, ht => simp at ht
    subst this
    refine ⟨sample_exportable, ?_⟩
    have hz : (([sample, sample].take i).filter fun u => (Negra.featOf (Negra.rootFeatures u) "sentence_id".toList).isNone) = [] := by
      rw [List.filter_eq_nil_iff]
      intro u hu
      have := List.mem_of_mem_take hu
      simp only [List.mem_cons, List.not_mem_nil, or_false, or_self] at this
      rw [this, hid]; decide
    rw [hz]
    exact sample_head)
  exact ⟨ts', h1, h2⟩

/-- C68: a projective tree that can be written. -/
example (m : Bool) : ∃ (ls : List Str) (ts' : List Tree),
    List.Forall₂ (fun t s => Ptb.treeToString .simple t = .ok (.ok s)) [Examples.proj, Examples.proj] ls ∧
    ∀ i s part, ls[i]? = some s → part <+: s → ∃ tail : List (Except Err Tree),
      Ptb.readAll .simple (if m then .multi else .single)
        ((Negra.lines ((ls.take i).flatMap (· ++ ['\n']) ++ part)).length + 1)
        (Negra.lines ((ls.take i).flatMap (· ++ ['\n']) ++ part)) = .ok ((ts'.take i).map .ok ++ tail) := by
  obtain ⟨ls, ts', h1, -, h2⟩ := C68_interrupted_brackets .simple m [Examples.proj, Examples.proj] (by
    intro t ht
    have : t = Examples.proj := by simpa using ht
    subst this
    refine ⟨wf_of_check (by decide +kernel), by decide, ⟨fun n x h => ?_, fun n x h => ?_, fun n => ?_⟩⟩
    · have := proj_plain_term n x h
      rw [Ptb.escape_word this.1, Ptb.escape_word this.2.1]
      exact ⟨this.2.1, this.1⟩
    · have := proj_plain_nt n x h
      exact ⟨this.1, trivial⟩
    · rw [proj_plain_edge n]; trivial)
  exact ⟨ls, ts', h1, fun i s part hi hp => (h2 i s part hi hp).imp fun _ h => h.1⟩

/-- C68: a file with a comment and a tree on two lines, cut in the tree. -/
example : ∃ texts, Whole (Negra.lines "%c\n(S\n(N a))\n".toList) texts ∧ texts = ["(S(N a))".toList] ∧
    "%c\n(S\n(N ".toList <+: "%c\n(S\n(N a))\n".toList := by
  refine ⟨_, ?_, rfl, by decide⟩
  have e : Negra.lines "%c\n(S\n(N a))\n".toList = ["%c".toList, "(S".toList, "(N a))".toList] := by decide +kernel
  rw [e]
  refine .skip (.inr rfl) (.group (g := ["(S".toList, "(N a))".toList]) (ls := [])
    ⟨⟨_, rfl, by unfold Skipped; decide⟩, ?_, by decide⟩ .nil)
  intro p hp h1 h2
  rcases prefix_pair hp with rfl | rfl | rfl
  · exact absurd rfl h1
  · unfold OpenEnd; decide
  · exact absurd rfl h2

/-- C69: a text with both line endings, a line that keeps a carriage return, and a last line without ending. -/
example : Negra.lines "a\r\nb\n\r\r\nc\r".toList = ["a".toList, "b".toList, "\r".toList, "c\r".toList] :=
  C69_lines [("a".toList, ['\r', '\n']), ("b".toList, ['\n']), ("\r".toList, ['\r', '\n'])] "c\r".toList (by
    intro x hx
    simp only [List.mem_cons, List.not_mem_nil, or_false] at hx
    rcases hx with rfl | rfl | rfl
    · exact ⟨by decide, .inl rfl⟩
    · exact ⟨by decide, .inr ⟨rfl, by decide⟩⟩
    · exact ⟨by decide, .inl rfl⟩) (by decide)

end Props
end Lumberjack
