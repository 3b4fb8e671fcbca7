import Verif.Proofs.IoCut
import Verif.Proofs.Check
import Verif.Props.Convert
import Verif.Props.Truncate

/-!
# C68, C70, C71: bytes, input that cannot be read and output that cannot be written
-/

namespace Lumberjack
namespace Props

open Lumberjack.Tree Lumberjack.Convert Lumberjack.Bracketed Lumberjack.Io

/-! ## Input that cannot be read -/

/-- C70: every input, with unreadable lines or not, gives exactly one sequence of items. -/
theorem C70_items (f : InFormat) (m : Bool) (inp : Input) :
    ∃ items b, StreamIo f m inp items b ∧ ∀ items' b', StreamIo f m inp items' b' → items' = items ∧ b' = b := by
  obtain ⟨items, b, h⟩ := streamIo_exists f m inp
  exact ⟨items, b, h, fun _ _ h' => streamIo_unique h h'⟩

/-- C70: if all lines can be read, the items are those the other properties are about. -/
theorem C70_readable (f : InFormat) (m : Bool) (ls : List Str) (ss : List (Option (List Conllx.Token)))
    (items : List (Except Err Tree)) (b : Bool) :
    StreamIo f m ⟨ls.map .ok, ss⟩ items b ↔ Stream f m ⟨ls, ss⟩ items b := by
  constructor
  · intro h
    obtain ⟨items', b', g, -⟩ := C57_items f m ⟨ls, ss⟩
    obtain ⟨rfl, rfl⟩ := streamIo_unique h (streamIo_readable g)
    exact g
  · exact fun h => streamIo_readable h

/-- C70: a line that cannot be read is one error. What is before it is read as if the input ended there, what is
after it as if the input began there: an unfinished sentence before the line is dropped. -/
theorem C70_separates (f : InFormat) (hf : f.ByLines) (m : Bool) (ls : List Str) (rest : List (Except Err Str)) (e : Err)
    (ss : List (Option (List Conllx.Token))) (items items' : List (Except Err Tree)) (b' : Bool)
    (h : Stream f m ⟨ls, ss⟩ items true) (h' : StreamIo f m ⟨rest, ss⟩ items' b') :
    StreamIo f m ⟨ls.map .ok ++ .error e :: rest, ss⟩ (items ++ .error e :: items') b' :=
  (streamIo_error hf h e rest).2 rfl items' b' h'

/-- C70: if the reader panics before it gets to the line, nothing changes. -/
theorem C70_panic (f : InFormat) (hf : f.ByLines) (m : Bool) (ls : List Str) (rest : List (Except Err Str)) (e : Err)
    (ss : List (Option (List Conllx.Token))) (items : List (Except Err Tree)) (h : Stream f m ⟨ls, ss⟩ items false) :
    StreamIo f m ⟨ls.map .ok ++ .error e :: rest, ss⟩ items false :=
  (streamIo_error hf h e rest).1 rfl

/-- C70: the tool writes what it writes for the lines before the first one that cannot be read; if it gets there, it
exits with the error. -/
theorem C70_output (render : List Conllx.Token → Str) (f : InFormat) (hf : f.ByLines) (m : Bool)
    (pick : Tree → Finset Nat → Option Nat) (o : Options) (ls : List Str) (rest : List (Except Err Str)) (e : Err)
    (ss : List (Option (List Conllx.Token))) (pos : Option (List PosItem)) (room : Option Nat) :
    mainIo render f m pick o ⟨ls.map .ok ++ .error e :: rest, ss⟩ pos room =
      ((mainIo render f m pick o ⟨ls.map .ok, ss⟩ pos room).1,
        if (mainIo render f m pick o ⟨ls.map .ok, ss⟩ pos room).2 = .finished then .exited e
        else (mainIo render f m pick o ⟨ls.map .ok, ss⟩ pos room).2) := by
  have h := main_stop render m pick o hf e rest ⟨ls, ss⟩ pos room
  simpa only [Source.input, List.append_nil] using h

/-- C70: the lines of a file of bytes. A line is decoded by itself, ... -/
theorem C70_byte_lines (x rest : Bytes) (h : (10 : UInt8) ∉ x) :
    byteLines (x ++ 10 :: rest) = (decode x).map Negra.stripCr :: byteLines rest ∧
    byteLines x = if x = [] then [] else [decode x] := by
  unfold byteLines
  exact ⟨by rw [byteLinesFrom_line h, List.nil_append], by rw [byteLinesFrom_last h, List.nil_append]⟩

/-- C70: ... it is read as `s` exactly if it is `s` in UTF-8, ... -/
theorem C70_decode (x : Bytes) (s : Str) : decode x = .ok s ↔ encode s = x := decode_ok

/-- C70: ... so from a text in UTF-8 the lines of the text are read. -/
theorem C70_text (text : Str) : byteLines (encode text) = (Negra.lines text).map .ok := byteLines_encode text

/-! ## Output that cannot be written -/

/-- C71: if everything can be read and written, the bytes of the output are those of the outputs the other properties
are about, and the run ends in the same way. Only a panic of the NEGRA writer leaves an incomplete record behind them. -/
theorem C71_bytes (render : List Conllx.Token → Str) (f : InFormat) (m : Bool) (pick : Tree → Finset Nat → Option Nat)
    (o : Options) (src : Source) (pos : Option (List PosItem)) :
    let r := mainIo render f m pick o ⟨src.lines.map .ok, src.sentences⟩ pos none
    r.2 = (main f m pick o src pos).2 ∧ outputBytes render (main f m pick o src pos).1 <+: r.1 ∧
      (r.1 ≠ outputBytes render (main f m pick o src pos).1 → o.out = .negra ∧ (r.2 = .panicked ∨ r.2 = .diverged)) := by
  obtain ⟨extra, h1, h2⟩ := main_io render f m pick o (more := []) (.inr rfl) src pos
  have e : (⟨src.lines.map .ok, src.sentences⟩ : Input) = src.input [] := by simp [Source.input]
  have h3 : (if (main f m pick o src pos).2 = .finished then stopEnd [] else (main f m pick o src pos).2) =
      (main f m pick o src pos).2 := by
    split
    · next h => exact h.symm
    · rfl
  rw [h3] at h1
  intro r
  have hr : r = (outputBytes render (main f m pick o src pos).1 ++ extra, (main f m pick o src pos).2) := by
    show mainIo _ _ _ _ _ _ _ _ = _
    rw [e, h1]
  rw [hr]
  refine ⟨rfl, List.prefix_append _ _, fun hne => h2 ?_⟩
  rintro rfl
  exact hne (List.append_nil _)

/-- C71: a tree that is a single word leaves the header and the first columns of its line in a NEGRA file. -/
theorem C71_incomplete :
    let r := mainIo (fun _ => []) .absolute false minPick (plain .negra) ⟨[], [some [tagged "a" "abs_ancestor:NONE"]]⟩ none none
    r.2 = .panicked ∧ encode "#BOS 0\na  ".toList <+: r.1 ∧ r.1.length = 111 := by
  decide +kernel

/-- C71: an output that takes only `n` bytes gets the first `n` bytes of the whole output. The tool exits with an error
exactly if this is not all of it; otherwise nothing changes. -/
theorem C71_room (render : List Conllx.Token → Str) (f : InFormat) (m : Bool) (pick : Tree → Finset Nat → Option Nat)
    (o : Options) (inp : Input) (pos : Option (List PosItem)) (n : Nat) :
    let all := mainIo render f m pick o inp pos none
    mainIo render f m pick o inp pos (some n) = (all.1.take n, if n < all.1.length then .exited (.parse 43) else all.2) := by
  intro all
  show loopIo _ _ _ _ _ _ _ _ _ _ = _
  rw [loop_room]
  show (if all.1.length ≤ n then all else (all.1.take n, _)) = _
  by_cases h : all.1.length ≤ n
  · rw [if_pos h, if_neg (by omega), List.take_of_length_le h]
  · rw [if_neg h, if_pos (by omega)]

/-! ## Files of bytes that were cut -/

/-- C68: NEGRA files cut at any byte, also within a character. -/
theorem C68_negra_bytes (m : Bool) (ss : List (Option (List Conllx.Token))) (text : Str) (p : Bytes) (ts : List Tree)
    (fuel : Nat) (h : Negra.readAll fuel (Negra.lines text) = .ok (ts.map .ok)) (hp : p <+: encode text) :
    ∃ k tail, k ≤ ts.length ∧ StreamIo .negra m ⟨byteLines p, ss⟩ ((ts.take k).map .ok ++ tail) true ∧
      (tail = [] ∨ ∃ e, tail = [.error e]) := by
  rcases byteLines_cut hp with ⟨q, hq, -, hl⟩ | ⟨u, v, c, r, e, g1, g2, g3, -, g4, g5, hl⟩
  · obtain ⟨k, tail, h1, h2, h3⟩ := C68_negra text q ts fuel h hq
    exact ⟨k, tail, h1, by rw [hl]; exact (C70_readable _ _ _ _ _ _).2 (negra_stream m _ _ ss _ h2).1, h3⟩
  · obtain ⟨d, hd⟩ := g1
    obtain ⟨k, k0, -, k1⟩ := stream_cut (f := .negra) (m := m) (ss := ss) (more := v ++ c :: d) ⟨nofun, nofun⟩
      (negra_stream m _ _ ss _ h).1 g2 (by rw [← hd]; simp) e
    exact ⟨k, [.error e], k0, by rw [hl]; exact k1, .inr ⟨e, rfl⟩⟩

/-- C68: bracketed files with one tree per line cut at any byte. -/
theorem C68_single_line_bytes (f : Ptb.Format) (ss : List (Option (List Conllx.Token))) (text : Str) (p : Bytes)
    (ts : List Tree) (h : Ptb.readAll f .single ((Negra.lines text).length + 1) (Negra.lines text) = .ok (ts.map .ok))
    (hp : p <+: encode text) :
    ∃ k tail, k ≤ ts.length ∧ StreamIo (bracketInput f) false ⟨byteLines p, ss⟩ ((ts.take k).map .ok ++ tail) true ∧
      (tail = [] ∨ ∃ e, tail = [.error e]) := by
  rcases byteLines_cut hp with ⟨q, hq, -, hl⟩ | ⟨u, v, c, r, e, g1, g2, g3, -, g4, g5, hl⟩
  · obtain ⟨k, tail, h1, h2, h3⟩ := C68_single_line f text q ts h hq
    exact ⟨k, tail, h1, by rw [hl]; exact (C70_readable _ _ _ _ _ _).2 (ptb_stream' f false _ _ ss _ h2), h3⟩
  · obtain ⟨d, hd⟩ := g1
    obtain ⟨k, k0, -, k1⟩ := stream_cut (ss := ss) (more := v ++ c :: d) (bracket_lines f)
      (ptb_stream' f false _ _ ss _ h) g2 (by rw [← hd]; simp) e
    exact ⟨k, [.error e], k0, by rw [hl]; exact k1, .inr ⟨e, rfl⟩⟩

/-- C68: bracketed files with trees on several lines cut at any byte, if the brackets are closed at the end. -/
theorem C68_multi_line_bytes (f : Ptb.Format) (ss : List (Option (List Conllx.Token))) (text : Str) (p : Bytes)
    (texts : List Str) (ts : List Tree) (hW : Whole (Negra.lines text) texts)
    (h : List.Forall₂ (fun s t => Ptb.stringToTree f s = .ok (.ok t)) texts ts) (hp : p <+: encode text) :
    ∃ k tail, k ≤ ts.length ∧ StreamIo (bracketInput f) true ⟨byteLines p, ss⟩ ((ts.take k).map .ok ++ tail) true ∧
      (tail = [] ∨ ∃ e, tail = [.error e]) := by
  rcases byteLines_cut hp with ⟨q, hq, -, hl⟩ | ⟨u, v, c, r, e, g1, g2, g3, -, g4, g5, hl⟩
  · obtain ⟨-, k, tail, h1, h2, h3⟩ := C68_multi_line f text q texts ts hW h hq
    exact ⟨k, tail, h1, by rw [hl]; exact (C70_readable _ _ _ _ _ _).2 (ptb_stream' f true _ _ ss _ h2), h3⟩
  · obtain ⟨d, hd⟩ := g1
    obtain ⟨h0, -⟩ := C68_multi_line f text text texts ts hW h (List.prefix_refl _)
    obtain ⟨k, k0, -, k1⟩ := stream_cut (ss := ss) (more := v ++ c :: d) (bracket_lines f)
      (ptb_stream' f true _ _ ss _ h0) g2 (by rw [← hd]; simp) e
    exact ⟨k, [.error e], k0, by rw [hl]; exact k1, .inr ⟨e, rfl⟩⟩

/-- C68: writing of a NEGRA file interrupted at any byte (see `C68_interrupted_negra`). -/
theorem C68_interrupted_negra_bytes (m : Bool) (ss : List (Option (List Conllx.Token))) (ts : List Tree) (ids : Nat → Nat)
    (infos : Nat → Option Str) (counter : Nat)
    (H : ∀ (i : Nat) (t : Tree), ts[i]? = some t → Negra.Exportable t ∧ Negra.Head t (counter + ((ts.take i).filter
      fun u => (Negra.featOf (Negra.rootFeatures u) "sentence_id".toList).isNone).length) (ids i) (infos i)) :
    ∃ ts' : List Tree, ts'.length = ts.length ∧
      (∀ (i : Nat) (t t' : Tree), ts[i]? = some t → ts'[i]? = some t' → ∃ φ, Negra.Copy (ids i) (infos i) t t' φ) ∧
      ∀ i, i < ts.length → ∃ pre full, Negra.writeTrees counter (ts.take i) = .ok pre ∧
        Negra.writeTrees counter (ts.take (i + 1)) = .ok full ∧ encode pre <+: encode full ∧
        ∀ p, encode pre <+: p → p <+: encode full →
        if (encode full).length ≤ p.length + 2 then
          StreamIo .negra m ⟨byteLines p, ss⟩ ((ts'.take (i + 1)).map .ok) true
        else ∃ tail, StreamIo .negra m ⟨byteLines p, ss⟩ ((ts'.take i).map .ok ++ tail) true ∧
          (tail = [] ∨ ∃ e, tail = [.error e]) := by
  obtain ⟨bs, ts', h1, h2, h3, h4⟩ := Negra.written_blocks ts ids infos counter H
  refine ⟨ts', h2, h4, fun i hi => ⟨_, _, h3 i, h3 (i + 1), ?_, fun p hp hp' => ?_⟩⟩
  · have hb : i < bs.length := by rw [h1.length_eq, h2]; exact hi
    rw [List.take_add_one, List.getElem?_eq_getElem hb, Option.toList_some, Negra.unlines_flat, encode_append]
    exact List.prefix_append _ _
  · obtain ⟨tail, g1, g2⟩ := Negra.file_cut_bytes m ss h1 (by rw [h1.length_eq, h2]; exact hi) hp hp'
    split
    · next hl =>
      rw [if_pos hl] at g2
      obtain ⟨t', e1, rfl⟩ := g2
      rw [List.take_add_one, e1]
      simpa using g1
    · next hl =>
      rw [if_neg hl] at g2
      exact ⟨tail, g1, g2⟩

/-- C68: writing of a bracketed file interrupted at any byte. -/
theorem C68_interrupted_brackets_bytes (f : Ptb.Format) (m : Bool) (ss : List (Option (List Conllx.Token))) (ts : List Tree)
    (H : ∀ t ∈ ts, t.WF ∧ t.isProjective = true ∧ t.Writable f) :
    ∃ (ls : List Str) (ts' : List Tree), List.Forall₂ (fun t s => Ptb.treeToString f t = .ok (.ok s)) ts ls ∧
      List.Forall₂ (fun t t' => ∀ F, t.Is F → t'.Is (F.written f)) ts ts' ∧
      ∀ i s part, ls[i]? = some s → part <+: encode s → ∃ tail : List (Except Err Tree),
        StreamIo (bracketInput f) m ⟨byteLines (encode ((ls.take i).flatMap (· ++ ['\n'])) ++ part), ss⟩
          ((ts'.take i).map .ok ++ tail) true ∧
        (part = encode s → ∃ t, ts'[i]? = some t ∧ tail = [.ok t]) ∧
        (part ≠ encode s → tail = [] ∨ ∃ e, tail = [.error e]) := by
  obtain ⟨ls, ts', h1, h2, h3, h4⟩ := Ptb.written_pieces H
  exact ⟨ls, ts', h1, h4, fun i s part hi hp => Ptb.pieces_cut_bytes m ss h2 h3 hi hp⟩

/-- C71: so if the whole output is a text from which trees are read without errors, then the output that gets to a
device with too little room has the first of these trees and after them at most one error. -/
theorem C71_recovered (render : List Conllx.Token → Str) (f : InFormat) (m : Bool) (pick : Tree → Finset Nat → Option Nat)
    (o : Options) (inp : Input) (pos : Option (List PosItem)) (n : Nat) (text : Str) (ts : List Tree)
    (hall : (mainIo render f m pick o inp pos none).1 = encode text) (ss : List (Option (List Conllx.Token))) :
    (∀ m', Stream .negra m' ⟨Negra.lines text, ss⟩ (ts.map .ok) true → ∃ k tail, k ≤ ts.length ∧
      StreamIo .negra m' ⟨byteLines (mainIo render f m pick o inp pos (some n)).1, ss⟩ ((ts.take k).map .ok ++ tail) true ∧
      (tail = [] ∨ ∃ e, tail = [.error e])) ∧
    ∀ g, Stream (bracketInput g) false ⟨Negra.lines text, ss⟩ (ts.map .ok) true → ∃ k tail, k ≤ ts.length ∧
      StreamIo (bracketInput g) false ⟨byteLines (mainIo render f m pick o inp pos (some n)).1, ss⟩
        ((ts.take k).map .ok ++ tail) true ∧ (tail = [] ∨ ∃ e, tail = [.error e]) := by
  have hp : (mainIo render f m pick o inp pos (some n)).1 <+: encode text := by
    rw [C71_room, ← hall]
    exact List.take_prefix _ _
  constructor
  · intro m' h
    obtain ⟨fuel, hr⟩ := negra_readAll h rfl
    exact C68_negra_bytes m' ss text _ ts fuel hr hp
  · intro g h
    obtain ⟨items, h1, -⟩ := Ptb.readAll_single g ((Negra.lines text).length + 1) (Negra.lines text) (by omega)
    have := ((ptb_stream' g false _ _ ss _ h1).unique h).1
    subst this
    exact C68_single_line_bytes g ss text _ ts h1 hp

/-! ## The hypotheses are met -/

/-- C70: a sentence of NEGRA after which a line with a byte that is not UTF-8 interrupts another. -/
example : ∃ t, StreamIo .negra false ⟨gapFile.lines.map .ok ++ ["#BOS 2".toList].map .ok ++ .error (.parse 42) ::
    gapFile.lines.map .ok, []⟩ [.ok t, .error (.parse 42), .ok t] true := by
  obtain ⟨t, h1, -⟩ := onlyItem_spec (f := .negra) (multiline := false) (src := gapFile) (test := fun _ => true)
    (by decide +kernel)
  obtain ⟨t2, h2, -⟩ := onlyItem_spec (f := .negra) (multiline := false) (src := ⟨gapFile.lines ++ ["#BOS 2".toList], []⟩)
    (test := fun _ => true) (by decide +kernel)
  have e : t2 = t := by
    have := (C68_more_input .negra false gapFile ⟨["#BOS 2".toList], []⟩ _ _ _ _ h1 h2).1
    simpa [eq_comm] using this
  subst e
  have := C70_separates .negra ⟨nofun, nofun⟩ false (gapFile.lines ++ ["#BOS 2".toList]) (gapFile.lines.map .ok) (.parse 42) []
    _ _ _ h2 (streamIo_readable h1)
  refine ⟨t2, ?_⟩
  rw [← List.map_append]
  exact this

/-- C70: `a`, a byte that never occurs in UTF-8, and `ä`. -/
example : byteLines [97, 13, 10, 255, 10, 195, 164] = [.ok ['a'], .error (.parse 42), .ok ['ä']] := by decide +kernel

/-- C71: an output that takes twenty bytes. -/
example : mainIo (fun _ => []) .simple false minPick (plain .simple)
    ⟨["(S (D a) (N b))".toList, "(S (D c) (N d))".toList].map .ok, []⟩ none (some 20) =
    (encode "(S (D a) (N b))\n(S (".toList, .exited (.parse 43)) := by decide +kernel

end Props
end Lumberjack
