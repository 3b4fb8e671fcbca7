import Verif.Proofs.TextNegra
import Verif.Props.Convert

/-!
# The words of the input and those of the output (C89)
-/

namespace Lumberjack
namespace Props

open Lumberjack.Tree Lumberjack.Convert Bracketed

/-- C89: the words in a bracketed text are those of its bracketings. -/
theorem C89_text (s : Str) (b : Brackets) (h : Reads s b) : wordsIn s = b.words := wordsIn_reads h

/-- C89: what is written for a tree holds its words, in this order. For the bracketed formats the labels must be free
of closing brackets and the words of white space; brackets in words are replaced. -/
theorem C89_items (pick : Tree → Finset Nat → Option Nat) (hpick : IsOrder pick) (f : InFormat) (multiline : Bool)
    (o : Options) (src : Source) (pos : Option (List PosItem)) (items : List (Except Err Tree)) (b : Bool)
    (h : Stream f multiline src items b) (hO : f = .negra → Orderly src.lines)
    (hE : ∀ t, .ok t ∈ items → Enough o t) (hl : o.insertionSet ≠ none → ')' ∉ o.insertionLabel)
    (i : Nat) (w : Written) (hw : (main f multiline pick o src pos).1[i]? = some w) :
    ∃ t ts, items[i]? = some (.ok t) ∧ t.Terminals ts ∧
      ((IsBracketed o.out → t.Texts (fun s => ')' ∉ s) ∧ ∀ x ∈ ts, Word (escape x.form)) →
        Says o.out w (ts.map fun x => shown o.out x.form)) := by
  obtain ⟨t, t', tags, c, c', g1, _, _, g2, g3, W, W', hsame⟩ :=
    (C57_written pick hpick f multiline o src pos items b h hO hE).2 i w hw
  obtain ⟨ts, ht, _⟩ := C52_terminals t W
  obtain ⟨ts', ht', _⟩ := C52_terminals t' W'
  have e := (hsame.terminals W ht ht').1
  refine ⟨t, ts, g1, ht, fun hb => ?_⟩
  have e2 : (ts.map fun x => shown o.out x.form) = ts'.map fun x => shown o.out x.form := by
    have := congrArg (List.map (shown o.out)) e
    simpa [Function.comp_def] using this.symm
  rw [e2]
  obtain ⟨items', b', h', _, hR⟩ := stream_exists f multiline src.size src (Nat.le_refl _)
  obtain ⟨rfl, rfl⟩ := h.unique h'
  have hm := List.mem_of_getElem? g1
  have S := (hR hO t hm).suits (hE t hm)
  refine output_says W' g3 ht' fun ho => ⟨pipeline_texts S g2 (hb ho).1 hl, fun y hy => ?_⟩
  have : y.form ∈ ts.map (·.form) := by rw [← e]; exact List.mem_map.2 ⟨y, hy, rfl⟩
  obtain ⟨x, hx, hxy⟩ := List.mem_map.1 this
  rw [← hxy]
  exact (hb ho).2 x hx

/-- C89: for bracketed input, the words in the text of a tree are those of what is written for it, whatever the
options and the formats. -/
theorem C89_brackets (pick : Tree → Finset Nat → Option Nat) (hpick : IsOrder pick) (f : Ptb.Format) (multiline : Bool)
    (o : Options) (src : Source) (pos : Option (List PosItem)) (texts : List Str)
    (hT : BracketTexts multiline src.lines texts) (hE : ∀ s ∈ texts, EnoughText o s)
    (hl : o.insertionSet ≠ none → ')' ∉ o.insertionLabel) (i : Nat) (w : Written)
    (hw : (main (bracketInput f) multiline pick o src pos).1[i]? = some w) :
    ∃ s, texts[i]? = some s ∧ Says o.out w (wordsIn s) := by
  obtain ⟨items, hS, hF⟩ : ∃ items, Stream (bracketInput f) multiline src items true ∧
      List.Forall₂ (fun s r => Ptb.stringToTree f s = .ok r) texts items := by
    rcases hT with ⟨rfl, rfl⟩ | ⟨rfl, h⟩
    · exact C57_single_line f src
    · exact C57_multi_line f src texts h
  rw [List.forall₂_iff_get] at hF
  have hO : bracketInput f = .negra → Orderly src.lines := by cases f <;> exact fun h => nomatch h
  have hE' : ∀ t, .ok t ∈ items → Enough o t := by
    intro t ht
    obtain ⟨j, hj, hjt⟩ := List.mem_iff_getElem.1 ht
    have hp := hF.2 j (by rw [hF.1]; exact hj) hj
    simp only [List.get_eq_getElem] at hp
    rw [hjt] at hp
    obtain ⟨ts, _, _, h3, _, _, h6⟩ := parsed hp
    rcases hE _ (List.getElem_mem (by rw [hF.1]; exact hj)) with h | ⟨h, h'⟩
    · left; rw [h3]; exact h
    · exact .inr ⟨h6 h, h'⟩
  obtain ⟨t, ts, h1, h2, h3⟩ := C89_items pick hpick _ multiline o src pos items true hS hO hE' hl i w hw
  obtain ⟨hi, hit⟩ := List.getElem?_eq_some_iff.1 h1
  have hi' : i < texts.length := by rw [hF.1]; exact hi
  refine ⟨texts[i], by simp [hi'], ?_⟩
  have hp := hF.2 i hi' hi
  simp only [List.get_eq_getElem] at hp
  rw [hit] at hp
  obtain ⟨us, u1, u2, _, u4, u5, _⟩ := parsed hp
  have W := (ptb_read hp).wf
  obtain rfl := Terminals.unique W u1 h2
  have := h3 fun _ => ⟨u5, fun x hx => (word_escape (u4 x hx)).1⟩
  have e : (us.map fun x => shown o.out x.form) = wordsIn texts[i] := by
    rw [← u2]
    refine List.map_congr_left fun x hx => ?_
    by_cases hb : IsBracketed o.out
    · rw [shown_escape hb, (word_escape (u4 x hx)).2]
    · rw [shown_eq hb]
  rw [e] at this
  exact this

/-- C89: for NEGRA input the words are the first columns of the lines of terminals of the corresponding sentence. -/
theorem C89_negra (pick : Tree → Finset Nat → Option Nat) (hpick : IsOrder pick) (multiline : Bool)
    (o : Options) (src : Source) (pos : Option (List PosItem)) (hO : Orderly src.lines)
    (hE : o.removeDummies = true ∨ o.reattachLabel ≠ none → Negra.EverySentence src.lines fun T _ => 2 ≤ T.length)
    (hC : IsBracketed o.out → Negra.EverySentence src.lines Negra.NoClosing)
    (hl : o.insertionSet ≠ none → ')' ∉ o.insertionLabel) :
    ∃ Ts, Negra.Sentences src.lines Ts ∧ ∀ (i : Nat) w, (main .negra multiline pick o src pos).1[i]? = some w →
      ∃ T N, Ts[i]? = some (T, N) ∧ Says o.out w (T.map fun r => shown o.out r.form) := by
  obtain ⟨items, b, hS, _⟩ := C57_items .negra multiline src
  obtain ⟨k1, Ts, k2, k3⟩ := Negra.stream_rows hS (Q := fun T N => (o.removeDummies = true ∨ o.reattachLabel ≠ none →
    2 ≤ T.length) ∧ (IsBracketed o.out → Negra.NoClosing T N)) hO
    fun pre hd body f rest id info T N a1 a2 a3 a4 => ⟨fun h => hE h pre hd body f rest id info T N a1 a2 a3 a4,
      fun h => hC h pre hd body f rest id info T N a1 a2 a3 a4⟩
  have hE' : ∀ t, .ok t ∈ items → Enough o t := by
    intro t ht
    obtain ⟨T, N, q, F⟩ := k1 t ht
    by_cases h : o.removeDummies = true ∨ o.reattachLabel ≠ none
    · exact .inl (by rw [F.size]; exact q.1 h)
    · simp only [not_or, Bool.not_eq_true, not_not] at h
      exact .inr ⟨F.root, h⟩
  refine ⟨Ts, k2, fun i w hw => ?_⟩
  have hall : ∀ j ≤ i, ∃ t, items[j]? = some (.ok t) := by
    intro j hj
    have hlt := (List.getElem?_eq_some_iff.1 hw).1
    obtain ⟨t, ts, h1, _⟩ := C89_items pick hpick _ multiline o src pos items b hS (fun _ => hO) hE' hl j _
      (List.getElem?_eq_getElem (Nat.lt_of_le_of_lt hj hlt))
    exact ⟨t, h1⟩
  obtain ⟨T, N, t', g1, g2, g3, F⟩ := k3 i hall
  obtain ⟨t, ts, h1, h2, h3⟩ := C89_items pick hpick _ multiline o src pos items b hS (fun _ => hO) hE' hl i w hw
  rw [g2] at h1
  simp only [Option.some.injEq, Except.ok.injEq] at h1
  subst h1
  obtain ⟨us, u1, u2⟩ := F.terminals
  have W : t'.WF := by
    obtain ⟨items', b', h', _, hR⟩ := stream_exists .negra multiline src.size src (Nat.le_refl _)
    obtain ⟨rfl, rfl⟩ := hS.unique h'
    exact (hR (fun _ => hO) t' (List.mem_of_getElem? g2)).wf
  obtain rfl := Terminals.unique W u1 h2
  refine ⟨T, N, g1, ?_⟩
  have := h3 fun hb => ⟨F.texts (g3.2 hb), fun x hx => by
    have : x.form ∈ T.map (·.form) := by rw [← u2]; exact List.mem_map.2 ⟨x, hx, rfl⟩
    obtain ⟨r, hr, e⟩ := List.mem_map.1 this
    rw [← e]
    exact Negra.field_word (F.forms r hr)⟩
  have e : (us.map fun x => shown o.out x.form) = T.map fun r => shown o.out r.form := by
    have := congrArg (List.map (shown o.out)) u2
    simpa [Function.comp_def] using this
  rw [e] at this
  exact this

/-- C89: for tagged sentences the words are the forms of the tokens of the corresponding sentence. -/
theorem C89_tagged (pick : Tree → Finset Nat → Option Nat) (hpick : IsOrder pick) (f : InFormat)
    (hf : f = .absolute ∨ f = .relative) (multiline : Bool)
    (o : Options) (src : Source) (pos : Option (List PosItem)) (items : List (Except Err Tree)) (b : Bool)
    (h : Stream f multiline src items b) (hE : ∀ t, .ok t ∈ items → Enough o t)
    (hl : o.insertionSet ≠ none → ')' ∉ o.insertionLabel)
    (hb : IsBracketed o.out → (∀ t, .ok t ∈ items → t.Texts fun s => ')' ∉ s) ∧
      ∀ toks, some toks ∈ src.sentences → ∀ x ∈ toks, Word (escape x.form))
    (i : Nat) (w : Written) (hw : (main f multiline pick o src pos).1[i]? = some w) :
    ∃ toks, src.sentences[i]? = some (some toks) ∧ Says o.out w (toks.map fun x => shown o.out x.form) := by
  have hO : f = .negra → Orderly src.lines := by rcases hf with rfl | rfl <;> exact fun h => nomatch h
  obtain ⟨t, ts, h1, h2, h3⟩ := C89_items pick hpick _ multiline o src pos items b h hO hE hl i w hw
  obtain ⟨toks, g1, g2⟩ : ∃ toks, src.sentences[i]? = some (some toks) ∧ ts.map (·.form) = toks.map (·.form) := by
    rcases hf with rfl | rfl
    · obtain ⟨toks, g1, g2⟩ := stream_sentences (fun _ => rfl) h i t h1
      exact ⟨toks, g1, absolute_forms g2 h2⟩
    · obtain ⟨toks, g1, g2⟩ := stream_sentences (fun _ => rfl) h i t h1
      exact ⟨toks, g1, relative_forms g2 h2⟩
  refine ⟨toks, g1, ?_⟩
  have := h3 fun ho => ⟨(hb ho).1 t (List.mem_of_getElem? h1), fun x hx => by
    have : x.form ∈ toks.map (·.form) := by rw [← g2]; exact List.mem_map.2 ⟨x, hx, rfl⟩
    obtain ⟨y, hy, e⟩ := List.mem_map.1 this
    rw [← e]
    exact (hb ho).2 toks (List.mem_of_getElem? g1) y hy⟩
  have e : (ts.map fun x => shown o.out x.form) = toks.map fun x => shown o.out x.form := by
    have := congrArg (List.map (shown o.out)) g2
    simpa [Function.comp_def] using this
  rw [e] at this
  exact this

/-! ## Cases -/

/-- Two lines of bracketings and a comment. -/
example : wordsIn "(S (NP (D a) (N b))\n (V c ) )".toList = ["a".toList, "b".toList, "c".toList] := by decide +kernel

def commented : Source := ⟨["(S (NP (D a) (N b)) (V c))".toList, "% x".toList, "(S (D d) (N e))".toList], []⟩

example : ∃ s, commented.lines[2]? = some s ∧
    ∀ w, (main .ptb false minPick { plain .tueba with projectivize := true, reattachLabel := some "V".toList } commented none).1[1]? =
      some w → Says .tueba w (wordsIn s) := by
  refine ⟨_, rfl, fun w hw => ?_⟩
  obtain ⟨s, h1, h2⟩ := C89_brackets minPick minPick_order .ptb false _ commented none _ (.inl ⟨rfl, rfl⟩)
    (by intro s hs; left; revert hs; revert s; decide +kernel) (by simp [plain]) 1 w hw
  have : s = "(S (D d) (N e))".toList := by
    revert h1
    rw [show (commented.lines.filter fun l => l.head? ≠ some '%')[1]? = some "(S (D d) (N e))".toList by decide +kernel]
    intro h
    exact (Option.some.inj h).symm
  subst this
  exact h2

/-- Something is written in this case. -/
example : (main .ptb false minPick { plain .tueba with projectivize := true, reattachLabel := some "V".toList } commented none).1 =
    [.text "(S:--(NP:--(D:-- a)(N:-- b))(V:-- c))\n".toList, .text "(S:--(D:-- d)(N:-- e))\n".toList] := by decide +kernel

/-- A NEGRA sentence with a gap, projectivized and written as brackets. -/
example := C89_negra minPick minPick_order false { many .ptb with removeDummies := false } gapFile none gapFile_orderly
  (by simp [many, plain]) (fun _ => Negra.free_noClosing (by decide +kernel)) (fun _ => by decide +kernel)

example : wordsIn "(VROOT (A (I (X a) (P b) (X c))))\n".toList = ["a".toList, "b".toList, "c".toList] := by decide +kernel

/-- A word that is a bracket is replaced. -/
example : (main .negra false minPick (plain .simple) ⟨["#BOS 1", ") -- X -- -- 0", "b -- P -- -- 0", "#EOS 1"].map String.toList, []⟩
    none).1 = [.text "(VROOT (X RBR) (P b))\n".toList] := by decide +kernel

/-- C89: the proviso on labels is needed: a closing bracket in one is taken for the end of a bracketing. -/
theorem C89_label_bracket : (main .negra false minPick (plain .simple)
      ⟨["#BOS 1", "a -- X -- -- 500", "b -- P -- -- 500", "#500 -- N)P -- -- 0", "#EOS 1"].map String.toList, []⟩ none).1 =
        [.text "(VROOT (N)P (X a) (P b)))\n".toList] ∧
    wordsIn "(VROOT (N)P (X a) (P b)))\n".toList = ["N".toList, "a".toList, "b".toList] := by decide +kernel

/-- A tagged sentence. -/
example : ∃ t, Stream .absolute false ⟨[], [some [tagged "a" "abs_ancestor:S+1", tagged "b" "abs_ancestor:NONE"]]⟩ [.ok t] true ∧
    ∀ (i : Nat) w, (main .absolute false minPick (plain .conllx)
        ⟨[], [some [tagged "a" "abs_ancestor:S+1", tagged "b" "abs_ancestor:NONE"]]⟩ none).1[i]? = some w →
      ∃ toks : List Conllx.Token, [some [tagged "a" "abs_ancestor:S+1", tagged "b" "abs_ancestor:NONE"]][i]? = some (some toks) ∧
        Says .conllx w (toks.map (·.form)) := by
  obtain ⟨t, h1, h2⟩ := onlyItem_spec (f := .absolute) (multiline := false)
    (src := ⟨[], [some [tagged "a" "abs_ancestor:S+1", tagged "b" "abs_ancestor:NONE"]]⟩)
    (test := fun t => decide (2 ≤ t.nTerminals)) (by decide +kernel)
  refine ⟨t, h1, fun i w hw => ?_⟩
  exact C89_tagged minPick minPick_order .absolute (.inl rfl) false (plain .conllx) _ none [.ok t] true h1
    (by simp; exact .inl (by simpa using h2)) (by simp [plain]) (by simp [plain, IsBracketed]) i w hw

end Props
end Lumberjack
