import Verif.Proofs.StablePtb
import Verif.Props.Convert

/-!
# Running the conversion tool on its own output (C62)
-/

namespace Lumberjack
namespace Props

open Lumberjack.Tree Lumberjack.Convert

/-- C62: a file written from trees the NEGRA format can hold is read as trees from which the same text is written
again, whatever the writer has written before. -/
theorem C62_negra_file (ts : List Tree) (ids : Nat → Nat) (infos : Nat → Option Str) (counter : Nat)
    (H : ∀ (i : Nat) (t : Tree), ts[i]? = some t → Negra.Exportable t ∧ Negra.Head t (counter + ((ts.take i).filter
      fun u => (Negra.featOf (Negra.rootFeatures u) "sentence_id".toList).isNone).length) (ids i) (infos i)) :
    ∃ (text : Str) (ts' : List Tree), Negra.writeTrees counter ts = .ok text ∧
      Negra.readAll ((Negra.lines text).length + 1) (Negra.lines text) = .ok (ts'.map .ok) ∧
      ∀ counter', Negra.writeTrees counter' ts' = .ok text := by
  obtain ⟨text, ts', h1, h2, h3, h4⟩ := C48_file ts ids infos counter H
  refine ⟨text, ts', h1, h2, fun counter' => ?_⟩
  clear h2
  induction ts generalizing ts' ids infos counter text with
  | nil =>
    rw [List.length_eq_zero_iff.1 h3]
    cases h1; rfl
  | cons t ts ih =>
    match ts', h3 with
    | t' :: ts', h3 =>
      obtain ⟨E, Hd⟩ := H 0 t rfl
      simp only [List.take_zero, List.filter_nil, List.length_nil, Nat.add_zero] at Hd
      obtain ⟨φ, C⟩ := h4 0 t t' rfl rfl
      obtain ⟨s, c, k1, k2⟩ := C.writeTree E.wf E.root E.sources Hd counter'
      obtain ⟨_, _, _, _, _, _, _, k3, _⟩ := Negra.written_read E Hd
      rw [Negra.writeTrees, k1] at h1
      simp only [Res.ok_bind] at h1
      obtain ⟨more, g1, g2⟩ := Res.bind_eq_ok.1 h1
      cases g2
      rw [Negra.writeTrees, k2]
      simp only [Res.ok_bind]
      rw [k1] at k3
      simp only [Res.ok.injEq, Prod.mk.injEq] at k3
      have := ih (fun i => ids (i + 1)) (fun i => infos (i + 1)) c (fun i u hu => by
        have := H (i + 1) u (by simpa using hu)
        refine ⟨this.1, ?_⟩
        have h := this.2
        rw [List.take_succ_cons, List.filter_cons] at h
        rw [k3.2]
        cases hv : Negra.featOf (Negra.rootFeatures t) "sentence_id".toList with
        | none =>
          rw [hv] at h
          simp only [Option.isNone_none, if_true, List.length_cons] at h
          simp only [Option.isSome_none, Bool.false_eq_true, if_false]
          rwa [Nat.add_assoc, Nat.add_comm 1]
        | some v =>
          rw [hv] at h
          simp only [Option.isNone_some, Bool.false_eq_true, if_false] at h
          simpa using h) more ts' g1 (by simpa using h3) (fun i u u' hu hu' => h4 (i + 1) u u' (by simpa using hu) (by simpa using hu'))
      rw [this]
      rfl

/-- C62: every tree read from an orderly NEGRA file can be written again: it meets the conditions of C48 with the number
and the metadata of its sentence. -/
theorem C62_read_exportable (ls rest : List Str) (t : Tree) (h : Negra.readerNext ls = .ok (some (.ok t), rest))
    (hO : Orderly ls) (hn : ∀ l ∈ ls, '\n' ∉ l) (hz : ls.length + 500 ≤ 2 ^ 64) :
    Negra.Exportable t ∧ ∃ id info, Negra.SameRoot t id info ∧ ∀ counter, Negra.Head t counter id info :=
  have h := Negra.read_exportable h hO hn hz
  ⟨h.1, h.2.1⟩

/-- C62: if the tool converts an orderly NEGRA file to NEGRA without options, converting the output once more gives the
same output. -/
theorem C62_negra (multiline multiline' : Bool) (pick pick' : Tree → Finset Nat → Option Nat) (src : Source)
    (ss : List (Option (List Conllx.Token))) (ws : List Written) (hO : Orderly src.lines)
    (hn : ∀ l ∈ src.lines, '\n' ∉ l) (hz : src.lines.length + 500 ≤ 2 ^ 64)
    (h : main .negra multiline pick (plain .negra) src none = (ws, .finished)) :
    main .negra multiline' pick' (plain .negra) ⟨Negra.lines (textOf ws), ss⟩ none = (ws, .finished) :=
  main_negra_stable hO hn hz h

/-- C62: if the tool converts a file in the simple or TueBa format to the same format without options, converting
the output once more gives the same output, no matter whether one tree per line is expected. -/
theorem C62_bracketed (f : Ptb.Format) (hf : f = .simple ∨ f = .tueba) (multiline multiline' : Bool)
    (pick pick' : Tree → Finset Nat → Option Nat) (src : Source) (ss : List (Option (List Conllx.Token)))
    (ws : List Written) (h : main (bracketInput f) multiline pick (plain (bracketOutput f)) src none = (ws, .finished)) :
    main (bracketInput f) multiline' pick' (plain (bracketOutput f)) ⟨Negra.lines (textOf ws), ss⟩ none = (ws, .finished) :=
  main_bracket_stable (by rcases hf with rfl | rfl <;> simp) h

/-- C62: in the PTB format the output grows with every run if there are annotations. -/
theorem C62_ptb_grows : main .ptb false minPick (plain .ptb) ⟨["(S-SBJ (N a))".toList], []⟩ none =
      ([.text "(S--SBJ (N a))\n".toList], .finished) ∧
    main .ptb false minPick (plain .ptb) ⟨Negra.lines "(S--SBJ (N a))\n".toList, []⟩ none =
      ([.text "(S---SBJ (N a))\n".toList], .finished) := by decide +kernel

open Bracketed in
/-- C62: converting a file in the PTB format to the same format writes one line per tree: tags of words are cut at their
first dash and the first dash of any other tag is doubled.  If no tag of a word starts with a dash, running the tool on
this output does the same once more; otherwise that run writes the trees before the first such word and then exits with
an error. -/
theorem C62_ptb (multiline : Bool) (pick : Tree → Finset Nat → Option Nat) (lines texts : List Str)
    (ss : List (Option (List Conllx.Token))) (bs : List Brackets) (ht : Texts multiline lines texts)
    (h : List.Forall₂ (fun s b => b.Single ∧ Reads s b) texts bs) :
    ∃ ws, main .ptb multiline pick (plain .ptb) ⟨lines, ss⟩ none = (ws, .finished) ∧
      ws = bs.map (fun b => .text b.grown.line) ∧
      ∀ (multiline' : Bool) (pick' : Tree → Finset Nat → Option Nat) (ss' : List (Option (List Conllx.Token))),
        ((∀ b ∈ bs, b.NoDashFirst) → main .ptb multiline' pick' (plain .ptb) ⟨Negra.lines (textOf ws), ss'⟩ none =
          (bs.map (fun b => .text b.grown.grown.line), .finished)) ∧
        ∀ good b bad, bs = good ++ b :: bad → (∀ x ∈ good, x.NoDashFirst) → ¬ b.NoDashFirst →
          main .ptb multiline' pick' (plain .ptb) ⟨Negra.lines (textOf ws), ss'⟩ none =
            (good.map (fun b => .text b.grown.grown.line), .exited (.parse 10)) := by
  have hw := wordy_of_reads h
  obtain ⟨out, h1, h2, h3⟩ := lines_grown hw
  refine ⟨_, main_ptb ht h, rfl, fun m' pick' ss' => ⟨fun hn => ?_, ?_⟩⟩
  · rw [h3, main_ptb (texts_pieces h1) (reads_grown h2 hw hn), List.map_map]; rfl
  · rintro good b bad rfl hg hb
    rw [h3]
    obtain ⟨o1, o2, k1, k2, rfl⟩ : ∃ o1 o2, List.Forall₂ (fun s b => b.grown.text [' '] = [s]) o1 good ∧
        List.Forall₂ (fun s b => b.grown.text [' '] = [s]) o2 (b :: bad) ∧ out = o1 ++ o2 :=
      ⟨out.take good.length, out.drop good.length, by simpa using List.forall₂_take good.length h2,
        by simpa using List.forall₂_drop good.length h2, (List.take_append_drop _ _).symm⟩
    cases k2 with
    | @cons s _ o2 _ ks _ =>
      have W := (hw b (by simp)).2
      rw [main_ptb_until (texts_pieces h1) (reads_grown k1 (fun x hx => hw x (by simp [hx])) hg)
        (Ptb.untagged_unread (Ptb.grown_almost W) (Ptb.grown_untagged W hb) ks), List.map_map]
      rfl

open Bracketed in
/-- C62: so in the PTB format the output is stable exactly if no tag of an inner node has a dash and no tag of a word
starts with one. -/
theorem C62_ptb_stable (multiline multiline' : Bool) (pick pick' : Tree → Finset Nat → Option Nat) (lines texts : List Str)
    (ss ss' : List (Option (List Conllx.Token))) (bs : List Brackets) (ht : Texts multiline lines texts)
    (h : List.Forall₂ (fun s b => b.Single ∧ Reads s b) texts bs) :
    main .ptb multiline' pick' (plain .ptb)
        ⟨Negra.lines (textOf (main .ptb multiline pick (plain .ptb) ⟨lines, ss⟩ none).1), ss'⟩ none =
      main .ptb multiline pick (plain .ptb) ⟨lines, ss⟩ none ↔
    ∀ b ∈ bs, b.NoInnerDash ∧ b.NoDashFirst := by
  obtain ⟨ws, h1, h2, h3⟩ := C62_ptb multiline pick lines texts ss bs ht h
  obtain ⟨k1, k2⟩ := h3 multiline' pick' ss'
  rw [h1]
  have hw := wordy_of_reads h
  by_cases hn : ∀ b ∈ bs, b.NoDashFirst
  · rw [k1 hn, h2]
    constructor
    · intro e b hb
      refine ⟨grown_fixed.1 ?_, hn b hb⟩
      simp only [Prod.mk.injEq, List.map_inj_left, Written.text.injEq, and_true] at e
      have e := e b hb
      obtain ⟨w1, w2⟩ := Ptb.grown_wordy (hw b hb).2 (hn b hb)
      obtain ⟨w3, _⟩ := Ptb.grown_wordy w1 w2
      have g1 := Ptb.grown_single (hw b hb).1
      have g2 := Ptb.grown_single g1
      obtain ⟨s1, e1⟩ := text_of_single g1
      obtain ⟨s2, e2⟩ := text_of_single g2
      have r1 := Ptb.reads_text_one (f := .ptb) w1 e1
      have r2 := Ptb.reads_text_one (f := .ptb) w3 e2
      rw [Brackets.line, Brackets.line, e1, e2] at e
      have e : s2 = s1 := by simpa using e
      subst e
      exact Ptb.reads_unique r2 r1 g2 g1
    · intro hd
      simp only [Prod.mk.injEq, List.map_inj_left, Written.text.injEq, and_true]
      intro b hb
      rw [grown_fixed.2 (hd b hb).1]
  · constructor
    · intro e
      have key : ∃ good b bad, bs = good ++ b :: bad ∧ (∀ x ∈ good, x.NoDashFirst) ∧ ¬ b.NoDashFirst := by
        clear h h2 k1 k2 e hw h3
        induction bs with
        | nil => exact absurd (by simp) hn
        | cons b bs ih =>
          by_cases hb : b.NoDashFirst
          · obtain ⟨g, x, bad, rfl, hg, hx⟩ := ih (fun hall => hn fun y hy => by
              rcases List.mem_cons.1 hy with rfl | hy
              · exact hb
              · exact hall y hy)
            refine ⟨b :: g, x, bad, rfl, fun y hy => ?_, hx⟩
            rcases List.mem_cons.1 hy with rfl | hy
            · exact hb
            · exact hg y hy
          · exact ⟨[], b, bs, rfl, by simp, hb⟩
      obtain ⟨g, b, bad, e1, hg, hb⟩ := key
      rw [k2 g b bad e1 hg hb] at e
      cases e
    · intro hd
      exact absurd (fun b hb => (hd b hb).2) hn

/-! ## The hypotheses are met -/

open Bracketed in
/-- A file with three trees: the second run stops at the word whose tag starts with a dash. -/
example : main .ptb false minPick (plain .ptb) ⟨["% x", "(S-SBJ (N-1 a))", "(S (-LRB- x))", "(N b)"].map String.toList, []⟩ none =
      (["(S--SBJ (N a))\n", "(S ( x))\n", "(N b)\n"].map (fun s => .text s.toList), .finished) ∧
    main .ptb true minPick (plain .ptb) ⟨["(S--SBJ (N a))", "(S ( x))", "(N b)"].map String.toList, []⟩ none =
      (["(S---SBJ (N a))\n"].map (fun s => .text s.toList), .exited (.parse 10)) := by
  have w : ∀ s : Str, (s ≠ [] ∧ ∀ c ∈ s, c ≠ ' ' ∧ c ≠ '\n' ∧ c ≠ '\r' ∧ c ≠ '(' ∧ c ≠ ')') → Word s := fun _ h => h
  have r1 : Reads "(S-SBJ (N-1 a))".toList (.node "S-SBJ".toList (.leaf "N-1".toList "a".toList .nil) .nil) :=
    Ptb.reads_text_one (f := .ptb) ⟨w _ (by decide +kernel), by decide, ⟨w _ (by decide +kernel), w _ (by decide +kernel),
      trivial⟩, trivial⟩ (by decide +kernel)
  have r2 : Reads "(S (-LRB- x))".toList (.node "S".toList (.leaf "-LRB-".toList "x".toList .nil) .nil) :=
    Ptb.reads_text_one (f := .ptb) ⟨w _ (by decide +kernel), by decide, ⟨w _ (by decide +kernel), w _ (by decide +kernel),
      trivial⟩, trivial⟩ (by decide +kernel)
  have r3 : Reads "(N b)".toList (.leaf "N".toList "b".toList .nil) :=
    Ptb.reads_text_one (f := .ptb) ⟨w _ (by decide +kernel), w _ (by decide +kernel), trivial⟩ (by decide +kernel)
  obtain ⟨ws, h1, h2, h3⟩ := C62_ptb false minPick (["% x", "(S-SBJ (N-1 a))", "(S (-LRB- x))", "(N b)"].map String.toList)
    (["(S-SBJ (N-1 a))", "(S (-LRB- x))", "(N b)"].map String.toList) []
    [.node "S-SBJ".toList (.leaf "N-1".toList "a".toList .nil) .nil,
      .node "S".toList (.leaf "-LRB-".toList "x".toList .nil) .nil, .leaf "N".toList "b".toList .nil]
    (by show _ = _; decide +kernel) (.cons ⟨rfl, r1⟩ (.cons ⟨rfl, r2⟩ (.cons ⟨rfl, r3⟩ .nil)))
  have e : ws = ["(S--SBJ (N a))\n", "(S ( x))\n", "(N b)\n"].map (fun s => .text s.toList) := by
    rw [h2]; decide +kernel
  refine ⟨by rw [h1, e], ?_⟩
  have := (h3 true minPick []).2 [_] _ [_] rfl (by simp [Brackets.NoDashFirst]) (by simp [Brackets.NoDashFirst])
  rw [e] at this
  refine Eq.trans (congrArg (fun l => main .ptb true minPick (plain .ptb) ⟨l, []⟩ none) ?_) (this.trans ?_)
  · decide +kernel
  · decide +kernel

example : ∃ (text : Str) (ts' : List Tree), Negra.writeTrees 0 [sample, sample] = .ok text ∧
    Negra.readAll ((Negra.lines text).length + 1) (Negra.lines text) = .ok (ts'.map .ok) ∧
    ∀ counter', Negra.writeTrees counter' ts' = .ok text :=
  C62_negra_file [sample, sample] (fun _ => 17) (fun _ => some "u v".toList) 0 (fun i t ht => by
    have hl := (List.getElem?_eq_some_iff.1 ht).1
    have : t = sample := by
      have := List.mem_of_getElem? ht
      simpa using this
    subst this
    refine ⟨sample_exportable, ?_⟩
    have hc : ∀ c, Negra.Head sample c 17 (some "u v".toList) := fun c =>
      ⟨by
        have : Negra.featOf (Negra.rootFeatures sample) "sentence_id".toList = some "17".toList := by decide +kernel
        rw [this, Option.getD_some]; decide +kernel, by decide, by decide +kernel, sample_head.clean⟩
    exact hc _)

private theorem ended {α β : Type} {p : α × β} {b : β} (h : p.2 = b) : p = (p.1, b) := by
  subst h; rfl

/-- Lines with other spacing than the tool writes, and a gap. -/
example : ∃ ws, main .negra false minPick (plain .negra) gapFile none = (ws, .finished) ∧ ws.length = 1 ∧
    Negra.lines (textOf ws) ≠ gapFile.lines ∧
    main .negra true minPick (plain .negra) ⟨Negra.lines (textOf ws), []⟩ none = (ws, .finished) := by
  have h := ended (p := main .negra false minPick (plain .negra) gapFile none) (b := .finished) (by decide +kernel)
  refine ⟨_, h, ?_, ?_, C62_negra false true minPick minPick gapFile [] _ gapFile_orderly (by decide +kernel) (by decide +kernel) h⟩
  · decide +kernel
  · decide +kernel

/-- Text in another layout than the tool writes. -/
private def layout : Source :=
  ⟨["% comment", "( S=x:-- ", "(D:HD  a)", "(N=y:z:-- b ) )", "", "(A b)"].map String.toList, []⟩

example : ∃ ws, main .tueba true minPick (plain .tueba) layout none = (ws, .finished) ∧
    textOf ws = "(S=x:--(D:HD a)(N:z b))\n(A:-- b)\n".toList ∧
    main .tueba false minPick (plain .tueba) ⟨Negra.lines (textOf ws), []⟩ none = (ws, .finished) := by
  have h := ended (p := main .tueba true minPick (plain .tueba) layout none) (b := .finished) (by decide +kernel)
  refine ⟨_, h, ?_, C62_bracketed .tueba (.inr rfl) true false minPick minPick layout [] _ h⟩
  decide +kernel

end Props
end Lumberjack
