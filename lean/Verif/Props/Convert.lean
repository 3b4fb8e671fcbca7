import Verif.Proofs.ConvertRead
import Verif.Proofs.Check
import Verif.Spec.Examples
import Verif.Props.Reattach

/-!
# The conversion tool (C57)
-/

namespace Lumberjack
namespace Props

open Lumberjack.Tree Lumberjack.Convert

/-- C57: the reader turns every input into exactly one sequence of items, and either stops or panics after
them. -/
theorem C57_items (f : InFormat) (multiline : Bool) (src : Source) :
    ∃ items b, Stream f multiline src items b ∧
      ∀ items' b', Stream f multiline src items' b' → items' = items ∧ b' = b := by
  obtain ⟨items, b, h, _⟩ := stream_exists f multiline src.size src (Nat.le_refl _)
  exact ⟨items, b, h, fun _ _ h' => h'.unique h⟩

/-- C57: for the bracketed formats, one tree per line, the items are the results of parsing the lines that do
not start with `%`. -/
theorem C57_single_line (f : Ptb.Format) (src : Source) :
    ∃ items, Stream (bracketInput f) false src items true ∧
      List.Forall₂ (fun l r => Ptb.stringToTree f l = .ok r) (src.lines.filter fun l => l.head? ≠ some '%') items := by
  obtain ⟨items, h1, h2⟩ := C47_single_line f src.lines (src.lines.length + 1) (by omega)
  refine ⟨items, ?_, h2⟩
  cases f with
  | ptb => exact (ptb_stream .ptb .ptb false (fun _ => rfl) _ _ src.sentences items h1).1
  | simple => exact (ptb_stream .simple .simple false (fun _ => rfl) _ _ src.sentences items h1).1
  | tueba => exact (ptb_stream .tueba .tueba false (fun _ => rfl) _ _ src.sentences items h1).1

/-- C57: with `--multiline` they are the results of parsing the groups of lines between which all brackets are
closed (see C47). -/
theorem C57_multi_line (f : Ptb.Format) (src : Source) (texts : List Str) (h : Bracketed.Groups src.lines texts) :
    ∃ items, Stream (bracketInput f) true src items true ∧
      List.Forall₂ (fun s r => Ptb.stringToTree f s = .ok r) texts items := by
  obtain ⟨items, h1, h2⟩ := C47_multi_line f src.lines texts h (src.lines.length + 1) (by omega)
  refine ⟨items, ?_, h2⟩
  cases f with
  | ptb => exact (ptb_stream .ptb .ptb true (fun _ => rfl) _ _ src.sentences items h1).1
  | simple => exact (ptb_stream .simple .simple true (fun _ => rfl) _ _ src.sentences items h1).1
  | tueba => exact (ptb_stream .tueba .tueba true (fun _ => rfl) _ _ src.sentences items h1).1

/-- C57: for NEGRA they are the items of the NEGRA reader (see C49 and C50). -/
theorem C57_negra (multiline : Bool) (src : Source) (items : List (Except Err Tree)) (fuel : Nat)
    (h : Negra.readAll fuel src.lines = .ok items) : Stream .negra multiline src items true :=
  (negra_stream multiline fuel src.lines src.sentences items h).1

/-- C57: for the tag formats there is one item for each sentence: an error if the sentence cannot be read, else
the result of decoding its tags (see C59). -/
theorem C57_tagged (multiline : Bool) (src : Source) (items : List (Except Err Tree)) :
    (List.Forall₂ (fun s r => match s with
        | none => r = .error (.parse 41)
        | some s => Conllx.tryFromAbsolute s = .ok r) src.sentences items → Stream .absolute multiline src items true) ∧
    (List.Forall₂ (fun s r => match s with
        | none => r = .error (.parse 41)
        | some s => Conllx.tryFromRelative s = .ok r) src.sentences items → Stream .relative multiline src items true) :=
  ⟨sentences_stream .absolute _ multiline (fun _ => rfl) src.lines, sentences_stream .relative _ multiline (fun _ => rfl) src.lines⟩

/-- C57: whatever the options, the tool takes the items one after the other, puts every tree through the steps
that are switched on, in their order, and writes the result, until one of the cases of `Run` ends the run. -/
theorem C57_run (pick : Tree → Finset Nat → Option Nat) (hpick : IsOrder pick) (f : InFormat) (multiline : Bool)
    (o : Options) (src : Source) (pos : Option (List PosItem)) (items : List (Except Err Tree)) (b : Bool)
    (h : Stream f multiline src items b) (hO : f = .negra → Orderly src.lines)
    (hE : ∀ t, .ok t ∈ items → Enough o t) :
    Run o items b pos 0 (main f multiline pick o src pos).1 (main f multiline pick o src pos).2 := by
  obtain ⟨items', b', h', hlen, hR⟩ := stream_exists f multiline src.size src (Nat.le_refl _)
  obtain ⟨rfl, rfl⟩ := h.unique h'
  obtain ⟨ws, e, h1, h2⟩ := loop_run hpick f multiline o h pos 0 (src.lines.length + src.sentences.length + 1)
    (fun t ht => (hR hO t ht).suits (hE t ht)) (by unfold Source.size at hlen; omega)
  unfold main
  rw [h2]
  exact h1

/-- C57: such a run does not hang, and it does not panic unless the reader does. -/
theorem C57_ends (pick : Tree → Finset Nat → Option Nat) (hpick : IsOrder pick) (f : InFormat) (multiline : Bool)
    (o : Options) (src : Source) (pos : Option (List PosItem)) (items : List (Except Err Tree)) (b : Bool)
    (h : Stream f multiline src items b) (hO : f = .negra → Orderly src.lines)
    (hE : ∀ t, .ok t ∈ items → Enough o t) :
    (main f multiline pick o src pos).2 ≠ .diverged ∧ ((main f multiline pick o src pos).2 = .panicked → b = false) :=
  (C57_run pick hpick f multiline o src pos items b h hO hE).ends

/-- C57: what is written at position `i` stands for the `i`-th item, which is a tree: it is the output for the
result of the steps, with the tags of the `i`-th POS sentence. The result has the same words as the tree. -/
theorem C57_written (pick : Tree → Finset Nat → Option Nat) (hpick : IsOrder pick) (f : InFormat) (multiline : Bool)
    (o : Options) (src : Source) (pos : Option (List PosItem)) (items : List (Except Err Tree)) (b : Bool)
    (h : Stream f multiline src items b) (hO : f = .negra → Orderly src.lines)
    (hE : ∀ t, .ok t ∈ items → Enough o t) :
    (main f multiline pick o src pos).1.length ≤ items.length ∧
    ∀ (i : Nat) w, (main f multiline pick o src pos).1[i]? = some w → ∃ t t' tags c c', items[i]? = some (.ok t) ∧
      TagsAt pos i tags ∧ (∀ l, tags = some l → l.length = t.nTerminals) ∧ Pipeline o tags t t' ∧
      Output o.out c t' w c' ∧ t.WF ∧ t'.WF ∧ SameWords t t' := by
  obtain ⟨h1, h2⟩ := (C57_run pick hpick f multiline o src pos items b h hO hE).written
  refine ⟨h1, fun i w hw => ?_⟩
  obtain ⟨t, t', tags, c, c', g1, g2, g3, g4, g5⟩ := h2 i w hw
  obtain ⟨items', b', h', _, hR⟩ := stream_exists f multiline src.size src (Nat.le_refl _)
  obtain ⟨rfl, rfl⟩ := h.unique h'
  have ht := List.mem_of_getElem? g1
  have S := (hR hO t ht).suits (hE t ht)
  obtain ⟨G, _⟩ := pipeline_good S g4
  exact ⟨t, t', tags, c, c', g1, g2, g3, g4, g5, S.fit.wf, G.fit.wf, G.words⟩

/-- C57: for the formats written as CONLLX the sentence at position `i` has the forms and lemmas of the words of
the `i`-th tree. -/
theorem C57_words (pick : Tree → Finset Nat → Option Nat) (hpick : IsOrder pick) (f : InFormat) (multiline : Bool)
    (o : Options) (src : Source) (pos : Option (List PosItem)) (items : List (Except Err Tree)) (b : Bool)
    (h : Stream f multiline src items b) (hO : f = .negra → Orderly src.lines)
    (hE : ∀ t, .ok t ∈ items → Enough o t) (i : Nat) (s : List Conllx.Token)
    (hs : (main f multiline pick o src pos).1[i]? = some (.sentence s)) :
    ∃ t ts, items[i]? = some (.ok t) ∧ t.Terminals ts ∧ s.map (·.form) = ts.map (·.form) ∧
      s.map (·.lem) = ts.map (·.lem) := by
  obtain ⟨t, t', tags, c, c', g1, _, _, _, g2, W, W', hw⟩ :=
    (C57_written pick hpick f multiline o src pos items b h hO hE).2 i _ hs
  obtain ⟨ts, ht, _⟩ := C52_terminals t W
  obtain ⟨ts', ht', _⟩ := C52_terminals t' W'
  obtain ⟨a1, a2⟩ := output_words W' g2 ts' ht'
  obtain ⟨b1, b2⟩ := hw.terminals W ht ht'
  exact ⟨t, ts, g1, ht, a1.trans b1, a2.trans b2⟩

/-- C57: everything is written if all items are trees, there is no POS file or one with a sentence of the right length
for each of them, and the output format holds trees with gaps, or there are none: because trees are projectivized or have
none to begin with, and no words are moved to the root. -/
theorem C57_complete (pick : Tree → Finset Nat → Option Nat) (hpick : IsOrder pick) (f : InFormat) (multiline : Bool)
    (o : Options) (src : Source) (pos : Option (List PosItem)) (items : List (Except Err Tree))
    (h : Stream f multiline src items true) (hO : f = .negra → Orderly src.lines)
    (hE : ∀ t, .ok t ∈ items → Enough o t) (hi : ∀ x ∈ items, ∃ t, x = .ok t)
    (hp : ∀ ps, pos = some ps → ∀ (i : Nat) (t : Tree), items[i]? = some (.ok t) →
      ∃ l, ps[i]? = some (.ok l) ∧ l.length = t.nTerminals)
    (hg : HoldsGaps o.out ∨ (o.reattachLabel = none ∧ (o.projectivize = true ∨ ∀ t, .ok t ∈ items → NoGaps t))) :
    (main f multiline pick o src pos).2 = .finished ∧
      (main f multiline pick o src pos).1.length = items.length := by
  obtain ⟨items', b', h', _, hR⟩ := stream_exists f multiline src.size src (Nat.le_refl _)
  obtain ⟨rfl, rfl⟩ := h.unique h'
  exact (C57_run pick hpick f multiline o src pos items _ h hO hE).complete
    (fun t ht => (hR hO t ht).suits (hE t ht)) hp rfl hi hg

/-- C57: with no options the tree is written as it is. -/
theorem C57_plain (out : OutFormat) (t t' : Tree) : Pipeline (plain out) none t t' ↔ t' = t := by
  constructor
  · rintro ⟨t1, t2, t3, t4, t5, t6, t7, b1, b2, b3, b4, b5, b6, b7, b8⟩
    have h1 := b1.2 rfl
    have h2 := b2.2 rfl
    have h3 : t3 = t2 := b3
    have h4 : t4 = t3 := b4
    have h5 : t5 = t4 := b5
    have h6 : t6 = t5 := b6
    have h7 : t7 = t6 := b7
    have h8 : t' = t7 := b8
    rw [h8, h7, h6, h5, h4, h3, h2, h1]
  · rintro rfl
    exact ⟨t', t', t', t', t', t', t', ⟨nofun, fun _ => rfl⟩, ⟨nofun, fun _ => rfl⟩,
      rfl, rfl, rfl, rfl, rfl, rfl⟩

/-- C57: trees that are a single word are also written if there are no options, in all formats but NEGRA; writing
one as NEGRA panics. -/
theorem C57_single_word (pick : Tree → Finset Nat → Option Nat) (out : OutFormat) (t : Tree) (W : t.WF)
    (hr : t.IsTerm t.root) (c : Nat) :
    (out ≠ .negra → ∃ w, Output out c t w c ∧ convertTree pick (plain out) none c t = .ok (.ok (w, c))) ∧
    convertTree pick (plain .negra) none c t = .panic := by
  have hall : ∀ n, t.Live n → n = t.root := fun n hn => W.shape.dom_term hr (W.shape.reach n hn)
  have hG : NoGaps t := fun n hn => by rw [hall n hn]; exact gapless_term W hr
  have hproc : ∀ out, process pick (plain out) none t = stepEncode (plain out) (.ok t) := fun _ => rfl
  constructor
  · intro ho
    unfold convertTree
    rw [hproc]
    obtain ⟨habs, hrel, hother⟩ := stepEncode_spec (plain out) W
    cases out with
    | negra => exact absurd rfl ho
    | absolute =>
      obtain ⟨t', e, ht, W', _⟩ := (habs rfl).1 hG
      obtain ⟨s, hs, hc⟩ := sentence_exists W'
      exact ⟨_, .absolute hG ht hs, by rw [e, Res.ok_bind]; simp [write, plain, hc]⟩
    | relative =>
      obtain ⟨t', e, ht, W', _⟩ := (hrel rfl).1 hG
      obtain ⟨s, hs, hc⟩ := sentence_exists W'
      exact ⟨_, .relative hG ht hs, by rw [e, Res.ok_bind]; simp [write, plain, hc]⟩
    | conllx =>
      obtain ⟨s, hs, hc⟩ := sentence_exists W
      exact ⟨_, .conllx hs, by rw [hother (by simp [plain]) (by simp [plain]), Res.ok_bind]; simp [write, plain, hc]⟩
    | ptb =>
      obtain ⟨s, h1, h2⟩ := (writePtb_spec W .ptb).1 hG
      exact ⟨_, .ptb hG h1, by rw [hother (by simp [plain]) (by simp [plain]), Res.ok_bind]; simp [write, plain, h2]⟩
    | simple =>
      obtain ⟨s, h1, h2⟩ := (writePtb_spec W .simple).1 hG
      exact ⟨_, .simple hG h1, by rw [hother (by simp [plain]) (by simp [plain]), Res.ok_bind]; simp [write, plain, h2]⟩
    | tueba =>
      obtain ⟨s, h1, h2⟩ := (writePtb_spec W .tueba).1 hG
      exact ⟨_, .tueba hG h1, by rw [hother (by simp [plain]) (by simp [plain]), Res.ok_bind]; simp [write, plain, h2]⟩
  · unfold convertTree
    rw [hproc, (stepEncode_spec (plain .negra) W).2.2 (by simp [plain]) (by simp [plain]), Res.ok_bind]
    simp [write, plain, C51_terminal_root t W hr c]

/-- C57: the tool hangs on a tree with one word if that word is to be moved to the root. -/
theorem C57_hangs (pick : Tree → Finset Nat → Option Nat) (o : Options) (t : Tree) (W : t.WF)
    (h1 : t.nTerminals = 1) (p : Str) (ho : o.reattachLabel = some p) (n : Nat) (x : Terminal)
    (hx : t.graph.node? n = some (.term x)) (hp : p <+: x.pos) (hd : o.removeDummies = false)
    (hj : o.projectivize = false) (c : Nat) : convertTree pick o none c t = .diverge := by
  obtain ⟨hdiv, _⟩ := C25_diverges t W t.root n
    (fun t n => (t.graph.node? n).any fun nd => Negra.startsWith (o.reattachLabel.getD []) nd.label) ⟨x, hx⟩ (by
      simp only [hx, Option.any, ho, Option.getD_some, Negra.startsWith, Node.label]
      exact List.isPrefixOf_iff_prefix.2 hp) (fun m hm _ => (single_term W h1 ⟨x, hx⟩ hm).le) (.inr h1)
  have e1 : stepDummies o (.ok t) = .ok (.ok t) := by unfold stepDummies; rw [hd]; rfl
  have e2 : stepProjectivize pick o (.ok t) = .ok (.ok t) := by unfold stepProjectivize; rw [hj]; rfl
  have e3 : stepPos none (.ok t) = .ok (.ok t) := rfl
  have e4 : stepReattach o (.ok t) = .diverge := by
    unfold stepReattach
    rw [show o.reattachLabel.isSome = true by rw [ho]; rfl, stepIf_true, hdiv]; rfl
  unfold convertTree process
  rw [e1, Res.ok_bind, e2, Res.ok_bind, e3, Res.ok_bind, e4]
  rfl

/-! ## The hypotheses are met -/

/-- Does the only item of the input satisfy a test? -/
def onlyItem (f : InFormat) (multiline : Bool) (src : Source) (test : Tree → Bool) : Bool :=
  match next f multiline src with
  | .ok (some (.ok t), src') => test t && (match next f multiline src' with
    | .ok (none, _) => true
    | _ => false)
  | _ => false

theorem onlyItem_spec {f : InFormat} {multiline : Bool} {src : Source} {test : Tree → Bool}
    (h : onlyItem f multiline src test = true) : ∃ t, Stream f multiline src [.ok t] true ∧ test t = true := by
  unfold onlyItem at h
  split at h
  · rename_i t src' h1
    rw [Bool.and_eq_true] at h
    obtain ⟨ht, h⟩ := h
    split at h
    · rename_i src'' h2
      exact ⟨t, .item h1 (.stop h2), ht⟩
    · cases h
  · cases h

/-- A tree with a gap. -/
def gapFile : Source := ⟨["#BOS 1", "a -- X -- -- 500", "b -- P -- -- 0", "c -- X -- HD 500", "#500 -- A -- -- 0",
  "#EOS 1"].map String.toList, []⟩

/-- Options that switch on most of the steps. -/
def many (out : OutFormat) : Options :=
  { plain out with removeDummies := true, projectivize := true, secEdges := true, idSet := some (.positive ["A".toList]),
                   idFeatureName := "id".toList, parentFeature := some "parent".toList,
                   insertionSet := some (.positive []), insertionLabel := "I".toList }

/-- A file with one sentence in which one nonterminal has a line. -/
theorem orderly_one {ls : List Str} (hlen6 : ls.length = 6)
    (hbos : ∀ k, k < 6 → ∀ l, ls[k]? = some l → Negra.startsWith Negra.bos (Negra.trim l) = true → k = 0)
    (heos : ∀ k, k < 5 → ∀ l, ls.tail[k]? = some l → Negra.startsWith Negra.eos (Negra.trim l) = true → k = 4)
    (hnt : (ls.tail.take 4).filter (fun l => ['#'].isPrefixOf (Negra.trim l)) = ["#500 -- A -- -- 0".toList]) :
    Orderly ls := by
  intro pre hd body f rest id info T N e ho hR hc
  have split : ∀ (ls : List Str) (pre : List Str) (l : Str) (post : List Str), ls = pre ++ l :: post →
      ls[pre.length]? = some l ∧ pre = ls.take pre.length := by
    rintro _ pre l post rfl; simp
  obtain ⟨a1, a2⟩ := split _ _ _ _ e
  have p0 : pre = [] := by
    have hb : Negra.startsWith Negra.bos (Negra.trim hd) = true := ho.1
    have := hbos pre.length (hlen6 ▸ (List.getElem?_eq_some_iff.1 a1).1) hd a1 hb
    exact List.length_eq_zero_iff.1 this
  subst p0
  have e' : ls.tail = body ++ f :: rest := by rw [e]; rfl
  obtain ⟨c1, c2⟩ := split _ _ _ _ e'
  have hlen : body.length = 4 := by
    have hb := hc.1
    refine heos body.length ?_ f c1 hb
    have := (List.getElem?_eq_some_iff.1 c1).1
    rw [List.length_tail, hlen6] at this
    exact this
  rw [hlen] at c2
  obtain ⟨tl, nl, rfl, h1, h2⟩ := hR
  have hsharp : ∀ l ∈ tl, ['#'].isPrefixOf (Negra.trim l) = false := by
    intro l hl
    obtain ⟨i, hi, rfl⟩ := List.getElem_of_mem hl
    exact ((List.forall₂_iff_get.1 h1).2 i hi ((List.forall₂_iff_get.1 h1).1 ▸ hi)).1
  have hsharp' : ∀ l ∈ nl, ['#'].isPrefixOf (Negra.trim l) = true := by
    intro l hl
    obtain ⟨i, hi, rfl⟩ := List.getElem_of_mem hl
    exact ((List.forall₂_iff_get.1 h2).2 i hi ((List.forall₂_iff_get.1 h2).1 ▸ hi)).2.1
  have hnl : nl = ["#500 -- A -- -- 0".toList] := by
    have := congrArg (List.filter fun l => ['#'].isPrefixOf (Negra.trim l)) c2
    rw [List.filter_append, List.filter_eq_nil_iff.2 (fun l hl => by simp [hsharp l hl]),
      List.filter_eq_self.2 (fun l hl => hsharp' l hl)] at this
    rw [List.nil_append] at this
    rw [this, hnt]
  subst hnl
  obtain ⟨r, N', hr, hN, rfl⟩ := List.forall₂_cons_left_iff.1 h2
  cases hN
  have : r = ⟨500, "A".toList, none, ⟨none, 0, none⟩⟩ := by
    have h3 := hr.2.2
    rw [show Negra.NtRow.read (Negra.splitWs (Negra.trim "#500 -- A -- -- 0".toList)) =
      some ⟨500, "A".toList, none, ⟨none, 0, none⟩⟩ by decide +kernel] at h3
    injection h3 with h3
    exact h3.symm
  subst this
  refine ⟨by unfold Negra.OwnNumbers; decide, ?_⟩
  intro pre r post h
  cases pre with
  | nil =>
    simp only [List.nil_append, List.cons.injEq] at h
    rw [← h.1]
    decide
  | cons a pre => simp at h

theorem gapFile_orderly : Orderly gapFile.lines :=
  orderly_one (by decide) (by decide +kernel) (by decide +kernel) (by decide +kernel)

/-- The input is one tree with three words and a gap; it is written in a bracketed format when projectivized. -/
example : ∃ t, Stream .negra false gapFile [.ok t] true ∧ (∀ o, Enough o t) ∧
    (main .negra false minPick (many .ptb) gapFile none).2 = .finished ∧
    (main .negra false minPick (many .ptb) gapFile none).1.length = 1 := by
  obtain ⟨t, h1, h2⟩ := onlyItem_spec (f := .negra) (multiline := false) (src := gapFile)
    (test := fun t => decide (2 ≤ t.nTerminals)) (by decide +kernel)
  have h2 : 2 ≤ t.nTerminals := by simpa using h2
  refine ⟨t, h1, fun _ => .inl h2, ?_⟩
  exact C57_complete minPick minPick_order .negra false (many .ptb) gapFile none [.ok t] h1 (fun _ => gapFile_orderly)
    (by simp; exact .inl h2) (by simp) (by simp) (.inr ⟨rfl, .inl rfl⟩)

/-- Without projectivization it is not. -/
example : main .negra false minPick (plain .ptb) gapFile none = ([], .exited .nonProjective) := by decide +kernel

/-- C57: moving words to the root comes after projectivization, so with both options there can be gaps. -/
theorem C57_reattach_gap : main .ptb false minPick { plain .ptb with projectivize := true, reattachLabel := some "P".toList }
    ⟨["(S (NP (D a) (P b) (N c)))".toList], []⟩ none = ([], .exited .nonProjective) := by decide +kernel

/-- A POS sentence that is too short stops the run after the first tree. -/
example : (main .simple false minPick (plain .simple) ⟨["(S (D a) (N b))".toList, "(S (D c) (N d))".toList], []⟩
    (some [.ok ["X".toList, "Y".toList], .ok ["Z".toList]])) =
    ([.text "(S (X a) (Y b))\n".toList], .exited .notEnoughPos) := by decide +kernel

/-- A single word. -/
example : main .absolute false minPick (plain .negra) ⟨[], [some [tagged "a" "abs_ancestor:NONE"]]⟩ none = ([], .panicked) := by
  decide +kernel
example : (main .absolute false minPick (plain .simple) ⟨[], [some [tagged "a" "abs_ancestor:NONE"]]⟩ none).2 = .finished := by
  decide +kernel

/-- A file in which the brackets are spread over lines. -/
example := C57_multi_line .ptb ⟨["%comment".toList, "(S".toList, "(N a))".toList, [], "(S ".toList], []⟩
  ["(S(N a))".toList] groups_example

/-- A sentence that cannot be read, after which nothing is written. -/
example : Stream .absolute false ⟨[], [none]⟩ [.error (.parse 41)] true :=
  (C57_tagged false ⟨[], [none]⟩ [.error (.parse 41)]).1 (.cons rfl .nil)

/-- A tree with one word that is to be moved. -/
example : convertTree minPick { plain .ptb with reattachLabel := some ['P'] } none 0
    ⟨⟨[Examples.nt "S" ⟨0, 1, none⟩, Examples.tm "a" "PP" 0], [], [Examples.pe 0 0 1], 1, []⟩, 1, 0, 0⟩ = .diverge :=
  C57_hangs minPick _ _ (wf_of_check (by decide +kernel)) rfl ['P'] rfl 1 _ rfl (by decide +kernel) rfl rfl 0

end Props
end Lumberjack
