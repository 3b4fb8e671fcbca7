import Verif.Proofs.Cross
import Verif.Proofs.TruncateBracket
import Verif.Proofs.IsoSteps
import Verif.Props.IsoOptions
import Verif.Spec.Through

/-!
# Going through a bracketed format
-/

namespace Lumberjack

open Lumberjack.Tree Lumberjack.Bracketed

variable {t t' : Tree}

namespace Ptb

/-- Parsing adds no secondary edges. -/
theorem stringToTree_primary {f : Format} {s : Str} {t : Tree} (h : stringToTree f s = .ok (.ok t)) : t.NoSecondary := by
  unfold stringToTree at h
  split at h
  · cases h
  · rename_i p _
    obtain ⟨⟨⟨sp, root, e⟩, g, k⟩, h1, h⟩ := Res.bind_eq_ok.1 h
    simp only [Res.pure_eq, Res.ok.injEq, Except.ok.injEq] at h
    subst h
    have O0 : Ordered Graph.empty 0 := by
      constructor <;> simp [Graph.empty, Graph.node?]
    obtain ⟨O, _⟩ := parseValue_ordered f p Graph.empty 0 _ _ _ O0 h1
    exact fun r hr => O.prim r hr

theorem escape_escape (s : Str) : Bracketed.escape (Bracketed.escape s) = Bracketed.escape s := by
  unfold Bracketed.escape
  induction s with
  | nil => rfl
  | cons c s ih =>
    rw [List.flatMap_cons, List.flatMap_append, ih]
    congr 1
    split
    · decide
    · split
      · decide
      · rename_i h1 h2; simp [h1, h2]

/-- What is written for a tree that has been written and read back. -/
theorem written_brackets {g h : Format} (hg : h = .simple ∨ g = .tueba) (F : Forest) :
    (F.written g).brackets h = F.brackets h := by
  induction F with
  | nil => rfl
  | leaf e x r ih =>
    simp only [Forest.written, Forest.brackets, escape_escape, ih]
    rcases hg with rfl | rfl
    · rfl
    · simp
  | node e x k r ihk ih =>
    simp only [Forest.written, Forest.brackets, ihk, ih]
    rcases hg with rfl | rfl
    · rfl
    · simp [annotationOf_annotated]

/-- In every format, labels are free of white space and brackets. -/
theorem readTag_sub (f : Format) {s : Str} (h : Word s) :
    ((readTag f s).1 = [] ∨ Word (readTag f s).1) ∧ (∀ a, (readTag f s).2.2 = some a → a = [] ∨ Word a) := by
  cases f with
  | simple => exact ⟨.inr h, by simp [readTag]⟩
  | tueba =>
    refine ⟨word_sub h fun c hc => (mem_before (mem_before hc).1).1, fun a ha => ?_⟩
    simp only [readTag, Option.map_eq_some_iff] at ha
    obtain ⟨r, hr, rfl⟩ := ha
    exact word_sub h fun c hc => (mem_before (mem_after hr (mem_before hc).1)).1
  | ptb =>
    refine ⟨word_sub h fun c hc => (mem_before hc).1, fun a ha => ?_⟩
    simp only [readTag, Option.map_eq_some_iff] at ha
    obtain ⟨r, hr, rfl⟩ := ha
    refine word_sub h fun c hc => ?_
    rcases List.mem_cons.1 hc with rfl | hc
    · unfold after at hr
      split at hr
      · assumption
      · cases hr
    · exact mem_after hr hc

theorem readTag_edge (f : Format) {s : Str} (h : Word s) : CleanEdge .tueba (readTag f s).2.1 := by
  cases f with
  | simple => intro e he; cases he
  | ptb => intro e he; cases he
  | tueba => exact (readTag_clean (f := .tueba) (by simp) h).2.2.1

/-- Without colons and equals signs, what has been read can be written in the TueBa format. -/
theorem forest_tueba (f : Format) {b : Brackets} : ∀ {k : Nat}, Wordy b →
    (b.forest f k).All (fun nd => ':' ∉ nd.label ∧ '=' ∉ nd.label ∧
      ∀ a, annotationOf nd.features = some a → ':' ∉ a ∧ '=' ∉ a) →
    (b.forest f k).Clean .tueba ∧ (b.forest f k).written .tueba = b.forest f k := by
  have esc : ∀ {w : Str}, w = [] ∨ Word w → Bracketed.escape w = w := by
    rintro w (rfl | h)
    · rfl
    · exact escape_word h
  induction b with
  | nil => intro k _ _; exact ⟨trivial, rfl⟩
  | leaf tag w r ih =>
    rintro k ⟨h1, h2, h3⟩ ⟨⟨a1, a2, _⟩, a3⟩
    obtain ⟨i1, i2⟩ := ih (k := k + 1) h3 a3
    have hl := (readTag_sub f h1).1
    refine ⟨⟨?_, by simpa only [escape_word h2] using h2, readTag_edge f h1, i1⟩, ?_⟩
    · simp only [esc hl]; exact ⟨hl, a1, a2⟩
    · simp only [Brackets.forest, Forest.written, esc hl, escape_word h2, i2, if_true]
  | node tag ks r ihk ih =>
    rintro k ⟨h1, h2, h3, h4⟩ ⟨⟨a1, a2, a3⟩, a4, a5⟩
    obtain ⟨i1, i2⟩ := ih (k := k + ks.len) h4 a5
    obtain ⟨k1, k2⟩ := ihk (k := k) h3 a4
    obtain ⟨hl, ha⟩ := readTag_sub f h1
    simp only [Node.features, annotationOf_annotated] at a3
    refine ⟨⟨⟨hl, a1, a2⟩, ?_, readTag_edge f h1, k1, i1⟩, ?_⟩
    · simp only [annotationOf_annotated]
      exact fun a e => ⟨ha a e, a3 a e⟩
    · simp only [Brackets.forest, Forest.written, annotationOf_annotated, i2, k2, if_true]

end Ptb

namespace Convert

/-- The tree stands for something that can be written. -/
def Cleaned (g : Ptb.Format) (t : Tree) : Prop := t.WF ∧ t.isProjective = true ∧ ∃ F, t.Is F ∧ F.Clean g

/-- The lines written for trees, and the trees read from them. -/
theorem bracket_back {ts : List Tree} (g : Ptb.Format) (H : ∀ t ∈ ts, Cleaned g t) :
    ∃ lines us, (∀ l ∈ lines, Piece l) ∧
      List.Forall₂ (fun l u => Ptb.stringToTree g l = .ok (.ok u)) lines us ∧
      List.Forall₂ (fun t s => Ptb.treeToString g t = .ok (.ok s)) ts lines ∧
      List.Forall₂ (fun t u => (∀ F, t.Is F → u.Is (F.written g)) ∧ Read u ∧ u.isProjective = true ∧ u.NoSecondary) ts us := by
  induction ts with
  | nil => exact ⟨[], [], by simp, .nil, .nil, .nil⟩
  | cons t ts ih =>
    obtain ⟨lines, us, g1, g2, g3, g4⟩ := ih fun u hu => H u (by simp [hu])
    obtain ⟨W, hp, F, hF, hc⟩ := H t (by simp)
    obtain ⟨s, u, r1, r2, r3, r4, r5⟩ := Ptb.round_trip W hp hF hc
    obtain ⟨s', w1, w2⟩ := Ptb.treeToString_ok W hp hF g
    rw [r1] at w1; cases w1
    have hpc : Piece s := pieces (sep := sepOf g) (by cases g <;> simp [sepOf])
      (Ptb.brackets_wordy (W.is_seq hp hF).1 hc) s (by rw [w2]; simp)
    refine ⟨s :: lines, u :: us, ?_, .cons r2 g2, .cons r1 g3, .cons ⟨fun G hG => ?_, ptb_read r2, r4,
      Ptb.stringToTree_primary r2⟩ g4⟩
    · intro l hl
      rcases List.mem_cons.1 hl with rfl | hl
      · exact hpc
      · exact g1 l hl
    · rwa [Rep.unique hG hF]

/-- A text of such lines as input. -/
theorem bracket_stream {us : List Tree} {lines : List Str} (g : Ptb.Format) (m : Bool) (ss : List (Option (List Conllx.Token)))
    (g1 : ∀ l ∈ lines, Piece l) (g2 : List.Forall₂ (fun l u => Ptb.stringToTree g l = .ok (.ok u)) lines us) :
    Stream (bracketInput g) m ⟨Negra.lines (textOf (lines.map fun s => .text (s ++ ['\n']))), ss⟩ (us.map .ok) true := by
  rw [textOf_unlines, Negra.lines_unlines fun l hl => ⟨(g1 l hl).1, (g1 l hl).tight⟩]
  exact (ptb_stream (bracketInput g) g m (next_bracket g m) _ lines ss _ (readAll_pieces m g1 g2)).1

/-- Through a bracketed format: what is written and what is read back. -/
theorem via_bracket {f : InFormat} {m m' : Bool} {pick : Tree → Finset Nat → Option Nat} {src : Source}
    (ss : List (Option (List Conllx.Token))) {ts : List Tree} (g : Ptb.Format) (hs : Stream f m src (ts.map .ok) true)
    (H : ∀ t ∈ ts, Cleaned g t) :
    ∃ wn us, main f m pick (plain (bracketOutput g)) src none = (wn, .finished) ∧
      Stream (bracketInput g) m' ⟨Negra.lines (textOf wn), ss⟩ (us.map .ok) true ∧
      List.Forall₂ (fun t u => (∀ F, t.Is F → u.Is (F.written g)) ∧ Read u ∧ u.isProjective = true ∧ u.NoSecondary) ts us := by
  obtain ⟨lines, us, g1, g2, g3, g4⟩ := bracket_back g H
  refine ⟨lines.map (fun s => .text (s ++ ['\n'])), us, ?_, bracket_stream g m' ss g1 g2, g4⟩
  refine main_write hs ?_
  clear hs H g1 g2 g4
  induction g3 with
  | nil => exact .nil
  | cons h _ ih => exact .cons (by rw [convert_bracket, write_bracket g 0 h]) ih

/-- The trees that are kept exactly. -/
def Exact (g : Ptb.Format) (t : Tree) : Prop :=
  t.WF ∧ t.isProjective = true ∧ t.NoSecondary ∧ ∃ F, t.Is F ∧ F.Clean g ∧ F.written g = F

theorem heldBy_exact {g : Ptb.Format} (K : t.HeldBy g) : Exact g t := by
  obtain ⟨F, hF⟩ := K.wf.is_exists
  exact ⟨K.wf, K.noGap, K.primary, F, hF, Ptb.Rep.clean K.writable hF, Ptb.Rep.written_eq K.annotated K.bare hF⟩

theorem exact_iso {g : Ptb.Format} {u : Tree} (E : Exact g t)
    (h : (∀ F, t.Is F → u.Is (F.written g)) ∧ Read u ∧ u.isProjective = true ∧ u.NoSecondary) : ∃ φ, Iso t u φ := by
  obtain ⟨W, _, hn, F, hF, _, hw⟩ := E
  have := h.1 F hF
  rw [hw] at this
  exact Props.C74_same_tree t u W h.2.1.wf hn h.2.2.2 F hF this

theorem noSecondary_one {t : Tree} (h : t.NoSecondary) : t.OneSecondary := by
  intro e he e' _ hw
  rw [h e he] at hw; cases hw

theorem noSecondary_nt {t : Tree} (h : t.NoSecondary) : t.SecondaryNt := by
  intro e he hw
  rw [h e he] at hw; cases hw

theorem iso_suits {o : Options} {u : Tree} {φ : Nat → Nat} (I : Iso t u φ) (S : Suits o t) (R : Read u) : Suits o u := by
  have hn := (Props.C74_same_queries t u φ I S.fit.wf R.wf).2.2.2.2
  refine ⟨⟨R.wf, ?_, R.order, R.sec⟩, by rw [hn]; exact S.words⟩
  obtain ⟨x, hx⟩ := S.fit.rootNt
  exact ⟨x, by rw [I.root, I.node _ ⟨_, hx⟩, hx]⟩

theorem through {f : InFormat} {m m' : Bool} {pick pick' : Tree → Finset Nat → Option Nat} (hpick : IsOrder pick)
    (hpick' : IsOrder pick') {src : Source} (ss : List (Option (List Conllx.Token))) {ts : List Tree} (g : Ptb.Format)
    (hs : Stream f m src (ts.map .ok) true) (H : ∀ t ∈ ts, Exact g t) :
    ∃ wn, main f m pick (plain (bracketOutput g)) src none = (wn, .finished) ∧
      (∀ o pos, (∀ t ∈ ts, Suits o t) →
        main (bracketInput g) m' pick' o ⟨Negra.lines (textOf wn), ss⟩ pos = main f m pick o src pos) ∧
      ∀ out, (out = .negra → ∀ t ∈ ts, t.IsNt t.root) →
        main (bracketInput g) m' pick' (plain out) ⟨Negra.lines (textOf wn), ss⟩ none = main f m pick (plain out) src none := by
  obtain ⟨wn, us, h1, h2, h3⟩ := via_bracket (m' := m') (pick := pick) ss g hs fun t ht => by
    obtain ⟨W, hp, _, F, hF, hc, _⟩ := H t ht
    exact ⟨W, hp, F, hF, hc⟩
  refine ⟨wn, h1, fun o pos hS => ?_, fun out hr => ?_⟩
  · refine (Props.C74_option_runs f _ m m' pick pick' hpick hpick' o src _ pos ts us hs h2 ?_).symm
    clear hs h1 h2
    induction h3 with
    | nil => exact .nil
    | @cons t u ts us h _ ih =>
      have E := H t (by simp)
      have S := hS t (by simp)
      obtain ⟨φ, I⟩ := exact_iso E h
      exact .cons ⟨S, iso_suits I S h.2.1, fun _ => E.2.1, fun _ => noSecondary_one E.2.2.1, φ, I⟩
        (ih (fun v hv => H v (by simp [hv])) fun v hv => hS v (by simp [hv]))
  · refine (Props.C74_runs f _ m m' pick pick' out src _ ts us hs h2 ?_).symm
    clear hs h1 h2
    induction h3 with
    | nil => exact .nil
    | @cons t u ts us h _ ih =>
      have E := H t (by simp)
      obtain ⟨φ, I⟩ := exact_iso E h
      exact .cons ⟨E.1, h.2.1.wf, fun e => ⟨hr e t (by simp), noSecondary_one E.2.2.1, noSecondary_nt E.2.2.1⟩, φ, I⟩
        (ih (fun v hv => H v (by simp [hv])) fun e v hv => hr e v (by simp [hv]))

/-- Every tree that has been parsed stands for what the bracketing says. -/
theorem parsed_forest {f : Ptb.Format} {s : Str} (h : Ptb.stringToTree f s = .ok (.ok t)) :
    ∃ b, Ptb.Wordy b ∧ t.WF ∧ t.isProjective = true ∧ t.Is ((b.forest f 0).setTop none) := by
  obtain ⟨b, hb, hr⟩ := Ptb.parsed_reads h
  obtain ⟨t1, h1, W, hp, hF⟩ := Ptb.stringToTree_ok (f := f) hr hb
  rw [h] at h1; cases h1
  exact ⟨b, Ptb.reads_wordy hr, W, hp, hF⟩

theorem parsed_exact {f : Ptb.Format} (hf : f ≠ .ptb) {s : Str} (h : Ptb.stringToTree f s = .ok (.ok t)) : Exact f t := by
  obtain ⟨b, hb, W, hp, hF⟩ := parsed_forest h
  obtain ⟨c1, c2⟩ := Ptb.forest_clean hf (k := 0) hb
  obtain ⟨c3, c4⟩ := Ptb.setTop_clean c1 c2
  exact ⟨W, hp, Ptb.stringToTree_primary h, _, hF, c3, c4⟩

theorem parsed_tueba {f : Ptb.Format} {s : Str} (h : Ptb.stringToTree f s = .ok (.ok t)) (hn : t.NoSigns) :
    Exact .tueba t := by
  obtain ⟨b, hb, W, hp, hF⟩ := parsed_forest h
  have hall := Rep.all hF hn
  have hall' : (b.forest f 0).All (fun nd => ':' ∉ nd.label ∧ '=' ∉ nd.label ∧
      ∀ a, annotationOf nd.features = some a → ':' ∉ a ∧ '=' ∉ a) := by
    generalize b.forest f 0 = F at hall
    cases F <;> exact hall
  obtain ⟨c1, c2⟩ := Ptb.forest_tueba f (k := 0) hb hall'
  obtain ⟨c3, c4⟩ := Ptb.setTop_clean c1 c2
  exact ⟨W, hp, Ptb.stringToTree_primary h, _, hF, c3, c4⟩

/-- All trees of a bracketed input have been parsed. -/
theorem stream_parsed {f : Ptb.Format} {m : Bool} {src : Source} {items : List (Except Err Tree)} {b : Bool}
    (h : Stream (bracketInput f) m src items b) : ∀ t, .ok t ∈ items → ∃ s, Ptb.stringToTree f s = .ok (.ok t) := by
  generalize hg : bracketInput f = i at h
  induction h with
  | stop => simp
  | crash => simp
  | item hn _ ih =>
    subst hg
    intro t ht
    rcases List.mem_cons.1 ht with rfl | ht
    · exact next_parsed hn
    · exact ih t ht

/-- Through one bracketed format to another one. -/
theorem lossy {f : InFormat} {m m' : Bool} {pick pick' : Tree → Finset Nat → Option Nat} {src : Source}
    (ss : List (Option (List Conllx.Token))) {ts : List Tree} (g h : Ptb.Format) (hg : h = .simple ∨ g = .tueba)
    (hs : Stream f m src (ts.map .ok) true) (H : ∀ t ∈ ts, t.WF ∧ t.isProjective = true ∧ t.Writable g) :
    ∃ wn ws, main f m pick (plain (bracketOutput g)) src none = (wn, .finished) ∧ ws.length = ts.length ∧
      main f m pick (plain (bracketOutput h)) src none = (ws, .finished) ∧
      main (bracketInput g) m' pick' (plain (bracketOutput h)) ⟨Negra.lines (textOf wn), ss⟩ none = (ws, .finished) := by
  obtain ⟨wn, us, h1, h2, h3⟩ := via_bracket (m' := m') (pick := pick) ss g hs fun t ht => by
    obtain ⟨W, hp, hw⟩ := H t ht
    obtain ⟨F, hF⟩ := W.is_exists
    exact ⟨W, hp, F, hF, Ptb.Rep.clean hw hF⟩
  have key : ∃ bs : List Str,
      List.Forall₂ (fun t s => ∃ F, t.Is F ∧ (F.brackets h).text (sepOf h) = [s]) ts bs ∧
      List.Forall₂ (fun t s => ∃ F, t.Is F ∧ (F.brackets h).text (sepOf h) = [s]) us bs ∧
      ∀ u ∈ us, u.WF ∧ u.isProjective = true := by
    clear hs h1 h2
    induction h3 with
    | nil => exact ⟨[], .nil, .nil, by simp⟩
    | @cons t u ts us hu _ ih =>
      obtain ⟨bs, b1, b2, b3⟩ := ih fun v hv => H v (by simp [hv])
      obtain ⟨W, hp, hw⟩ := H t (by simp)
      obtain ⟨F, hF⟩ := W.is_exists
      obtain ⟨s, w1, w2⟩ := Ptb.treeToString_ok W hp hF h
      refine ⟨s :: bs, .cons ⟨F, hF, w2⟩ b1, .cons ⟨_, hu.1 F hF, by rw [Ptb.written_brackets hg]; exact w2⟩ b2, ?_⟩
      intro v hv
      rcases List.mem_cons.1 hv with rfl | hv
      · exact ⟨hu.2.1.wf, hu.2.2.1⟩
      · exact b3 v hv
  obtain ⟨bs, b1, b2, b3⟩ := key
  exact ⟨wn, _, h1, by rw [List.length_map, b1.length_eq], direct h hs (fun t ht => ⟨(H t ht).1, (H t ht).2.1⟩) b1,
    direct h h2 b3 b2⟩

end Convert
end Lumberjack
