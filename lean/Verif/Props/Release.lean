import Verif.Proofs.ReleaseDecode
import Verif.Props.ConllxRead
import Verif.Props.Machine
import Verif.Props.Decode
import Verif.Props.Bracket

/-!
# Release builds (C78)
-/

namespace Lumberjack
namespace Props

open Lumberjack.Tree Lumberjack.Bracketed

/-- C78: a build with overflow checks reads a multi-line file as C47 says. -/
theorem C78_checked (f : Ptb.Format) (lines : List Str) (hb : FewBrackets lines) (fuel : Nat) :
    Machine.readMulti .checked f fuel lines = Ptb.readAll f .multi fuel lines :=
  Machine.readMulti_checked f fuel lines hb.1

/-- C78: a release build never panics on a multi-line file. Its items are what is parsed from the lines up to
the first point at which as many brackets were closed as were opened, no matter in which order; there is
one way to divide a file like this. -/
theorem C78_release (f : Ptb.Format) (lines : List Str) (hb : FewBrackets lines) (fuel : Nat) (hf : lines.length < fuel) :
    (∃! texts, EvenGroups lines texts) ∧
    ∀ texts, EvenGroups lines texts → ∃ items, Machine.readMulti .wrapping f fuel lines = .ok items ∧
      List.Forall₂ (fun s r => Ptb.stringToTree f s = .ok r) texts items := by
  obtain ⟨ts, items, h1, h2, h3⟩ := Machine.readMulti_release f fuel lines hb hf
  refine ⟨⟨ts, h1, fun ts' h' => Machine.evenGroups_unique h' h1⟩, fun texts ht => ⟨items, h2, ?_⟩⟩
  rw [Machine.evenGroups_unique ht h1]
  exact h3

/-- C78: on a file on which a build with overflow checks does not panic, both builds return the same. -/
theorem C78_same (f : Ptb.Format) (lines : List Str) (hb : FewBrackets lines) (fuel : Nat) (hf : lines.length < fuel)
    (items : List (Except Err Tree)) (h : Machine.readMulti .checked f fuel lines = .ok items) :
    Machine.readMulti .wrapping f fuel lines = .ok items := by
  rw [C78_checked f lines hb fuel] at h
  obtain ⟨ts, its, h1, h2, h3⟩ := Machine.readMulti_release f fuel lines hb hf
  rcases Ptb.readAll_multi f fuel lines hf with ⟨ts', its', g1, g2, g3⟩ | ⟨g1, -⟩
  · rw [g2] at h
    simp only [Res.ok.injEq] at h
    subst h
    have := Machine.evenGroups_unique (Machine.even_of_groups g1) h1
    subst this
    rw [h2]
    congr 1
    clear h2 g2 h1 g1
    induction h3 generalizing its' with
    | nil => cases g3; rfl
    | cons a _ ih =>
      cases g3 with
      | cons b g3 =>
        rw [a] at b
        simp only [Res.ok.injEq] at b
        rw [b, ih _ g3]
  · rw [g1] at h; cases h

/-- C78: every tree a release build reads stands in the file as a group of lines (C47), in which no bracket is
closed that was not opened. -/
theorem C78_trees (f : Ptb.Format) (lines : List Str) (hb : FewBrackets lines) (fuel : Nat) (hf : lines.length < fuel)
    (items : List (Except Err Tree)) (h : Machine.readMulti .wrapping f fuel lines = .ok items) (t : Tree)
    (ht : .ok t ∈ items) :
    ∃ pre g post, lines = pre ++ g ++ post ∧ Group g ∧ Ptb.stringToTree f g.flatten = .ok (.ok t) := by
  obtain ⟨ts, its, h1, h2, h3⟩ := Machine.readMulti_release f fuel lines hb hf
  rw [h2] at h
  simp only [Res.ok.injEq] at h
  subst h
  have key : ∃ s ∈ ts, Ptb.stringToTree f s = .ok (.ok t) := by
    clear h1 h2
    induction h3 with
    | nil => simp at ht
    | @cons s r ss rs a _ ih =>
      rcases List.mem_cons.1 ht with rfl | ht
      · exact ⟨s, List.mem_cons_self, a⟩
      · obtain ⟨s', h4, h5⟩ := ih ht
        exact ⟨s', List.mem_cons_of_mem _ h4, h5⟩
  obtain ⟨s, hs, hp⟩ := key
  obtain ⟨pre, g, post, h4, h5, h6⟩ := Machine.evenGroups_mem h1 s hs
  subst h6
  exact ⟨pre, g, post, by rw [h4]; simp, Machine.group_of_parsed h5 hp, hp⟩

theorem skipped_unique {s s' u u' : List Str} (h : s ++ u = s' ++ u') (hs : ∀ l ∈ s, Skipped l) (hs' : ∀ l ∈ s', Skipped l)
    (hu : ∃ l, u.head? = some l ∧ ¬ Skipped l) (hu' : ∃ l, u'.head? = some l ∧ ¬ Skipped l) : s = s' := by
  induction s generalizing s' with
  | nil =>
    cases s' with
    | nil => rfl
    | cons a s' =>
      obtain ⟨l, hl, hn⟩ := hu
      rw [List.nil_append] at h
      rw [h] at hl
      simp at hl
      exact absurd (hs' a List.mem_cons_self) (hl ▸ hn)
  | cons a s ih =>
    cases s' with
    | nil =>
      obtain ⟨l, hl, hn⟩ := hu'
      rw [List.nil_append] at h
      rw [← h] at hl
      simp at hl
      exact absurd (hs a List.mem_cons_self) (hl ▸ hn)
    | cons b s' =>
      simp only [List.cons_append, List.cons.injEq] at h
      rw [h.1, ih h.2 (fun x hx => hs x (List.mem_cons_of_mem _ hx)) (fun x hx => hs' x (List.mem_cons_of_mem _ hx))]

/-- C78: where a build with overflow checks panics, a release build returns an error, or drops the rest of the
file. -/
theorem C78_surplus (f : Ptb.Format) (lines : List Str) (hb : FewBrackets lines)
    (h : Machine.nextMulti .checked f lines [] 0 = .panic) :
    Machine.nextMulti .wrapping f lines [] 0 = .ok (none, []) ∨
    ∃ e rest, Machine.nextMulti .wrapping f lines [] 0 = .ok (some (.error e), rest) := by
  rw [Machine.nextMulti_checked f lines hb.1] at h
  rcases Machine.release_spec f lines hb with ⟨s, g, rest, h1, h2, h3, r, h4, h5⟩ | ⟨s, u, h1, h2, h3, h4, h5⟩
  · cases r with
    | error e => exact .inr ⟨e, rest, h5⟩
    | ok t =>
      have hg := Machine.group_of_parsed h3 h4
      rcases Ptb.nextMulti_spec f lines with ⟨s', g', rest', -, -, -, r', -, h6⟩ | ⟨s', u, -, -, -, -, h6⟩ |
        ⟨s', g', rest', k1, k2, k3, k4, k5, k6⟩
      · rw [h6] at h; cases h
      · rw [h6] at h; cases h
      · -- the same skipped lines, then two groups of which one is the beginning of the other
        have hs : s = s' := skipped_unique (h1.symm.trans k1) h2 k2
          (Machine.EvenGroup.head h3) (by obtain ⟨l, hl, hn⟩ := k3; exact ⟨l, Ptb.group_head hl, hn⟩)
        subst hs
        have heq := List.append_cancel_left (h1.symm.trans k1)
        have hg' : g' ≠ [] := by rintro rfl; obtain ⟨l, hl, _⟩ := k3; simp at hl
        exfalso
        rcases List.prefix_or_prefix_of_prefix (List.prefix_append g rest) (heq ▸ List.prefix_append g' rest') with h6 | h6
        · by_cases hne : g = g'
          · subst hne; have := hg.closed; omega
          · have := k4 g h6 (Machine.EvenGroup.ne_nil h3) hne
            have := hg.closed
            unfold OpenEnd at *; omega
        · by_cases hne : g' = g
          · subst hne; have := hg.closed; omega
          · have := hg.proper g' h6 hg' hne
            unfold OpenEnd at *; omega
  · exact .inl h5

/-- C78: a build with overflow checks decodes as C33 says; with positive counts every build does. -/
theorem C78_decode (b : Build) (e : AbsEncoding) (ts : List Terminal) (hc : CountsUsize e)
    (h : b = .checked ∨ AbsPositive e) : Machine.decode b e ts = Tree.decode e ts := by
  rcases h with rfl | h
  · exact Machine.decode_checked hc
  · exact Machine.decode_positive b hc h

/-- C78: the same for reading tags; counts read from tags are of type `usize`. -/
theorem C78_read_tags (b : Build) (toks : List Conllx.Token)
    (h : b = .checked ∨ ∀ enc tms, Conllx.readTokens "abs_ancestor".toList AbsAncestor.parse toks 0 = .ok (enc, tms) →
      AbsPositive enc) :
    Machine.readAbsolute b toks = Conllx.tryFromAbsolute toks :=
  Machine.readAbsolute_eq b toks fun enc tms hr =>
    C78_decode b enc tms (Machine.readTokens_usize toks hr) (h.imp id fun h => h enc tms hr)

/-- C78: whatever the counts are, a release build panics or decodes to a well-formed tree over the given words in
their order. -/
theorem C78_decode_release (e : AbsEncoding) (ts : List Terminal) (hl : e.length = ts.length)
    (hs : ∀ i x, ts[i]? = some x → x.span = Span.ofIdx i) :
    Machine.decode .wrapping e ts = .panic ∨ ∃ t, Machine.decode .wrapping e ts = .ok t ∧ t.WF ∧
      t.Terminals ((e.zip ts).map fun p => Decoding.chained p.1.2 p.2) := by
  by_cases h1 : ts.length = 1 ∧ ∃ p ∈ e.zip ts, p.1.1 = none
  · obtain ⟨h1, p, hp, hpn⟩ := h1
    obtain ⟨⟨a, c⟩, rfl⟩ := List.length_eq_one_iff.1 (hl.trans h1)
    obtain ⟨y, rfl⟩ := List.length_eq_one_iff.1 h1
    simp only [List.zip_cons_cons, List.zip_nil_right, List.mem_singleton] at hp
    subst hp
    simp only at hpn
    subst hpn
    have hp : AbsPositive [(none, c)] := by simp [AbsPositive]
    obtain ⟨t, g1, g2, -, g3, -⟩ := C33_decode _ _ hl (by simp) hp hs
    rw [Machine.decode_positive .wrapping (by simp [CountsUsize]) hp]
    exact .inr ⟨t, g1, g2, g3⟩
  · rcases Machine.decode_release e ts hl hs h1 with h | ⟨t, g1, g2, g3, -⟩
    · exact .inl h
    · exact .inr ⟨t, g1, g2, g3⟩

/-- C78: whatever the counts in the tags of a sentence are, a release build panics or reads a tree over its words in
their order, which is well formed but for the number of discontinuous nodes it has recorded. -/
theorem C78_read_release (toks : List Conllx.Token) (e : AbsEncoding)
    (h : List.Forall₂ (Conllx.Tag "abs_ancestor".toList AbsAncestor.parse) toks e) :
    Machine.readAbsolute .wrapping toks = .panic ∨
    ∃ t k, Machine.readAbsolute .wrapping toks = .ok (.ok t) ∧ ({ t with numDisc := k } : Tree).WF ∧
      t.nTerminals = toks.length ∧
      ∀ n x i, t.graph.node? n = some (.term x) → x.span = Span.ofIdx i → ∃ tok, toks[i]? = some tok ∧
        x.form = tok.form ∧ x.pos = tok.pos.getD ['_'] ∧ x.lem = none := by
  have hr := Conllx.readTokens_tags h (k := 0)
  have hlen : e.length = (toks.zipIdx.map fun p => Conllx.wordOf p.1 p.2).length := by simpa using h.length_eq.symm
  by_cases hp : AbsPositive e
  · by_cases hne : toks = []
    · subst hne
      cases h
      left; decide +kernel
    · obtain ⟨t, h1, h2⟩ := C59_absolute toks hne e h hp
      rw [C78_read_tags .wrapping toks (.inr fun enc tms h' => by rw [hr] at h'; cases h'; exact hp), h1]
      refine .inr ⟨t, t.numDisc, rfl, h2.wf, h2.size, fun n x i hx hi => ?_⟩
      obtain ⟨tok, a, b, c, d, _⟩ := h2.words n x i hx hi
      exact ⟨tok, a, b, c, d⟩
  · have hs : ∀ i x, (toks.zipIdx.map fun p => Conllx.wordOf p.1 p.2)[i]? = some x → x.span = Span.ofIdx i := by
      intro i x hx
      obtain ⟨tok, _, rfl⟩ := Conllx.words_get hx
      rfl
    have h1 : ¬ ((toks.zipIdx.map fun p => Conllx.wordOf p.1 p.2).length = 1 ∧
        ∃ p ∈ e.zip (toks.zipIdx.map fun p => Conllx.wordOf p.1 p.2), p.1.1 = none) := by
      rintro ⟨h1, p, hm, hn⟩
      refine hp ?_
      obtain ⟨x, rfl⟩ := List.length_eq_one_iff.1 (hlen.trans h1)
      have := (List.of_mem_zip (a := p.1) (b := p.2) hm).1
      simp only [List.mem_singleton] at this
      subst this
      intro y hy a ha
      simp only [List.mem_singleton] at hy
      rw [hy, hn] at ha
      cases ha
    unfold Machine.readAbsolute
    rw [hr]
    simp only []
    rcases Machine.decode_release e _ hlen hs h1 with h2 | ⟨t, g1, g2, g3, g4⟩
    · left; rw [h2]; rfl
    · right
      rw [g1]
      simp only [Res.ok_bind]
      have hword : ∀ n x i, t.graph.node? n = some (.term x) → x.span = Span.ofIdx i → ∃ c tok, toks[i]? = some tok ∧
          x = Decoding.chained c (Conllx.wordOf tok i) := by
        intro n x i hn hi
        have := g3.2 n x i hn ⟨x, hn, hi⟩
        rw [List.getElem?_map, Option.map_eq_some_iff] at this
        obtain ⟨p, h5, h6⟩ := this
        obtain ⟨tok, h7, h8⟩ := Conllx.words_get (List.getElem?_zip_eq_some.1 h5).2
        exact ⟨p.1.2, tok, h7, by rw [← h6, h8]⟩
      have hfeat : ∀ n nd, t.graph.node? n = some nd → Machine.OnlyChain nd.features := by
        intro n nd hn
        cases nd with
        | nt x => exact g4 n x hn
        | term x =>
          obtain ⟨i, -, y, hy, hi⟩ := g2.sentence.pos n ⟨x, hn⟩
          rw [hn] at hy
          simp only [Option.some.injEq, Node.term.injEq] at hy
          subst hy
          obtain ⟨c, tok, _, hc⟩ := hword n x i hn hi
          rw [hc]
          cases c with
          | none => exact .inl rfl
          | some c => exact Machine.OnlyChain.insert (f := none) (.inl rfl) c
      obtain ⟨f, hf⟩ := g2.is_exists
      obtain ⟨t', k1, k2, k3, k4, -, -⟩ := restoreUnaryChains_spec g2.core ['_'] hf (fun n nd hn => by
          rcases hfeat n nd hn with h | ⟨c, h⟩ <;> rw [h]
          · exact List.Pairwise.nil
          · exact List.pairwise_singleton _ _) (fun n nd hn => by
          rcases hfeat n nd hn with h | ⟨c, h⟩ <;> rw [h]
          · exact fun h => by cases h
          · simp only [Option.getD_some]
            intro h
            have : (some (some c) : Option (Option Str)) = some none := h
            cases this)
      rw [k1]
      refine ⟨t', _, rfl, Core.wf (t := { t' with numDisc := ((Finset.range t'.graph.nodes.length).filter t'.Disc).card })
        ⟨k2.graph, ⟨k2.shape.1, k2.shape.2, k2.shape.3, k2.shape.4, k2.shape.5, k2.shape.6⟩,
          ⟨k2.sentence.1, k2.sentence.2, k2.sentence.3⟩, k2.spans⟩ rfl, ?_, ?_⟩
      · rw [k4, ← g3.1]; simp [h.length_eq]
      · intro n x i hn hi
        obtain ⟨y, y1, y2, y3, y4, y5⟩ := (restoreUnaryChains_kept g2.graph k1).terms n x hn
        obtain ⟨c, tok, h5, h6⟩ := hword n y i y1 (y5 ▸ hi)
        refine ⟨tok, h5, ?_⟩
        rw [y2, y3, y4, h6]
        cases c <;> exact ⟨rfl, rfl, rfl⟩

/-! ## Examples -/

/-- A line with a surplus bracket before two trees. -/
def surplusFile : List Str := ["(S (N a)))".toList, "(S (N b))".toList, "(S (N c))".toList]

theorem surplus_few : FewBrackets surplusFile := ⟨by decide +kernel, by decide +kernel⟩

/-- C78: one surplus bracket makes a release build drop all of the file, without an error. -/
theorem C78_drops : Machine.readMulti .checked .simple 5 surplusFile = .panic ∧
    Machine.readMulti .wrapping .simple 5 surplusFile = .ok [] :=
  ⟨by decide +kernel, by decide +kernel⟩

/-- A line with a surplus bracket before a tree on several lines. -/
def shiftedFile : List Str := ["(S (N a)))".toList, "(S".toList, "(N b)".toList, "(V c))".toList]

/-- The items of a file: errors, and trees as text. -/
def shown (r : Res (List (Except Err Tree))) : Option (List (Option (Res (Except Err Str)))) :=
  match r with
  | .ok l => some (l.map fun x => match x with
    | .ok t => some (Ptb.treeToString .simple t)
    | .error _ => none)
  | _ => none

/-- C78: or it cuts a tree out of the next one. -/
theorem C78_shifts : Machine.readMulti .checked .simple 6 shiftedFile = .panic ∧
    shown (Machine.readMulti .wrapping .simple 6 shiftedFile) = some [none, some (.ok (.ok "(N b)".toList))] :=
  ⟨by decide +kernel, by decide +kernel⟩

example : Machine.nextMulti .wrapping .simple surplusFile [] 0 = .ok (none, []) ∨
    ∃ e rest, Machine.nextMulti .wrapping .simple surplusFile [] 0 = .ok (some (.error e), rest) :=
  C78_surplus _ _ surplus_few (by decide +kernel)

/-- A file without surplus brackets. -/
def plainGroups : List Str := ["% comment".toList, "(S".toList, "(N a))".toList, [], "(S (N b))".toList, "(S".toList]

example (items : List (Except Err Tree)) (h : Machine.readMulti .checked .simple 7 plainGroups = .ok items) :
    Machine.readMulti .wrapping .simple 7 plainGroups = .ok items :=
  C78_same _ _ ⟨by decide +kernel, by decide +kernel⟩ 7 (by decide) items h

example : shown (Machine.readMulti .wrapping .simple 7 plainGroups) =
    some [some (.ok (.ok "(S (N a))".toList)), some (.ok (.ok "(S (N b))".toList))] := by decide +kernel

example : ∃! texts, EvenGroups shiftedFile texts :=
  (C78_release .simple shiftedFile ⟨by decide +kernel, by decide +kernel⟩ 5 (by decide)).1

/-- Three words; the first count is zero. -/
def zeroSentence : List Conllx.Token :=
  [wordTag "a" "abs_ancestor:S+0", wordTag "b" "abs_ancestor:A+2", wordTag "c" "abs_ancestor:NONE"]

/-- Another sentence with a count of zero. -/
def zeroDeep : List Conllx.Token :=
  [wordTag "a" "abs_ancestor:S+0", wordTag "b" "abs_ancestor:A+2", wordTag "c" "abs_ancestor:B+3",
    wordTag "d" "abs_ancestor:NONE"]

/-- C78: with a count of zero a build with overflow checks panics. A release build returns a tree, or panics
later. -/
theorem C78_zero : Machine.readAbsolute .checked zeroSentence = .panic ∧
    (∃ t, Machine.readAbsolute .wrapping zeroSentence = .ok (.ok t) ∧
      Ptb.treeToString .simple t = .ok (.ok "(S (N a) (N b) (A (N c)))".toList)) ∧
    Machine.readAbsolute .checked zeroDeep = .panic ∧ Machine.readAbsolute .wrapping zeroDeep = .panic :=
  ⟨by decide +kernel, readsAs_spec (by decide +kernel), by decide +kernel, by decide +kernel⟩

/-- Four words; two counts are zero. -/
def zeroGap : List Conllx.Token :=
  [wordTag "a" "abs_ancestor:A+2", wordTag "b" "abs_ancestor:B+0", wordTag "c" "abs_ancestor:D+0",
    wordTag "d" "abs_ancestor:NONE"]

/-- The same with a chain. -/
def zeroGapChain : List Conllx.Token :=
  [wordTag "a" "abs_ancestor:X_A+2", wordTag "b" "abs_ancestor:B+0", wordTag "c" "abs_ancestor:D+0",
    wordTag "d" "abs_ancestor:NONE"]

private theorem gap_of {toks : List Conllx.Token}
    (h : (match Machine.readAbsolute .wrapping toks with
      | .ok (.ok t) => decide (t.isProjective = false)
      | _ => false) = true) : ∃ t, Machine.readAbsolute .wrapping toks = .ok (.ok t) ∧ t.isProjective = false := by
  split at h
  · rename_i t e
    exact ⟨t, e, by simpa using h⟩
  · simp at h

private theorem miscounted_of {toks : List Conllx.Token}
    (h : (match Machine.readAbsolute .wrapping toks with
      | .ok (.ok t) => decide (t.resetNtSpans ≠ .ok t)
      | _ => false) = true) : ∃ t, Machine.readAbsolute .wrapping toks = .ok (.ok t) ∧ ¬ t.WF := by
  split at h
  · rename_i t e
    exact ⟨t, e, fun W => absurd (resetNtSpans_id W) (by simpa using h)⟩
  · simp at h

/-- C78: the tree may have gaps, which no tree decoded by the build with overflow checks has (C33) ... -/
theorem C78_gap : ∃ t, Machine.readAbsolute .wrapping zeroGap = .ok (.ok t) ∧ t.isProjective = false :=
  gap_of (by decide +kernel)

/-- ... and with a chain on a node with a gap its number of such nodes is recorded wrongly. -/
theorem C78_miscounted : ∃ t, Machine.readAbsolute .wrapping zeroGapChain = .ok (.ok t) ∧ ¬ t.WF :=
  miscounted_of (by decide +kernel)

/-- Two counts of zero, which a release build decodes. -/
example : Machine.decode .wrapping
    [(some ⟨2, "A".toList⟩, none), (some ⟨0, "B".toList⟩, some "X".toList), (some ⟨0, "D".toList⟩, none), (none, none)]
    [Terminal.new "a".toList "N".toList 0, Terminal.new "b".toList "N".toList 1, Terminal.new "c".toList "N".toList 2,
      Terminal.new "d".toList "N".toList 3] ≠ .panic := by decide +kernel

example (b : Build) : Machine.decode b [(some ⟨3, "A".toList⟩, none), (some ⟨2, "B".toList⟩, none), (none, none)]
    [Terminal.new "a".toList "N".toList 0, Terminal.new "b".toList "N".toList 1, Terminal.new "c".toList "N".toList 2] =
    Tree.decode [(some ⟨3, "A".toList⟩, none), (some ⟨2, "B".toList⟩, none), (none, none)]
    [Terminal.new "a".toList "N".toList 0, Terminal.new "b".toList "N".toList 1, Terminal.new "c".toList "N".toList 2] :=
  C78_decode b _ _ (fun x hx a ha => lt_trans (usual_fits.2 x hx a ha) (by decide)) (.inr usual_fits.1)

end Props
end Lumberjack
