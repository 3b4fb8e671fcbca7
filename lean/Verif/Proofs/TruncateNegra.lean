import Verif.Proofs.Truncate
import Verif.Proofs.NegraCopy
import Verif.Props.NegraRead

/-!
# Cutting a NEGRA file that was written
-/

namespace Lumberjack
namespace Negra

open Lumberjack.Tree

theorem rows_not_frame {rows : List Str} {T : List TermRow} {N : List NtRow} (h : Rows rows T N) :
    ∀ l ∈ rows, ¬ IsFrame l := by
  obtain ⟨tl, nl, rfl, h1, h2⟩ := h
  intro l hl
  rcases List.mem_append.1 hl with hl | hl
  · obtain ⟨i, hi⟩ := List.mem_iff_getElem?.1 hl
    obtain ⟨r, -, g⟩ := forall₂_right h1 hi
    exact not_frame_of_term g
  · obtain ⟨i, hi⟩ := List.mem_iff_getElem?.1 hl
    obtain ⟨r, -, g⟩ := forall₂_right h2 hi
    exact g.1

theorem not_both {l : Str} (h1 : startsWith bos l = true) (h2 : startsWith eos l = true) : False := by
  unfold startsWith at h1 h2
  rw [List.isPrefixOf_iff_prefix] at h1 h2
  rcases List.prefix_or_prefix_of_prefix h1 h2 with g | g <;>
    exact absurd (List.isPrefixOf_iff_prefix.2 g) (by decide)

theorem opens_number {l : Str} {id id' : Nat} {info info' : Option Str} (h : Opens l id info) (h' : Opens l id' info') :
    id = id' := by
  obtain ⟨-, w, n, m, h1, h2, -⟩ := h
  obtain ⟨-, w', n', m', h1', h2', -⟩ := h'
  rw [h1] at h1'
  cases h1'
  rw [h2] at h2'
  cases h2'
  rfl

/-- Without a footer there is no tree. -/
theorem no_footer {ls rest : List Str} {t : Tree} (h : ∀ l ∈ ls, startsWith eos (trim l) = false) :
    readerNext ls ≠ .ok (some (.ok t), rest) := by
  intro he
  obtain ⟨pre, hd, body, f, id, info, T, N, rfl, -, -, -, -, hc, -⟩ := (Props.C49_tree ls rest).1 ⟨t, he⟩
  have := h f (by simp)
  rw [hc.1] at this
  cases this

/-- The beginning of a footer that closes the sentence is the footer. -/
theorem footer_whole {r : Str} {id : Nat} (hr : r <+: footer (natToStr id)) (hc : Closes r id) :
    r = footer (natToStr id) := by
  rw [footer_eq] at hr ⊢
  rw [show eos ++ ' ' :: natToStr id = (eos ++ [' ']) ++ natToStr id by simp] at hr ⊢
  rcases List.prefix_or_prefix_of_prefix hr (List.prefix_append (eos ++ [' ']) (natToStr id)) with h | ⟨n, rfl⟩
  · exfalso
    have hsw := hc.2
    have : ∀ r ∈ (eos ++ [' ']).inits, (splitWs (trim r))[1]? = none := by decide +kernel
    rw [this r (List.mem_inits _ _ |>.2 h)] at hsw
    cases hsw
  · have hn := (List.prefix_append_right_inj _).1 hr
    have hf : n ≠ [] := by
      rintro rfl
      have hsw := hc.2
      have : (splitWs (trim (eos ++ [' '] ++ [])))[1]? = none := by decide +kernel
      rw [this] at hsw
      cases hsw
    have hF : Field n := ⟨hf, fun c hc => (field_natToStr id).2 c (hn.subset hc)⟩
    have hT : Tight (eos ++ [' '] ++ n) := by
      refine ⟨fun c hc => ?_, fun c hc => ?_⟩
      · rw [List.append_assoc, List.head?_append_of_ne_nil _ field_eos.1] at hc
        exact field_eos.tight.1 c hc
      · rw [List.getLast?_append_of_ne_nil _ hf] at hc
        exact hF.tight.2 c hc
    have hsw := hc.2
    rw [trim_tight hT, show eos ++ [' '] ++ n = eos ++ ' ' :: n by simp, splitWs_field field_eos, splitWs_last hF] at hsw
    simp only [List.getElem?_cons_succ, List.getElem?_cons_zero, Option.some.injEq] at hsw
    rw [hsw]

/-! ## Sentences -/

/-- The lines written for a tree and the tree read from them. -/
structure Block (b : List Str) (t' : Tree) : Prop where
  lines : ∀ l ∈ b, '\n' ∉ l ∧ Tight l
  shape : ∃ id info rows T N, b = header (natToStr id) info :: (rows ++ [footer (natToStr id)]) ∧ Rows rows T N ∧
    Opens (header (natToStr id) info) id info
  read : ∀ rest, readerNext (b ++ rest) = .ok (some (.ok t'), rest)

/-- The lines of a file. -/
def blockLines (bs : List (List Str)) : List Str := bs.flatMap fun b => b ++ [[]]

theorem nil_not_frame : ¬ IsFrame [] := by unfold IsFrame; decide

theorem readAll_blank (fuel : Nat) (ls : List Str) : readAll fuel ([] :: ls) = readAll fuel ls := by
  cases fuel with
  | zero => rfl
  | succ fuel =>
    rw [readAll, readAll, show ([] : Str) :: ls = [[]] ++ ls from rfl,
      next_outside (by intro l hl; rw [List.mem_singleton.1 hl]; exact nil_not_frame)]

theorem readAll_blocks {bs : List (List Str)} {ts' : List Tree} (h : List.Forall₂ Block bs ts') {X : List Str}
    {items : List (Except Err Tree)} (hX : ∀ fuel, X.length < fuel → readAll fuel X = .ok items) :
    ∀ fuel, (blockLines bs ++ X).length < fuel → readAll fuel (blockLines bs ++ X) = .ok (ts'.map .ok ++ items) := by
  induction h with
  | nil => simpa [blockLines] using hX
  | @cons b t' bs ts' hb _ ih =>
    intro fuel hf
    obtain ⟨k, rfl⟩ : ∃ k, fuel = k + 1 := ⟨fuel - 1, by omega⟩
    have e : blockLines (b :: bs) ++ X = b ++ ([] :: (blockLines bs ++ X)) := by simp [blockLines]
    rw [e] at hf ⊢
    rw [readAll, hb.read]
    simp only [Res.ok_bind]
    have hb0 : b ≠ [] := by
      obtain ⟨id, info, rows, T, N, rfl, -⟩ := hb.shape
      simp
    have : 0 < b.length := List.length_pos_iff.2 hb0
    rw [readAll_blank, ih k (by simp at hf ⊢; omega)]
    rfl

theorem written_blocks (ts : List Tree) (ids : Nat → Nat) (infos : Nat → Option Str) (counter : Nat)
    (H : ∀ (i : Nat) (t : Tree), ts[i]? = some t → Exportable t ∧ Head t (counter + ((ts.take i).filter
      fun u => (featOf (rootFeatures u) "sentence_id".toList).isNone).length) (ids i) (infos i)) :
    ∃ (bs : List (List Str)) (ts' : List Tree), List.Forall₂ Block bs ts' ∧ ts'.length = ts.length ∧
      (∀ i, writeTrees counter (ts.take i) = .ok (unlines (blockLines (bs.take i)))) ∧
      ∀ (i : Nat) (t t' : Tree), ts[i]? = some t → ts'[i]? = some t' → ∃ φ, Copy (ids i) (infos i) t t' φ := by
  induction ts generalizing ids infos counter with
  | nil => exact ⟨[], [], .nil, rfl, fun i => by simp [writeTrees, blockLines, unlines], by simp⟩
  | cons t ts ih =>
    obtain ⟨E, Hd⟩ := H 0 t rfl
    simp only [List.take_zero, List.filter_nil, List.length_nil, Nat.add_zero] at Hd
    obtain ⟨ns, nts, T, N, ls, rows, hls, hrows, R, h1, h2, h3⟩ := written_rows E Hd
    obtain ⟨bs, ts', g1, g2, g3, g4⟩ := ih (fun i => ids (i + 1)) (fun i => infos (i + 1))
      (if (featOf (rootFeatures t) sentenceIdKey).isSome then counter else counter + 1) (fun i u hu => by
        have := H (i + 1) u (by simpa using hu)
        refine ⟨this.1, ?_⟩
        have h := this.2
        rw [List.take_succ_cons, List.filter_cons] at h
        have hk : "sentence_id".toList = sentenceIdKey := rfl
        rw [hk] at h ⊢
        cases hv : featOf (rootFeatures t) sentenceIdKey with
        | none =>
          rw [hv] at h
          simp only [Option.isNone_none, if_true, List.length_cons] at h
          simp only [Option.isSome_none, Bool.false_eq_true, if_false]
          rwa [Nat.add_assoc, Nat.add_comm 1]
        | some v =>
          rw [hv] at h
          simp only [Option.isNone_some, Bool.false_eq_true, if_false] at h
          simpa using h)
    obtain ⟨t', τ, ν, r1, D, W'⟩ := h3 []
    refine ⟨ls :: bs, t' :: ts', .cons ⟨h1, ⟨_, _, rows, T, N, hls, hrows, header_opens Hd.fits Hd.clean⟩, fun rest => ?_⟩ g1,
      by simp [g2], fun i => ?_, fun i u u' hu hu' => ?_⟩
    · have := nextFrom_grows rest (ls ++ []) none
      rw [show nextFrom (ls ++ []) none = _ from r1] at this
      simpa [Grows, readerNext] using this
    · cases i with
      | zero => simp [writeTrees, blockLines, unlines]
      | succ i =>
        rw [List.take_succ_cons, List.take_succ_cons, writeTrees, h2]
        simp only [Res.ok_bind]
        rw [show (if (featOf (rootFeatures t) "sentence_id".toList).isSome = true then counter else counter + 1) =
          (if (featOf (rootFeatures t) sentenceIdKey).isSome then counter else counter + 1) from rfl, g3]
        simp [unlines, blockLines]
    · cases i with
      | zero =>
        simp only [List.getElem?_cons_zero, Option.some.injEq] at hu hu'
        subst hu hu'
        exact ⟨_, back_copy R E D W'⟩
      | succ i => exact g4 i u u' (by simpa using hu) (by simpa using hu')

/-! ## Cutting -/

theorem lines_append {ls : List Str} (h : ∀ l ∈ ls, '\n' ∉ l ∧ Tight l) (q : Str) : lines (unlines ls ++ q) = ls ++ lines q := by
  induction ls with
  | nil => rfl
  | cons l ls ih =>
    have e : unlines (l :: ls) ++ q = l ++ '\n' :: (unlines ls ++ q) := by simp [unlines]
    have hl := h l (by simp)
    have hs : stripCr l = l := by
      unfold stripCr
      rw [if_neg]
      intro hc
      have := hl.2.2 _ hc
      revert this; decide
    rw [e, lines_cons hl.1, ih fun x hx => h x (by simp [hx]), hs]
    rfl

theorem block_cut {b : List Str} {t' : Tree} (hb : Block b t') {q : Str} (hq : q <+: unlines b)
    (hlen : q.length + 1 < (unlines b).length) :
    ∃ tail, (∀ fuel, (lines q).length < fuel → readAll fuel (lines q) = .ok tail) ∧
      (tail = [] ∨ ∃ e, tail = [.error e]) := by
  have hfile : readAll (b.length + 1) (lines (unlines b)) = .ok ([t'].map .ok) := by
    have := hb.read []
    rw [List.append_nil] at this
    rw [lines_unlines hb.lines, readAll, this]
    have hb0 : b ≠ [] := by
      obtain ⟨id, info, rows, T, N, rfl, -⟩ := hb.shape
      simp
    obtain ⟨k, hk⟩ : ∃ k, b.length = k + 1 := ⟨b.length - 1, by have := List.length_pos_iff.2 hb0; omega⟩
    rw [hk]
    rfl
  obtain ⟨k, tail, h1, h2, h3⟩ := readAll_prefix hfile hq
  have hno : ∀ rest, readerNext (lines q) ≠ .ok (some (.ok t'), rest) := by
    obtain ⟨id, info, rows, T, N, rfl, hR, hO⟩ := hb.shape
    have hrow := rows_not_frame hR
    have hhd : startsWith eos (trim (header (natToStr id) info)) = false := by
      cases he : startsWith eos (trim (header (natToStr id) info)) with
      | false => rfl
      | true => exact (not_both hO.1 he).elim
    have hb0 : ∀ l ∈ header (natToStr id) info :: rows, startsWith eos (trim l) = false := by
      intro l hl
      rcases List.mem_cons.1 hl with rfl | hl
      · exact hhd
      · cases he : startsWith eos (trim l) with
        | false => rfl
        | true => exact absurd (.inr he) (hrow l hl)
    have hlines : ∀ l ∈ header (natToStr id) info :: rows, '\n' ∉ l ∧ Tight l := fun l hl => hb.lines l (by
      rcases List.mem_cons.1 hl with rfl | hl
      · simp
      · simp [hl])
    have e : unlines (header (natToStr id) info :: (rows ++ [footer (natToStr id)])) =
        unlines (header (natToStr id) info :: rows) ++ (footer (natToStr id) ++ ['\n']) := by
      simp [unlines]
    rw [e] at hq hlen
    rcases List.prefix_or_prefix_of_prefix hq (List.prefix_append _ _) with h | ⟨r, rfl⟩
    · -- the cut is before the footer
      intro rest
      refine no_footer fun l hl => ?_
      rcases lines_prefix _ q _ (Nat.le_refl _) h with g | ⟨fin, part, raw, l', more, g1, g2, g3, g4, g5⟩
      · rw [lines_unlines hlines] at g
        exact hb0 l (g.subset hl)
      · rw [lines_unlines hlines] at g4
        rw [g2] at hl
        rcases List.mem_append.1 hl with hl | hl
        · exact hb0 l (by rw [g4]; simp [hl])
        · rw [List.mem_singleton.1 hl]
          cases he : startsWith eos (trim part) with
          | false => rfl
          | true =>
            have ht : trim part <+: trim l' := by
              rcases g5 with rfl | rfl
              · exact trim_prefix g3
              · rw [trim_stripCr]; exact trim_prefix g3
            have := hb0 l' (by rw [g4]; simp)
            rw [startsWith_mono ht he] at this
            cases this
    · -- the cut is inside the footer
      have hr : r <+: footer (natToStr id) ++ ['\n'] := (List.prefix_append_right_inj _).1 hq
      have hrl : r.length < (footer (natToStr id)).length := by
        simp only [List.length_append, List.length_cons, List.length_nil] at hlen; omega
      have hr : r <+: footer (natToStr id) := List.prefix_of_prefix_length_le hr (List.prefix_append _ _) (by omega)
      have hnl : '\n' ∉ r := fun h => footer_no_newline id (hr.subset h)
      intro rest he
      rw [lines_append hlines] at he
      obtain ⟨pre, hd, body, f, id', info', T', N', e1, -, e2, -, -, e3, -⟩ :=
        (Props.C49_tree _ rest).1 ⟨t', he⟩
      have hmem : ∀ x ∈ header (natToStr id) info :: rows ++ lines r, x ∈ header (natToStr id) info :: rows ∨ x = r := by
        intro x hx
        rcases List.mem_append.1 hx with hx | hx
        · exact .inl hx
        · by_cases h0 : r = []
          · rw [h0, lines_nil] at hx; cases hx
          · rw [lines_one hnl h0] at hx; exact .inr (List.mem_singleton.1 hx)
      have hf : f = r := by
        rcases hmem f (by rw [e1]; simp) with h | h
        · have := hb0 f h
          rw [e3.1] at this; cases this
        · exact h
      have hh : hd = header (natToStr id) info := by
        rcases hmem hd (by rw [e1]; simp) with h | h
        · rcases List.mem_cons.1 h with h | h
          · exact h
          · exact absurd (.inl e2.1) (hrow hd h)
        · rw [h, ← hf] at e2
          exact (not_both e2.1 e3.1).elim
      rw [hh] at e2
      have := opens_number hO e2
      rw [← this, hf] at e3
      have := footer_whole hr e3
      rw [this] at hrl
      omega
  match k, h1 with
  | 0, _ => exact ⟨tail, by simpa using h2, h3⟩
  | 1, _ =>
    exfalso
    have h2 := h2 ((lines q).length + 1) (by omega)
    rw [readAll] at h2
    cases hn : readerNext (lines q) with
    | panic => rw [hn] at h2; cases h2
    | diverge => rw [hn] at h2; cases h2
    | ok x =>
      obtain ⟨x, rest⟩ := x
      rw [hn] at h2
      cases x with
      | none => cases h2
      | some x =>
        simp only [Res.ok_bind] at h2
        rw [Res.bind_eq_ok] at h2
        obtain ⟨rs, -, e2⟩ := h2
        cases e2
        exact hno rest hn

theorem block_done {b : List Str} {t' : Tree} (hb : Block b t') {q : Str} (hq : q <+: unlines b ++ ['\n'])
    (hlen : (unlines b).length ≤ q.length + 1) :
    ∀ fuel, (lines q).length < fuel → readAll fuel (lines q) = .ok [.ok t'] := by
  have hb0 : b ≠ [] := by
    obtain ⟨id, info, rows, T, N, rfl, -⟩ := hb.shape
    simp
  have run : ∀ rest, (∀ l ∈ rest, ¬ IsFrame l) → ∀ fuel, (b ++ rest).length < fuel → readAll fuel (b ++ rest) = .ok [.ok t'] := by
    intro rest hr fuel hf
    have := List.length_pos_iff.2 hb0
    obtain ⟨k, rfl⟩ : ∃ k, fuel = k + 1 + 1 := ⟨fuel - 2, by simp at hf; omega⟩
    rw [readAll, hb.read]
    simp only [Res.ok_bind]
    have := next_outside hr []
    rw [List.append_nil] at this
    rw [readAll, this]
    rfl
  obtain ⟨b0, x, rfl⟩ : ∃ b0 x, b = b0 ++ [x] := ⟨b.dropLast, b.getLast hb0, (List.dropLast_append_getLast hb0).symm⟩
  have e : unlines (b0 ++ [x]) = unlines b0 ++ x ++ ['\n'] := by simp [unlines]
  rw [e] at hq hlen
  have hx := hb.lines x (by simp)
  have hb0' : ∀ l ∈ b0, '\n' ∉ l ∧ Tight l := fun l hl => hb.lines l (by simp [hl])
  have hx0 : x ≠ [] := by
    obtain ⟨id, info, rows, T, N, e, -⟩ := hb.shape
    rw [show header (natToStr id) info :: (rows ++ [footer (natToStr id)]) =
      (header (natToStr id) info :: rows) ++ [footer (natToStr id)] from rfl] at e
    have := (List.append_inj' e rfl).2
    rw [List.cons.inj this |>.1]
    simp [footer]
  have hpre : unlines b0 ++ x <+: q := List.prefix_of_prefix_length_le (l₃ := unlines b0 ++ x ++ ['\n'] ++ ['\n'])
    (by rw [List.append_assoc (unlines b0 ++ x)]; exact List.prefix_append _ _) hq (by
      rw [List.length_append] at hlen; simp only [List.length_cons, List.length_nil] at hlen; omega)
  obtain ⟨r, rfl⟩ := hpre
  have hr : r <+: ['\n', '\n'] := by
    have : unlines b0 ++ x ++ r <+: unlines b0 ++ x ++ ['\n', '\n'] := by simpa using hq
    exact (List.prefix_append_right_inj _).1 this
  have hlast := lines_append (ls := b0 ++ [x]) hb.lines
  have : r = [] ∨ r = ['\n'] ∨ r = ['\n', '\n'] := by
    have := (List.mem_inits _ _).2 hr
    simpa using this
  rcases this with rfl | rfl | rfl
  · rw [List.append_nil, lines_append hb0', lines_one hx.1 hx0]
    simpa using run [] (by simp)
  · have := hlast []
    rw [e, lines_nil] at this
    simp only [List.append_nil] at this
    rw [this]
    simpa using run [] (by simp)
  · have := hlast ['\n']
    rw [e] at this
    rw [show unlines b0 ++ x ++ ['\n', '\n'] = unlines b0 ++ x ++ ['\n'] ++ ['\n'] by simp, this]
    have e2 : lines ['\n'] = [[]] := by decide
    rw [e2]
    exact run [[]] (by intro l hl; rw [List.mem_singleton.1 hl]; exact nil_not_frame)

theorem blockLines_tidy {bs : List (List Str)} {ts' : List Tree} (h : List.Forall₂ Block bs ts') :
    ∀ l ∈ blockLines bs, '\n' ∉ l ∧ Tight l := by
  intro l hl
  obtain ⟨b, hb, hl⟩ := List.mem_flatMap.1 hl
  rcases List.mem_append.1 hl with hl | hl
  · obtain ⟨i, hi⟩ := List.mem_iff_getElem?.1 hb
    obtain ⟨t', -, g⟩ := forall₂_right h hi
    exact g.lines l hl
  · rw [List.mem_singleton.1 hl]
    exact ⟨by simp, by simp, by simp⟩

theorem unlines_flat (bs : List (List Str)) (b : List Str) :
    unlines (blockLines (bs ++ [b])) = unlines (blockLines bs) ++ (unlines b ++ ['\n']) := by
  simp [blockLines, unlines]

/-- What is read from a file of which the end of the `i`-th sentence is missing. -/
theorem file_cut {bs : List (List Str)} {ts' : List Tree} (h : List.Forall₂ Block bs ts') {i : Nat} (hi : i < bs.length)
    {p : Str} (h1 : unlines (blockLines (bs.take i)) <+: p) (h2 : p <+: unlines (blockLines (bs.take (i + 1)))) :
    ∃ tail : List (Except Err Tree),
      (∀ fuel, (lines p).length < fuel → readAll fuel (lines p) = .ok ((ts'.take i).map .ok ++ tail)) ∧
      if (unlines (blockLines (bs.take (i + 1)))).length ≤ p.length + 2 then ∃ t', ts'[i]? = some t' ∧ tail = [.ok t']
      else tail = [] ∨ ∃ e, tail = [.error e] := by
  obtain ⟨q, rfl⟩ := h1
  have hb : bs[i]? = some bs[i] := List.getElem?_eq_getElem hi
  obtain ⟨t', ht', B⟩ := forall₂_right h hb
  rw [List.take_add_one, hb, Option.toList_some, unlines_flat] at h2 ⊢
  have hq := (List.prefix_append_right_inj _).1 h2
  have H : List.Forall₂ Block (bs.take i) (ts'.take i) := List.forall₂_take i h
  rw [lines_append (blockLines_tidy H)]
  simp only [List.length_append (as := unlines (blockLines (bs.take i))), List.length_append (as := unlines bs[i]),
    List.length_cons, List.length_nil]
  split
  · next hl =>
    exact ⟨[.ok t'], readAll_blocks H (block_done B hq (by omega)), t', ht', rfl⟩
  · next hl =>
    have hq : q <+: unlines bs[i] := List.prefix_of_prefix_length_le hq (List.prefix_append _ _) (by omega)
    obtain ⟨tail, g1, g2⟩ := block_cut B hq (by omega)
    exact ⟨tail, readAll_blocks H g1, g2⟩

end Negra
end Lumberjack
