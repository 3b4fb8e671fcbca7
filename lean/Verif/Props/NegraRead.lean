import Verif.Proofs.NegraRead

/-!
# Reading the NEGRA format: sentences of a file (C49)
-/

namespace Lumberjack
namespace Props

open Negra

theorem rows_not_frame {body : List Str} {T : List TermRow} {N : List NtRow} (h : Rows body T N) :
    ∀ l ∈ body, ¬ IsFrame l := by
  obtain ⟨tl, nl, rfl, h1, h2⟩ := h
  intro l hl
  rw [List.mem_append] at hl
  rcases hl with hl | hl
  · induction h1 with
    | nil => cases hl
    | cons h _ ih =>
      rw [List.mem_cons] at hl
      rcases hl with rfl | hl
      · exact not_frame_of_term h
      · exact ih hl
  · clear h1
    induction h2 with
    | nil => cases hl
    | cons h _ ih =>
      rw [List.mem_cons] at hl
      rcases hl with rfl | hl
      · exact h.1
      · exact ih hl

/-- C49: every call returns or panics; a call that returns an item consumes at least one line, and what is
left are the lines behind those consumed; a call that returns no item consumes everything. -/
theorem C49_progress (ls : List Str) :
    readerNext ls = .panic ∨ (∃ item rest used, readerNext ls = .ok (some item, rest) ∧ ls = used ++ rest ∧ used ≠ []) ∨
      readerNext ls = .ok (none, []) := by
  have h := call ls
  generalize hr : readerNext ls = r at h
  cases h with
  | outside | unclosed => exact .inr (.inr rfl)
  | panics => exact .inl rfl
  | unmatched | header => exact .inr (.inl ⟨_, _, _ ++ [_], rfl, by simp; rfl, by simp⟩)
  | nested | malformed | differs | incomplete | tree =>
    exact .inr (.inl ⟨_, _, _ ++ _ :: (_ ++ [_]), rfl, by simp; rfl, by simp⟩)

/-- C49: iterating over a file ends. -/
theorem C49_iteration_ends (ls : List Str) : readAll (ls.length + 1) ls ≠ .diverge := by
  suffices h : ∀ n (ls : List Str), ls.length < n → readAll n ls ≠ .diverge from h _ _ (by omega)
  intro n
  induction n with
  | zero => intro ls h; omega
  | succ n ih =>
    intro ls h
    unfold readAll
    rcases C49_progress ls with h1 | ⟨item, rest, used, h1, rfl, h2⟩ | h1
    · rw [h1]; simp
    · rw [h1]
      have hl : rest.length < n := by
        have := List.length_pos_iff.2 h2
        rw [List.length_append] at h
        omega
      simp only [Res.ok_bind]
      cases hr : readAll n rest with
      | ok v => simp
      | panic => simp
      | diverge => exact absurd hr (ih rest hl)
    · rw [h1]; simp

/-- C49: lines that do not start with `#BOS` or `#EOS` are ignored outside of sentences. -/
theorem C49_outside (pre ls : List Str) (h : ∀ l ∈ pre, ¬ IsFrame l) : readerNext (pre ++ ls) = readerNext ls :=
  next_outside h ls

/-- C49: a closing line outside of a sentence gives an error. Reading goes on with the next line. -/
theorem C49_unmatched_footer (f : Str) (rest : List Str) (h : startsWith eos (trim f) = true) :
    ∃ e, readerNext (f :: rest) = .ok (some (.error e), rest) :=
  next_unmatched h rest

/-- C49: an opening line without a number in second place gives an error. Reading goes on with the next
line. -/
theorem C49_bad_header (f : Str) (rest : List Str) (h : startsWith bos (trim f) = true)
    (hn : ∀ id info, ¬ Opens f id info) : ∃ e, readerNext (f :: rest) = .ok (some (.error e), rest) :=
  next_bad_header h hn rest

/-- C49: an opening line in a sentence gives an error. Reading goes on with the next line, so the sentence
it opens is lost as well. -/
theorem C49_nested (hd f : Str) (body rest : List Str) (id : Nat) (info : Option Str) (T : List TermRow)
    (N : List NtRow) (ho : Opens hd id info) (hR : Rows body T N) (hP : Processable T N)
    (hf : startsWith bos (trim f) = true) :
    ∃ e, readerNext (hd :: (body ++ f :: rest)) = .ok (some (.error e), rest) := by
  obtain ⟨b, τ, hi, hrun⟩ := nextFrom_body_acc (begun_inv id info) (acc_rows.2 ⟨hR, hP⟩)
  rw [next_opens ho, hrun]
  exact next_nested hf b rest

/-- C49: the first line of a sentence that is not that of a terminal or nonterminal, is that of a terminal
after a nonterminal, or is that of a nonterminal not named before as a parent, gives an error. Reading goes on
with the next line. -/
theorem C49_malformed (hd bad : Str) (body rest : List Str) (id : Nat) (info : Option Str) (T : List TermRow)
    (N : List NtRow) (ho : Opens hd id info) (hR : Rows body T N) (hP : Processable T N) (hb : ¬ IsFrame bad)
    (hbad : ∀ T' N', ¬ (Rows (body ++ [bad]) T' N' ∧ Processable T' N')) :
    ∃ e, readerNext (hd :: (body ++ bad :: rest)) = .ok (some (.error e), rest) := by
  have ha := acc_rows.2 ⟨hR, hP⟩
  obtain ⟨b, τ, hi, hrun⟩ := nextFrom_body_acc (begun_inv id info) ha
  rw [next_opens ho, hrun]
  rcases nextFrom_body (body := [bad]) (by simpa using hb) rest hi with ⟨T', N', b', τ', h1, _⟩ |
    ⟨p, bad', q, T', N', e, h0, _, _, h2⟩
  · exact absurd (acc_rows.1 (ha.append h1)) (hbad T' N')
  · cases p with
    | nil =>
      simp only [List.nil_append, List.cons.injEq] at h0
      obtain ⟨_, rfl⟩ := h0
      exact ⟨e, h2⟩
    | cons x p => simp at h0

/-- C49: a closing line with another number than the opening line gives an error. -/
theorem C49_differing_ids (hd f : Str) (body rest : List Str) (id : Nat) (info : Option Str) (T : List TermRow)
    (N : List NtRow) (ho : Opens hd id info) (hR : Rows body T N) (hP : Processable T N)
    (hf : startsWith eos (trim f) = true) (hc : ¬ Closes f id) :
    ∃ e, readerNext (hd :: (body ++ f :: rest)) = .ok (some (.error e), rest) := by
  obtain ⟨b, τ, hi, hrun⟩ := nextFrom_body_acc (begun_inv id info) (acc_rows.2 ⟨hR, hP⟩)
  rw [next_opens ho, hrun, next_footer hf]
  obtain ⟨e, he⟩ := footer_err hi hf hc
  exact ⟨e, by rw [he]; rfl⟩

/-- C49: outcome of a closed sentence whose lines can be processed: a tree if there is a terminal, all
secondary parents are known and there is a line for every number used as a parent; a panic if there is no
terminal or a secondary parent is unknown; an error otherwise. -/
theorem C49_sentence (hd f : Str) (body rest : List Str) (id : Nat) (info : Option Str) (T : List TermRow)
    (N : List NtRow) (ho : Opens hd id info) (hR : Rows body T N) (hP : Processable T N) (hc : Closes f id) :
    ((T ≠ [] ∧ SecKnown T N ∧ Complete T N) →
      ∃ t, readerNext (hd :: (body ++ f :: rest)) = .ok (some (.ok t), rest)) ∧
    ((T = [] ∨ ¬ SecKnown T N) → readerNext (hd :: (body ++ f :: rest)) = .panic) ∧
    ((T ≠ [] ∧ SecKnown T N ∧ ¬ Complete T N) →
      ∃ e, readerNext (hd :: (body ++ f :: rest)) = .ok (some (.error e), rest)) := by
  obtain ⟨b, τ, hi, hrun⟩ := nextFrom_body_acc (begun_inv id info) (acc_rows.2 ⟨hR, hP⟩)
  rw [next_opens ho, hrun, next_footer hc.1]
  have hnil : T = [] → SecKnown T N ∧ Complete T N := by
    rintro rfl
    have := hP.1 rfl
    subst this
    constructor
    · intro k hk; simp [secParents] at hk
    · simp [Complete, parents]
  rcases footer_ok hi hc with ⟨h1, h2⟩ | ⟨h1, h2, e, h3⟩ | ⟨h1, h2, h3, h4⟩ | ⟨h1, h2, h3, root, x, h4, h5, h6⟩
  · rw [h2]
    exact ⟨fun h => absurd h.2.1 h1, fun _ => rfl, fun h => absurd h.2.1 h1⟩
  · rw [h3]
    refine ⟨fun h => absurd h.2.2 h2, ?_, fun _ => ⟨e, rfl⟩⟩
    rintro (h | h)
    · exact absurd (hnil h).2 h2
    · exact absurd h1 h
  · rw [h4]
    exact ⟨fun h => absurd h3 h.1, fun _ => rfl, fun h => absurd h3 h.1⟩
  · rw [h6]
    refine ⟨fun _ => ⟨_, rfl⟩, ?_, fun h => absurd h2 h.2.2⟩
    rintro (h | h)
    · exact absurd h h3
    · exact absurd h1 h

/-- C49: a call returns a tree exactly if the next line that opens or closes a sentence opens one, the lines up
to the next such line are terminals followed by nonterminals that can be processed, that next line closes the
sentence with the same number, there is a terminal, all secondary parents are known, and there is a line for
every number used as a parent. -/
theorem C49_tree (ls rest : List Str) :
    (∃ t, readerNext ls = .ok (some (.ok t), rest)) ↔
    ∃ pre hd body f id info T N, ls = pre ++ hd :: (body ++ f :: rest) ∧ (∀ l ∈ pre, ¬ IsFrame l) ∧
      Opens hd id info ∧ Rows body T N ∧ Processable T N ∧ Closes f id ∧ T ≠ [] ∧ SecKnown T N ∧ Complete T N := by
  constructor
  · rintro ⟨t, ht⟩
    have h := call ls
    rw [ht] at h
    cases h with
    | tree h1 h2 h3 h4 h5 h6 h7 h8 h9 => exact ⟨_, _, _, _, _, _, _, _, rfl, h1, h2, h4, h5, h6, h7, h8, h9⟩
  · rintro ⟨pre, hd, body, f, id, info, T, N, rfl, h1, h2, h3, h4, h5, h6⟩
    rw [next_outside h1]
    exact (C49_sentence hd f body rest id info T N h2 h3 h4 h5).1 h6

/-- C49: a call panics exactly if the next sentence is opened and closed with the same number, its lines can be
processed, and it has no terminal or a secondary parent that is neither 0 nor a parent. -/
theorem C49_panic (ls : List Str) :
    readerNext ls = .panic ↔
    ∃ pre hd body f rest id info T N, ls = pre ++ hd :: (body ++ f :: rest) ∧ (∀ l ∈ pre, ¬ IsFrame l) ∧
      Opens hd id info ∧ Rows body T N ∧ Processable T N ∧ Closes f id ∧ (T = [] ∨ ¬ SecKnown T N) := by
  constructor
  · intro hp
    have h := call ls
    rw [hp] at h
    cases h with
    | panics h1 h2 h3 h4 h5 h6 h7 => exact ⟨_, _, _, _, _, _, _, _, _, rfl, h1, h2, h4, h5, h6, h7⟩
  · rintro ⟨pre, hd, body, f, rest, id, info, T, N, rfl, h1, h2, h3, h4, h5, h6⟩
    rw [next_outside h1]
    exact (C49_sentence hd f body rest id info T N h2 h3 h4 h5).2.1 h6

/-- C49: the iteration ends exactly if no line opens or closes a sentence any more, or if the next sentence can
be processed but is not closed: an unclosed last sentence is lost without an error. -/
theorem C49_end (ls : List Str) :
    readerNext ls = .ok (none, []) ↔ (∀ l ∈ ls, ¬ IsFrame l) ∨
    ∃ pre hd body id info T N, ls = pre ++ hd :: body ∧ (∀ l ∈ pre, ¬ IsFrame l) ∧
      Opens hd id info ∧ Rows body T N ∧ Processable T N := by
  constructor
  · intro hp
    have h := call ls
    rw [hp] at h
    cases h with
    | outside h => exact .inl h
    | unclosed h1 h2 h3 h4 h5 => exact .inr ⟨_, _, _, _, _, _, _, rfl, h1, h2, h4, h5⟩
  · rintro (h | ⟨pre, hd, body, id, info, T, N, rfl, h1, h2, h3, h4⟩)
    · have := next_outside h []
      rw [List.append_nil] at this
      rw [this]
      rfl
    · obtain ⟨b, τ, hi, hrun⟩ := nextFrom_body_acc (begun_inv id info) (acc_rows.2 ⟨h3, h4⟩)
      have := hrun []
      rw [List.append_nil] at this
      rw [next_outside h1, next_opens h2, this]
      rfl

/-! ## Concrete files -/

private def hd : Str := "#BOS 1 0 meta data".toList
private def ft : Str := "#EOS 1".toList
private def body : List Str :=
  ["Das das\tART -- NK 500 SB 501", "kommt -- VVFIN 3.Sg HD 501", "#500 -- NP -- SB 501", "#501 -- S=x -- -- 0"].map
    String.toList
private def rowsT : List TermRow :=
  [⟨"Das".toList, some "das".toList, "ART".toList, none, ⟨some "NK".toList, 500, some ("SB".toList, 501)⟩⟩,
    ⟨"kommt".toList, none, "VVFIN".toList, some "3.Sg".toList, ⟨some "HD".toList, 501, none⟩⟩]
private def rowsN : List NtRow :=
  [⟨500, "NP".toList, none, ⟨some "SB".toList, 501, none⟩⟩,
    ⟨501, "S".toList, some "x".toList, ⟨none, 0, none⟩⟩]

private theorem opens : Opens hd 1 (some "0 meta data".toList) :=
  ⟨by decide +kernel, "#BOS".toList, "1".toList, ["0 meta data".toList], by decide +kernel, by decide +kernel,
    by decide +kernel⟩

private theorem closes : Closes ft 1 := ⟨by decide +kernel, by decide +kernel⟩

private theorem frame_iff (l : Str) (h : (startsWith bos (trim l) || startsWith eos (trim l)) = false) : ¬ IsFrame l := by
  unfold IsFrame
  simpa using h

private theorem rows : Rows body rowsT rowsN :=
  ⟨body.take 2, body.drop 2, by decide +kernel,
    .cons ⟨by decide +kernel, by decide +kernel⟩ (.cons ⟨by decide +kernel, by decide +kernel⟩ .nil),
    .cons ⟨frame_iff _ (by decide +kernel), by decide +kernel, by decide +kernel⟩
      (.cons ⟨frame_iff _ (by decide +kernel), by decide +kernel, by decide +kernel⟩ .nil)⟩

private theorem processable : Processable rowsT rowsN := by
  refine ⟨by simp [rowsT], ?_⟩
  intro pre r post h
  match pre, h with
  | [], h =>
    simp only [rowsN, List.nil_append, List.cons.injEq] at h
    rw [← h.1]
    decide
  | [a], h =>
    simp only [rowsN, List.cons_append, List.nil_append, List.cons.injEq] at h
    rw [← h.2.1, ← h.1]
    decide
  | a :: b :: pre, h => simp [rowsN] at h

/-- The hypotheses of C49 hold of a sentence with morphology, annotation, metadata and a secondary edge; it is
read as a tree. -/
example : ∃ t, readerNext (["ignored".toList, hd] ++ (body ++ [ft, "rest".toList])) =
    .ok (some (.ok t), ["rest".toList]) :=
  (C49_tree _ _).2 ⟨["ignored".toList], hd, body, ft, 1, _, rowsT, rowsN, rfl,
    by simpa using frame_iff _ (by decide +kernel), opens, rows, processable, closes, by simp [rowsT],
    by unfold SecKnown; decide, by unfold Complete; decide⟩

/-- A second opening line loses both sentences. -/
example : ∃ e, readerNext (hd :: (body ++ hd :: [ft])) = .ok (some (.error e), [ft]) :=
  C49_nested hd hd body [ft] 1 _ rowsT rowsN opens rows processable (by decide +kernel)

/-- An unclosed sentence is lost silently. -/
example : readerNext (hd :: body) = .ok (none, []) :=
  (C49_end _).2 (.inr ⟨[], hd, body, 1, _, rowsT, rowsN, rfl, by simp, opens, rows, processable⟩)

/-- An empty sentence makes the reader panic. -/
example : readerNext ["#BOS 1".toList, "#EOS 1".toList] = .panic :=
  (C49_panic _).2 ⟨[], _, [], _, [], 1, none, [], [], rfl, by simp,
    ⟨by decide +kernel, "#BOS".toList, "1".toList, [], by decide +kernel, by decide +kernel, rfl⟩,
    ⟨[], [], rfl, .nil, .nil⟩, ⟨fun _ => rfl, by simp⟩, ⟨by decide +kernel, by decide +kernel⟩, .inl rfl⟩

/-- A secondary parent without line makes the reader panic. -/
example : readerNext ["#BOS 1".toList, "a -- X -- -- 0 SB 7".toList, "#EOS 1".toList] = .panic :=
  (C49_panic _).2 ⟨[], _, ["a -- X -- -- 0 SB 7".toList], _, [], 1, none,
    [⟨"a".toList, none, "X".toList, none, ⟨none, 0, some ("SB".toList, 7)⟩⟩], [], rfl, by simp,
    ⟨by decide +kernel, "#BOS".toList, "1".toList, [], by decide +kernel, by decide +kernel, rfl⟩,
    ⟨["a -- X -- -- 0 SB 7".toList], [], rfl, .cons ⟨by decide +kernel, by decide +kernel⟩ .nil, .nil⟩,
    ⟨fun _ => rfl, by simp⟩, ⟨by decide +kernel, by decide +kernel⟩, .inr (by unfold SecKnown; decide)⟩

/-- A sentence number with leading zeros does not match itself, as the opening number is normalised and the
closing one is not. -/
example : ∃ e, readerNext ["#BOS 007".toList, "#EOS 007".toList] = .ok (some (.error e), []) :=
  C49_differing_ids _ _ [] [] 7 none [] []
    ⟨by decide +kernel, "#BOS".toList, "007".toList, [], by decide +kernel, by decide +kernel, rfl⟩
    ⟨[], [], rfl, .nil, .nil⟩ ⟨fun _ => rfl, by simp⟩ (by decide +kernel)
    (fun h => absurd h.2 (by decide +kernel))

/-- A nonterminal that is not named before as a parent is an error, and the closing line of the sentence is a
second one. -/
example : (∃ e, readerNext (hd :: ([body.headD []] ++ "#501 -- S -- -- 0".toList :: [ft])) = .ok (some (.error e), [ft])) ∧
    ∃ e, readerNext [ft] = .ok (some (.error e), []) := by
  refine ⟨C49_malformed hd _ _ _ 1 _ (rowsT.take 1) [] opens
    ⟨[body.headD []], [], by simp, .cons ⟨by decide +kernel, by decide +kernel⟩ .nil, .nil⟩
    ⟨fun _ => rfl, by simp⟩ (frame_iff _ (by decide +kernel)) ?_, C49_unmatched_footer _ _ (by decide +kernel)⟩
  intro T' N' h
  have := acc_rows.2 h
  cases this with
  | nt h1 => exact absurd h1.2.1 (by decide +kernel)
  | term h1 h2 =>
    cases h2 with
    | term g => exact absurd g.1 (by decide +kernel)
    | nt g1 g2 g3 g4 =>
      have e1 := g1.2.2
      have e2 := h1.2
      have e3 : TermRow.read (splitWs (trim (body.headD []))) = rowsT.head? := by decide +kernel
      have e4 : NtRow.read (splitWs (trim "#501 -- S -- -- 0".toList)) =
          some ⟨501, "S".toList, none, ⟨none, 0, none⟩⟩ := by decide +kernel
      rw [e4] at e1
      rw [e3] at e2
      injection e1 with e1
      injection e2 with e2
      rw [← e1, ← e2] at g3
      revert g3
      decide

/-- An opening line with two spaces before the number is refused. -/
example : ∃ e, readerNext ["#BOS  5".toList] = .ok (some (.error e), []) :=
  C49_bad_header _ [] (by decide +kernel) (by
    rintro id info ⟨_, w, n, m, h1, h2, _⟩
    have : splitn3 (trim "#BOS  5".toList) = ["#BOS".toList, [], "5".toList] := by decide +kernel
    rw [this] at h1
    simp only [List.cons.injEq] at h1
    rw [← h1.2.1] at h2
    revert h2
    decide +revert)

end Props
end Lumberjack
