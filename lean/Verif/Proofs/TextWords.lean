import Verif.Spec.TextWords

/-!
# The words in a bracketed text
-/

namespace Lumberjack
namespace Bracketed

theorem wordsFrom_piece {p : Str} (h : ')' ∉ p) : ∀ (q s : Str), wordsFrom q (p ++ s) = wordsFrom (q ++ p) s := by
  induction p with
  | nil => intro q s; simp
  | cons c p ih =>
    intro q s
    rw [List.mem_cons, not_or] at h
    rw [List.cons_append, wordsFrom, if_neg (Ne.symm h.1), ih h.2]
    simp

theorem wordsFrom_close (q s : Str) : wordsFrom q (')' :: s) = (lastWord q).toList ++ wordsIn s := by
  rw [wordsFrom, if_pos rfl]; rfl

theorem space_close {s : Str} (h : Space s) : ')' ∉ s := by
  intro hc
  rcases h _ hc with h | h | h <;> exact absurd h (by decide)

theorem word_close {s : Str} (h : Word s) : ')' ∉ s := fun hc => (h.2 _ hc).2.2.2.2 rfl

theorem word_special {s : Str} (h : Word s) : ∀ c ∈ s, Special c = false := by
  intro c hc
  obtain ⟨h1, h2, h3, h4, h5⟩ := h.2 c hc
  simp [Special, h1, h2, h3, h4, h5]

theorem lastWord_space {s : Str} (h : Space s) : lastWord s = none := by
  unfold lastWord
  have : s.reverse.dropWhile (fun c => c = ' ' || c = '\n' || c = '\r') = [] := by
    rw [← List.append_nil s.reverse, List.dropWhile_append_of_pos]
    · rfl
    · intro c hc
      rcases h c (List.mem_reverse.1 hc) with h | h | h <;> simp [h]
  rw [this]; rfl

theorem lastWord_word {x w d : Str} {c : Char} (hc : Special c = true) (hw : Word w) (hd : Space d) :
    lastWord (x ++ c :: (w ++ d)) = some w := by
  unfold lastWord
  have e : (x ++ c :: (w ++ d)).reverse = d.reverse ++ (w.reverse ++ c :: x.reverse) := by simp
  have h1 : (x ++ c :: (w ++ d)).reverse.dropWhile (fun c => c = ' ' || c = '\n' || c = '\r') =
      w.reverse ++ c :: x.reverse := by
    rw [e, List.dropWhile_append_of_pos]
    · obtain ⟨a, l, hl⟩ : ∃ a l, w.reverse = a :: l := by
        cases hr : w.reverse with
        | nil => exact absurd (List.reverse_eq_nil_iff.1 hr) hw.1
        | cons a l => exact ⟨a, l, rfl⟩
      have ha := word_special hw a (List.mem_reverse.1 (by rw [hl]; simp))
      simp only [Special, Bool.or_eq_false_iff] at ha
      rw [hl, List.cons_append, List.dropWhile_cons_of_neg]
      simpa using ⟨⟨by simpa using ha.1.1.1.1, by simpa using ha.1.1.1.2⟩, by simpa using ha.1.1.2⟩
    · intro a ha
      rcases hd a (List.mem_reverse.1 ha) with h | h | h <;> simp [h]
  rw [h1]
  have h2 : (w.reverse ++ c :: x.reverse).takeWhile (fun c => !Special c) = w.reverse := by
    rw [List.takeWhile_append_of_pos]
    · rw [List.takeWhile_cons_of_neg (by simp [hc])]; simp
    · intro a ha
      rw [word_special hw a (List.mem_reverse.1 ha)]; rfl
  simp only [h2, List.reverse_reverse, if_neg hw.1]

/-- The end of the text, or of the text before a closing bracket. -/
def Tail (s : Str) : Prop := s = [] ∨ ∃ r, s = ')' :: r

theorem wordsFrom_space {s e : Str} (h : Space s) (he : Tail e) : wordsFrom s e = wordsIn e := by
  rcases he with rfl | ⟨r, rfl⟩
  · rfl
  · rw [wordsFrom_close, lastWord_space h]
    show _ = wordsFrom [] _
    rw [wordsFrom_close, lastWord_space (by intro c hc; simp at hc)]

theorem reads_wordsIn {s : Str} {b : Brackets} (h : Reads s b) :
    (∀ e, Tail e → wordsIn (s ++ e) = b.words ++ wordsIn e) ∧
    (b ≠ .nil → ∀ q e, Tail e → wordsFrom q (s ++ e) = b.words ++ wordsIn e) := by
  induction h with
  | nil ha =>
    refine ⟨fun e he => ?_, fun h => absurd rfl h⟩
    show wordsFrom [] _ = _
    rw [wordsFrom_piece (space_close ha)]
    simpa [Brackets.words] using wordsFrom_space ha he
  | @leaf a b tag c word d rest r ha hb ht hc hcn hw hd hr ih =>
    have key : ∀ q e, Tail e → wordsFrom q (a ++ '(' :: (b ++ tag ++ c ++ word ++ d ++ ')' :: rest) ++ e) =
        (Brackets.leaf tag word r).words ++ wordsIn e := by
      intro q e he
      have e1 : a ++ '(' :: (b ++ tag ++ c ++ word ++ d ++ ')' :: rest) ++ e =
          (a ++ '(' :: (b ++ tag ++ c ++ word ++ d)) ++ ')' :: (rest ++ e) := by simp
      rw [e1, wordsFrom_piece, wordsFrom_close, ih.1 e he]
      · obtain ⟨c', cl, rfl⟩ : ∃ c' cl, c = c' ++ [cl] := ⟨_, _, (List.dropLast_append_getLast hcn).symm⟩
        have e2 : q ++ (a ++ '(' :: (b ++ tag ++ (c' ++ [cl]) ++ word ++ d)) =
            (q ++ a ++ '(' :: (b ++ tag ++ c')) ++ cl :: (word ++ d) := by simp
        rw [e2, lastWord_word _ hw hd]
        · simp [Brackets.words]
        · rcases hc cl (by simp) with h | h | h <;> simp [Special, h]
      · simp only [List.mem_append, List.mem_cons, not_or]
        exact ⟨space_close ha, by decide, ⟨⟨⟨space_close hb, word_close ht⟩, space_close hc⟩, word_close hw⟩, space_close hd⟩
    exact ⟨fun e he => key [] e he, fun _ q e he => key q e he⟩
  | @node a b tag inner rest k r ha hb ht hi hk hr ih1 ih2 =>
    have key : ∀ q e, Tail e → wordsFrom q (a ++ '(' :: (b ++ tag ++ inner ++ ')' :: rest) ++ e) =
        (Brackets.node tag k r).words ++ wordsIn e := by
      intro q e he
      have e1 : a ++ '(' :: (b ++ tag ++ inner ++ ')' :: rest) ++ e =
          (a ++ '(' :: (b ++ tag)) ++ (inner ++ ')' :: (rest ++ e)) := by simp
      rw [e1, wordsFrom_piece, ih1.2 hk _ _ (.inr ⟨_, rfl⟩)]
      · show _ ++ wordsFrom [] _ = _
        rw [wordsFrom_close, lastWord_space (by intro c hc; simp at hc), ih2.1 e he]
        simp [Brackets.words]
      · simp only [List.mem_append, List.mem_cons, not_or]
        exact ⟨space_close ha, by decide, space_close hb, word_close ht⟩
    exact ⟨fun e he => key [] e he, fun _ q e he => key q e he⟩

theorem wordsIn_reads {s : Str} {b : Brackets} (h : Reads s b) : wordsIn s = b.words := by
  have := (reads_wordsIn h).1 [] (.inl rfl)
  simpa [wordsIn, wordsFrom] using this

end Bracketed
end Lumberjack
