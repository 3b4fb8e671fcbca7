import Verif.Spec.Pest
import Verif.Proofs.Bracket

/-!
# The parser against the grammar file
-/

namespace Lumberjack
namespace Pest

open Ptb (isWs isWordChar tokenize Tok parseNode parseNodes parsePairs)

/-! ## Matching is deterministic -/

theorem Runs.det {a : Bool} {e : Exp} {p : Pos} {o : Option (List Pair × Pos)} (h : Runs a e p o) :
    ∀ {o'}, Runs a e p o' → o' = o := by
  induction h with
  | @str a w z p h =>
    intro o' h'
    cases h' with
    | str h' => rw [h] at h'; simp at h'; rw [h']
    | str_fail h' => exact absurd ⟨z, h.symm⟩ h'
  | str_fail h =>
    intro o' h'
    cases h' with
    | str h' => exact absurd ⟨_, h'.symm⟩ h
    | str_fail h' => rfl
  | any => intro o' h'; cases h'; rfl
  | any_fail => intro o' h'; cases h'; rfl
  | soi => intro o' h'; cases h'; rfl
  | soi_fail => intro o' h'; cases h'; rfl
  | eoi => intro o' h'; cases h'; rfl
  | eoi_fail => intro o' h'; cases h'; rfl
  | call h _ ih =>
    intro o' h'
    cases h' with
    | call h1 h2 =>
      have := ih h2
      simp at this; obtain ⟨rfl, rfl⟩ := this
      rw [h] at h1
      rw [List.append_cancel_right h1]
    | call_fail h2 => cases ih h2
  | call_fail _ ih =>
    intro o' h'
    cases h' with
    | call h1 h2 => cases ih h2
    | call_fail h2 => rfl
  | seq _ _ _ i1 i2 i3 =>
    intro o' h'
    cases h' with
    | seq h1 h2 h3 => cases i1 h1; cases i2 h2; cases i3 h3; rfl
    | seq_fail h1 => cases i1 h1
    | seq_fail' h1 h2 h3 => cases i1 h1; cases i2 h2; cases i3 h3
  | seq_fail _ i1 =>
    intro o' h'
    cases h' with
    | seq h1 h2 h3 => cases i1 h1
    | seq_fail h1 => rfl
    | seq_fail' h1 h2 h3 => rfl
  | seq_fail' _ _ _ i1 i2 i3 =>
    intro o' h'
    cases h' with
    | seq h1 h2 h3 => cases i1 h1; cases i2 h2; cases i3 h3
    | seq_fail h1 => rfl
    | seq_fail' h1 h2 h3 => rfl
  | alt _ i1 =>
    intro o' h'
    cases h' with
    | alt h1 => exact i1 h1
    | alt' h1 h2 => cases i1 h1
  | alt' _ _ i1 i2 =>
    intro o' h'
    cases h' with
    | alt h1 => cases i1 h1
    | alt' h1 h2 => exact i2 h2
  | neg _ ih =>
    intro o' h'
    cases h' with
    | neg h1 => rfl
    | neg_fail h1 => cases ih h1
  | neg_fail _ ih =>
    intro o' h'
    cases h' with
    | neg h1 => cases ih h1
    | neg_fail h1 => rfl
  | rep_nil _ ih =>
    intro o' h'
    cases h' with
    | rep_nil h1 => rfl
    | rep h1 h2 => cases ih h1
  | rep _ _ i1 i2 =>
    intro o' h'
    cases h' with
    | rep_nil h1 => cases i1 h1
    | rep h1 h2 => cases i1 h1; cases i2 h2; rfl
  | more_nil _ _ i1 i2 =>
    intro o' h'
    cases h' with
    | more_nil h1 h2 => rfl
    | more h1 h2 h3 => cases i1 h1; cases i2 h2
  | more _ _ _ i1 i2 i3 =>
    intro o' h'
    cases h' with
    | more_nil h1 h2 => cases i1 h1; cases i2 h2
    | more h1 h2 h3 => cases i1 h1; cases i2 h2; cases i3 h3; rfl
  | skip_atomic => intro o' h'; cases h'; rfl
  | skip _ ih =>
    intro o' h'
    cases h' with
    | skip h1 => exact ih h1

/-! ## White space -/

/-- A literal of one character, at a character. -/
theorem lit (a : Bool) (c d : Char) (n : Nat) (z : Str) :
    Runs a (.str [c]) ⟨n, d :: z⟩ (if c = d then some ([], ⟨n + 1, z⟩) else none) := by
  split
  · next h => subst h; exact .str (w := [c]) rfl
  · next h => exact .str_fail (by simp [h])

theorem lit_nil (a : Bool) (c : Char) (n : Nat) : Runs a (.str [c]) ⟨n, []⟩ none := .str_fail (by simp)

theorem lit_eq (a : Bool) (c : Char) (n : Nat) (z : Str) :
    Runs a (.str [c]) ⟨n, c :: z⟩ (some ([], ⟨n + 1, z⟩)) := by simpa using lit a c c n z

theorem lit_ne (a : Bool) {c d : Char} (h : c ≠ d) (n : Nat) (z : Str) :
    Runs a (.str [c]) ⟨n, d :: z⟩ none := by simpa [h] using lit a c d n z

theorem rep_some {a : Bool} {e : Exp} : ∀ {p o}, Runs a (.rep e) p o → ∃ x, o = some x := by
  intro p o h; cases h <;> exact ⟨_, rfl⟩

/-- A silent rule at a position where its body matches. -/
theorem silent {a : Bool} {r : Rule} (hr : r.kind = .silent) {p q : Pos} {w : Str} {ps : List Pair}
    (e : p.rest = w ++ q.rest) (h : Runs a r.body p (some (ps, q))) : Runs a (.call r) p (some (ps, q)) := by
  have := Runs.call (a := a) (r := r) e (by rw [hr]; exact h)
  rwa [hr] at this

theorem silent_fail {a : Bool} {r : Rule} (hr : r.kind = .silent) {p : Pos}
    (h : Runs a r.body p none) : Runs a (.call r) p none :=
  .call_fail (by rw [hr]; exact h)

theorem newline_fail (a : Bool) (n : Nat) {z : Str} (h : ∀ c, z.head? = some c → c ≠ '\n' ∧ c ≠ '\r') :
    Runs a (.call .newline) ⟨n, z⟩ none := by
  refine silent_fail rfl ?_
  cases z with
  | nil => exact .alt' (.alt' (lit_nil ..) (.str_fail (by simp))) (lit_nil ..)
  | cons c z =>
    obtain ⟨h1, h2⟩ := h c rfl
    exact .alt' (.alt' (lit_ne _ (Ne.symm h1) ..) (.str_fail (by simp [Ne.symm h2]))) (lit_ne _ (Ne.symm h2) ..)

theorem whitespace_fail (a : Bool) (n : Nat) {z : Str} (h : ∀ c, z.head? = some c → isWs c = false) :
    Runs a (.call .whitespace) ⟨n, z⟩ none := by
  refine silent_fail rfl ?_
  refine .alt' ?_ (newline_fail _ _ fun c hc => ?_)
  · cases z with
    | nil => exact lit_nil ..
    | cons c z =>
      have := h c rfl
      exact lit_ne _ (by rintro rfl; simp [isWs] at this) ..
  · have := h c hc
    simp [isWs] at this
    exact ⟨this.1.2, this.2⟩

/-- White space at a white space character: one or, for `\r\n`, two characters are consumed. -/
theorem whitespace_ok (a : Bool) (n : Nat) {c : Char} (z : Str) (h : isWs c = true) :
    ∃ w z', (c :: z : Str) = w ++ z' ∧ w ≠ [] ∧ (∀ d ∈ w, isWs d = true) ∧
      Runs a (.call .whitespace) ⟨n, c :: z⟩ (some ([], ⟨n + w.length, z'⟩)) := by
  have := Ptb.isWs_iff.1 h
  rcases this with rfl | rfl | rfl
  · refine ⟨[' '], z, rfl, by simp, by simp [isWs], silent (w := [' ']) rfl rfl ?_⟩
    exact .alt (lit_eq ..)
  · refine ⟨['\n'], z, rfl, by simp, by simp [isWs], silent (w := ['\n']) rfl rfl ?_⟩
    refine .alt' (lit_ne _ (by decide) ..) (silent (w := ['\n']) rfl rfl ?_)
    exact .alt (.alt (lit_eq ..))
  · by_cases hz : ∃ z', z = '\n' :: z'
    · obtain ⟨z', rfl⟩ := hz
      refine ⟨['\r', '\n'], z', rfl, by simp, by simp [isWs], silent (w := ['\r', '\n']) rfl rfl ?_⟩
      refine .alt' (lit_ne _ (by decide) ..) (silent (w := ['\r', '\n']) rfl rfl ?_)
      exact .alt (.alt' (lit_ne _ (by decide) ..) (.str rfl))
    · refine ⟨['\r'], z, rfl, by simp, by simp [isWs], silent (w := ['\r']) rfl rfl ?_⟩
      refine .alt' (lit_ne _ (by decide) ..) (silent (w := ['\r']) rfl rfl ?_)
      refine .alt' (.alt' (lit_ne _ (by decide) ..) (.str_fail ?_)) (lit_eq ..)
      rintro ⟨t, ht⟩
      simp at ht
      exact hz ⟨t, ht.symm⟩

/-- No white space at the head. -/
def Tight (z : Str) : Prop := ∀ c, z.head? = some c → isWs c = false

theorem more_whitespace : ∀ (k : Nat) (z : Str) (n : Nat), z.length ≤ k → ∃ w z' m, z = w ++ z' ∧ Tight z' ∧
    (∀ d ∈ w, isWs d = true) ∧ Runs true (.more (.call .whitespace)) ⟨n, z⟩ (some ([], ⟨m, z'⟩)) := by
  intro k
  induction k with
  | zero =>
    intro z n h
    have : z = [] := by simpa using h
    subst this
    exact ⟨[], [], n, rfl, by simp [Tight], by simp, .more_nil .skip_atomic (whitespace_fail _ _ (by simp))⟩
  | succ k ih =>
    intro z n h
    by_cases hz : Tight z
    · exact ⟨[], z, n, rfl, hz, by simp, .more_nil .skip_atomic (whitespace_fail _ _ hz)⟩
    · cases z with
      | nil => simp [Tight] at hz
      | cons c z =>
        have hc : isWs c = true := by simpa [Tight] using hz
        obtain ⟨w, z', e, hw, h1, h2⟩ := whitespace_ok true n z hc
        have : z'.length ≤ k := by
          have := congrArg List.length e
          have := List.length_pos_of_ne_nil hw
          simp at *; omega
        obtain ⟨w', z'', m, e', h3, h4, h5⟩ := ih z' (n + w.length) this
        refine ⟨w ++ w', z'', m, by rw [e, e', List.append_assoc], h3, ?_, ?_⟩
        · intro d hd
          rcases List.mem_append.1 hd with hd | hd
          exacts [h1 d hd, h4 d hd]
        · exact .more .skip_atomic h2 h5

/-- The implicit white space outside of atomic rules consumes all white space. -/
theorem skips (z : Str) (n : Nat) : ∃ w z' m, z = w ++ z' ∧ Tight z' ∧
    (∀ d ∈ w, isWs d = true) ∧ Runs false .skip ⟨n, z⟩ (some ([], ⟨m, z'⟩)) := by
  by_cases hz : Tight z
  · exact ⟨[], z, n, rfl, hz, by simp, .skip (.rep_nil (whitespace_fail _ _ hz))⟩
  · cases z with
    | nil => simp [Tight] at hz
    | cons c z =>
      have hc : isWs c = true := by simpa [Tight] using hz
      obtain ⟨w, z', e, hw, h1, h2⟩ := whitespace_ok true n z hc
      obtain ⟨w', z'', m, e', h3, h4, h5⟩ := more_whitespace _ z' (n + w.length) le_rfl
      refine ⟨w ++ w', z'', m, by rw [e, e', List.append_assoc], h3, ?_, ?_⟩
      · intro d hd
        rcases List.mem_append.1 hd with hd | hd
        exacts [h1 d hd, h4 d hd]
      · exact .skip (.rep h2 h5)

/-! ## Words -/

theorem char_fail (n : Nat) {z : Str} (h : ∀ c, z.head? = some c → isWordChar c = false) :
    Runs true (.call .char) ⟨n, z⟩ none := by
  refine silent_fail rfl ?_
  cases z with
  | nil =>
    exact .seq_fail' (.neg (.alt' (.alt' (whitespace_fail _ _ (by simp)) (lit_nil ..)) (lit_nil ..)))
      .skip_atomic .any_fail
  | cons c z =>
    have hc := h c rfl
    simp only [isWordChar, Bool.not_eq_false', Bool.or_eq_true, decide_eq_true_eq] at hc
    refine .seq_fail ?_
    by_cases h1 : isWs c = true
    · obtain ⟨w, z', -, -, -, h2⟩ := whitespace_ok true n z h1
      exact .neg_fail (.alt (.alt h2))
    · have hw := whitespace_fail true n (z := c :: z) (by simpa using h1)
      by_cases h2 : c = '('
      · subst h2; exact .neg_fail (.alt (.alt' hw (lit_eq ..)))
      · have h3 : c = ')' := by rcases hc with (hc | hc) | hc <;> first | exact absurd hc h1 | exact absurd hc h2 | exact hc
        subst h3
        exact .neg_fail (.alt' (.alt' hw (lit_ne _ (by decide) ..)) (lit_eq ..))

theorem char_ok (n : Nat) {c : Char} (z : Str) (h : isWordChar c = true) :
    Runs true (.call .char) ⟨n, c :: z⟩ (some ([], ⟨n + 1, z⟩)) := by
  have h' := Ptb.isWordChar_iff.1 h
  refine silent (w := [c]) rfl rfl ?_
  have hn : Runs true (.alt (.alt (.call .whitespace) (.str ['('])) (.str [')'])) ⟨n, c :: z⟩ none := by
    refine .alt' (.alt' (whitespace_fail _ _ ?_) (lit_ne _ (Ne.symm h'.2.2.2.1) ..)) (lit_ne _ (Ne.symm h'.2.2.2.2) ..)
    intro d hd; simp at hd; subst hd
    simp [isWs, h'.1, h'.2.1, h'.2.2.1]
  exact .seq (.neg hn) .skip_atomic .any

theorem more_chars : ∀ (z : Str) (n : Nat), ∃ w z' m, z = w ++ z' ∧ Ptb.Stops z' ∧
    (∀ d ∈ w, isWordChar d = true) ∧ Runs true (.more (.call .char)) ⟨n, z⟩ (some ([], ⟨m, z'⟩)) := by
  intro z
  induction z with
  | nil =>
    intro n
    exact ⟨[], [], n, rfl, Ptb.stops_nil, by simp, .more_nil .skip_atomic (char_fail _ Ptb.stops_nil)⟩
  | cons c z ih =>
    intro n
    by_cases hc : isWordChar c = true
    · obtain ⟨w, z', m, rfl, h1, h2, h3⟩ := ih (n + 1)
      refine ⟨c :: w, z', m, rfl, h1, ?_, .more .skip_atomic (char_ok n _ hc) h3⟩
      intro d hd
      rcases List.mem_cons.1 hd with rfl | hd
      exacts [hc, h2 d hd]
    · have : Ptb.Stops (c :: z) := by intro d hd; simp at hd; subst hd; simpa using hc
      exact ⟨[], c :: z, n, rfl, this, by simp, .more_nil .skip_atomic (char_fail _ this)⟩

/-- The rules `terminal` and `node_label`. -/
def IsWordRule (r : Rule) : Prop := r = .terminal ∨ r = .nodeLabel

theorem word_fail {r : Rule} (hr : IsWordRule r) (a : Bool) (n : Nat) {z : Str} (h : Ptb.Stops z) :
    Runs a (.call r) ⟨n, z⟩ none := by
  have : Runs true (Exp.call Rule.char).plus ⟨n, z⟩ none := .seq_fail (char_fail n h)
  rcases hr with rfl | rfl <;> exact .call_fail this

theorem word_ok {r : Rule} (hr : IsWordRule r) (a : Bool) (n : Nat) {c : Char} (z : Str)
    (h : isWordChar c = true) : ∃ w z' m, (c :: z : Str) = (c :: w) ++ z' ∧ Ptb.Stops z' ∧
      (∀ d ∈ c :: w, isWordChar d = true) ∧
      Runs a (.call r) ⟨n, c :: z⟩ (some ([.rule r (c :: w) []], ⟨m, z'⟩)) := by
  -- what follows the first character
  have key : ∃ w z' m, z = w ++ z' ∧ Ptb.Stops z' ∧ (∀ d ∈ w, isWordChar d = true) ∧
      Runs true (Exp.rep (.call .char)) ⟨n + 1, z⟩ (some ([], ⟨m, z'⟩)) := by
    cases z with
    | nil => exact ⟨[], [], n + 1, rfl, Ptb.stops_nil, by simp, .rep_nil (char_fail _ Ptb.stops_nil)⟩
    | cons d z =>
      by_cases hd : isWordChar d = true
      · obtain ⟨w, z', m, rfl, h1, h2, h3⟩ := more_chars z (n + 1 + 1)
        refine ⟨d :: w, z', m, rfl, h1, ?_, .rep (char_ok _ _ hd) h3⟩
        intro x hx
        rcases List.mem_cons.1 hx with rfl | hx
        exacts [hd, h2 x hx]
      · have : Ptb.Stops (d :: z) := by intro x hx; simp at hx; subst hx; simpa using hd
        exact ⟨[], d :: z, n + 1, rfl, this, by simp, .rep_nil (char_fail _ this)⟩
  obtain ⟨w, z', m, rfl, h1, h2, h3⟩ := key
  refine ⟨w, z', m, rfl, h1, ?_, ?_⟩
  · intro x hx
    rcases List.mem_cons.1 hx with rfl | hx
    exacts [h, h2 x hx]
  · have : Runs true (Exp.call Rule.char).plus ⟨n, c :: (w ++ z')⟩ (some ([], ⟨m, z'⟩)) :=
      .seq (char_ok n _ h) .skip_atomic h3
    rcases hr with rfl | rfl
    · exact .call (r := .terminal) (w := c :: w) rfl this
    · exact .call (r := .nodeLabel) (w := c :: w) rfl this

/-! ## Tokens -/

/-- What stands at a place without white space. -/
theorem tight_cases {z : Str} (h : Tight z) : z = [] ∨
    (∃ z', z = '(' :: z' ∧ tokenize z = .op :: tokenize z') ∨
    (∃ z', z = ')' :: z' ∧ tokenize z = .cl :: tokenize z') ∨
    (∃ c w z', z = c :: w ++ z' ∧ tokenize z = .word (c :: w) :: tokenize z' ∧ Ptb.Stops z' ∧
      isWordChar c = true) := by
  cases z with
  | nil => exact .inl rfl
  | cons c z =>
    right
    by_cases h1 : c = '('
    · subst h1; exact .inl ⟨z, rfl, Ptb.tokenize_op z⟩
    by_cases h2 : c = ')'
    · subst h2; exact .inr (.inl ⟨z, rfl, Ptb.tokenize_cl z⟩)
    have h3 : isWs c = false := h c rfl
    have hc : isWordChar c = true := by simp [isWordChar, h1, h2, h3]
    obtain ⟨w, z', m, e, h4, h5, -⟩ := word_ok (.inl rfl) true 0 z hc
    refine .inr (.inr ⟨c, w, z', e, ?_, h4, hc⟩)
    rw [e]
    exact Ptb.tokenize_word ⟨by simp, fun d hd => Ptb.isWordChar_iff.1 (h5 d hd)⟩ h4

theorem tokenize_skip {w : Str} (h : ∀ d ∈ w, isWs d = true) (z : Str) : tokenize (w ++ z) = tokenize z :=
  Ptb.tokenize_space (fun c hc => Ptb.isWs_iff.1 (h c hc)) z

/-- Skipping white space, as seen by the tokenizer. -/
theorem skips_tok (z : Str) (n : Nat) : ∃ w z' m, z = w ++ z' ∧ Tight z' ∧ tokenize z' = tokenize z ∧
    Runs false .skip ⟨n, z⟩ (some ([], ⟨m, z'⟩)) := by
  obtain ⟨w, z', m, rfl, h1, h2, h3⟩ := skips z n
  exact ⟨w, z', m, rfl, h1, (tokenize_skip h2 z').symm, h3⟩

theorem opn_ok (n : Nat) (z : Str) : Runs false (.call .opn) ⟨n, '(' :: z⟩ (some ([], ⟨n + 1, z⟩)) :=
  silent (w := ['(']) rfl rfl (lit_eq ..)

theorem opn_fail (n : Nat) {z : Str} (h : z.head? ≠ some '(') : Runs false (.call .opn) ⟨n, z⟩ none := by
  refine silent_fail rfl ?_
  cases z with
  | nil => exact lit_nil ..
  | cons c z => exact lit_ne _ (by rintro rfl; simp at h) ..

theorem close_ok (n : Nat) (z : Str) : Runs false (.call .close) ⟨n, ')' :: z⟩ (some ([], ⟨n + 1, z⟩)) :=
  silent (w := [')']) rfl rfl (lit_eq ..)

theorem close_fail (n : Nat) {z : Str} (h : z.head? ≠ some ')') : Runs false (.call .close) ⟨n, z⟩ none := by
  refine silent_fail rfl ?_
  cases z with
  | nil => exact lit_nil ..
  | cons c z => exact lit_ne _ (by rintro rfl; simp at h) ..

theorem word_head {c : Char} (h : isWordChar c = true) : c ≠ '(' ∧ c ≠ ')' := by
  have := Ptb.isWordChar_iff.1 h
  exact ⟨this.2.2.2.1, this.2.2.2.2⟩

/-- The closing bracket against the next token. -/
theorem close_tok (n : Nat) {z : Str} (h : Tight z) :
    (∃ z', z = ')' :: z' ∧ tokenize z = .cl :: tokenize z' ∧
      Runs false (.call .close) ⟨n, z⟩ (some ([], ⟨n + 1, z'⟩))) ∨
    ((∀ ts, tokenize z ≠ .cl :: ts) ∧ Runs false (.call .close) ⟨n, z⟩ none) := by
  rcases tight_cases h with rfl | ⟨z', rfl, e⟩ | ⟨z', rfl, e⟩ | ⟨c, w, z', rfl, e, -, hc⟩
  · exact .inr ⟨by simp [tokenize], close_fail _ (by simp)⟩
  · exact .inr ⟨by simp [e], close_fail _ (by simp)⟩
  · exact .inl ⟨z', rfl, e, close_ok ..⟩
  · exact .inr ⟨by rw [e]; simp, close_fail _ (by simpa using (word_head hc).2)⟩

/-- A word against the next token. -/
theorem word_tok {r : Rule} (hr : IsWordRule r) (n : Nat) {z : Str} (h : Tight z) :
    (∃ w z' m, z = w ++ z' ∧ tokenize z = .word w :: tokenize z' ∧
      Runs false (.call r) ⟨n, z⟩ (some ([.rule r w []], ⟨m, z'⟩))) ∨
    ((∀ w ts, tokenize z ≠ .word w :: ts) ∧ Runs false (.call r) ⟨n, z⟩ none) := by
  rcases tight_cases h with rfl | ⟨z', rfl, e⟩ | ⟨z', rfl, e⟩ | ⟨c, w, z', rfl, e, hs, hc⟩
  · exact .inr ⟨by simp [tokenize], word_fail hr _ _ Ptb.stops_nil⟩
  · exact .inr ⟨by simp [e], word_fail hr _ _ (Ptb.stops_op _)⟩
  · exact .inr ⟨by simp [e], word_fail hr _ _ (Ptb.stops_cl _)⟩
  · obtain ⟨w', z'', m, e', h1, h2, h3⟩ := word_ok hr false n (w ++ z') hc
    have e'' : tokenize (c :: w ++ z') = .word (c :: w') :: tokenize z'' := by
      rw [show c :: w ++ z' = c :: w' ++ z'' from e']
      exact Ptb.tokenize_word ⟨by simp, fun d hd => Ptb.isWordChar_iff.1 (h2 d hd)⟩ h1
    exact .inl ⟨c :: w', z'', m, e', e'', h3⟩

/-- The common beginning of `preterminal` and `nonterminal`. -/
def headE : Exp := .seq (.call .opn) (.call .nodeLabel)

theorem head_tok (n : Nat) {z : Str} (h : Tight z) :
    (∃ l w z' m, z = w ++ z' ∧ tokenize z = .op :: .word l :: tokenize z' ∧
      Runs false headE ⟨n, z⟩ (some ([.rule .nodeLabel l []], ⟨m, z'⟩))) ∨
    ((∀ l ts, tokenize z ≠ .op :: .word l :: ts) ∧ Runs false headE ⟨n, z⟩ none) := by
  by_cases ho : ∃ z', z = '(' :: z'
  · obtain ⟨z', rfl⟩ := ho
    obtain ⟨w, z1, m, rfl, ht, e, hs⟩ := skips_tok z' (n + 1)
    rcases word_tok (.inr rfl : IsWordRule .nodeLabel) m ht with ⟨l, z2, m', rfl, e', hw⟩ | ⟨e', hw⟩
    · refine .inl ⟨l, '(' :: w ++ l, z2, m', by simp, ?_, .seq (opn_ok ..) hs hw⟩
      rw [Ptb.tokenize_op, ← e, e']
    · refine .inr ⟨fun l ts hl => ?_, .seq_fail' (opn_ok ..) hs hw⟩
      rw [Ptb.tokenize_op, ← e] at hl
      simp at hl
      exact e' _ _ hl
  · have hh : z.head? ≠ some '(' := by
      cases z with
      | nil => simp
      | cons c z => simp; rintro rfl; exact ho ⟨z, rfl⟩
    refine .inr ⟨fun l ts hl => ?_, .seq_fail (opn_fail _ hh)⟩
    rcases tight_cases h with rfl | ⟨z', rfl, e⟩ | ⟨z', rfl, e⟩ | ⟨c, w, z', rfl, e, hs, hc⟩
    · simp [tokenize] at hl
    · simp at hh
    · simp [e] at hl
    · rw [e] at hl; simp at hl

/-! ## Nodes -/

theorem Stand.cons {q : Pair} {p : Ptb.Pair} {qs : List Pair} {r : Brackets}
    (h : Stand [q] (p.br .nil)) (hr : Stand qs r) : Stand (q :: qs) (p.br r) := by
  cases p with
  | pre l w => cases h; exact .leaf hr
  | nont l ps => cases h with | node h1 h2 => exact .node h1 hr

theorem Stand.det {qs : List Pair} {b : Brackets} (h : Stand qs b) : ∀ {b'}, Stand qs b' → b' = b := by
  induction h with
  | nil => intro b' h'; cases h'; rfl
  | leaf _ ih => intro b' h'; cases h' with | leaf h' => rw [ih h']
  | node _ _ i1 i2 => intro b' h'; cases h' with | node h1 h2 => rw [i1 h1, i2 h2]

mutual
theorem parseNode_length : ∀ (f : Nat) (ts : List Tok) (p : Ptb.Pair) (ts' : List Tok),
    parseNode f ts = some (p, ts') → ts'.length + 2 ≤ ts.length
  | 0, _, _, _ => by simp [parseNode]
  | f + 1, ts, p, ts' => by
    intro h
    unfold parseNode at h
    split at h
    · cases h
    · next fuel l rest hf =>
      simp at hf; subst hf
      split at h
      · simp at h; obtain ⟨-, rfl⟩ := h; simp
      · split at h
        · next hr =>
          simp at h; obtain ⟨-, rfl⟩ := h
          have := parseNodes_length f rest
          rw [hr] at this; simp at this ⊢; omega
        · cases h
    · cases h
theorem parseNodes_length : ∀ (f : Nat) (ts : List Tok), (parseNodes f ts).2.length ≤ ts.length
  | 0, _ => by simp [parseNodes]
  | f + 1, ts => by
    unfold parseNodes
    split
    · next h =>
      have := parseNode_length f _ _ _ h
      have := parseNodes_length f
      simp
      exact le_trans (this _) (by omega)
    · simp
end

/-- What matching `e` means for the outcome `o` of the recursive descent. -/
def NodeOk (e : Exp) (n : Nat) (z : Str) : Option (Ptb.Pair × List Tok) → Prop
  | some (p, ts) => ∃ q w z' m, z = w ++ z' ∧ tokenize z' = ts ∧ Stand [q] (p.br .nil) ∧
      Runs false e ⟨n, z⟩ (some ([q], ⟨m, z'⟩))
  | none => Runs false e ⟨n, z⟩ none

/-- The same for sequences of nodes. -/
def NodesOk (e : Exp) (n : Nat) (z : Str) (r : List Ptb.Pair × List Tok) : Prop :=
  ∃ qs w z' m, z = w ++ z' ∧ tokenize z' = r.2 ∧ Stand qs (Ptb.brs r.1) ∧
    Runs false e ⟨n, z⟩ (some (qs, ⟨m, z'⟩))

mutual
theorem node_runs : ∀ (f n : Nat) (z : Str), Tight z → 2 * (tokenize z).length + 1 ≤ f →
    NodeOk (.call .node) n z (parseNode f (tokenize z))
  | 0, _, _, _, h => by omega
  | f + 1, n, z, ht, hf => by
    rcases head_tok n ht with ⟨l, w, z1, m, rfl, e, hh⟩ | ⟨e, hh⟩
    · -- the tag has been read
      obtain ⟨w1, z2, m2, rfl, t2, e2, hs⟩ := skips_tok z1 m
      have hlen : (tokenize (w ++ (w1 ++ z2))).length = (tokenize z2).length + 2 := by
        rw [e, ← e2]; rfl
      rw [e, ← e2]
      -- `nonterminal`, given that `preterminal` has failed
      have nont : Runs false (.call .preterminal) ⟨n, w ++ (w1 ++ z2)⟩ none →
          (∀ x ts, tokenize z2 ≠ .word x :: .cl :: ts) →
          NodeOk (.call .node) n (w ++ (w1 ++ z2)) (parseNode (f + 1) (.op :: .word l :: tokenize z2)) := by
        intro hpre hne
        rw [parseNode]
        swap
        · exact fun x ts h => hne x ts h
        have hn := (nodes_runs f m2 z2 (by omega)).2.2 t2
        rcases hps : parseNodes f (tokenize z2) with ⟨ps, ts⟩
        rw [hps] at hn
        cases ps with
        | nil =>
          exact silent_fail rfl (.alt' hpre (.call_fail (.seq_fail (.seq_fail' hh hs hn))))
        | cons p ps =>
          obtain ⟨qs, w3, z3, m3, rfl, e3, st, hr⟩ := hn
          replace e3 : tokenize z3 = ts := e3
          obtain ⟨w4, z4, m4, rfl, t4, e4, hs4⟩ := skips_tok z3 m3
          have hb : Runs false (.seq headE (Exp.call .node).plus) ⟨n, w ++ (w1 ++ (w3 ++ (w4 ++ z4)))⟩
              (some ([.rule .nodeLabel l []] ++ [] ++ qs, ⟨m3, w4 ++ z4⟩)) := .seq hh hs hr
          rcases close_tok m4 t4 with ⟨z5, rfl, e5, hc⟩ | ⟨e5, hc⟩
          · have ets : ts = .cl :: tokenize z5 := by rw [← e3, ← e4, e5]
            subst ets
            refine ⟨.rule .nonterminal (w ++ (w1 ++ (w3 ++ (w4 ++ [')'])))) (.rule .nodeLabel l [] :: qs),
              w ++ (w1 ++ (w3 ++ (w4 ++ [')']))), z5, m4 + 1, by simp, rfl, ?_, ?_⟩
            · exact .node st .nil
            · refine silent (w := w ++ (w1 ++ (w3 ++ (w4 ++ [')'])))) rfl (by simp) (.alt' hpre ?_)
              have := Runs.call (a := false) (r := .nonterminal) (w := w ++ (w1 ++ (w3 ++ (w4 ++ [')']))))
                (by simp) (.seq hb hs4 hc)
              simpa [Rule.kind, Kind.pairs] using this
          · split
            · next h =>
              simp at h
              exact absurd (by rw [e4, e3, h.2]) (e5 _)
            · exact silent_fail rfl (.alt' hpre (.call_fail (.seq_fail' hb hs4 hc)))
      -- `preterminal`
      rcases word_tok (.inl rfl : IsWordRule .terminal) m2 t2 with ⟨x, z3, m3, rfl, e3, hw⟩ | ⟨e3, hw⟩
      · obtain ⟨w4, z4, m4, rfl, t4, e4, hs4⟩ := skips_tok z3 m3
        have hb : Runs false (.seq headE (.call .terminal)) ⟨n, w ++ (w1 ++ (x ++ (w4 ++ z4)))⟩
            (some ([.rule .nodeLabel l []] ++ [] ++ [.rule .terminal x []], ⟨m3, w4 ++ z4⟩)) := .seq hh hs hw
        rcases close_tok m4 t4 with ⟨z5, rfl, e5, hc⟩ | ⟨e5, hc⟩
        · rw [e3, ← e4, e5, parseNode]
          refine ⟨.rule .preterminal (w ++ (w1 ++ (x ++ (w4 ++ [')']))))
            [.rule .nodeLabel l [], .rule .terminal x []],
            w ++ (w1 ++ (x ++ (w4 ++ [')']))), z5, m4 + 1, by simp, rfl, .leaf .nil, ?_⟩
          refine silent (w := w ++ (w1 ++ (x ++ (w4 ++ [')'])))) rfl (by simp) (.alt ?_)
          have := Runs.call (a := false) (r := .preterminal) (w := w ++ (w1 ++ (x ++ (w4 ++ [')']))))
            (by simp) (.seq hb hs4 hc)
          simpa [Rule.kind, Kind.pairs] using this
        · refine nont (.call_fail (.seq_fail' hb hs4 hc)) fun y ts h => ?_
          rw [e3, ← e4] at h
          simp at h
          exact e5 _ h.2
      · exact nont (.call_fail (.seq_fail (.seq_fail' hh hs hw))) fun y ts h => e3 _ _ h
    · have : parseNode (f + 1) (tokenize z) = none := by
        unfold parseNode
        split
        · rfl
        · next h => exact absurd h (e _ _)
        · rfl
      rw [this]
      exact silent_fail rfl (.alt' (.call_fail (.seq_fail (.seq_fail hh))) (.call_fail (.seq_fail (.seq_fail hh))))
theorem nodes_runs : ∀ (f n : Nat) (z : Str), 2 * (tokenize z).length + 2 ≤ f →
    NodesOk (.more (.call .node)) n z (parseNodes f (tokenize z)) ∧
    (Tight z → NodesOk (.rep (.call .node)) n z (parseNodes f (tokenize z))) ∧
    (Tight z → match parseNodes f (tokenize z) with
      | ([], _) => Runs false (Exp.call .node).plus ⟨n, z⟩ none
      | (p :: ps, ts) => NodesOk (Exp.call .node).plus n z (p :: ps, ts))
  | 0, _, _, h => by omega
  | f + 1, n, z, hf => by
    rw [parseNodes]
    refine ⟨?_, fun ht => ?_, fun ht => ?_⟩
    · obtain ⟨w, z1, m, rfl, t1, e1, hs⟩ := skips_tok z n
      have h1 := node_runs f m z1 t1 (by rw [e1]; omega)
      rw [e1] at h1
      rcases hp : parseNode f (tokenize (w ++ z1)) with _ | ⟨p, ts⟩
      · rw [hp] at h1
        exact ⟨[], [], w ++ z1, n, rfl, rfl, .nil, .more_nil hs h1⟩
      · rw [hp] at h1
        have hl := parseNode_length f _ _ _ hp
        obtain ⟨q, w2, z2, m2, rfl, rfl, st, hr⟩ := h1
        obtain ⟨qs, w3, z3, m3, rfl, e3, st', hr'⟩ := (nodes_runs f m2 z2 (by omega)).1
        exact ⟨q :: qs, w ++ (w2 ++ w3), z3, m3, by simp, e3, st.cons st', .more hs hr hr'⟩
    · have h1 := node_runs f n z ht (by omega)
      rcases hp : parseNode f (tokenize z) with _ | ⟨p, ts⟩
      · rw [hp] at h1
        exact ⟨[], [], z, n, rfl, rfl, .nil, .rep_nil h1⟩
      · rw [hp] at h1
        have hl := parseNode_length f _ _ _ hp
        obtain ⟨q, w2, z2, m2, rfl, rfl, st, hr⟩ := h1
        obtain ⟨qs, w3, z3, m3, rfl, e3, st', hr'⟩ := (nodes_runs f m2 z2 (by omega)).1
        exact ⟨q :: qs, w2 ++ w3, z3, m3, by simp, e3, st.cons st', .rep hr hr'⟩
    · have h1 := node_runs f n z ht (by omega)
      rcases hp : parseNode f (tokenize z) with _ | ⟨p, ts⟩
      · rw [hp] at h1
        exact .seq_fail h1
      · rw [hp] at h1
        have hl := parseNode_length f _ _ _ hp
        obtain ⟨q, w2, z2, m2, rfl, rfl, st, hr⟩ := h1
        obtain ⟨w4, z4, m4, rfl, t4, e4, hs4⟩ := skips_tok z2 m2
        obtain ⟨qs, w3, z3, m3, rfl, e3, st', hr'⟩ := (nodes_runs f m4 z4 (by rw [e4]; omega)).2.1 t4
        rw [← e4]
        exact ⟨q :: qs, w2 ++ (w4 ++ w3), z3, m3, by simp, e3, st.cons st', .seq hr hs4 hr'⟩
end

/-- The generated parser and the recursive descent agree on every text. -/
theorem parse_runs (s : Str) : match parsePairs s with
    | some p => ∃ q, Stand [q] (p.br .nil) ∧ Parses s (some [q, .eoi])
    | none => Parses s none := by
  obtain ⟨w, z, m, rfl, ht, e, hs⟩ := skips_tok s 0
  have h1 := node_runs (2 * (tokenize z).length + 1) m z ht le_rfl
  unfold parsePairs
  simp only
  rw [← e]
  rcases hp : parseNode (2 * (tokenize z).length + 1) (tokenize z) with _ | ⟨p, ts⟩
  · rw [hp] at h1
    exact ⟨none, silent_fail rfl (.seq_fail (.seq_fail' .soi hs h1)), rfl⟩
  · rw [hp] at h1
    obtain ⟨q, w2, z2, m2, rfl, e2, st, hr⟩ := h1
    obtain ⟨w3, z3, m3, rfl, t3, e3, hs3⟩ := skips_tok z2 m2
    have hb : Runs false (.seq .soi (.call .node)) ⟨0, w ++ (w2 ++ (w3 ++ z3))⟩
      (some ([] ++ [] ++ [q], ⟨m2, w3 ++ z3⟩)) := .seq .soi hs hr
    cases z3 with
    | nil =>
      have : ts = [] := by rw [← e2, ← e3]; rfl
      subst this
      refine ⟨q, st, _, silent (w := w ++ (w2 ++ w3)) rfl (by simp) (.seq hb hs3 .eoi), rfl⟩
    | cons c z3 =>
      have : ts ≠ [] := by
        rw [← e2, ← e3]
        rcases tight_cases t3 with h | ⟨z', -, h⟩ | ⟨z', -, h⟩ | ⟨_, _, z', -, h, -⟩
        · simp at h
        all_goals rw [h]; simp
      cases ts with
      | nil => exact absurd rfl this
      | cons t ts => exact ⟨none, silent_fail rfl (.seq_fail' hb hs3 .eoi_fail), rfl⟩

end Pest
end Lumberjack
