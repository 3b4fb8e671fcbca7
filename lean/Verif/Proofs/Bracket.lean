import Verif.Spec.Bracket

/-!
# The bracketing grammar: tokens, and the parser against the grammar
-/

namespace Lumberjack
namespace Ptb

open Bracketed

/-! ## Tokens -/

theorem isWs_iff {c : Char} : isWs c = true ↔ c = ' ' ∨ c = '\n' ∨ c = '\r' := by
  simp [isWs, or_assoc]

theorem isWordChar_iff {c : Char} : isWordChar c = true ↔
    c ≠ ' ' ∧ c ≠ '\n' ∧ c ≠ '\r' ∧ c ≠ '(' ∧ c ≠ ')' := by
  simp [isWordChar, isWs, and_assoc]

/-- The next character cannot continue a word. -/
def Stops (s : Str) : Prop := ∀ c, s.head? = some c → isWordChar c = false

theorem space_stops {a s : Str} (h : Space a) (hs : Stops s) : Stops (a ++ s) := by
  cases a with
  | nil => exact hs
  | cons c a =>
    intro d hd
    simp at hd; subst hd
    have := isWs_iff.2 (h c List.mem_cons_self)
    simp [isWordChar, this]

theorem stops_op (s : Str) : Stops ('(' :: s) := by intro c h; simp at h; subst h; decide
theorem stops_cl (s : Str) : Stops (')' :: s) := by intro c h; simp at h; subst h; decide
theorem stops_nil : Stops [] := by intro c h; simp at h

theorem tokenize_op (s : Str) : tokenize ('(' :: s) = .op :: tokenize s := by simp [tokenize]
theorem tokenize_cl (s : Str) : tokenize (')' :: s) = .cl :: tokenize s := by
  rw [tokenize, if_neg (by decide), if_pos rfl]

theorem tokenize_ws {c : Char} (h : isWs c = true) (s : Str) : tokenize (c :: s) = tokenize s := by
  have h1 : c ≠ '(' := by rintro rfl; revert h; decide
  have h2 : c ≠ ')' := by rintro rfl; revert h; decide
  rw [tokenize, if_neg h1, if_neg h2, if_pos h]

theorem tokenize_space {a : Str} (h : Space a) (s : Str) : tokenize (a ++ s) = tokenize s := by
  induction a with
  | nil => rfl
  | cons c a ih =>
    rw [List.cons_append, tokenize_ws (isWs_iff.2 (h c List.mem_cons_self)),
      ih (fun d hd => h d (List.mem_cons_of_mem _ hd))]

/-- A word starts with the word character at the head. -/
theorem tokenize_char {c : Char} (h : isWordChar c = true) (s : Str) :
    (Stops s → tokenize (c :: s) = .word [c] :: tokenize s) ∧
    (∀ d s', s = d :: s' → isWordChar d = true → ∃ w ts, tokenize s = .word w :: ts ∧
      tokenize (c :: s) = .word (c :: w) :: ts) := by
  have h1 : c ≠ '(' := by rintro rfl; revert h; decide
  have h2 : c ≠ ')' := by rintro rfl; revert h; decide
  have h3 : ¬ isWs c = true := by
    intro h'; simp [isWordChar, h'] at h
  induction s generalizing c with
  | nil =>
    refine ⟨fun _ => ?_, by simp⟩
    simp [tokenize, h1, h2, h3]
  | cons d s ih =>
    constructor
    · intro hs
      have hd : isWordChar d = false := hs d rfl
      rw [tokenize, if_neg h1, if_neg h2, if_neg h3]
      cases ht : tokenize (d :: s) with
      | nil => rfl
      | cons a ts => cases a <;> simp [hd]
    · intro d' s' he hd
      simp at he; obtain ⟨rfl, rfl⟩ := he
      have e1 : d ≠ '(' := by rintro rfl; revert hd; decide
      have e2 : d ≠ ')' := by rintro rfl; revert hd; decide
      have e3 : ¬ isWs d = true := by
        intro h'; simp [isWordChar, h'] at hd
      have : ∃ w ts, tokenize (d :: s) = .word w :: ts := by
        obtain ⟨i1, i2⟩ := ih hd e1 e2 e3
        cases s with
        | nil => exact ⟨_, _, i1 stops_nil⟩
        | cons x s =>
          cases hx : isWordChar x with
          | false => exact ⟨_, _, i1 (fun c hc => by simp at hc; subst hc; exact hx)⟩
          | true => obtain ⟨w, ts, -, h⟩ := i2 x s rfl hx; exact ⟨_, _, h⟩
      obtain ⟨w, ts, hw⟩ := this
      refine ⟨w, ts, hw, ?_⟩
      rw [tokenize, if_neg h1, if_neg h2, if_neg h3, hw]
      simp [hd]

theorem tokenize_word {w : Str} (h : Word w) {s : Str} (hs : Stops s) :
    tokenize (w ++ s) = .word w :: tokenize s := by
  obtain ⟨hne, hw⟩ := h
  induction w with
  | nil => exact absurd rfl hne
  | cons c w ih =>
    have hc := isWordChar_iff.2 (hw c List.mem_cons_self)
    cases w with
    | nil => exact (tokenize_char hc _).1 hs
    | cons d w =>
      have hd := isWordChar_iff.2 (hw d (by simp))
      have := ih (by simp) (fun x hx => hw x (List.mem_cons_of_mem _ hx))
      obtain ⟨w', ts, h1, h2⟩ := (tokenize_char hc (d :: w ++ s)).2 d (w ++ s) rfl hd
      rw [h1] at this
      simp only [List.cons.injEq, Tok.word.injEq] at this
      obtain ⟨rfl, rfl⟩ := this
      exact h2

/-- `s` is white space `a`, the token, and `rest`. -/
def Starts (s a rest : Str) : Tok → Prop
  | .op => s = a ++ '(' :: rest
  | .cl => s = a ++ ')' :: rest
  | .word w => s = a ++ w ++ rest ∧ Word w ∧ Stops rest

/-- Reading a token off the text. -/
theorem tokenize_cons {s : Str} {k : Tok} {ts : List Tok} (h : tokenize s = k :: ts) :
    ∃ a rest, Space a ∧ tokenize rest = ts ∧ Starts s a rest k := by
  induction s generalizing k ts with
  | nil => simp [tokenize] at h
  | cons c s ih =>
    by_cases h1 : c = '('
    · subst h1
      rw [tokenize_op] at h; simp at h; obtain ⟨rfl, rfl⟩ := h
      exact ⟨[], s, by simp [Space], rfl, rfl⟩
    by_cases h2 : c = ')'
    · subst h2
      rw [tokenize_cl] at h; simp at h; obtain ⟨rfl, rfl⟩ := h
      exact ⟨[], s, by simp [Space], rfl, rfl⟩
    by_cases h3 : isWs c = true
    · rw [tokenize_ws h3] at h
      obtain ⟨a, rest, ha, hr, hk⟩ := ih h
      refine ⟨c :: a, rest, ?_, hr, ?_⟩
      · intro d hd
        rcases List.mem_cons.1 hd with rfl | hd
        · exact isWs_iff.1 h3
        · exact ha d hd
      · cases k <;> simpa [Starts] using hk
    · have hc : isWordChar c = true := by simp [isWordChar, h1, h2, h3]
      have hc' := isWordChar_iff.1 hc
      obtain ⟨i1, i2⟩ := tokenize_char hc s
      have stop : Stops s → ∃ a rest, Space a ∧ tokenize rest = ts ∧ Starts (c :: s) a rest k := by
        intro hs
        rw [i1 hs] at h; simp at h; obtain ⟨rfl, rfl⟩ := h
        exact ⟨[], s, by simp [Space], rfl, by simp, ⟨by simp, by simpa using hc'⟩, hs⟩
      cases s with
      | nil => exact stop stops_nil
      | cons d s =>
        cases hd : isWordChar d with
        | false => exact stop (fun x hx => by simp at hx; subst hx; exact hd)
        | true =>
          obtain ⟨w, ts', e1, e2⟩ := i2 d s rfl hd
          rw [e2] at h; simp at h; obtain ⟨rfl, rfl⟩ := h
          obtain ⟨a, rest, ha, hr, hw1, hw2, hw3⟩ := ih e1
          have : a = [] := by
            cases a with
            | nil => rfl
            | cons x a =>
              simp at hw1
              have := isWs_iff.2 (ha x List.mem_cons_self)
              rw [← hw1.1] at this
              simp [isWordChar, this] at hd
          subst this
          refine ⟨[], rest, by simp [Space], hr, ?_, ⟨by simp, ?_⟩, hw3⟩
          · simpa using hw1
          · intro x hx
            rcases List.mem_cons.1 hx with rfl | hx
            · exact hc'
            · exact hw2.2 x hx

theorem tokenize_nil {s : Str} (h : tokenize s = []) : Space s := by
  induction s with
  | nil => simp [Space]
  | cons c s ih =>
    by_cases h1 : c = '('
    · subst h1; rw [tokenize_op] at h; simp at h
    by_cases h2 : c = ')'
    · subst h2; rw [tokenize_cl] at h; simp at h
    by_cases h3 : isWs c = true
    · rw [tokenize_ws h3] at h
      intro d hd
      rcases List.mem_cons.1 hd with rfl | hd
      · exact isWs_iff.1 h3
      · exact ih h d hd
    · have hc : isWordChar c = true := by simp [isWordChar, h1, h2, h3]
      obtain ⟨i1, i2⟩ := tokenize_char hc s
      cases s with
      | nil => rw [i1 stops_nil] at h; simp at h
      | cons d s =>
        cases hd : isWordChar d with
        | false => rw [i1 (fun x hx => by simp at hx; subst hx; exact hd)] at h; simp at h
        | true =>
          obtain ⟨w, ts', e1, e2⟩ := i2 d s rfl hd
          rw [e2] at h; simp at h

/-! ## Tokens of a bracketing -/

/-- The tokens of a sequence of bracketings. -/
def toks : Brackets → List Tok
  | .nil => []
  | .leaf tag w r => .op :: .word tag :: .word w :: .cl :: toks r
  | .node tag k r => .op :: .word tag :: (toks k ++ .cl :: toks r)

/-- Inner bracketings are not empty. -/
def _root_.Lumberjack.Brackets.Full : Brackets → Prop
  | .nil => True
  | .leaf _ _ r => r.Full
  | .node _ k r => k ≠ .nil ∧ k.Full ∧ r.Full

theorem reads_stops {s : Str} {b : Brackets} (h : Reads s b) : b ≠ .nil → Stops s := by
  intro hb
  cases h with
  | nil => exact absurd rfl hb
  | leaf h => exact space_stops h (stops_op _)
  | node h => exact space_stops h (stops_op _)

theorem reads_toks {s : Str} {b : Brackets} (h : Reads s b) (z : Str) :
    tokenize (s ++ z) = Ptb.toks b ++ tokenize z ∧ b.Full := by
  induction h generalizing z with
  | nil h => exact ⟨by rw [tokenize_space h]; rfl, trivial⟩
  | @leaf a b tag c word d rest r h1 h2 h3 h4 h4' h5 h6 h7 ih =>
    refine ⟨?_, (ih z).2⟩
    have e : a ++ '(' :: (b ++ tag ++ c ++ word ++ d ++ ')' :: rest) ++ z =
      a ++ ('(' :: (b ++ (tag ++ (c ++ (word ++ (d ++ (')' :: (rest ++ z)))))))) := by simp
    have sc : Stops (c ++ (word ++ (d ++ (')' :: (rest ++ z))))) := by
      cases c with
      | nil => exact absurd rfl h4'
      | cons x c =>
        intro y hy
        simp at hy; subst hy
        have := isWs_iff.2 (h4 x List.mem_cons_self)
        simp [isWordChar, this]
    rw [e, tokenize_space h1, tokenize_op, tokenize_space h2, tokenize_word h3 sc, tokenize_space h4,
      tokenize_word h5 (space_stops h6 (stops_cl _)), tokenize_space h6, tokenize_cl, (ih z).1]
    rfl
  | @node a b tag inner rest k r h1 h2 h3 h4 h5 h6 ihk ih =>
    have e : a ++ '(' :: (b ++ tag ++ inner ++ ')' :: rest) ++ z =
      a ++ ('(' :: (b ++ (tag ++ (inner ++ (')' :: (rest ++ z)))))) := by simp
    obtain ⟨i1, i2⟩ := ih z
    obtain ⟨k1, k2⟩ := ihk (')' :: (rest ++ z))
    refine ⟨?_, h5, k2, i2⟩
    have sc : Stops (inner ++ (')' :: (rest ++ z))) := by
      have := reads_stops h4 h5
      intro y hy
      cases hi : inner with
      | nil => rw [hi] at hy; simp at hy; subst hy; decide
      | cons x inner => rw [hi] at hy; simp at hy; subst hy; exact this x (by rw [hi]; rfl)
    rw [e, tokenize_space h1, tokenize_op, tokenize_space h2, tokenize_word h3 sc, k1, tokenize_cl, i1]
    simp [Ptb.toks]

theorem reads_snoc {s : Str} {b : Brackets} (h : Reads s b) {d : Str} (hd : Space d) :
    Reads (s ++ d) b := by
  induction h with
  | nil h =>
    exact .nil fun c hc => (List.mem_append.1 hc).elim (h c) (hd c)
  | leaf h1 h2 h3 h4 h4' h5 h6 h7 ih =>
    have := Reads.leaf h1 h2 h3 h4 h4' h5 h6 ih
    simpa using this
  | node h1 h2 h3 h4 h5 h6 ihk ih =>
    have := Reads.node h1 h2 h3 h4 h5 ih
    simpa using this

theorem reads_of_toks {b : Brackets} : ∀ {s : Str} {ts : List Tok}, b.Full →
    tokenize s = toks b ++ ts → ∃ s1 s2, s = s1 ++ s2 ∧ Reads s1 b ∧ tokenize s2 = ts := by
  induction b with
  | nil => intro s ts _ h; exact ⟨[], s, rfl, .nil (by simp [Space]), h⟩
  | leaf tag w r ih =>
    intro s ts hf h
    obtain ⟨a, s1, ha, h1, rfl⟩ := tokenize_cons h
    obtain ⟨b, s2, hb, h2, rfl, hw2, hs2⟩ := tokenize_cons h1
    obtain ⟨c, s3, hc, h3, rfl, hw3, hs3⟩ := tokenize_cons h2
    obtain ⟨d, s4, hd, h4, rfl⟩ := tokenize_cons h3
    obtain ⟨s5, s6, rfl, h5, h6⟩ := ih hf h4
    refine ⟨_, s6, ?_, .leaf ha hb hw2 hc ?_ hw3 hd h5, h6⟩
    · simp
    · rintro rfl
      obtain ⟨hne, hw⟩ := hw3
      cases w with
      | nil => exact hne rfl
      | cons x w =>
        have := hs2 x rfl
        rw [isWordChar_iff.2 (hw x List.mem_cons_self)] at this
        simp at this
  | node tag k r ihk ih =>
    intro s ts hf h
    obtain ⟨a, s1, ha, h1, rfl⟩ := tokenize_cons h
    obtain ⟨b, s2, hb, h2, rfl, hw2, hs2⟩ := tokenize_cons h1
    have h2 : tokenize s2 = toks k ++ (.cl :: toks r ++ ts) := by
      rw [h2]; exact List.append_assoc _ _ _
    obtain ⟨s3, s4, rfl, h3, h4⟩ := ihk hf.2.1 h2
    obtain ⟨d, s5, hd, h5, rfl⟩ := tokenize_cons h4
    obtain ⟨s6, s7, rfl, h6, h7⟩ := ih hf.2.2 h5
    refine ⟨_, s7, ?_, .node ha hb hw2 (reads_snoc h3 hd) hf.1 h6, h7⟩
    simp

/-! ## The parser -/

mutual
/-- The bracketing a `Pair` stands for, followed by others. -/
def Pair.br : Pair → Brackets → Brackets
  | .pre l w, r => .leaf l w r
  | .nont l ps, r => .node l (brs ps) r
/-- The bracketings a list of `Pair`s stands for. -/
def brs : List Pair → Brackets
  | [] => .nil
  | p :: ps => p.br (brs ps)
end

theorem toks_br (p : Pair) (b : Brackets) : toks (p.br b) = toks (p.br .nil) ++ toks b := by
  cases p <;> simp [Pair.br, toks]

theorem full_br (p : Pair) (b : Brackets) : (p.br b).Full ↔ (p.br .nil).Full ∧ b.Full := by
  cases p <;> simp [Pair.br, Brackets.Full, and_assoc]

theorem br_ne_nil (p : Pair) (b : Brackets) : p.br b ≠ .nil := by cases p <;> simp [Pair.br]

theorem parse_sound (fuel : Nat) :
    (∀ ts p rest, parseNode fuel ts = some (p, rest) →
      ts = toks (p.br .nil) ++ rest ∧ (p.br .nil).Full) ∧
    (∀ ts, ts = toks (brs (parseNodes fuel ts).1) ++ (parseNodes fuel ts).2 ∧
      (brs (parseNodes fuel ts).1).Full) := by
  induction fuel with
  | zero => exact ⟨fun ts p rest h => by simp [parseNode] at h, fun ts => by simp [parseNodes, brs, toks, Brackets.Full]⟩
  | succ fuel ih =>
    obtain ⟨i1, i2⟩ := ih
    have hn : ∀ ts p rest, parseNode (fuel + 1) ts = some (p, rest) →
        ts = toks (p.br .nil) ++ rest ∧ (p.br .nil).Full := by
      intro ts p rest h
      unfold parseNode at h
      split at h
      · simp at *
      · rename_i l ts heq
        simp at heq; subst heq
        split at h
        · rename_i w rest'
          simp at h; obtain ⟨rfl, rfl⟩ := h
          simp [Pair.br, toks, Brackets.Full]
        · cases hp : parseNodes fuel ts with
          | mk ps r =>
            obtain ⟨e1, e2⟩ := i2 ts
            rw [hp] at h e1 e2
            cases ps with
            | nil => simp at h
            | cons q ps =>
              cases r with
              | nil => simp at h
              | cons x r =>
                cases x <;> simp at h
                obtain ⟨rfl, rfl⟩ := h
                simp only [Pair.br, toks, Brackets.Full]
                refine ⟨?_, ?_, e2, trivial⟩
                · rw [e1]; simp
                · exact br_ne_nil _ _
      · simp at h
    refine ⟨hn, ?_⟩
    intro ts
    unfold parseNodes
    cases hp : parseNode fuel ts with
    | none => simp [brs, toks, Brackets.Full]
    | some q =>
      obtain ⟨p, rest⟩ := q
      obtain ⟨e1, e2⟩ := i1 ts p rest hp
      obtain ⟨e3, e4⟩ := i2 rest
      simp only [brs]
      rw [toks_br, full_br]
      refine ⟨?_, e2, e4⟩
      rw [e1, List.append_assoc, ← e3]

theorem parse_complete {b : Brackets} : ∀ {fuel : Nat} {rest : List Tok}, b.Full →
    (toks b).length + 1 ≤ fuel → rest.head? ≠ some .op →
    ∃ ps, parseNodes fuel (toks b ++ rest) = (ps, rest) ∧ brs ps = b := by
  induction b with
  | nil =>
    intro fuel rest _ hf hr
    refine ⟨[], ?_, rfl⟩
    cases fuel with
    | zero => simp [parseNodes, toks]
    | succ fuel =>
      have : parseNode fuel rest = none := by
        cases fuel with
        | zero => rfl
        | succ fuel =>
          cases rest with
          | nil => rfl
          | cons x rest => cases x <;> first | rfl | simp at hr
      simp [parseNodes, toks, this]
  | leaf tag w r ih =>
    intro fuel rest hF hf hr
    simp only [toks, List.length_cons] at hf
    obtain ⟨fuel, rfl⟩ : ∃ k, fuel = k + 2 := ⟨fuel - 2, by omega⟩
    obtain ⟨ps, h1, h2⟩ := ih (fuel := fuel + 1) (rest := rest) hF (by omega) hr
    refine ⟨.pre tag w :: ps, ?_, ?_⟩
    · show parseNodes (fuel + 2) (.op :: .word tag :: .word w :: .cl :: (toks r ++ rest)) = _
      unfold parseNodes
      simp only [parseNode, h1]
    · simp [brs, Pair.br, h2]
  | node tag k r ihk ih =>
    intro fuel rest hF hf hr
    simp only [toks, List.length_cons, List.length_append] at hf
    obtain ⟨fuel, rfl⟩ : ∃ k, fuel = k + 2 := ⟨fuel - 2, by omega⟩
    obtain ⟨ps, h1, h2⟩ := ih (fuel := fuel + 1) (rest := rest) hF.2.2 (by omega) hr
    obtain ⟨qs, k1, k2⟩ := ihk (fuel := fuel) (rest := .cl :: (toks r ++ rest)) hF.2.1 (by omega) (by simp)
    refine ⟨.nont tag qs :: ps, ?_, ?_⟩
    · show parseNodes (fuel + 2) (.op :: .word tag :: ((toks k ++ .cl :: toks r) ++ rest)) = _
      rw [List.append_assoc, List.cons_append]
      have hnode : parseNode (fuel + 1) (.op :: .word tag :: (toks k ++ .cl :: (toks r ++ rest))) =
          some (.nont tag qs, toks r ++ rest) := by
        have hhead : ∃ ts, toks k ++ .cl :: (toks r ++ rest) = .op :: ts := by
          cases k with
          | nil => exact absurd rfl hF.1
          | leaf => exact ⟨_, rfl⟩
          | node => exact ⟨_, rfl⟩
        obtain ⟨ts, hts⟩ := hhead
        rw [hts] at k1 ⊢
        simp only [parseNode, k1]
        cases qs with
        | nil => simp [brs] at k2; exact absurd k2.symm hF.1
        | cons q qs => rfl
      unfold parseNodes
      simp only [hnode, h1]
    · simp [brs, Pair.br, h2, k2]

theorem parsePairs_sound {s : Str} {p : Pair} (h : parsePairs s = some p) : Reads s (p.br .nil) := by
  unfold parsePairs at h
  cases hp : parseNode (2 * (tokenize s).length + 1) (tokenize s) with
  | none => simp [hp] at h
  | some q =>
    obtain ⟨p', rest⟩ := q
    simp only [hp] at h
    cases rest with
    | cons => simp at h
    | nil =>
      simp at h; subst h
      obtain ⟨h1, h2⟩ := (parse_sound _).1 _ _ _ hp
      obtain ⟨s1, s2, rfl, h3, h4⟩ := reads_of_toks h2 h1
      exact reads_snoc h3 (tokenize_nil h4)

theorem single_br (p : Pair) : (p.br .nil).Single := by cases p <;> rfl

theorem parsePairs_complete {s : Str} {b : Brackets} (h : Reads s b) (hb : b.Single) :
    ∃ p, parsePairs s = some p ∧ p.br .nil = b := by
  obtain ⟨h1, h2⟩ := reads_toks h []
  simp only [List.append_nil, tokenize] at h1
  obtain ⟨ps, h3, h4⟩ := parse_complete (b := b) (fuel := 2 * (toks b).length + 2) (rest := []) h2
    (by omega) (by simp)
  rw [List.append_nil] at h3
  unfold parseNodes at h3
  cases hp : parseNode (2 * (toks b).length + 1) (toks b) with
  | none =>
    simp only [hp, Prod.mk.injEq] at h3
    obtain ⟨rfl, h5⟩ := h3
    cases b <;> simp [toks] at h5 hb; exact absurd hb id
  | some q =>
    obtain ⟨p, rest⟩ := q
    simp only [hp, Prod.mk.injEq] at h3
    obtain ⟨rfl, h5⟩ := h3
    simp only [brs] at h4
    have hq : brs (parseNodes (2 * (toks b).length + 1) rest).1 = .nil := by
      generalize brs (parseNodes (2 * (toks b).length + 1) rest).1 = r at h4
      cases p <;> simp only [Pair.br] at h4 <;> subst h4 <;> exact hb
    have := ((parse_sound (2 * (toks b).length + 1)).2 rest).1
    rw [hq, h5] at this
    simp [toks] at this
    subst this
    refine ⟨p, ?_, by rw [← h4, hq]⟩
    unfold parsePairs
    simp only [h1, hp]

end Ptb
end Lumberjack
