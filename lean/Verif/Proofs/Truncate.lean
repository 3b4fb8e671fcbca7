import Verif.Proofs.Incremental
import Verif.Proofs.NegraTrip
import Verif.Proofs.NegraExport

/-!
# Reading the beginning of a file
-/

namespace Lumberjack
namespace Negra

/-! ## Lines of the beginning of a text -/

theorem lines_nil : lines [] = [] := by simp [lines, splitOn]

theorem splitOn_none {c : Char} {s : Str} (h : c ∉ s) : splitOn c s = [s] := by
  induction s with
  | nil => rfl
  | cons x s ih =>
    rw [List.mem_cons, not_or] at h
    rw [splitOn, if_neg (Ne.symm h.1), ih h.2]

theorem splitOn_some {c : Char} {a s : Str} (h : c ∉ a) : splitOn c (a ++ c :: s) = a :: splitOn c s := by
  induction a with
  | nil => simp [splitOn]
  | cons x a ih =>
    rw [List.mem_cons, not_or] at h
    rw [List.cons_append, splitOn, if_neg (Ne.symm h.1), ih h.2]

theorem lines_one {s : Str} (h : '\n' ∉ s) (hs : s ≠ []) : lines s = [s] := by
  unfold lines
  rw [splitOn_none h]
  cases s with
  | nil => exact absurd rfl hs
  | cons x s => rfl

theorem splitOn_ne_nil' (c : Char) (s : Str) : splitOn c s ≠ [] := by
  rw [Ptb.splitOn_eq]; simp

theorem lines_cons {a s : Str} (h : '\n' ∉ a) : lines (a ++ '\n' :: s) = stripCr a :: lines s := by
  unfold lines
  rw [splitOn_some h]
  obtain ⟨x, xs, e⟩ := List.exists_cons_of_ne_nil (splitOn_ne_nil' '\n' s)
  rw [e]
  rfl

theorem split_line (s : Str) : '\n' ∉ s ∨ ∃ a r, '\n' ∉ a ∧ s = a ++ '\n' :: r := by
  by_cases h : '\n' ∈ s
  · obtain ⟨a, r, h1, h2⟩ := List.eq_append_cons_of_mem h
    exact .inr ⟨a, r, h2, h1⟩
  · exact .inl h

/-- The lines of the beginning of a text: some of its lines, and the beginning of the next. -/
theorem lines_prefix : ∀ (k : Nat) (p text : Str), p.length ≤ k → p <+: text →
    lines p <+: lines text ∨ ∃ fin part raw l more, part ≠ [] ∧ lines p = fin ++ [part] ∧ part <+: raw ∧
      lines text = fin ++ l :: more ∧ (l = raw ∨ l = stripCr raw) := by
  intro k
  induction k with
  | zero =>
    intro p text hk _
    rw [List.length_eq_zero_iff.1 (Nat.le_zero.1 hk), lines_nil]
    exact .inl List.nil_prefix
  | succ k ih =>
    intro p text hk hp
    by_cases hp0 : p = []
    · rw [hp0, lines_nil]; exact .inl List.nil_prefix
    rcases split_line text with h | ⟨a, s, h, rfl⟩
    · have hn : '\n' ∉ p := fun hm => h (hp.subset hm)
      have ht : text ≠ [] := by rintro rfl; exact hp0 (List.prefix_nil.1 hp)
      right
      exact ⟨[], p, text, text, [], hp0, by rw [lines_one hn hp0]; rfl, hp, by rw [lines_one h ht]; rfl, .inl rfl⟩
    · rcases split_line p with hn | ⟨a', s', h', rfl⟩
      · right
        have : p <+: a := by
          rcases List.prefix_or_prefix_of_prefix hp (List.prefix_append a ('\n' :: s)) with hp | ⟨r, rfl⟩
          · exact hp
          · have hr := (List.prefix_append_right_inj a).1 hp
            cases r with
            | nil => simp
            | cons y r =>
              rw [List.cons_prefix_cons] at hr
              rw [hr.1] at hn
              simp at hn
        exact ⟨[], p, a, stripCr a, lines s, hp0, by rw [lines_one hn hp0]; rfl, this, by rw [lines_cons h]; rfl, .inr rfl⟩
      · obtain ⟨z, hz⟩ := hp
        have : a' = a ∧ s' ++ z = s := by
          have h1 := splitOn_some (s := s' ++ z) h'
          have h2 := splitOn_some (s := s) h
          simp only [List.append_assoc, List.cons_append] at hz
          rw [hz, h2, List.cons.injEq] at h1
          have e := h1.1
          subst e
          simp at hz
          exact ⟨rfl, hz⟩
        obtain ⟨rfl, rfl⟩ := this
        rw [lines_cons h, lines_cons h]
        rcases ih s' (s' ++ z) (by simp at hk; omega) (List.prefix_append _ _) with g | ⟨fin, part, raw, l, more, g1, g2, g3, g4, g5⟩
        · exact .inl (List.cons_prefix_cons.2 ⟨rfl, g⟩)
        · exact .inr ⟨stripCr a' :: fin, part, raw, l, more, g1, by rw [g2]; rfl, g3, by rw [g4]; rfl, g5⟩

/-! ## Trimming the beginning of a line -/

theorem trim_parts (s : Str) : ∃ w z, (∀ c ∈ w, isWs c = true) ∧ (∀ c ∈ z, isWs c = true) ∧ s = w ++ trim s ++ z := by
  refine ⟨s.takeWhile isWs, ((s.dropWhile isWs).reverse.takeWhile isWs).reverse, fun c hc => ?_, fun c hc => ?_, ?_⟩
  · exact List.mem_takeWhile_imp hc
  · exact List.mem_takeWhile_imp (List.mem_reverse.1 hc)
  · unfold trim
    rw [List.append_assoc, ← List.reverse_append, List.takeWhile_append_dropWhile, List.reverse_reverse,
      List.takeWhile_append_dropWhile]

/-- A text without white space at the end stays the beginning if white space at the end is cut. -/
theorem prefix_of_ws {q l z : Str} (hq : q <+: l ++ z) (ht : ∀ c, q.getLast? = some c → isWs c = false)
    (hz : ∀ c ∈ z, isWs c = true) : q <+: l := by
  rcases List.prefix_or_prefix_of_prefix hq (List.prefix_append l z) with h | ⟨r, rfl⟩
  · exact h
  · have hr := (List.prefix_append_right_inj l).1 hq
    cases hr' : r.getLast? with
    | none => rw [List.getLast?_eq_none_iff.1 hr']; simp
    | some c =>
      have h1 : (l ++ r).getLast? = some c := by rw [List.getLast?_append, hr']; rfl
      have h2 := hz c (hr.subset (List.mem_of_getLast? hr'))
      rw [ht c h1] at h2
      cases h2

theorem dropWhile_prefix {p : Char → Bool} {a b : Str} (h : a <+: b) : a.dropWhile p <+: b.dropWhile p := by
  induction a generalizing b with
  | nil => simp
  | cons x a ih =>
    cases b with
    | nil => simp at h
    | cons y b =>
      rw [List.cons_prefix_cons] at h
      obtain ⟨rfl, h⟩ := h
      rw [List.dropWhile_cons, List.dropWhile_cons]
      split
      · exact ih h
      · exact List.cons_prefix_cons.2 ⟨rfl, h⟩

theorem trim_init (s : Str) : ∃ z, (∀ c ∈ z, isWs c = true) ∧ s.dropWhile isWs = trim s ++ z := by
  refine ⟨((s.dropWhile isWs).reverse.takeWhile isWs).reverse, fun c hc => List.mem_takeWhile_imp (List.mem_reverse.1 hc), ?_⟩
  unfold trim
  rw [← List.reverse_append, List.takeWhile_append_dropWhile, List.reverse_reverse]

theorem trim_prefix {part raw : Str} (h : part <+: raw) : trim part <+: trim raw := by
  obtain ⟨z, hz, e⟩ := trim_init raw
  obtain ⟨z', hz', e'⟩ := trim_init part
  have h' := dropWhile_prefix (p := isWs) h
  rw [e, e'] at h'
  exact prefix_of_ws ((List.prefix_append _ _).trans h') (tight_of_trim part).2 hz

theorem trim_snoc {s : Str} {c : Char} (h : isWs c = true) : trim (s ++ [c]) = trim s := by
  unfold trim
  rw [List.dropWhile_append]
  split
  · rename_i he
    rw [List.isEmpty_iff] at he
    simp [he, h]
  · rw [List.reverse_append]
    simp [h]

theorem trim_stripCr (s : Str) : trim (stripCr s) = trim s := by
  unfold stripCr
  split
  · rename_i h
    obtain ⟨s', rfl⟩ := List.getLast?_eq_some_iff.1 h
    rw [List.dropLast_concat, trim_snoc (by decide)]
  · rfl

theorem startsWith_mono {a q l : Str} (h : q <+: l) (hq : startsWith a q = true) : startsWith a l = true := by
  unfold startsWith at *
  rw [List.isPrefixOf_iff_prefix] at *
  exact hq.trans h

/-! ## The last line is cut -/

/-- The state of the reader inside or outside of a sentence. -/
def Reading (cur : Option Builder) : Prop := ∀ b, cur = some b → ∃ id T N τ, Inv id b T N τ

/-- Complete lines lead to an item, to a panic or to a state, whatever follows. -/
theorem nextFrom_lines : ∀ (fin : List Str) (cur : Option Builder), Reading cur →
    (∃ r d, d.length < fin.length ∧ ∀ x, nextFrom (fin ++ x) cur = .ok (some r, d ++ x)) ∨
    (∃ cur', Reading cur' ∧ ∀ x, nextFrom (fin ++ x) cur = nextFrom x cur') ∨
    (∀ x, nextFrom (fin ++ x) cur = .panic) := by
  intro fin
  induction fin with
  | nil => intro cur hc; exact .inr (.inl ⟨cur, hc, fun _ => rfl⟩)
  | cons raw fin ih =>
    intro cur hc
    have cont : ∀ cur', Reading cur' → (∀ x, nextFrom (raw :: fin ++ x) cur = nextFrom (fin ++ x) cur') →
        (∃ r d, d.length < (raw :: fin).length ∧ ∀ x, nextFrom (raw :: fin ++ x) cur = .ok (some r, d ++ x)) ∨
        (∃ cur', Reading cur' ∧ ∀ x, nextFrom (raw :: fin ++ x) cur = nextFrom x cur') ∨
        (∀ x, nextFrom (raw :: fin ++ x) cur = .panic) := by
      intro cur' hr h
      rcases ih cur' hr with ⟨r, d, h1, h2⟩ | ⟨c2, h1, h2⟩ | h2
      · exact .inl ⟨r, d, by simp; omega, fun x => by rw [h, h2]⟩
      · exact .inr (.inl ⟨c2, h1, fun x => by rw [h, h2]⟩)
      · exact .inr (.inr fun x => by rw [h, h2])
    by_cases h1 : startsWith bos (trim raw) = true
    · cases cur with
      | some b => exact .inl ⟨.error (.parse 27), fin, by simp, fun x => by rw [List.cons_append, nextFrom]; simp only [h1, if_true]⟩
      | none =>
        by_cases hO : ∃ id info, Opens raw id info
        · obtain ⟨id, info, hO⟩ := hO
          refine cont (some (begun id info)) (fun b hb => ?_) fun x => by
            rw [List.cons_append, nextFrom]; simp only [h1, if_true, fromHeader_ok hO, Res.ok_bind]
          cases hb
          exact ⟨id, _, _, _, begun_inv id info⟩
        · obtain ⟨e, he⟩ := fromHeader_err h1 fun id info h => hO ⟨id, info, h⟩
          exact .inl ⟨_, fin, by simp, fun x => by
            rw [List.cons_append, nextFrom]; simp only [h1, if_true, he, Res.ok_bind]; rfl⟩
    · by_cases h2 : startsWith eos (trim raw) = true
      · cases cur with
        | none => exact .inl ⟨.error (.parse 28), fin, by simp, fun x => by
            rw [List.cons_append, nextFrom]; simp only [h1, h2, if_true, Bool.false_eq_true, if_false]⟩
        | some b =>
          cases ht : tryIntoTree b (trim raw) with
          | ok r => exact .inl ⟨r, fin, by simp, fun x => by
              rw [List.cons_append, nextFrom]; simp only [h1, h2, if_true, ht, Res.ok_bind, Bool.false_eq_true, if_false]; rfl⟩
          | panic => exact .inr (.inr fun x => by
              rw [List.cons_append, nextFrom]; simp only [h1, h2, if_true, ht, Bool.false_eq_true, if_false]; rfl)
          | diverge =>
            exfalso
            obtain ⟨id, T, N, τ, I⟩ := hc b rfl
            by_cases hcl : Closes raw id
            · rcases footer_ok I hcl with ⟨_, h⟩ | ⟨_, _, e, h⟩ | ⟨_, _, _, h⟩ | ⟨_, _, _, _, _, _, _, h⟩ <;>
                · rw [ht] at h; cases h
            · obtain ⟨e, h⟩ := footer_err I h2 hcl
              rw [ht] at h; cases h
      · cases cur with
        | none =>
          exact cont none (fun b hb => by cases hb) fun x => by
            rw [List.cons_append, nextFrom]; simp only [h1, h2, Bool.false_eq_true, if_false]
        | some b =>
          obtain ⟨id, T, N, τ, I⟩ := hc b rfl
          rcases step I raw with ⟨T', N', b', τ', -, hp, I'⟩ | h
          · exact cont (some b') (fun b hb => by cases hb; exact ⟨id, _, _, _, I'⟩) fun x => by
              rw [List.cons_append, nextFrom]; simp only [h1, h2, Bool.false_eq_true, if_false, hp, Res.ok_bind]
          · obtain ⟨-, e, he⟩ := h (by unfold IsFrame; tauto)
            exact .inl ⟨_, fin, by simp, fun x => by
              rw [List.cons_append, nextFrom]; simp only [h1, h2, Bool.false_eq_true, if_false, he, Res.ok_bind]; rfl⟩

theorem footer_part {b : Builder} {q l : Str} {t : Tree} (hq : startsWith eos q = true)
    (h : tryIntoTree b l = .ok (.ok t)) :
    tryIntoTree b q = .ok (.ok t) ∨ ∃ e, tryIntoTree b q = .ok (.error e) := by
  have hl : startsWith eos l = true := by
    unfold tryIntoTree at h
    cases hs : startsWith eos l with
    | true => rfl
    | false => rw [hs] at h; cases h
  unfold tryIntoTree at h ⊢
  rw [hq]
  rw [hl] at h
  simp only [Res.assert_true, Res.ok_bind] at h ⊢
  cases hq' : strField (splitWs q)[1]? with
  | error e => exact .inr ⟨e, rfl⟩
  | ok id =>
    simp only
    by_cases hid : id = b.sentenceId
    · left
      rw [if_neg (by simpa using hid)]
      cases hl' : strField (splitWs l)[1]? with
      | error e => rw [hl'] at h; cases h
      | ok id' =>
        rw [hl'] at h
        simp only at h
        split at h
        · cases h
        · exact h
    · right
      rw [if_pos hid]
      exact ⟨_, rfl⟩

/-- A sentence that was read without error, cut inside a line. -/
theorem nextFrom_part {cur : Option Builder} (hc : Reading cur) {part l : Str} (h : trim part <+: trim l) {more : List Str}
    {r : Option Tree} {rest : List Str} (hfull : nextFrom (l :: more) cur = .ok (r.map .ok, rest)) :
    nextFrom [part] cur = .ok (none, []) ∨ (∃ e, nextFrom [part] cur = .ok (some (.error e), [])) ∨
      ∃ t, nextFrom [part] cur = .ok (some (.ok t), []) ∧ r = some t := by
  by_cases h1 : startsWith bos (trim part) = true
  · have h1' := startsWith_mono h h1
    cases cur with
    | some b =>
      rw [nextFrom] at hfull
      simp only [h1', if_true] at hfull
      cases r <;> cases hfull
    | none =>
      by_cases hO : ∃ id info, Opens part id info
      · obtain ⟨id, info, hO⟩ := hO
        left
        rw [nextFrom]; simp only [h1, if_true, fromHeader_ok hO, Res.ok_bind, nextFrom]
      · obtain ⟨e, he⟩ := fromHeader_err h1 fun id info h => hO ⟨id, info, h⟩
        right; left
        exact ⟨e, by rw [nextFrom]; simp only [h1, if_true, he, Res.ok_bind]; rfl⟩
  · by_cases h2 : startsWith eos (trim part) = true
    · have h2' := startsWith_mono h h2
      have h1' : startsWith bos (trim l) = false := by
        cases hb : startsWith bos (trim l) with
        | false => rfl
        | true =>
          exfalso
          unfold startsWith at hb h2'
          rw [List.isPrefixOf_iff_prefix] at hb h2'
          rcases List.prefix_or_prefix_of_prefix hb h2' with g | g <;>
            exact absurd (List.isPrefixOf_iff_prefix.2 g) (by decide)
      cases cur with
      | none =>
        rw [nextFrom] at hfull
        simp only [h1', h2', Bool.false_eq_true, if_false, if_true] at hfull
        cases r <;> cases hfull
      | some b =>
        rw [nextFrom] at hfull
        simp only [h1', h2', Bool.false_eq_true, if_false, if_true] at hfull
        rw [Res.bind_eq_ok] at hfull
        obtain ⟨x, hx, hr⟩ := hfull
        cases r with
        | none => cases hr
        | some t =>
          cases hr
          right
          rcases footer_part h2 hx with g | ⟨e, g⟩
          · right
            exact ⟨t, by
              rw [nextFrom]; simp only [h1, h2, Bool.false_eq_true, if_false, if_true, g, Res.ok_bind]; rfl, rfl⟩
          · left
            exact ⟨e, by rw [nextFrom]; simp only [h1, h2, Bool.false_eq_true, if_false, if_true, g, Res.ok_bind]; rfl⟩
    · cases cur with
      | none => left; rw [nextFrom]; simp only [h1, h2, Bool.false_eq_true, if_false, nextFrom]
      | some b =>
        obtain ⟨id, T, N, τ, I⟩ := hc b rfl
        rcases step I part with ⟨T', N', b', τ', -, hp, I'⟩ | g
        · left; rw [nextFrom]; simp only [h1, h2, Bool.false_eq_true, if_false, hp, Res.ok_bind, nextFrom]
        · obtain ⟨-, e, he⟩ := g (by unfold IsFrame; tauto)
          right; left
          exact ⟨e, by rw [nextFrom]; simp only [h1, h2, Bool.false_eq_true, if_false, he, Res.ok_bind]; rfl⟩

/-- One step of reading a file. -/
theorem readAll_item {fuel : Nat} {ls rest : List Str} {r : Except Err Tree} {items : List (Except Err Tree)}
    (h : readerNext ls = .ok (some r, rest)) (h' : readAll (fuel + 1) ls = .ok items) :
    ∃ items', items = r :: items' ∧ readAll fuel rest = .ok items' := by
  rw [readAll, h] at h'
  simp only [Res.ok_bind] at h'
  rw [Res.bind_eq_ok] at h'
  obtain ⟨rs, h1, h2⟩ := h'
  cases h2
  exact ⟨rs, rfl, h1⟩

theorem readAll_cut {part l : Str} (h : trim part <+: trim l) (more : List Str) : ∀ (fuel : Nat) (fin : List Str) (ts : List Tree),
    readAll fuel (fin ++ l :: more) = .ok (ts.map .ok) →
    ∃ j k tail, j ≤ k ∧ k ≤ j + 1 ∧ k ≤ ts.length ∧
      (∀ fuel', fin.length < fuel' → readAll fuel' fin = .ok ((ts.take j).map .ok)) ∧
      (∀ fuel', (fin ++ [part]).length < fuel' → readAll fuel' (fin ++ [part]) = .ok ((ts.take k).map .ok ++ tail)) ∧
      (tail = [] ∨ ∃ e, tail = [.error e]) := by
  intro fuel
  induction fuel with
  | zero => intro fin ts hr; cases hr
  | succ fuel ih =>
    intro fin ts hr
    rcases nextFrom_lines fin none (fun b hb => by cases hb) with ⟨r, d, h1, h2⟩ | ⟨cur, h1, h2⟩ | h2
    · obtain ⟨items, e1, e2⟩ := readAll_item (h2 (l :: more)) hr
      cases ts with
      | nil => cases e1
      | cons t ts =>
        rw [List.map_cons, List.cons.injEq] at e1
        obtain ⟨rfl, rfl⟩ := e1
        obtain ⟨j, k, tail, g1, g2, g3, g4, g5, g6⟩ := ih d ts e2
        refine ⟨j + 1, k + 1, tail, by omega, by omega, by simp; omega, fun fuel' hf => ?_, fun fuel' hf => ?_, g6⟩
        · obtain ⟨m, rfl⟩ : ∃ m, fuel' = m + 1 := ⟨fuel' - 1, by omega⟩
          have e := h2 []
          rw [List.append_nil, List.append_nil] at e
          rw [readAll, show readerNext fin = _ from e]
          simp only [Res.ok_bind]
          rw [g4 m (by omega)]
          rfl
        · obtain ⟨m, rfl⟩ : ∃ m, fuel' = m + 1 := ⟨fuel' - 1, by omega⟩
          rw [readAll, show readerNext (fin ++ [part]) = _ from h2 [part]]
          simp only [Res.ok_bind]
          rw [g5 m (by simp at hf ⊢; omega)]
          rfl
    · have hfin : ∀ fuel', fin.length < fuel' → readAll fuel' fin = .ok ((ts.take 0).map .ok) := by
        intro fuel' hf
        obtain ⟨m, rfl⟩ : ∃ m, fuel' = m + 1 := ⟨fuel' - 1, by omega⟩
        have e := h2 []
        rw [List.append_nil, nextFrom] at e
        rw [readAll, show readerNext fin = _ from e]
        rfl
      have hfull : ∃ (r : Option Tree) (rest : List Str), nextFrom (l :: more) cur = .ok (r.map .ok, rest) ∧
          (∀ t, r = some t → ∃ ts', ts = t :: ts') := by
        rw [readAll, show readerNext (fin ++ l :: more) = _ from h2 (l :: more)] at hr
        cases hn : nextFrom (l :: more) cur with
        | panic => rw [hn] at hr; cases hr
        | diverge => rw [hn] at hr; cases hr
        | ok x =>
          obtain ⟨r, rest⟩ := x
          rw [hn] at hr
          simp only [Res.ok_bind] at hr
          cases r with
          | none => exact ⟨none, rest, rfl, by simp⟩
          | some r =>
            simp only at hr
            rw [Res.bind_eq_ok] at hr
            obtain ⟨rs, h3, h4⟩ := hr
            cases ts with
            | nil => cases h4
            | cons t ts =>
              simp only [Res.pure_eq, List.map_cons, Res.ok.injEq, List.cons.injEq] at h4
              rw [h4.1]
              exact ⟨some t, rest, rfl, fun t' ht => by cases ht; exact ⟨ts, rfl⟩⟩
      obtain ⟨r, rest, hr1, hr2⟩ := hfull
      have run : ∀ (x : Option (Except Err Tree)), nextFrom [part] cur = .ok (x, []) → ∀ fuel',
          (fin ++ [part]).length < fuel' → readAll fuel' (fin ++ [part]) = .ok x.toList := by
        intro x hx fuel' hf
        obtain ⟨m, rfl⟩ : ∃ m, fuel' = m + 1 + 1 := ⟨fuel' - 2, by simp at hf; omega⟩
        rw [readAll, show readerNext (fin ++ [part]) = _ from h2 [part], hx]
        cases x with
        | none => rfl
        | some x => rfl
      rcases nextFrom_part h1 h hr1 with g | ⟨e, g⟩ | ⟨t, g, g'⟩
      · exact ⟨0, 0, [], by omega, by omega, by omega, hfin, run _ g, .inl rfl⟩
      · exact ⟨0, 0, [.error e], by omega, by omega, by omega, hfin, run _ g, .inr ⟨e, rfl⟩⟩
      · obtain ⟨ts', rfl⟩ := hr2 t g'
        exact ⟨0, 1, [], by omega, by omega, by simp, hfin, run _ g, .inl rfl⟩
    · rw [readAll, show readerNext (fin ++ l :: more) = _ from h2 (l :: more)] at hr
      cases hr

/-- Complete lines at the beginning of a file. -/
theorem readAll_lines (more : List Str) : ∀ (fuel : Nat) (fin : List Str) (ts : List Tree),
    readAll fuel (fin ++ more) = .ok (ts.map .ok) →
    ∃ j, j ≤ ts.length ∧ ∀ fuel', fin.length < fuel' → readAll fuel' fin = .ok ((ts.take j).map .ok) := by
  intro fuel
  induction fuel with
  | zero => intro fin ts hr; cases hr
  | succ fuel ih =>
    intro fin ts hr
    rcases nextFrom_lines fin none (fun b hb => by cases hb) with ⟨r, d, h1, h2⟩ | ⟨cur, h1, h2⟩ | h2
    · obtain ⟨items, e1, e2⟩ := readAll_item (h2 more) hr
      cases ts with
      | nil => cases e1
      | cons t ts =>
        rw [List.map_cons, List.cons.injEq] at e1
        obtain ⟨rfl, rfl⟩ := e1
        obtain ⟨j, g1, g2⟩ := ih d ts e2
        refine ⟨j + 1, by simp; omega, fun fuel' hf => ?_⟩
        obtain ⟨m, rfl⟩ : ∃ m, fuel' = m + 1 := ⟨fuel' - 1, by omega⟩
        have e := h2 []
        rw [List.append_nil, List.append_nil] at e
        rw [readAll, show readerNext fin = _ from e]
        simp only [Res.ok_bind]
        rw [g2 m (by omega)]
        rfl
    · refine ⟨0, by omega, fun fuel' hf => ?_⟩
      obtain ⟨m, rfl⟩ : ∃ m, fuel' = m + 1 := ⟨fuel' - 1, by omega⟩
      have e := h2 []
      rw [List.append_nil, nextFrom] at e
      rw [readAll, show readerNext fin = _ from e]
      rfl
    · rw [readAll, show readerNext (fin ++ more) = _ from h2 more] at hr
      cases hr

theorem readAll_prefix {text p : Str} {fuel : Nat} {ts : List Tree} (h : readAll fuel (lines text) = .ok (ts.map .ok))
    (hp : p <+: text) : ∃ k tail, k ≤ ts.length ∧
      (∀ fuel', (lines p).length < fuel' → readAll fuel' (lines p) = .ok ((ts.take k).map .ok ++ tail)) ∧
      (tail = [] ∨ ∃ e, tail = [.error e]) := by
  rcases lines_prefix _ p text (Nat.le_refl _) hp with ⟨more, hl⟩ | ⟨fin, part, raw, l, more, h1, h2, h3, h4, h5⟩
  · rw [← hl] at h
    obtain ⟨j, g1, g2⟩ := readAll_lines more fuel _ ts h
    exact ⟨j, [], g1, by simpa using g2, .inl rfl⟩
  · have ht : trim part <+: trim l := by
      rcases h5 with rfl | rfl
      · exact trim_prefix h3
      · rw [trim_stripCr]; exact trim_prefix h3
    rw [h4] at h
    obtain ⟨j, k, tail, g1, g2, g3, g4, g5, g6⟩ := readAll_cut ht more fuel fin ts h
    rw [h2]
    exact ⟨k, tail, g3, g5, g6⟩

end Negra
end Lumberjack
