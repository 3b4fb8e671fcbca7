import Verif.Proofs.Truncate
import Verif.Proofs.PtbRead
import Verif.Spec.Truncate

/-!
# Reading the beginning of a bracketed file
-/

namespace Lumberjack
namespace Ptb

open Bracketed

/-! ## Balance of brackets -/

/-- Brackets match: no beginning closes more than it opened, and all are closed in the end. -/
def Bal (s : Str) : Prop := s.count '(' = s.count ')' ∧ ∀ q, q <+: s → q.count ')' ≤ q.count '('

theorem prefix_append_cases {q x y : Str} (h : q <+: x ++ y) : q <+: x ∨ ∃ r, q = x ++ r ∧ r <+: y := by
  rcases List.prefix_or_prefix_of_prefix h (List.prefix_append x y) with h' | ⟨r, rfl⟩
  · exact .inl h'
  · exact .inr ⟨r, rfl, (List.prefix_append_right_inj x).1 h⟩

theorem Bal.append {x y : Str} (hx : Bal x) (hy : Bal y) : Bal (x ++ y) := by
  refine ⟨by simp [hx.1, hy.1], fun q hq => ?_⟩
  rcases prefix_append_cases hq with h | ⟨r, rfl, h⟩
  · exact hx.2 q h
  · have := hy.2 r h
    have := hx.1
    simp only [List.count_append]; omega

theorem bal_none {x : Str} (h1 : '(' ∉ x) (h2 : ')' ∉ x) : Bal x := by
  refine ⟨by rw [List.count_eq_zero.2 h1, List.count_eq_zero.2 h2], fun q hq => ?_⟩
  rw [List.count_eq_zero.2 fun h => h2 (hq.subset h)]
  omega

theorem Bal.wrap {x : Str} (hx : Bal x) : Bal ('(' :: (x ++ [')'])) := by
  refine ⟨by simp [hx.1], fun q hq => ?_⟩
  cases q with
  | nil => simp
  | cons c q =>
    obtain ⟨rfl, hq'⟩ := List.cons_prefix_cons.1 hq
    rcases prefix_append_cases hq' with h | ⟨r, rfl, h⟩
    · have := hx.2 q h
      simp; omega
    · have := hx.1
      have : r.count ')' ≤ 1 := by
        have := h.sublist.count_le ')'
        simpa using this
      simp; omega

theorem space_none {a : Str} (h : Space a) : '(' ∉ a ∧ ')' ∉ a :=
  ⟨fun hm => by rcases h _ hm with h | h | h <;> revert h <;> decide,
    fun hm => by rcases h _ hm with h | h | h <;> revert h <;> decide⟩

theorem word_none {a : Str} (h : Word a) : '(' ∉ a ∧ ')' ∉ a :=
  ⟨fun hm => (h.2 _ hm).2.2.2.1 rfl, fun hm => (h.2 _ hm).2.2.2.2 rfl⟩

theorem bal_space {a : Str} (h : Space a) : Bal a := bal_none (space_none h).1 (space_none h).2
theorem bal_word {a : Str} (h : Word a) : Bal a := bal_none (word_none h).1 (word_none h).2

theorem reads_bal {s : Str} {b : Brackets} (h : Reads s b) : Bal s := by
  induction h with
  | nil h => exact bal_space h
  | @leaf a b tag c word d rest r h1 h2 h3 h4 h4' h5 h6 h7 ih =>
    have hin : Bal (b ++ tag ++ c ++ word ++ d) :=
      ((((bal_space h2).append (bal_word h3)).append (bal_space h4)).append (bal_word h5)).append (bal_space h6)
    have := ((bal_space h1).append hin.wrap).append ih
    simpa using this
  | @node a b tag inner rest k r h1 h2 h3 h4 h5 h6 ihk ih =>
    have hin : Bal (b ++ tag ++ inner) := ((bal_space h2).append (bal_word h3)).append ihk
    have := ((bal_space h1).append hin.wrap).append ih
    simpa using this

/-- The first point where all brackets are closed. -/
theorem close_first {a mid rest q : Str} (ha : '(' ∉ a ∧ ')' ∉ a) (hm : Bal mid)
    (hq : q <+: a ++ '(' :: (mid ++ ')' :: rest)) (h1 : '(' ∈ q) (h2 : q.count '(' = q.count ')') :
    ∃ r, q = a ++ '(' :: (mid ++ ')' :: r) ∧ r <+: rest := by
  rcases prefix_append_cases hq with h | ⟨r, rfl, h⟩
  · exact absurd (h.subset h1) ha.1
  · have e1 := List.count_eq_zero.2 ha.1
    have e2 := List.count_eq_zero.2 ha.2
    cases r with
    | nil => simp [ha.1] at h1
    | cons c r =>
      obtain ⟨rfl, h'⟩ := List.cons_prefix_cons.1 h
      rcases prefix_append_cases h' with g | ⟨r', rfl, g⟩
      · have := hm.2 r g
        simp [e1, e2] at h2
        omega
      · cases r' with
        | nil =>
          have := hm.1
          simp [e1, e2] at h2
          omega
        | cons c r' =>
          obtain ⟨rfl, g'⟩ := List.cons_prefix_cons.1 g
          exact ⟨r', rfl, g'⟩

/-- A single bracketing is closed only at its end. -/
theorem single_closed {s q : Str} {b : Brackets} (h : Reads s b) (hb : b.Single) (hq : q <+: s) (h1 : '(' ∈ q)
    (h2 : q.count '(' = q.count ')') : ∃ d, Space d ∧ s = q ++ d := by
  have fin : ∀ {r rest : Str}, Reads rest .nil → r <+: rest → ∃ d, Space d ∧ rest = r ++ d := by
    intro r rest hr hp
    cases hr with
    | nil hs =>
      obtain ⟨d, rfl⟩ := hp
      exact ⟨d, fun c hc => hs c (List.mem_append_right _ hc), rfl⟩
  cases h with
  | nil => exact absurd hb id
  | @leaf a b tag c word d rest r g1 g2 g3 g4 g4' g5 g6 g7 =>
    obtain rfl : r = .nil := hb
    have hin : Bal (b ++ tag ++ c ++ word ++ d) :=
      ((((bal_space g2).append (bal_word g3)).append (bal_space g4)).append (bal_word g5)).append (bal_space g6)
    obtain ⟨r, rfl, hr⟩ := close_first (space_none g1) hin hq h1 h2
    obtain ⟨d', hd, rfl⟩ := fin g7 hr
    exact ⟨d', hd, by simp⟩
  | @node a b tag inner rest k r g1 g2 g3 g4 g5 g6 =>
    obtain rfl : r = .nil := hb
    have hin : Bal (b ++ tag ++ inner) := ((bal_space g2).append (bal_word g3)).append (reads_bal g4)
    obtain ⟨r, rfl, hr⟩ := close_first (space_none g1) hin hq h1 h2
    obtain ⟨d', hd, rfl⟩ := fin g6 hr
    exact ⟨d', hd, by simp⟩

/-- The text up to there is the same bracketing. -/
theorem reads_cut {s q : Str} {b : Brackets} (h : Reads s b) (hb : b.Single) (hq : q <+: s) (h1 : '(' ∈ q)
    (h2 : q.count '(' = q.count ')') : Reads q b := by
  have fin : ∀ {r rest : Str}, Reads rest .nil → r <+: rest → Reads r .nil := by
    intro r rest hr hp
    cases hr with
    | nil hs => exact .nil fun c hc => hs c (hp.subset hc)
  cases h with
  | nil => exact absurd hb id
  | @leaf a b tag c word d rest r g1 g2 g3 g4 g4' g5 g6 g7 =>
    obtain rfl : r = .nil := hb
    have hin : Bal (b ++ tag ++ c ++ word ++ d) :=
      ((((bal_space g2).append (bal_word g3)).append (bal_space g4)).append (bal_word g5)).append (bal_space g6)
    obtain ⟨r, rfl, hr⟩ := close_first (space_none g1) hin hq h1 h2
    exact .leaf g1 g2 g3 g4 g4' g5 g6 (fin g7 hr)
  | @node a b tag inner rest k r g1 g2 g3 g4 g5 g6 =>
    obtain rfl : r = .nil := hb
    have hin : Bal (b ++ tag ++ inner) := ((bal_space g2).append (bal_word g3)).append (reads_bal g4)
    obtain ⟨r, rfl, hr⟩ := close_first (space_none g1) hin hq h1 h2
    exact .node g1 g2 g3 g4 g5 (fin g6 hr)

theorem single_open {s : Str} {b : Brackets} (h : Reads s b) (hb : b.Single) : '(' ∈ s := by
  cases h with
  | nil => exact absurd hb id
  | leaf => simp
  | node => simp

/-- White space at the end does not matter. -/
theorem stringToTree_space {s d : Str} {b : Brackets} (h : Reads s b) (hd : Space d) (f : Format) :
    stringToTree f (s ++ d) = stringToTree f s := by
  have e : tokenize (s ++ d) = tokenize s := by
    have h1 := (reads_toks h d).1
    have h2 := (reads_toks h []).1
    have h3 := tokenize_space hd []
    rw [List.append_nil] at h2 h3
    rw [h1, h2, h3]
  unfold stringToTree parsePairs
  rw [e]

theorem parsed_reads {f : Format} {s : Str} {t : Tree} (h : stringToTree f s = .ok (.ok t)) :
    ∃ b, b.Single ∧ Reads s b := by
  by_contra hn
  rw [stringToTree_err hn] at h
  cases h

/-- The beginning of a bracketing is accepted only if it is the whole bracketing, without white space at the end. -/
theorem parsed_prefix {f : Format} {q s : Str} {t t' : Tree} (hq : q <+: s) (h : stringToTree f q = .ok (.ok t))
    (h' : stringToTree f s = .ok (.ok t')) : t = t' ∧ ∃ d, Space d ∧ s = q ++ d := by
  obtain ⟨b, hb, hr⟩ := parsed_reads h
  obtain ⟨b', hb', hr'⟩ := parsed_reads h'
  obtain ⟨d, hd, rfl⟩ := single_closed hr' hb' hq (single_open hr hb) (reads_bal hr).1
  rw [stringToTree_space hr hd, h] at h'
  cases h'
  exact ⟨rfl, d, hd, rfl⟩

theorem stripCr_space (raw : Str) : ∃ d, Space d ∧ raw = Negra.stripCr raw ++ d := by
  unfold Negra.stripCr
  split
  · rename_i h
    obtain ⟨s, rfl⟩ := List.getLast?_eq_some_iff.1 h
    exact ⟨['\r'], by simp [Space], by rw [List.dropLast_concat]⟩
  · exact ⟨[], by simp [Space], by simp⟩

/-! ## One tree per line -/

theorem forall2_ok {f : Format} {L : List Str} {ts : List Tree}
    (h : List.Forall₂ (fun l (r : Except Err Tree) => stringToTree f l = .ok r) L (ts.map .ok)) :
    List.Forall₂ (fun l t => stringToTree f l = .ok (.ok t)) L ts := by
  rw [List.forall₂_map_right_iff] at h
  exact h

theorem forall2_split {α β : Type} {R : α → β → Prop} {as bs : List α} : ∀ {ts : List β}, List.Forall₂ R (as ++ bs) ts →
    ∃ ts1 ts2, List.Forall₂ R as ts1 ∧ List.Forall₂ R bs ts2 ∧ ts = ts1 ++ ts2 := by
  induction as with
  | nil => intro ts h; exact ⟨[], ts, .nil, h, rfl⟩
  | cons a as ih =>
    intro ts h
    cases h with
    | cons h1 h2 =>
      obtain ⟨ts1, ts2, g1, g2, rfl⟩ := ih h2
      exact ⟨_ :: ts1, ts2, .cons h1 g1, g2, rfl⟩

theorem items_unique {f : Format} {L : List Str} {xs ys : List (Except Err Tree)}
    (h : List.Forall₂ (fun l (r : Except Err Tree) => stringToTree f l = .ok r) L xs)
    (h' : List.Forall₂ (fun l (r : Except Err Tree) => stringToTree f l = .ok r) L ys) : xs = ys := by
  induction h generalizing ys with
  | nil => cases h'; rfl
  | cons h _ ih =>
    cases h' with
    | cons g h' =>
      rw [h] at g; cases g
      rw [ih h']

/-- The lines with trees of the beginning of a file. -/
theorem single_cut {f : Format} {ts : List Tree} {fin more : List Str} {part raw l : Str} (hp : part ≠ [])
    (hpr : part <+: raw) (hl : l = raw ∨ l = Negra.stripCr raw)
    (h : List.Forall₂ (fun l t => stringToTree f l = .ok (.ok t)) ((fin ++ l :: more).filter fun l => l.head? ≠ some '%') ts) :
    ∃ k tail, k ≤ ts.length ∧ (tail = [] ∨ ∃ e, tail = [.error e]) ∧
      List.Forall₂ (fun l (r : Except Err Tree) => stringToTree f l = .ok r)
        ((fin ++ [part]).filter fun l => l.head? ≠ some '%') ((ts.take k).map .ok ++ tail) := by
  rw [List.filter_append] at h ⊢
  obtain ⟨ts1, ts2, h1, h2, rfl⟩ : ∃ ts1 ts2, List.Forall₂ (fun l t => stringToTree f l = .ok (.ok t))
      (fin.filter fun l => l.head? ≠ some '%') ts1 ∧ List.Forall₂ (fun l t => stringToTree f l = .ok (.ok t))
      ((l :: more).filter fun l => l.head? ≠ some '%') ts2 ∧ ts = ts1 ++ ts2 :=
    forall2_split h
  have h1' : List.Forall₂ (fun l (r : Except Err Tree) => stringToTree f l = .ok r)
      (fin.filter fun l => l.head? ≠ some '%') (ts1.map .ok) := by
    rw [List.forall₂_map_right_iff]; exact h1
  have e0 : (ts1 ++ ts2).take ts1.length = ts1 := by simp
  by_cases hc : part.head? = some '%'
  · refine ⟨ts1.length, [], by simp, .inl rfl, ?_⟩
    rw [e0, List.filter_cons_of_neg (by simp [hc]), List.filter_nil, List.append_nil, List.append_nil]
    exact h1'
  · rw [List.filter_cons_of_pos (by simpa using hc), List.filter_nil]
    obtain ⟨r, hr⟩ := stringToTree_total f part
    cases r with
    | error e =>
      refine ⟨ts1.length, [.error e], by simp, .inr ⟨e, rfl⟩, ?_⟩
      rw [e0]
      exact List.rel_append h1' (.cons hr .nil)
    | ok t =>
      obtain ⟨d, hd, hraw⟩ : ∃ d, Space d ∧ raw = l ++ d := by
        rcases hl with rfl | rfl
        · exact ⟨[], by simp [Space], by simp⟩
        · exact stripCr_space raw
      have hopen : '(' ∈ l := by
        obtain ⟨b, hb, hR⟩ := parsed_reads hr
        have := hpr.subset (single_open hR hb)
        rw [hraw, List.mem_append] at this
        exact this.resolve_right (space_none hd).1
      have hne : l.head? ≠ some '%' := by
        intro he
        apply hc
        obtain ⟨x, part', rfl⟩ := List.exists_cons_of_ne_nil hp
        cases l with
        | nil => cases he
        | cons y l =>
          rw [hraw] at hpr
          have := (List.cons_prefix_cons.1 hpr).1
          rw [this]; exact he
      rw [List.filter_cons_of_pos (by simpa using hne)] at h2
      cases h2 with
      | @cons _ t' _ ts2 g1 g2 =>
        obtain ⟨b, hb, hR⟩ := parsed_reads g1
        have g1' : stringToTree f raw = .ok (.ok t') := by rw [hraw, stringToTree_space hR hd, g1]
        obtain ⟨rfl, -⟩ := parsed_prefix hpr hr g1'
        refine ⟨ts1.length + 1, [], by simp, .inl rfl, ?_⟩
        have e1 : (ts1 ++ t :: ts2).take (ts1.length + 1) = ts1 ++ [t] := by
          rw [List.take_append]; simp
        rw [e1, List.map_append, List.append_nil]
        exact List.rel_append h1' (.cons hr .nil)

theorem readAll_single_prefix {f : Format} {text p : Str} {fuel : Nat} {ts : List Tree} (hfuel : (Negra.lines text).length < fuel)
    (h : readAll f .single fuel (Negra.lines text) = .ok (ts.map .ok)) (hp : p <+: text) :
    ∃ k tail, k ≤ ts.length ∧ (∀ fuel', (Negra.lines p).length < fuel' →
        readAll f .single fuel' (Negra.lines p) = .ok ((ts.take k).map .ok ++ tail)) ∧
      (tail = [] ∨ ∃ e, tail = [.error e]) := by
  obtain ⟨items, e1, e2⟩ := readAll_single f fuel _ hfuel
  rw [h] at e1
  simp only [Res.ok.injEq] at e1
  subst e1
  have e2 := forall2_ok e2
  have run : ∀ {L : List Str} {xs : List (Except Err Tree)}, List.Forall₂ (fun l (r : Except Err Tree) => stringToTree f l = .ok r)
      (L.filter fun l => l.head? ≠ some '%') xs → ∀ fuel', L.length < fuel' → readAll f .single fuel' L = .ok xs := by
    intro L xs hx fuel' hf
    obtain ⟨ys, g1, g2⟩ := readAll_single f fuel' L hf
    rw [g1, items_unique g2 hx]
  rcases Negra.lines_prefix _ p text (Nat.le_refl _) hp with ⟨more, hl⟩ | ⟨fin, part, raw, l, more, h1, h2, h3, h4, h5⟩
  · rw [← hl, List.filter_append] at e2
    obtain ⟨ts1, ts2, g1, g2, rfl⟩ := forall2_split e2
    refine ⟨ts1.length, [], by simp, run ?_, .inl rfl⟩
    rw [List.append_nil, List.forall₂_map_right_iff]
    simpa using g1
  · rw [h4] at e2
    obtain ⟨k, tail, g1, g2, g3⟩ := single_cut h1 h3 h5 e2
    rw [h2]
    exact ⟨k, tail, g1, run g3, g2⟩

/-! ## Several lines per tree -/

theorem Whole.groups {L texts : List Str} (h : Whole L texts) : Groups L texts := by
  induction h with
  | nil => exact .tail (by simp) fun p hp hne => absurd (List.prefix_nil.1 hp) hne
  | skip h _ ih => exact .skip h ih
  | group h _ ih => exact .group h ih

theorem groups_nil : Groups [] [] := Whole.groups .nil

/-- Complete lines at the beginning of a file. -/
theorem whole_lines {L texts : List Str} (h : Whole L texts) : ∀ {fin : List Str}, fin <+: L →
    ∃ k, k ≤ texts.length ∧ Groups fin (texts.take k) := by
  induction h with
  | nil => intro fin hf; rw [List.prefix_nil.1 hf]; exact ⟨0, by simp, groups_nil⟩
  | @skip l ls ts h _ ih =>
    intro fin hf
    cases fin with
    | nil => exact ⟨0, by simp, groups_nil⟩
    | cons x fin =>
      obtain ⟨rfl, hf'⟩ := List.cons_prefix_cons.1 hf
      obtain ⟨k, h1, h2⟩ := ih hf'
      exact ⟨k, h1, .skip h h2⟩
  | @group g ls ts h _ ih =>
    intro fin hf
    by_cases h0 : fin = []
    · subst h0; exact ⟨0, by simp, groups_nil⟩
    by_cases hg : g <+: fin
    · obtain ⟨r, rfl⟩ := hg
      obtain ⟨k, h1, h2⟩ := ih ((List.prefix_append_right_inj g).1 hf)
      exact ⟨k + 1, by simp; omega, .group h h2⟩
    · have hf' : fin <+: g := by
        rcases List.prefix_or_prefix_of_prefix hf (List.prefix_append g ls) with h' | h'
        · exact h'
        · exact absurd h' hg
      refine ⟨0, by simp, .tail (fun l hl => ?_) fun p hp hne => ?_⟩
      · obtain ⟨l', h1, h2⟩ := h.first
        obtain ⟨r, rfl⟩ := hf'
        rw [group_head hl] at h1
        cases h1; exact h2
      · refine h.proper p (hp.trans hf') hne ?_
        rintro rfl
        exact hg hp

theorem flatten_prefix {a b : List Str} (h : a <+: b) : a.flatten <+: b.flatten := by
  obtain ⟨r, rfl⟩ := h
  rw [List.flatten_append]; exact List.prefix_append _ _

/-- A file that is cut inside a line. -/
theorem whole_cut {L texts : List Str} (h : Whole L texts) : ∀ {fin more : List Str} {part raw l : Str},
    L = fin ++ l :: more → part ≠ [] → part <+: raw → (l = raw ∨ l = Negra.stripCr raw) →
    (∀ s ∈ texts, ∃ b, Brackets.Single b ∧ Reads s b) →
    ∃ k, k ≤ texts.length ∧ (Groups (fin ++ [part]) (texts.take k) ∨
      ∃ q, Groups (fin ++ [part]) (texts.take k ++ [q]) ∧ ((¬ ∃ b, Brackets.Single b ∧ Reads q b) ∨
        ∃ s, texts[k]? = some s ∧ ∀ f, stringToTree f q = stringToTree f s)) := by
  induction h with
  | nil => intro fin more part raw l hL; simp at hL
  | @skip l0 ls ts h0 h' ih =>
    intro fin more part raw l hL hp hpr hl hR
    cases fin with
    | cons x fin =>
      rw [List.cons_append, List.cons.injEq] at hL
      obtain ⟨rfl, hL⟩ := hL
      obtain ⟨k, g1, g2⟩ := ih hL hp hpr hl hR
      refine ⟨k, g1, ?_⟩
      rcases g2 with g2 | ⟨q, g2, g3⟩
      · exact .inl (.skip h0 g2)
      · exact .inr ⟨q, .skip h0 g2, g3⟩
    | nil =>
      rw [List.nil_append, List.cons.injEq] at hL
      obtain ⟨rfl, -⟩ := hL
      obtain ⟨d, hd, hraw⟩ : ∃ d, Space d ∧ raw = l0 ++ d := by
        rcases hl with rfl | rfl
        · exact ⟨[], by simp [Space], by simp⟩
        · exact stripCr_space raw
      obtain ⟨x, part', rfl⟩ := List.exists_cons_of_ne_nil hp
      by_cases hx : x = '%'
      · exact ⟨0, by simp, .inl (.skip (.inr (by rw [hx]; rfl)) groups_nil)⟩
      · have hl0 : l0 = [] := by
          rcases h0 with h0 | h0
          · exact h0
          · cases l0 with
            | nil => rfl
            | cons y l0 =>
              rw [hraw] at hpr
              have := (List.cons_prefix_cons.1 hpr).1
              exact absurd (this.trans (by simpa using h0)) hx
        subst hl0
        have hs : Space (x :: part') := fun c hc => hd c (by
          rw [List.nil_append] at hraw; rw [← hraw]; exact hpr.subset hc)
        refine ⟨0, by simp, .inr ⟨x :: part', ?_, .inl ?_⟩⟩
        · have G : Group [x :: part'] := by
            refine ⟨⟨_, rfl, ?_⟩, ?_, ?_⟩
            · rintro (h | h)
              · cases h
              · exact hx (by simpa using h)
            · intro p hp h1 h2
              rcases List.prefix_cons_iff.1 hp with rfl | ⟨q, rfl, hq⟩
              · exact absurd rfl h1
              · rw [List.prefix_nil.1 hq] at h2; exact absurd rfl h2
            · have := (bal_space hs).1
              simpa using this.symm
          have := Groups.group G groups_nil
          simpa using this
        · rintro ⟨b, hb, hR⟩
          exact (space_none hs).1 (single_open hR hb)
  | @group g ls ts hg h' ih =>
    intro fin more part raw l hL hp hpr hl hR
    by_cases hpre : g <+: fin
    · obtain ⟨r, rfl⟩ := hpre
      rw [List.append_assoc] at hL
      obtain ⟨k, g1, g2⟩ := ih (List.append_cancel_left hL) hp hpr hl fun s hs => hR s (by simp [hs])
      refine ⟨k + 1, by simp; omega, ?_⟩
      rw [List.append_assoc]
      rcases g2 with g2 | ⟨q, g2, g3⟩
      · exact .inl (.group hg g2)
      · exact .inr ⟨q, .group hg g2, by simpa using g3⟩
    · -- the cut is inside the group
      have hfl : fin ++ [l] <+: g := by
        have h1 : fin ++ [l] <+: g ++ ls := by rw [hL]; exact ⟨more, by simp⟩
        rcases List.prefix_or_prefix_of_prefix h1 (List.prefix_append g ls) with h2 | h2
        · exact h2
        · rcases List.prefix_concat_iff.1 h2 with h3 | h3
          · rw [← h3]
          · exact absurd h3 hpre
      obtain ⟨b, hb, hread⟩ := hR g.flatten (by simp)
      have hfin : fin <+: g := (List.prefix_append _ _).trans hfl
      have hfirst : ∃ x, (fin ++ [part]).head? = some x ∧ ¬ Skipped x := by
        obtain ⟨x, h1, h2⟩ := hg.first
        cases fin with
        | cons y fin =>
          obtain ⟨r, rfl⟩ := hfin
          exact ⟨x, by simpa using h1, h2⟩
        | nil =>
          refine ⟨part, rfl, ?_⟩
          obtain ⟨r, rfl⟩ := hfl
          simp only [List.nil_append, List.cons_append, List.head?_cons, Option.some.injEq] at h1
          subst h1
          rintro (h | h)
          · exact hp h
          · apply h2
            have hlr : l <+: raw := by
              rcases hl with rfl | rfl
              · exact List.prefix_rfl
              · obtain ⟨d, -, e⟩ := stripCr_space raw
                exact ⟨d, e.symm⟩
            cases l with
            | nil => exact .inl rfl
            | cons y l =>
              obtain ⟨x, part', rfl⟩ := List.exists_cons_of_ne_nil hp
              cases raw with
              | nil => simp at hpr
              | cons z raw =>
                right
                have e1 := (List.cons_prefix_cons.1 hpr).1
                have e2 := (List.cons_prefix_cons.1 hlr).1
                rw [e2, ← e1]; exact h
      have hproper : ∀ p, p <+: fin ++ [part] → p ≠ [] → p ≠ fin ++ [part] → OpenEnd p := by
        intro p h1 h2 h3
        rcases List.prefix_concat_iff.1 h1 with h4 | h4
        · exact absurd h4 h3
        · refine hg.proper p (h4.trans hfin) h2 ?_
          rintro rfl
          exact hpre h4
      -- relation of the text to that of the group
      have hrel : (fin ++ [part]).flatten <+: g.flatten ∨
          ∃ d, Space d ∧ (fin ++ [part]).flatten = (fin ++ [l]).flatten ++ d := by
        have : part <+: l ∨ ∃ d, Space d ∧ part = l ++ d := by
          rcases hl with rfl | rfl
          · exact .inl hpr
          · obtain ⟨d, hd, e⟩ := stripCr_space raw
            rw [e] at hpr
            rcases prefix_append_cases hpr with h | ⟨r, h1, h2⟩
            · left; exact h
            · exact .inr ⟨r, fun c hc => hd c (h2.subset hc), h1⟩
        rcases this with h | ⟨d, hd, h⟩
        · left
          refine List.IsPrefix.trans ?_ (flatten_prefix hfl)
          rw [List.flatten_append, List.flatten_append]
          exact (List.prefix_append_right_inj _).2 (by simpa using h)
        · right
          exact ⟨d, hd, by rw [h]; simp⟩
      have hbal := reads_bal hread
      have hle : (fin ++ [part]).flatten.count ')' ≤ (fin ++ [part]).flatten.count '(' := by
        rcases hrel with h | ⟨d, hd, h⟩
        · exact hbal.2 _ h
        · have := hbal.2 _ (flatten_prefix hfl)
          rw [h, List.count_append, List.count_append, List.count_eq_zero.2 (space_none hd).1,
            List.count_eq_zero.2 (space_none hd).2]
          omega
      refine ⟨0, by simp, ?_⟩
      by_cases hopen : OpenEnd (fin ++ [part])
      · left
        obtain ⟨x, hx1, hx2⟩ := hfirst
        refine .tail (fun y hy => by rw [hx1] at hy; cases hy; exact hx2) fun p h1 h2 => ?_
        by_cases h3 : p = fin ++ [part]
        · rw [h3]; exact hopen
        · exact hproper p h1 h2 h3
      · right
        have hcl : (fin ++ [part]).flatten.count ')' = (fin ++ [part]).flatten.count '(' := by
          unfold OpenEnd at hopen; omega
        refine ⟨(fin ++ [part]).flatten, ?_, ?_⟩
        · have := Groups.group ⟨hfirst, hproper, hcl⟩ groups_nil
          simpa using this
        · by_cases hq : '(' ∈ (fin ++ [part]).flatten
          · right
            refine ⟨g.flatten, rfl, fun f => ?_⟩
            rcases hrel with h | ⟨d, hd, h⟩
            · obtain ⟨d, hd, e⟩ := single_closed hread hb h hq hcl.symm
              have hR : Reads (fin ++ [part]).flatten b := reads_cut hread hb h hq hcl.symm
              rw [e, stringToTree_space hR hd]
            · have hcl' : (fin ++ [l]).flatten.count ')' = (fin ++ [l]).flatten.count '(' := by
                rw [h, List.count_append, List.count_append, List.count_eq_zero.2 (space_none hd).1,
                  List.count_eq_zero.2 (space_none hd).2] at hcl
                omega
              have hgl : fin ++ [l] = g := by
                by_contra hne
                have := hg.proper _ hfl (by simp) hne
                unfold OpenEnd at this; omega
              rw [h, hgl, stringToTree_space hread hd]
          · left
            rintro ⟨b, hb, hR⟩
            exact hq (single_open hR hb)

theorem readAll_multi_prefix {f : Format} {text p : Str} {texts : List Str} {ts : List Tree}
    (hW : Whole (Negra.lines text) texts) (h : List.Forall₂ (fun s t => stringToTree f s = .ok (.ok t)) texts ts)
    (hp : p <+: text) :
    ∃ k tail, k ≤ ts.length ∧ (∀ fuel', (Negra.lines p).length < fuel' →
        readAll f .multi fuel' (Negra.lines p) = .ok ((ts.take k).map .ok ++ tail)) ∧
      (tail = [] ∨ ∃ e, tail = [.error e]) := by
  have run : ∀ {L texts' : List Str} {xs : List (Except Err Tree)}, Groups L texts' →
      List.Forall₂ (fun l (r : Except Err Tree) => stringToTree f l = .ok r) texts' xs →
      ∀ fuel', L.length < fuel' → readAll f .multi fuel' L = .ok xs := by
    intro L texts' xs hG hx fuel' hf
    rcases readAll_multi f fuel' L hf with ⟨ts, items, h1, h2, h3⟩ | ⟨-, h1⟩
    · rw [groups_unique h1 hG] at h3
      rw [h2, items_unique h3 hx]
    · exact absurd ⟨_, hG⟩ h1
  have hlen := h.length_eq
  have take : ∀ k, List.Forall₂ (fun l (r : Except Err Tree) => stringToTree f l = .ok r) (texts.take k)
      ((ts.take k).map .ok) := fun k => by
    rw [List.forall₂_map_right_iff]; exact List.forall₂_take k h
  have hR : ∀ s ∈ texts, ∃ b, Brackets.Single b ∧ Reads s b := by
    intro s hs
    obtain ⟨i, hi, rfl⟩ := List.mem_iff_getElem.1 hs
    exact parsed_reads (h.get (by simpa using hi) (by rw [← hlen]; exact hi))
  rcases Negra.lines_prefix _ p text (Nat.le_refl _) hp with hl | ⟨fin, part, raw, l, more, h1, h2, h3, h4, h5⟩
  · obtain ⟨k, g1, g2⟩ := whole_lines hW hl
    exact ⟨k, [], by omega, run g2 (by rw [List.append_nil]; exact take k), .inl rfl⟩
  · obtain ⟨k, g1, g2⟩ := whole_cut hW h4 h1 h3 h5 hR
    rw [h2]
    rcases g2 with g2 | ⟨q, g2, g3⟩
    · exact ⟨k, [], by omega, run g2 (by rw [List.append_nil]; exact take k), .inl rfl⟩
    · rcases g3 with g3 | ⟨s, g3, g4⟩
      · exact ⟨k, [.error (.parse 10)], by omega, run g2 (List.rel_append (take k) (.cons (stringToTree_err g3) .nil)),
          .inr ⟨_, rfl⟩⟩
      · obtain ⟨hk, rfl⟩ := List.getElem?_eq_some_iff.1 g3
        have hk' : k < ts.length := by omega
        have := h.get hk hk'
        refine ⟨k + 1, [], by omega, run g2 ?_, .inl rfl⟩
        rw [List.append_nil, List.take_succ_eq_append_getElem hk', List.map_append]
        exact List.rel_append (take k) (.cons (by rw [g4]; exact this) .nil)

end Ptb
end Lumberjack
