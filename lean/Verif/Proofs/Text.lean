import Verif.Spec.Text
import Verif.Proofs.Num
import Verif.Proofs.TagRead
import Verif.Proofs.Truncate
import Verif.Proofs.Cli
import Verif.Props.Numeral

/-!
# Lemmas about texts and their parts
-/

namespace Lumberjack
namespace Text
open Negra

theorem isWs_iff (c : Char) : isWs c = true ↔ White c := by
  unfold isWs White
  simp only [Bool.or_eq_true, Bool.and_eq_true, decide_eq_true_eq, List.mem_cons, List.not_mem_nil, or_false]
  omega

theorem isWs_false (c : Char) : isWs c = false ↔ ¬ White c := by
  rw [← isWs_iff]; simp

/-! ## Trimming -/

theorem trimmed_trim (s : Str) : Trimmed s (trim s) := by
  obtain ⟨a, b, ha, hb, h⟩ := trim_parts s
  have ht := tight_of_trim s
  exact ⟨a, b, h, fun c hc => (isWs_iff c).1 (ha c hc), fun c hc => (isWs_iff c).1 (hb c hc),
    fun c hc => (isWs_false c).1 (ht.1 c hc), fun c hc => (isWs_false c).1 (ht.2 c hc)⟩

theorem trim_before {a s : Str} (h : ∀ c ∈ a, White c) : trim (a ++ s) = trim s := by
  induction a with
  | nil => rfl
  | cons x a ih =>
    rw [← ih (fun c hc => h c (by simp [hc]))]
    unfold trim
    rw [List.cons_append, List.dropWhile_cons, if_pos ((isWs_iff x).2 (h x (by simp)))]

theorem trim_after {s b : Str} (h : ∀ c ∈ b, White c) : trim (s ++ b) = trim s := by
  induction b using List.reverseRecOn with
  | nil => simp
  | append_singleton b x ih =>
    rw [← List.append_assoc, trim_snoc ((isWs_iff x).2 (h x (by simp))), ih (fun c hc => h c (by simp [hc]))]

theorem trim_iff (s m : Str) : trim s = m ↔ Trimmed s m := by
  constructor
  · rintro rfl; exact trimmed_trim s
  · rintro ⟨a, b, rfl, ha, hb, h1, h2⟩
    rw [List.append_assoc, trim_before ha, trim_after hb]
    exact trim_tight ⟨fun c hc => (isWs_false c).2 (h1 c hc), fun c hc => (isWs_false c).2 (h2 c hc)⟩

/-! ## Words -/

theorem Words.cons_white {c : Char} {s : Str} {ws : List Str} (hc : White c) (h : Words s ws) : Words (c :: s) ws := by
  cases h with
  | done h => exact .done (by simpa [hc] using h)
  | @word a w s ws ha hw hn hs ht =>
    exact .word (a := c :: a) (by simpa [hc] using ha) hw hn hs ht

theorem words_exist (s : Str) : ∃ ws, Words s ws := by
  induction s with
  | nil => exact ⟨[], .done (by simp)⟩
  | cons c s ih =>
    obtain ⟨ws, h⟩ := ih
    by_cases hc : White c
    · exact ⟨ws, h.cons_white hc⟩
    · cases h with
      | done h =>
        exact ⟨[[c]], .word (a := []) (w := [c]) (by simp) (by simp) (by simpa using hc)
          (fun d hd => h d (List.mem_of_mem_head? hd)) (.done h)⟩
      | @word a w s ws ha hw hn hs ht =>
        cases a with
        | nil =>
          exact ⟨_, .word (a := []) (w := c :: w) (by simp) (by simp) (by simpa [hc] using hn) hs ht⟩
        | cons x a =>
          refine ⟨_, .word (a := []) (w := [c]) (by simp) (by simp) (by simpa using hc) ?_ (.word ha hw hn hs ht)⟩
          intro d hd
          exact ha d (by simp at hd; simp [hd])

theorem splitWs_white {a : Str} (h : ∀ c ∈ a, White c) (s : Str) : splitWs (a ++ s) = splitWs s := by
  induction a with
  | nil => rfl
  | cons x a ih =>
    rw [List.cons_append, splitWs_ws ((isWs_iff x).2 (h x (by simp))), ih (fun c hc => h c (by simp [hc]))]

theorem Words.splitWs_eq {s : Str} {ws : List Str} (h : Words s ws) : splitWs s = ws := by
  induction h with
  | done h =>
    have := splitWs_white h []
    rw [List.append_nil] at this
    rw [this]; rfl
  | @word a w s ws ha hw hn hs _ ih =>
    rw [List.append_assoc, splitWs_white ha]
    have := splitWs_first_word (w := w) (b := s) ⟨hw, fun c hc => (isWs_false c).2 (hn c hc)⟩ (by
      cases s with
      | nil => exact .inl rfl
      | cons d s => exact .inr ⟨d, s, rfl, (isWs_iff d).2 (hs d rfl)⟩)
    rw [this, ih]

theorem splitWs_iff (s : Str) (ws : List Str) : splitWs s = ws ↔ Words s ws := by
  constructor
  · rintro rfl
    obtain ⟨ws, h⟩ := words_exist s
    rw [h.splitWs_eq]; exact h
  · exact Words.splitWs_eq

theorem Words.append_white {s b : Str} {ws : List Str} (h : Words s ws) (hb : ∀ c ∈ b, White c) : Words (s ++ b) ws := by
  induction h with
  | done h => exact .done (by simpa [or_imp, forall_and] using ⟨h, hb⟩)
  | @word a w s ws ha hw hn hs _ ih =>
    rw [List.append_assoc]
    refine .word ha hw hn ?_ ih
    cases s with
    | nil => intro c hc; exact hb c (List.mem_of_mem_head? hc)
    | cons d s => exact fun c hc => hs c (by simpa using hc)

theorem splitWs_trim (s : Str) : splitWs (trim s) = splitWs s := by
  obtain ⟨a, b, h, ha, hb, -, -⟩ := trimmed_trim s
  conv_rhs => rw [h]
  rw [List.append_assoc, splitWs_white ha]
  exact ((((splitWs_iff _ _).1 rfl).append_white hb).splitWs_eq).symm

/-- A text begins with a pattern exactly if its first word does. -/
theorem prefix_trim {p : Str} (hp : p ≠ []) (hn : ∀ c ∈ p, ¬ White c) (s : Str) :
    startsWith p (trim s) = true ↔ ∃ w more, Words s (w :: more) ∧ p <+: w := by
  unfold startsWith
  rw [List.isPrefixOf_iff_prefix]
  obtain ⟨-, -, -, -, -, h1, -⟩ := trimmed_trim s
  have hw : Words (trim s) (splitWs s) := by rw [← splitWs_trim]; exact (splitWs_iff _ _).1 rfl
  simp only [← splitWs_iff]
  generalize trim s = m at *
  generalize splitWs s = ws at *
  cases hw with
  | done h =>
    constructor
    · rintro ⟨r, rfl⟩
      obtain ⟨c, p, rfl⟩ := List.exists_cons_of_ne_nil hp
      exact absurd (h c (by simp)) (hn c (by simp))
    · rintro ⟨w, more, h, -⟩; cases h
  | @word a w s ws ha hw0 hw hs ht =>
    have : a = [] := by
      cases a with
      | nil => rfl
      | cons x a => exact absurd (ha x (by simp)) (h1 x rfl)
    subst this
    rw [List.nil_append]
    constructor
    · intro h
      refine ⟨w, ws, rfl, ?_⟩
      rcases List.prefix_or_prefix_of_prefix h (List.prefix_append w s) with h | ⟨q, rfl⟩
      · exact h
      · cases q with
        | nil => simp
        | cons x q =>
          rw [List.prefix_append_right_inj] at h
          obtain ⟨r, rfl⟩ := h
          exact absurd (hs x rfl) (hn x (by simp))
    · rintro ⟨w', more, h, h'⟩
      cases h
      exact h'.trans (List.prefix_append _ _)

/-! ## Pieces -/

theorem Cut.splitOn_eq {c : Char} {s : Str} {ps : List Str} (h : Cut c s ps) : splitOn c s = ps := by
  induction h with
  | done h => exact splitOn_of_not_mem h
  | piece h _ ih => rw [splitOn_append h, ih]

theorem cut_exists (c : Char) : ∀ (k : Nat) (s : Str), s.length ≤ k → ∃ ps, Cut c s ps := by
  intro k
  induction k with
  | zero =>
    intro s h
    have : s = [] := by simpa using h
    subst this
    exact ⟨_, .done (by simp)⟩
  | succ k ih =>
    intro s h
    by_cases hm : c ∈ s
    · obtain ⟨p, r, rfl, hp⟩ := first_occurrence hm
      obtain ⟨ps, hps⟩ := ih r (by simp at h; omega)
      exact ⟨_, .piece hp hps⟩
    · exact ⟨_, .done hm⟩

theorem splitOn_iff (c : Char) (s : Str) (ps : List Str) : splitOn c s = ps ↔ Cut c s ps := by
  constructor
  · rintro rfl
    obtain ⟨ps, h⟩ := cut_exists c _ s le_rfl
    rw [h.splitOn_eq]; exact h
  · exact Cut.splitOn_eq

theorem stripPrefix_some {d s r : Str} (h : Tree.stripPrefix d s = some r) : s = d ++ r := by
  induction d generalizing s with
  | nil => simp [Tree.stripPrefix] at h; simp [h]
  | cons x d ih =>
    cases s with
    | nil => simp [Tree.stripPrefix] at h
    | cons y s =>
      simp only [Tree.stripPrefix] at h
      split at h
      · rename_i he; subst he; rw [ih h]; rfl
      · cases h

theorem cutBy_aux {d : Str} (hd : d ≠ []) : ∀ (fuel : Nat) (acc s : Str), s.length < fuel →
    (∀ a b, acc.reverse ++ s = a ++ d ++ b → acc.length ≤ a.length) →
    CutBy d (acc.reverse ++ s) (Tree.splitStrAux d fuel acc s) := by
  intro fuel
  induction fuel with
  | zero => intro acc s h; omega
  | succ fuel ih =>
    intro acc s hf hacc
    cases s with
    | nil =>
      rw [Tree.splitStrAux, List.append_nil]
      refine .done ?_
      rintro ⟨a, b, h⟩
      have := hacc a b (by simpa using h.symm)
      have hl := congrArg List.length h
      have : 0 < d.length := List.length_pos_iff.2 hd
      simp at hl; omega
    | cons x xs =>
      rw [Tree.splitStrAux]
      cases hs : Tree.stripPrefix d (x :: xs) with
      | some rest =>
        have he := stripPrefix_some hs
        simp only []
        rw [he, ← List.append_assoc]
        refine .piece ?_ ?_
        · intro a b h
          rw [List.append_assoc, ← he] at h
          simpa using hacc a b h
        · have : 0 < d.length := List.length_pos_iff.2 hd
          have hl := congrArg List.length he
          simp only [List.length_append, List.length_cons] at hl hf
          simpa using ih [] rest (by omega) (by simp)
      | none =>
        simp only []
        have := ih (x :: acc) xs (by simp at hf; omega) (by
          intro a b h
          rw [List.reverse_cons, List.append_assoc, List.singleton_append] at h
          have h1 := hacc a b h
          rw [List.length_cons]
          by_contra hc
          have hl : acc.reverse.length = a.length := by simp; omega
          rw [List.append_assoc] at h
          obtain ⟨-, h2⟩ := List.append_inj h hl
          rw [h2, Tree.stripPrefix_append] at hs
          cases hs)
        simpa using this

theorem CutBy.unique {d s : Str} {ps qs : List Str} (h : CutBy d s ps) (h' : CutBy d s qs) : ps = qs := by
  induction h generalizing qs with
  | done h =>
    cases h' with
    | done => rfl
    | piece => exact absurd ⟨_, _, rfl⟩ h
  | @piece p s ps hp _ ih =>
    generalize hs : p ++ d ++ s = s' at h'
    cases h' with
    | done h => subst hs; exact absurd ⟨_, _, rfl⟩ h
    | @piece q s' qs hq ht =>
      have h1 := hp q s' hs
      have h2 := hq p s hs.symm
      rw [List.append_assoc, List.append_assoc] at hs
      obtain ⟨rfl, h3⟩ := List.append_inj hs (by omega)
      rw [List.append_cancel_left h3] at ih
      rw [ih ht]

theorem splitStr_iff {d : Str} (hd : d ≠ []) (s : Str) (ps : List Str) : Tree.splitStr d s = ps ↔ CutBy d s ps := by
  have h : CutBy d s (Tree.splitStr d s) := by
    unfold Tree.splitStr
    rw [if_neg hd]
    simpa using cutBy_aux hd (s.length + 1) [] s (by omega) (by simp)
  exact ⟨fun e => e ▸ h, fun h' => h.unique h'⟩

theorem rsplitOnce_iff (c : Char) (s : Str) :
    (∀ a b, rsplitOnce c s = some (a, b) ↔ s = a ++ c :: b ∧ c ∉ b) ∧ (rsplitOnce c s = none ↔ c ∉ s) := by
  refine ⟨fun a b => ⟨rsplitOnce_some, ?_⟩, rsplitOnce_not_mem, rsplitOnce_none⟩
  rintro ⟨rfl, h⟩
  exact rsplitOnce_last h a

/-! ## The first piece and the second -/

theorem splitOn_cases (c : Char) (s : Str) : (c ∉ s ∧ splitOn c s = [s]) ∨
    ∃ p r, s = p ++ c :: r ∧ c ∉ p ∧ splitOn c s = p :: splitOn c r := by
  by_cases hm : c ∈ s
  · obtain ⟨p, r, rfl, hp⟩ := first_occurrence hm
    exact .inr ⟨p, r, rfl, hp, splitOn_append hp r⟩
  · exact .inl ⟨hm, splitOn_of_not_mem hm⟩

theorem first_two (c : Char) (s k : Str) (v : Option Str) :
    ((splitOn c s).head? = some k ∧ (splitOn c s)[1]? = v) ↔
    (c ∉ k ∧ ((s = k ∧ v = none) ∨
      ∃ a, v = some a ∧ c ∉ a ∧ (s = k ++ c :: a ∨ ∃ rest, s = k ++ c :: (a ++ c :: rest)))) := by
  constructor
  · rintro ⟨h1, rfl⟩
    rcases splitOn_cases c s with ⟨h, e⟩ | ⟨p, r, rfl, hp, e⟩
    · rw [e] at h1 ⊢
      cases h1
      exact ⟨h, .inl ⟨rfl, rfl⟩⟩
    · rw [e] at h1 ⊢
      cases h1
      refine ⟨hp, .inr ?_⟩
      rcases splitOn_cases c r with ⟨h, e⟩ | ⟨q, r, rfl, hq, e⟩
      · exact ⟨r, by rw [e]; rfl, h, .inl rfl⟩
      · exact ⟨q, by rw [e]; rfl, hq, .inr ⟨r, rfl⟩⟩
  · rintro ⟨hk, ⟨rfl, rfl⟩ | ⟨a, rfl, ha, rfl | ⟨rest, rfl⟩⟩⟩
    · rw [splitOn_of_not_mem hk]; exact ⟨rfl, rfl⟩
    · rw [splitOn_append hk, splitOn_of_not_mem ha]; exact ⟨rfl, rfl⟩
    · rw [splitOn_append hk, splitOn_append ha]; exact ⟨rfl, rfl⟩

theorem parseOne_iff (s k : Str) (v : Option Str) : Features.parseOne s = (k, v) ↔ KeyValue s k v := by
  unfold KeyValue
  rw [← first_two]
  unfold Features.parseOne
  cases h : splitOn ':' s with
  | nil => exact absurd h (splitOn_ne_nil _ _)
  | cons p ps =>
    simp only [Prod.mk.injEq, List.head?_cons, Option.some.injEq, List.getElem?_cons_succ]
    rw [List.head?_eq_getElem?]

theorem featLookup_foldl (key : Str) (v : Option Str) (l : List (Str × Option Str)) : ∀ init : Option (Option Str),
    l.foldl (fun acc kv => if kv.1 = key then some kv.2 else acc) init = some v ↔
    (∃ pre post, l = pre ++ (key, v) :: post ∧ ∀ x ∈ post, x.1 ≠ key) ∨ ((∀ x ∈ l, x.1 ≠ key) ∧ init = some v) := by
  induction l using List.reverseRecOn with
  | nil => intro init; simp
  | append_singleton l x ih =>
    intro init
    rw [List.foldl_append, List.foldl_cons, List.foldl_nil]
    by_cases hx : x.1 = key
    · rw [if_pos hx]
      constructor
      · intro h
        cases h
        exact .inl ⟨l, [], by rw [← hx], by simp⟩
      · rintro (⟨pre, post, h, h'⟩ | ⟨h, -⟩)
        · cases post using List.reverseRecOn with
          | nil =>
            obtain ⟨-, h2⟩ := List.append_inj' h rfl
            cases h2; rfl
          | append_singleton post y =>
            have : l ++ [x] = (pre ++ (key, v) :: post) ++ [y] := by simp [h]
            obtain ⟨-, h2⟩ := List.append_inj' this rfl
            cases h2
            exact absurd hx (h' x (by simp))
        · exact absurd hx (h x (by simp))
    · rw [if_neg hx, ih]
      constructor
      · rintro (⟨pre, post, h, h'⟩ | ⟨h, h'⟩)
        · exact .inl ⟨pre, post ++ [x], by simp [h], by simpa [or_imp, forall_and, hx] using h'⟩
        · exact .inr ⟨by simpa [or_imp, forall_and, hx] using h, h'⟩
      · rintro (⟨pre, post, h, h'⟩ | ⟨h, h'⟩)
        · cases post using List.reverseRecOn with
          | nil =>
            obtain ⟨-, h2⟩ := List.append_inj' h rfl
            cases h2; exact absurd rfl hx
          | append_singleton post y =>
            have : l ++ [x] = (pre ++ (key, v) :: post) ++ [y] := by simp [h]
            obtain ⟨h1, -⟩ := List.append_inj' this rfl
            exact .inl ⟨pre, post, h1, fun z hz => h' z (by simp [hz])⟩
        · exact .inr ⟨fun z hz => h z (by simp [hz]), h'⟩

theorem featLookup_iff (key s : Str) (v : Option Str) : Conllx.featLookup key s = some v ↔
    ∃ pre p post, Cut '|' s (pre ++ p :: post) ∧ KeyValue p key v ∧ ∀ q ∈ post, ∀ w, ¬ KeyValue q key w := by
  unfold Conllx.featLookup
  rw [featLookup_foldl]
  simp only [← splitOn_iff, ← parseOne_iff, reduceCtorEq, and_false, or_false]
  constructor
  · rintro ⟨pre, post, h, h'⟩
    obtain ⟨pre', rest, h0, rfl, h2⟩ := List.map_eq_append_iff.1 h
    obtain ⟨p, post', rfl, h3, rfl⟩ := List.map_eq_cons_iff.1 h2
    exact ⟨pre', p, post', h0, h3, fun q hq w hw => h' _ (List.mem_map_of_mem hq) (by rw [hw])⟩
  · rintro ⟨pre, p, post, h, h1, h2⟩
    refine ⟨pre.map Features.parseOne, post.map Features.parseOne, by rw [h]; simp [h1], ?_⟩
    intro x hx
    obtain ⟨q, hq, rfl⟩ := List.mem_map.1 hx
    intro hk
    exact h2 q hq _ (by rw [← hk])

/-! ## Numerals -/

theorem canonical_natToStr (n : Nat) : Canonical (Tree.natToStr n) n := by
  refine ⟨(decimal_iff _ _).2 ⟨natToStr_ne_nil n, parseDigits_toDigits n⟩, ?_⟩
  unfold Tree.natToStr
  induction n using Nat.strongRecOn with
  | _ n ih =>
    by_cases h : n < 10
    · rw [Nat.toDigits_of_lt_base h]
      have : ∀ n < 10, [n.digitChar].head? = some '0' → [n.digitChar] = ['0'] := by decide
      exact this n h
    · rw [Nat.toDigits_of_base_le (by omega) (by omega)]
      intro h0
      have h1 := ih (n / 10) (by omega)
      have hne : Nat.toDigits 10 (n / 10) ≠ [] := Nat.toDigits_ne_nil
      rw [List.head?_append_of_ne_nil _ hne] at h0
      have h2 := parseDigits_toDigits (n / 10)
      rw [h1 h0] at h2
      have : n / 10 = 0 := by
        have h3 : parseDigits 0 ['0'] = some 0 := by decide
        rw [h3] at h2; exact (Option.some.inj h2).symm
      omega

theorem decimal_pos {s : Str} {n : Nat} (h : Decimal s n) (h0 : s.head? ≠ some '0') : 0 < n := by
  obtain ⟨h1, h2, rfl⟩ := h
  obtain ⟨c, s, rfl⟩ := List.exists_cons_of_ne_nil h1
  have hc := h2 c (by simp)
  have hmono : ∀ (s : Str) (a : Nat), a ≤ s.foldl (fun v c => 10 * v + (c.toNat - '0'.toNat)) a := by
    intro s
    induction s with
    | nil => simp
    | cons x s ih => intro a; exact le_trans (by simp only []; omega) (ih _)
  refine lt_of_lt_of_le ?_ (hmono s _)
  have h3 : c ≠ '0' := by simpa using h0
  have h4 : '0'.toNat ≤ c.toNat := hc.1
  have h5 : c.toNat ≠ '0'.toNat := fun e => h3 (Char.toNat_inj.1 e)
  simp only []; omega

theorem natToStr_iff (s : Str) (n : Nat) : Tree.natToStr n = s ↔ Canonical s n := by
  constructor
  · rintro rfl; exact canonical_natToStr n
  · induction s using List.reverseRecOn generalizing n with
    | nil => rintro ⟨⟨h, -⟩, -⟩; exact absurd rfl h
    | append_singleton s c ih =>
      rintro ⟨⟨-, h2, h3⟩, h4⟩
      have hc := h2 c (by simp)
      have hlt : c.toNat - '0'.toNat < 10 := by
        have : c.toNat ≤ '9'.toNat := hc.2
        have h9 : '9'.toNat = 57 := by decide
        have h0 : '0'.toNat = 48 := by decide
        omega
      have hd : (c.toNat - '0'.toNat).digitChar = c := by
        have h9 : '9'.toNat = 57 := by decide
        have h0 : '0'.toNat = 48 := by decide
        have ha : c.toNat ≤ '9'.toNat := hc.2
        have hb : '0'.toNat ≤ c.toNat := hc.1
        rw [← Char.toNat_inj]
        have : ∀ d < 10, d.digitChar.toNat = d + 48 := by decide
        rw [this _ hlt]; omega
      rw [List.foldl_append, List.foldl_cons, List.foldl_nil] at h3
      by_cases hs : s = []
      · subst hs
        rw [List.foldl_nil, Nat.mul_zero, Nat.zero_add] at h3
        subst h3
        unfold Tree.natToStr
        rw [Nat.toDigits_of_lt_base hlt, hd]; rfl
      · rw [List.head?_append_of_ne_nil _ hs] at h4
        have h0 : s.head? ≠ some '0' := by
          intro h
          have h5 := congrArg List.length (h4 h)
          have h6 : 0 < s.length := List.length_pos_iff.2 hs
          rw [List.length_append, List.length_singleton, List.length_singleton] at h5
          omega
        have hD : Decimal s (s.foldl (fun v c => 10 * v + (c.toNat - '0'.toNat)) 0) :=
          ⟨hs, fun c hc => h2 c (by simp [hc]), rfl⟩
        have hpos := decimal_pos hD h0
        have := ih _ ⟨hD, fun h => absurd h h0⟩
        subst h3
        unfold Tree.natToStr at *
        rw [Nat.toDigits_of_base_le (by omega) (by omega)]
        rw [show (10 * s.foldl (fun v c => 10 * v + (c.toNat - '0'.toNat)) 0 + (c.toNat - '0'.toNat)) / 10 =
          s.foldl (fun v c => 10 * v + (c.toNat - '0'.toNat)) 0 by omega,
          show (10 * s.foldl (fun v c => 10 * v + (c.toNat - '0'.toNat)) 0 + (c.toNat - '0'.toNat)) % 10 =
          c.toNat - '0'.toNat by omega, this, hd]

end Text
end Lumberjack
