import Verif.Proofs.Text

/-!
# What lines, tags and features say (C08, C27, C59, C79)
-/

namespace Lumberjack
namespace Text
open Negra

theorem undash_iff (s : Str) (o : Option Str) : undash s = o ↔ Dashed s o := by
  unfold undash Dashed
  by_cases h : s = "--".toList
  · rw [if_pos h]; simp [h, eq_comm]
  · rw [if_neg h]
    constructor
    · rintro rfl; exact .inr ⟨h, rfl⟩
    · rintro (⟨h', -⟩ | ⟨-, rfl⟩)
      · exact absurd h' h
      · rfl

theorem readSec_iff (o : Option (Str × Nat)) (cs : List Str) : readSec cs = some o ↔ SecColumns o cs := by
  unfold SecColumns
  have hpre : ∀ l : Str, ['%'].isPrefixOf l = true ↔ ∃ r, l = '%' :: r := by
    intro l
    rw [List.isPrefixOf_iff_prefix]
    constructor
    · rintro ⟨r, rfl⟩; exact ⟨r, rfl⟩
    · rintro ⟨r, rfl⟩; exact ⟨r, rfl⟩
  have hhead : ∀ l : Str, l.head? ≠ some '%' ↔ ¬ ['%'].isPrefixOf l = true := by
    intro l
    rw [hpre]
    cases l <;> simp
  match cs with
  | [] => simp [readSec, eq_comm]
  | [l] =>
    rw [readSec]
    by_cases h : ['%'].isPrefixOf l = true
    · rw [if_pos h]
      obtain ⟨r, rfl⟩ := (hpre l).1 h
      simp [eq_comm]
    · rw [if_neg h]
      constructor
      · intro h; cases h
      · rintro (⟨-, h' | ⟨r, more, h'⟩⟩ | ⟨l', k, p, more, -, h', -⟩)
        · cases h'
        · cases h'; exact absurd ((hpre _).2 ⟨r, rfl⟩) h
        · cases h'
  | l :: p :: more =>
    rw [readSec]
    by_cases h : ['%'].isPrefixOf l = true
    · rw [if_pos h]
      obtain ⟨r, rfl⟩ := (hpre l).1 h
      constructor
      · intro h'; cases h'; exact .inl ⟨rfl, .inr ⟨r, _, rfl⟩⟩
      · rintro (⟨rfl, -⟩ | ⟨l', k, p, more, -, h', h'', -⟩)
        · rfl
        · cases h'; exact absurd rfl h''
    · rw [if_neg h]
      constructor
      · intro h'
        obtain ⟨k, hk, rfl⟩ := Option.map_eq_some_iff.1 h'
        exact .inr ⟨l, k, p, more, rfl, rfl, (hhead l).2 h, (parseUsize_iff _ _).1 hk⟩
      · rintro (⟨-, h' | ⟨r, more, h'⟩⟩ | ⟨l', k, p, more, rfl, h', -, hn⟩)
        · cases h'
        · cases h'; exact absurd ((hpre _).2 ⟨r, rfl⟩) h
        · cases h'; rw [(parseUsize_iff _ _).2 hn]; rfl

theorem attach_iff (a : Attach) (cs : List Str) : Attach.read cs = some a ↔ AttachColumns a cs := by
  unfold AttachColumns
  match cs with
  | [] | [_] => simp [Attach.read]
  | e :: p :: more =>
    rw [Attach.read]
    simp only [Option.bind_eq_bind, Option.bind_eq_some_iff, Option.some.injEq, parseUsize_iff, readSec_iff]
    constructor
    · rintro ⟨k, hk, s, hs, rfl⟩
      exact ⟨e, p, more, rfl, (undash_iff _ _).1 rfl, hk, hs⟩
    · rintro ⟨e', p', more', h, h1, h2, h3⟩
      cases h
      exact ⟨_, h2, _, h3, by rw [(undash_iff _ _).2 h1]⟩

theorem termRow_iff (r : TermRow) (cs : List Str) : TermRow.read cs = some r ↔ TermColumns r cs := by
  unfold TermColumns
  match cs with
  | [] | [_] | [_, _] | [_, _, _] => simp [TermRow.read]
  | form :: lem :: pos :: morph :: more =>
    rw [TermRow.read, Option.map_eq_some_iff]
    simp only [attach_iff]
    constructor
    · rintro ⟨a, ha, rfl⟩
      exact ⟨lem, morph, more, rfl, (undash_iff _ _).1 rfl, (undash_iff _ _).1 rfl, ha⟩
    · rintro ⟨l, m, more', h, h1, h2, h3⟩
      cases h
      exact ⟨_, h3, by rw [(undash_iff _ _).2 h1, (undash_iff _ _).2 h2]⟩

theorem annotated_iff (s l : Str) (a : Option Str) :
    ((splitOn '=' s).headD [] = l ∧ (splitOn '=' s)[1]? = a) ↔ Annotated s l a := by
  unfold Annotated
  rw [← first_two]
  cases h : splitOn '=' s with
  | nil => exact absurd h (splitOn_ne_nil _ _)
  | cons p ps => simp

theorem ntRow_iff (r : NtRow) (cs : List Str) :
    ((∃ w more, cs = w :: more ∧ ['#'] <+: w) ∧ NtRow.read cs = some r) ↔ NtColumns r cs := by
  unfold NtColumns
  match cs with
  | [] | [_] | [_, _] | [_, _, _] => simp [NtRow.read]
  | first :: x :: label :: y :: more =>
    rw [NtRow.read]
    simp only [Option.bind_eq_bind, Option.bind_eq_some_iff, Option.some.injEq, parseUsize_iff, attach_iff]
    constructor
    · rintro ⟨⟨w, more', h, ⟨n, rfl⟩⟩, id, hid, a, ha, rfl⟩
      cases h
      exact ⟨n, x, label, y, more, rfl, hid, (annotated_iff _ _ _).1 ⟨rfl, rfl⟩, ha⟩
    · rintro ⟨n, x', l', y', more', h, h1, h2, h3⟩
      cases h
      obtain ⟨h4, h5⟩ := (annotated_iff _ _ _).2 h2
      exact ⟨⟨_, _, rfl, ⟨n, rfl⟩⟩, _, h1, _, h3, by rw [h4, h5]⟩

theorem splitFirstWs_spec (s : Str) : ∃ a, (∀ c ∈ a, ¬ White c) ∧
    ((s = a ∧ splitFirstWs s = (a, none)) ∨ ∃ c r, White c ∧ s = a ++ c :: r ∧ splitFirstWs s = (a, some r)) := by
  induction s with
  | nil => exact ⟨[], by simp, .inl ⟨rfl, rfl⟩⟩
  | cons x s ih =>
    rw [splitFirstWs]
    by_cases hx : White x
    · rw [if_pos ((isWs_iff x).2 hx)]
      exact ⟨[], by simp, .inr ⟨x, s, hx, rfl, rfl⟩⟩
    · rw [if_neg (fun h => hx ((isWs_iff x).1 h))]
      obtain ⟨a, ha, ⟨rfl, e⟩ | ⟨c, r, hc, rfl, e⟩⟩ := ih
      · rw [e]; exact ⟨x :: s, by simpa [hx] using ha, .inl ⟨rfl, rfl⟩⟩
      · rw [e]; exact ⟨x :: a, by simpa [hx] using ha, .inr ⟨c, r, hc, rfl, rfl⟩⟩

theorem splitFirstWs_none {a : Str} (h : ∀ c ∈ a, ¬ White c) : splitFirstWs a = (a, none) := by
  induction a with
  | nil => rfl
  | cons x a ih =>
    rw [splitFirstWs, if_neg (fun h' => h x (by simp) ((isWs_iff x).1 h')), ih (fun c hc => h c (by simp [hc]))]

theorem splitFirstWs_some {a : Str} (h : ∀ c ∈ a, ¬ White c) {d : Char} (hd : White d) (r : Str) :
    splitFirstWs (a ++ d :: r) = (a, some r) := by
  induction a with
  | nil => rw [List.nil_append, splitFirstWs, if_pos ((isWs_iff d).2 hd)]
  | cons x a ih =>
    rw [List.cons_append, splitFirstWs, if_neg (fun h' => h x (by simp) ((isWs_iff x).1 h')),
      ih (fun c hc => h c (by simp [hc]))]

theorem numeral_clear {s : Str} {n : Nat} (h : Numeral s n) : ∀ c ∈ s, ¬ White c := by
  have hd : ∀ {ds : Str} {n : Nat}, Decimal ds n → ∀ c ∈ ds, ¬ White c := by
    rintro ds n ⟨-, h, -⟩ c hc hw
    obtain ⟨h1, h2⟩ := h c hc
    have h9 : '9'.toNat = 57 := by decide
    have h0 : '0'.toNat = 48 := by decide
    have ha : c.toNat ≤ '9'.toNat := h2
    have hb : '0'.toNat ≤ c.toNat := h1
    unfold White at hw
    simp only [List.mem_cons, List.not_mem_nil, or_false] at hw
    omega
  rcases h.1 with h | ⟨ds, rfl, h'⟩
  · exact hd h
  · intro c hc
    rcases List.mem_cons.1 hc with rfl | hc
    · decide
    · exact hd h' c hc

theorem join_iff (sep : Str) (ps : List Str) (s : Str) : join sep ps = s ↔ Joined sep ps s := by
  constructor
  · rintro rfl
    induction ps with
    | nil => exact .none
    | cons p ps ih =>
      cases ps with
      | nil => exact .one p
      | cons q ps => exact .more ih
  · intro h
    induction h with
    | none => rfl
    | one => rfl
    | more _ ih => rw [join, ih]

end Text

namespace Props
open Text Negra

/-- C79: `raw` opens a sentence if, without the white space at its ends, it starts with `#BOS`; the number follows
the first white space character, and what follows the next, without the white space at its ends, is the metadata. -/
theorem C79_opens (raw : Str) (id : Nat) (info : Option Str) : Opens raw id info ↔
    ∃ line w c number, Trimmed raw line ∧ "#BOS".toList <+: line ∧ (∀ x ∈ w, ¬ White x) ∧ White c ∧
      Numeral number id ∧ ((line = w ++ c :: number ∧ info = none) ∨
        ∃ c' rest m, White c' ∧ line = w ++ c :: (number ++ c' :: rest) ∧ Trimmed rest m ∧ info = some m) := by
  unfold Opens startsWith
  rw [List.isPrefixOf_iff_prefix]
  constructor
  · rintro ⟨h, w, n, m, h1, h2, h3⟩
    have hn := (parseUsize_iff _ _).1 h2
    obtain ⟨a, ha, ⟨-, e⟩ | ⟨c, r, hc, e0, e⟩⟩ := splitFirstWs_spec (trim raw)
    · rw [splitn3, e] at h1; cases h1
    · rw [splitn3, e] at h1
      simp only [] at h1
      refine ⟨trim raw, a, c, n, trimmed_trim raw, h, ha, hc, hn, ?_⟩
      obtain ⟨b, hb, ⟨rfl, e'⟩ | ⟨c', r', hc', rfl, e'⟩⟩ := splitFirstWs_spec r
      · rw [e'] at h1
        cases h1
        exact .inl ⟨e0, h3⟩
      · rw [e'] at h1
        cases h1
        exact .inr ⟨c', r', _, hc', e0, trimmed_trim r', h3⟩
  · rintro ⟨line, w, c, number, ht, h, hw, hc, hn, h'⟩
    rw [(trim_iff _ _).2 ht]
    refine ⟨h, w, number, ?_⟩
    have hu := (parseUsize_iff _ _).2 hn
    have hcl := numeral_clear hn
    rcases h' with ⟨rfl, rfl⟩ | ⟨c', rest, m, hc', rfl, ht', rfl⟩
    · exact ⟨[], by rw [splitn3, splitFirstWs_some hw hc]; simp only []; rw [splitFirstWs_none hcl], hu, rfl⟩
    · exact ⟨[rest], by rw [splitn3, splitFirstWs_some hw hc]; simp only []; rw [splitFirstWs_some hcl hc'], hu,
        by rw [← (trim_iff _ _).2 ht']; rfl⟩

theorem clear_bos : ∀ c ∈ "#BOS".toList, ¬ White c := by decide
theorem clear_eos : ∀ c ∈ "#EOS".toList, ¬ White c := by decide

/-- C79: `raw` opens or closes a sentence, or tries to, if its first word starts with `#BOS` or `#EOS`. -/
theorem C79_frame (raw : Str) : IsFrame raw ↔
    ∃ w more, Words raw (w :: more) ∧ ("#BOS".toList <+: w ∨ "#EOS".toList <+: w) := by
  unfold IsFrame
  rw [show bos = "#BOS".toList from rfl, show eos = "#EOS".toList from rfl, prefix_trim (by decide) clear_bos,
    prefix_trim (by decide) clear_eos]
  constructor
  · rintro (⟨w, more, h, h'⟩ | ⟨w, more, h, h'⟩)
    · exact ⟨w, more, h, .inl h'⟩
    · exact ⟨w, more, h, .inr h'⟩
  · rintro ⟨w, more, h, h' | h'⟩
    · exact .inl ⟨w, more, h, h'⟩
    · exact .inr ⟨w, more, h, h'⟩

/-- C79: `raw` closes sentence `id` if its first word starts with `#EOS` and its second is the number, without sign
and leading zeros. -/
theorem C79_closes (raw : Str) (id : Nat) : Closes raw id ↔
    ∃ w n more, Words raw (w :: n :: more) ∧ "#EOS".toList <+: w ∧ Canonical n id := by
  unfold Closes
  rw [show eos = "#EOS".toList from rfl, prefix_trim (by decide) clear_eos, splitWs_trim]
  constructor
  · rintro ⟨⟨w, more, h, h1⟩, h2⟩
    rw [h.splitWs_eq] at h2
    cases more with
    | nil => cases h2
    | cons n more =>
      refine ⟨w, n, more, h, h1, ?_⟩
      rw [List.getElem?_cons_succ, List.getElem?_cons_zero] at h2
      exact (natToStr_iff _ _).1 (Option.some.inj h2).symm
  · rintro ⟨w, n, more, h, h1, h2⟩
    refine ⟨⟨w, _, h, h1⟩, ?_⟩
    rw [h.splitWs_eq, (natToStr_iff _ _).2 h2]; rfl

theorem hash_prefix (raw : Str) : ['#'].isPrefixOf (trim raw) = true ↔ ∃ w more, Words raw (w :: more) ∧ ['#'] <+: w :=
  prefix_trim (by decide) (by decide) raw

/-- C79: `raw` is the line of a terminal if its first word does not start with `#` and its words are the columns of a
terminal. -/
theorem C79_terminal (raw : Str) (r : TermRow) : IsTermLine raw r ↔
    ∃ cs, Words raw cs ∧ r.form.head? ≠ some '#' ∧ TermColumns r cs := by
  unfold IsTermLine
  rw [splitWs_trim, termRow_iff, ← Bool.not_eq_true, hash_prefix]
  constructor
  · rintro ⟨h1, h2⟩
    have hw : Words raw (splitWs raw) := (splitWs_iff _ _).1 rfl
    refine ⟨_, hw, ?_, h2⟩
    intro h
    obtain ⟨l, m, more, e, -⟩ := h2
    refine h1 ⟨_, _, e ▸ hw, ?_⟩
    cases hf : r.form with
    | nil => rw [hf] at h; cases h
    | cons x s => rw [hf] at h; cases h; exact ⟨s, rfl⟩
  · rintro ⟨cs, hw, h1, h2⟩
    rw [hw.splitWs_eq]
    refine ⟨?_, h2⟩
    rintro ⟨w, more, h, ⟨s, hs⟩⟩
    obtain ⟨l, m, more', e, -⟩ := h2
    have := h.splitWs_eq
    rw [hw.splitWs_eq, e] at this
    cases this
    rw [← hs] at h1
    exact h1 rfl

/-- C79: `raw` is the line of a nonterminal if its first word does not start with `#BOS` or `#EOS` and its words are
the columns of a nonterminal. -/
theorem C79_nonterminal (raw : Str) (r : NtRow) : IsNtLine raw r ↔
    ∃ cs, Words raw cs ∧ NtColumns r cs := by
  unfold IsNtLine
  rw [splitWs_trim, hash_prefix]
  constructor
  · rintro ⟨-, ⟨w, more, h, hp⟩, h2⟩
    refine ⟨_, h, (ntRow_iff _ _).1 ⟨⟨w, more, rfl, hp⟩, ?_⟩⟩
    rw [← h.splitWs_eq]; exact h2
  · rintro ⟨cs, hw, h⟩
    obtain ⟨⟨w, more, rfl, hp⟩, h2⟩ := (ntRow_iff _ _).2 h
    rw [hw.splitWs_eq]
    refine ⟨?_, ⟨w, more, hw, hp⟩, h2⟩
    rw [C79_frame]
    rintro ⟨w', more', hw', h'⟩
    have := hw'.splitWs_eq
    rw [hw.splitWs_eq] at this
    cases this
    obtain ⟨n, x, l, y, more, e, hn, -⟩ := h
    cases e
    have hB : ∀ {c : Char} {p : Str}, c ≠ '+' → ¬ ('0' ≤ c ∧ c ≤ '9') → ¬ ('#' :: c :: p) <+: ('#' :: n) := by
      rintro c p hc hc' ⟨t, ht⟩
      have ht : c :: (p ++ t) = n := (List.cons.inj ht).2
      subst ht
      rcases hn.1 with h | ⟨ds, h, -⟩
      · exact hc' (h.2.1 c (by simp))
      · exact hc (List.cons.inj h).1
    rcases h' with h' | h'
    · exact hB (by decide) (by decide) h'
    · exact hB (by decide) (by decide) h'

/-- C79: the lines of a sentence, from the words of each. -/
theorem C79_rows (ls : List Str) (T : List TermRow) (N : List NtRow) : Rows ls T N ↔
    ∃ tl nl, ls = tl ++ nl ∧
      List.Forall₂ (fun raw r => ∃ cs, Words raw cs ∧ r.form.head? ≠ some '#' ∧ TermColumns r cs) tl T ∧
      List.Forall₂ (fun raw r => ∃ cs, Words raw cs ∧ NtColumns r cs) nl N := by
  have h1 : IsTermLine = fun raw r => ∃ cs, Words raw cs ∧ r.form.head? ≠ some '#' ∧ TermColumns r cs := by
    funext raw r; exact propext (C79_terminal raw r)
  have h2 : IsNtLine = fun raw r => ∃ cs, Words raw cs ∧ NtColumns r cs := by
    funext raw r; exact propext (C79_nonterminal raw r)
  unfold Rows
  rw [h1, h2]

/-- C59: the token has a tag if its features, cut at each `|`, have a piece with the key and a value, and no later
one with the key. -/
theorem C59_tag (key : Str) (tok : Conllx.Token) (s : Str) : Conllx.TagOf key tok s ↔
    ∃ fs pre p post, tok.features = some fs ∧ Cut '|' fs (pre ++ p :: post) ∧ KeyValue p key (some s) ∧
      ∀ q ∈ post, ∀ w, ¬ KeyValue q key w := by
  unfold Conllx.TagOf
  simp only [featLookup_iff]
  constructor
  · rintro ⟨fs, h, pre, p, post, h1, h2, h3⟩
    exact ⟨fs, pre, p, post, h, h1, h2, h3⟩
  · rintro ⟨fs, pre, p, post, h, h1, h2, h3⟩
    exact ⟨fs, h, pre, p, post, h1, h2, h3⟩

/-- C08: parsing cuts the text at each `|`; the value of a key is that of the last piece with it. Empty pieces do not
count. -/
theorem C08_reads (s k : Str) (v : Option Str) : (Features.parse s).getVal k = some v ↔
    ∃ pre p post, Cut '|' s (pre ++ p :: post) ∧ p ≠ [] ∧ KeyValue p k v ∧
      ∀ q ∈ post, q ≠ [] → ∀ w, ¬ KeyValue q k w := by
  have hl : ∀ (l : List (Str × Option Str)) (m : List (Str × Option Str)),
      Features.lookupEntry k (l.foldl (fun m kv => Features.insertEntry kv.1 kv.2 m) m) =
      l.foldl (fun acc kv => if kv.1 = k then some kv.2 else acc) (Features.lookupEntry k m) := by
    intro l
    induction l with
    | nil => intro m; rfl
    | cons x l ih =>
      intro m
      rw [List.foldl_cons, List.foldl_cons, ih, Features.lookup_insert]
      simp only [eq_comm]
  unfold Features.getVal Features.parse Features.ofList
  rw [hl, featLookup_foldl]
  simp only [Features.lookupEntry, reduceCtorEq, and_false, or_false, ← splitOn_iff, ← parseOne_iff]
  constructor
  · rintro ⟨pre, post, h, h'⟩
    obtain ⟨pre', rest, h0, rfl, h2⟩ := List.map_eq_append_iff.1 h
    obtain ⟨p, post', rfl, h3, rfl⟩ := List.map_eq_cons_iff.1 h2
    obtain ⟨a, b, e, ha, hb⟩ := List.filter_eq_append_iff.1 h0
    obtain ⟨b1, b2, rfl, hb1, hp, hb2⟩ := List.filter_eq_cons_iff.1 hb
    refine ⟨a ++ b1, p, b2, by rw [e]; simp, by simpa using hp, h3, ?_⟩
    intro q hq hq' w hw
    refine h' (k, w) (List.mem_map.2 ⟨q, ?_, hw⟩) rfl
    rw [← hb2]
    exact List.mem_filter.2 ⟨hq, by simpa using hq'⟩
  · rintro ⟨pre, p, post, h, h1, h2, h3⟩
    refine ⟨(pre.filter (fun p => !p.isEmpty)).map Features.parseOne,
      (post.filter (fun p => !p.isEmpty)).map Features.parseOne, ?_, ?_⟩
    · rw [h, List.filter_append, List.filter_cons_of_pos (by simpa using h1)]
      simp [h2]
    · intro x hx
      obtain ⟨q, hq, rfl⟩ := List.mem_map.1 hx
      obtain ⟨hq1, hq2⟩ := List.mem_filter.1 hq
      intro hk
      exact h3 q hq1 (by simpa using hq2) _ (by rw [← hk])

/-- C08: printing writes the features, `key` or `key:value`, with a `|` between any two. -/
theorem C08_prints (f : Features) : ∃ ps, List.Forall₂ Printed f.entries ps ∧ Joined ['|'] ps f.toStr := by
  refine ⟨f.entries.map Features.printOne, ?_, (join_iff _ _ _).1 rfl⟩
  rw [List.forall₂_map_right_iff]
  refine List.forall₂_same.2 ?_
  rintro ⟨k, v⟩ -
  cases v with
  | none => exact .inl ⟨rfl, rfl⟩
  | some v => exact .inr ⟨v, rfl, by simp [Features.printOne]⟩

/-- C27: the labels restored from a chain are its pieces between the occurrences of the delimiter, from the left. -/
theorem C27_chain_labels (d : Str) (hd : d ≠ []) (fs : Option Features) (chain : Str)
    (h : (fs.getD Features.empty).getVal Forest.chainKey = some (some chain)) (ls : List Str) :
    Forest.chainOf d fs = ls ↔ CutBy d chain ls := by
  unfold Forest.chainOf
  rw [h]
  exact splitStr_iff hd chain ls

/-- C27: with the empty delimiter, there is one label for each character, and an empty one at either end. -/
theorem C27_empty_delimiter (fs : Option Features) (chain : Str)
    (h : (fs.getD Features.empty).getVal Forest.chainKey = some (some chain)) :
    Forest.chainOf [] fs = [] :: (chain.map (fun c => [c]) ++ [[]]) := by
  unfold Forest.chainOf
  rw [h]; rfl

/-- C33: a label put on a decoded node is cut at its last underscore, if it has one. -/
theorem C33_label (l : Str) (x : NonTerminal) :
    ('_' ∉ l → Decoding.relabel l x = { x with label := l }) ∧
    ∀ c l', l = c ++ '_' :: l' → '_' ∉ l' → (Decoding.relabel l x).label = l' ∧
      (Decoding.relabel l x).features = some ((x.features.getD Features.empty).insert Forest.chainKey (some c)).1 := by
  refine ⟨fun h => ?_, ?_⟩
  · unfold Decoding.relabel
    rw [(rsplitOnce_iff '_' l).2.2 h]
  · rintro c l' rfl h
    unfold Decoding.relabel
    rw [((rsplitOnce_iff '_' _).1 c l').2 ⟨rfl, h⟩]
    exact ⟨rfl, rfl⟩

/-- C59: what a tag says: the text before the first `~`, and that between it and the next, if it is not empty. -/
theorem C59_tag_text {α : Type} (parse : Str → Except Err α) (s : Str) (e : Option α × Option Str) :
    Conllx.ReadsAs parse s e ↔ ∃ a rest, Cut '~' s (a :: rest) ∧
      ((rest = [] ∨ rest.head? = some []) ∧ e.2 = none ∨ ∃ c, c ≠ [] ∧ rest.head? = some c ∧ e.2 = some c) ∧
      ((a = "NONE".toList ∧ e.1 = none) ∨ (a ≠ "NONE".toList ∧ ∃ x, parse a = .ok x ∧ e.1 = some x)) := by
  unfold Conllx.ReadsAs
  simp only [splitOn_iff]
  refine exists_congr fun a => exists_congr fun rest => and_congr_right fun _ => and_congr_left fun _ => ?_
  cases rest with
  | nil => simp
  | cons c rest =>
    by_cases hc : c = []
    · subst hc; simp [Option.filter]
    · simp [Option.filter, hc]

/-! ## Instances -/

example : Opens " #BOS 12\t 3  x \r".toList 12 (some "3  x".toList) :=
  (C79_opens _ _ _).2 ⟨"#BOS 12\t 3  x".toList, "#BOS".toList, ' ', "12".toList,
    (trim_iff _ _).1 (by decide +kernel), by decide +kernel, by decide +kernel, by decide +kernel,
    (parseUsize_iff _ _).1 (by decide +kernel),
    .inr ⟨'\t', " 3  x".toList, _, by decide +kernel, by decide +kernel, (trim_iff _ _).1 (by decide +kernel), rfl⟩⟩

/-- Two spaces before the number and there is none. -/
example : ¬ ∃ id info, Opens "#BOS  12".toList id info := by
  rintro ⟨id, info, -, w, n, m, h1, h2, -⟩
  rw [show splitn3 (trim "#BOS  12".toList) = ["#BOS".toList, [], "12".toList] by decide +kernel] at h1
  cases h1
  exact absurd h2 (by rw [show parseUsize [] = none by decide +kernel]; simp)

example : Closes "#EOSx\t12 rest".toList 12 :=
  (C79_closes _ _).2 ⟨"#EOSx".toList, "12".toList, ["rest".toList], (splitWs_iff _ _).1 (by decide +kernel),
    by decide +kernel, (natToStr_iff _ _).1 (by decide +kernel)⟩

/-- A number that is read on the opening line does not close the sentence if it has leading zeros. -/
example : Opens "#BOS 012".toList 12 none ∧ ¬ Closes "#EOS 012".toList 12 := by
  refine ⟨⟨by decide +kernel, "#BOS".toList, "012".toList, [], by decide +kernel, by decide +kernel, rfl⟩, ?_⟩
  rintro ⟨-, h⟩
  revert h
  decide +kernel

example : IsTermLine "a -- N -- HD 500 %% x".toList ⟨"a".toList, none, "N".toList, none, ⟨some "HD".toList, 500, none⟩⟩ :=
  (C79_terminal _ _).2 ⟨["a", "--", "N", "--", "HD", "500", "%%", "x"].map String.toList,
    (splitWs_iff _ _).1 (by decide +kernel), by decide +kernel, (termRow_iff _ _).1 (by decide +kernel)⟩

example : IsNtLine "#500 -- NP=x=y -- -- 0 S 501".toList ⟨500, "NP".toList, some "x".toList, ⟨none, 0, some ("S".toList, 501)⟩⟩ :=
  (C79_nonterminal _ _).2 ⟨["#500", "--", "NP=x=y", "--", "--", "0", "S", "501"].map String.toList,
    (splitWs_iff _ _).1 (by decide +kernel), (ntRow_iff _ _).1 ⟨⟨_, _, rfl, by decide +kernel⟩, by decide +kernel⟩⟩

example : CutBy "aa".toList "xaaay".toList ["x".toList, "ay".toList] :=
  (splitStr_iff (by decide) _ _).1 (by decide +kernel)

example : (Features.parse "b:2||a:1:3|b".toList).getVal "b".toList = some none :=
  (C08_reads _ _ _).2 ⟨["b:2".toList, [], "a:1:3".toList], "b".toList, [], (splitOn_iff _ _ _).1 (by decide +kernel),
    by decide, (parseOne_iff _ _ _).1 (by decide +kernel), by simp⟩

end Props
end Lumberjack
