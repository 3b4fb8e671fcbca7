import Verif.Proofs.IoRun
import Verif.Proofs.LineEnds

/-!
# Lines from bytes
-/

namespace Lumberjack
namespace Io

open Negra (lines stripCr)

theorem encode_bytes (s : Str) : (encode s).toByteArray = s.utf8Encode := rfl

theorem decode_ok {b : Bytes} {s : Str} : decode b = .ok s ↔ encode s = b := by
  unfold decode
  constructor
  · intro h
    split at h
    · next a ha =>
      injection h with h
      have h1 : b.toByteArray.utf8Decode?.isSome := by rw [ha]; rfl
      have h2 := ByteArray.utf8Encode_get_utf8Decode? (b := b.toByteArray) (h := h1)
      have h3 : b.toByteArray.utf8Decode?.get h1 = a := by simp [ha]
      rw [h3, h, ← encode_bytes] at h2
      have h4 := congrArg ByteArray.data h2
      rw [List.data_toByteArray, List.data_toByteArray] at h4
      exact Array.toList_inj.2 h4 |> fun h => by simpa using h
    · cases h
  · rintro rfl
    rw [encode_bytes, List.utf8Decode?_utf8Encode]

theorem decode_encode (s : Str) : decode (encode s) = .ok s := decode_ok.2 rfl

theorem decode_error {b : Bytes} (h : ∀ s, encode s ≠ b) : ∃ e, decode b = .error e := by
  cases hd : decode b with
  | ok s => exact absurd (decode_ok.1 hd) (h s)
  | error e => exact ⟨e, rfl⟩

theorem encode_inj {a b : Str} (h : encode a = encode b) : a = b := by
  have h1 := decode_encode a
  rw [h, decode_encode] at h1
  injection h1 with h1
  exact h1.symm

theorem encode_cons (c : Char) (s : Str) : encode (c :: s) = String.utf8EncodeChar c ++ encode s := rfl

theorem encode_ne_nil (c : Char) : String.utf8EncodeChar c ≠ [] := by
  intro h
  have h1 := Char.utf8Size_pos c
  rw [← String.length_utf8EncodeChar, h] at h1
  simp at h1

/-- No character begins with another. -/
theorem char_prefix {c d : Char} {z : Bytes} (h : String.utf8EncodeChar c <+: String.utf8EncodeChar d ++ z) : c = d := by
  obtain ⟨y, hy⟩ := h
  have h1 := @ByteArray.utf8DecodeChar?_utf8EncodeChar_append y.toByteArray c
  have h2 := @ByteArray.utf8DecodeChar?_utf8EncodeChar_append z.toByteArray d
  rw [← List.toByteArray_append] at h1 h2
  rw [hy, h2] at h1
  injection h1 with h1
  exact h1.symm

theorem encode_prefix {a s : Str} {z : Bytes} (h : encode a ++ z = encode s) : ∃ s', s = a ++ s' ∧ encode s' = z := by
  induction a generalizing s with
  | nil => exact ⟨s, rfl, by simpa [encode] using h.symm⟩
  | cons c a ih =>
    cases s with
    | nil =>
      rw [encode_cons] at h
      have : String.utf8EncodeChar c ++ encode a ++ z = [] := h
      simp at this
    | cons d s =>
      rw [encode_cons, encode_cons, List.append_assoc] at h
      have : c = d := char_prefix (z := encode s) ⟨encode a ++ z, h⟩
      subst this
      obtain ⟨s', rfl, h2⟩ := ih (List.append_cancel_left h)
      exact ⟨s', rfl, h2⟩

/-- Bytes that end within a character are not UTF-8. -/
theorem decode_cut (a : Str) {c : Char} {r : Bytes} (h : r <+: String.utf8EncodeChar c) (h0 : r ≠ [])
    (h1 : r ≠ String.utf8EncodeChar c) : ∃ e, decode (encode a ++ r) = .error e := by
  refine decode_error fun s hs => ?_
  obtain ⟨s', -, h2⟩ := encode_prefix hs.symm
  cases s' with
  | nil => exact h0 h2.symm
  | cons d s' =>
    rw [encode_cons] at h2
    have hp : String.utf8EncodeChar d <+: String.utf8EncodeChar c := List.IsPrefix.trans ⟨_, h2⟩ h
    have : d = c := char_prefix (z := []) (by simpa using hp)
    subst this
    have hr : String.utf8EncodeChar d <+: r := ⟨_, h2⟩
    exact h1 (h.eq_of_length (Nat.le_antisymm h.length_le hr.length_le))

theorem encode_cut {text : Str} : ∀ {p : Bytes}, p <+: encode text → ∃ q, q <+: text ∧ (p = encode q ∨
    ∃ c r, q ++ [c] <+: text ∧ p = encode q ++ r ∧ r ≠ [] ∧ r <+: String.utf8EncodeChar c ∧ r ≠ String.utf8EncodeChar c) := by
  induction text with
  | nil =>
    intro p h
    exact ⟨[], List.nil_prefix, .inl (List.prefix_nil.1 h)⟩
  | cons c text ih =>
    intro p h
    rw [encode_cons] at h
    rcases List.prefix_or_prefix_of_prefix h (List.prefix_append _ _) with g | ⟨p', rfl⟩
    · by_cases h0 : p = []
      · exact ⟨[], List.nil_prefix, .inl (by rw [h0]; rfl)⟩
      · by_cases h1 : p = String.utf8EncodeChar c
        · exact ⟨[c], by simp, .inl (by rw [h1]; simp [encode])⟩
        · exact ⟨[], List.nil_prefix, .inr ⟨c, p, by simp, rfl, h0, g, h1⟩⟩
    · have g := (List.prefix_append_right_inj _).1 h
      obtain ⟨q, hq, h2⟩ := ih g
      refine ⟨c :: q, List.cons_prefix_cons.2 ⟨rfl, hq⟩, ?_⟩
      rcases h2 with rfl | ⟨d, r, h3, rfl, h4⟩
      · exact .inl rfl
      · exact .inr ⟨d, r, List.cons_prefix_cons.2 ⟨rfl, h3⟩, by rw [encode_cons, List.append_assoc], h4⟩

/-! ## Line feeds -/

theorem high_byte (x a b : UInt8) (hb : b.toBitVec.getLsbD 7 = true) : (x &&& a ||| b) ≠ 10 := by
  intro h
  have h1 := congrArg (fun b : UInt8 => b.toBitVec.getLsbD 7) h
  simp only [UInt8.toBitVec_or, BitVec.getLsbD_or, hb, Bool.or_true] at h1
  revert h1; decide

theorem line_feed {c : Char} (h : (10 : UInt8) ∈ String.utf8EncodeChar c) : c = '\n' := by
  rcases Char.utf8Size_eq c with h1 | h1 | h1 | h1
  · rw [String.utf8EncodeChar_eq_singleton h1] at h
    have h2 : c.val ≤ 127 := Char.utf8Size_eq_one_iff.1 h1
    have h3 := List.mem_singleton.1 h
    have h4 : (10 : UInt8).toNat = c.val.toUInt8.toNat := congrArg UInt8.toNat h3
    rw [UInt32.toNat_toUInt8] at h4
    have h5 : c.val.toNat ≤ 127 := by simpa [UInt32.le_iff_toNat_le] using h2
    rw [Nat.mod_eq_of_lt (by omega)] at h4
    apply Char.ext
    apply UInt32.toNat_inj.1
    rw [← h4]; rfl
  · rw [String.utf8EncodeChar_eq_cons_cons h1] at h
    simp only [List.mem_cons, List.not_mem_nil, or_false] at h
    rcases h with h | h <;> exact absurd h.symm (high_byte _ _ _ (by decide))
  · rw [String.utf8EncodeChar_eq_cons_cons_cons h1] at h
    simp only [List.mem_cons, List.not_mem_nil, or_false] at h
    rcases h with h | h | h <;> exact absurd h.symm (high_byte _ _ _ (by decide))
  · rw [String.utf8EncodeChar_eq_cons_cons_cons_cons h1] at h
    simp only [List.mem_cons, List.not_mem_nil, or_false] at h
    rcases h with h | h | h | h <;> exact absurd h.symm (high_byte _ _ _ (by decide))

theorem encode_feed {s : Str} (h : '\n' ∉ s) : (10 : UInt8) ∉ encode s := by
  intro hm
  obtain ⟨c, hc, h1⟩ := List.mem_flatMap.1 hm
  exact h (line_feed h1 ▸ hc)

theorem byteLinesFrom_line {x : Bytes} (h : (10 : UInt8) ∉ x) (cur rest : Bytes) :
    byteLinesFrom cur (x ++ 10 :: rest) = (decode (cur ++ x)).map stripCr :: byteLinesFrom [] rest := by
  induction x generalizing cur with
  | nil => simp [byteLinesFrom]
  | cons b x ih =>
    have hb : b ≠ 10 := fun e => h (by simp [e])
    rw [List.cons_append, byteLinesFrom, if_neg hb, ih (fun hm => h (by simp [hm]))]
    simp

theorem byteLinesFrom_last {x : Bytes} (h : (10 : UInt8) ∉ x) (cur : Bytes) :
    byteLinesFrom cur x = if cur ++ x = [] then [] else [decode (cur ++ x)] := by
  induction x generalizing cur with
  | nil => simp [byteLinesFrom]
  | cons b x ih =>
    have hb : b ≠ 10 := fun e => h (by simp [e])
    rw [byteLinesFrom, if_neg hb, ih (fun hm => h (by simp [hm]))]
    simp

/-- Lines of a text in UTF-8, followed by other bytes. -/
theorem byteLines_after : ∀ (k : Nat) (u : Str), u.length ≤ k → (u = [] ∨ ∃ v, u = v ++ ['\n']) → ∀ z : Bytes,
    byteLines (encode u ++ z) = (lines u).map .ok ++ byteLines z := by
  intro k
  induction k with
  | zero =>
    intro u hu _ z
    rw [List.length_eq_zero_iff.1 (Nat.le_zero.1 hu)]
    simp [encode, Negra.lines_nil]
  | succ k ih =>
    intro u hu h z
    rcases h with rfl | ⟨v, rfl⟩
    · simp [encode, Negra.lines_nil]
    · rcases Negra.split_line v with hv | ⟨a, r, ha, rfl⟩
      · rw [show v ++ ['\n'] = v ++ '\n' :: [] from rfl, Negra.lines_cons hv, Negra.lines_nil]
        rw [show encode (v ++ '\n' :: []) ++ z = encode v ++ 10 :: z by rw [encode_append]; simp [encode]; rfl]
        unfold byteLines
        rw [byteLinesFrom_line (encode_feed hv), List.nil_append, decode_encode]
        rfl
      · rw [show a ++ '\n' :: r ++ ['\n'] = a ++ '\n' :: (r ++ ['\n']) by simp, Negra.lines_cons ha]
        rw [show encode (a ++ '\n' :: (r ++ ['\n'])) ++ z = encode a ++ 10 :: (encode (r ++ ['\n']) ++ z) by
          rw [encode_append, encode_cons, List.append_assoc, List.append_assoc]; rfl]
        unfold byteLines
        rw [byteLinesFrom_line (encode_feed ha), List.nil_append, decode_encode]
        have := ih (r ++ ['\n']) (by simp at hu ⊢; omega) (.inr ⟨r, rfl⟩) z
        unfold byteLines at this
        rw [this]
        rfl

/-- Every text is complete lines and a rest. -/
theorem split_last (q : Str) : ∃ u v, q = u ++ v ∧ (u = [] ∨ ∃ w, u = w ++ ['\n']) ∧ '\n' ∉ v := by
  induction q with
  | nil => exact ⟨[], [], rfl, .inl rfl, by simp⟩
  | cons c q ih =>
    obtain ⟨u, v, rfl, hu, hv⟩ := ih
    rcases hu with rfl | ⟨w, rfl⟩
    · by_cases hc : c = '\n'
      · exact ⟨[c], v, by simp, .inr ⟨[], by simp [hc]⟩, hv⟩
      · exact ⟨[], c :: v, by simp, .inl rfl, by simp [hv, Ne.symm hc]⟩
    · exact ⟨c :: (w ++ ['\n']), v, by simp, .inr ⟨c :: w, by simp⟩, hv⟩

theorem lines_split {u v : Str} (hu : u = [] ∨ ∃ w, u = w ++ ['\n']) : lines (u ++ v) = lines u ++ lines v := by
  rcases hu with rfl | ⟨w, rfl⟩
  · rw [Negra.lines_nil]; rfl
  · rw [show w ++ ['\n'] ++ v = w ++ '\n' :: v by simp, Negra.lines_newline]

theorem byteLines_encode (text : Str) : byteLines (encode text) = (lines text).map .ok := by
  obtain ⟨u, v, rfl, hu, hv⟩ := split_last text
  rw [encode_append, byteLines_after _ u (Nat.le_refl _) hu, lines_split hu, List.map_append]
  congr 1
  unfold byteLines
  rw [byteLinesFrom_last (encode_feed hv), List.nil_append]
  by_cases h : v = []
  · subst h; rw [Negra.lines_nil]; rfl
  · rw [if_neg, Negra.lines_one hv h, decode_encode]; rfl
    intro he
    exact h (encode_inj (b := []) (by rw [he]; rfl))

/-- What is read from the first bytes of a text in UTF-8. -/
theorem byteLines_cut {text : Str} {p : Bytes} (h : p <+: encode text) :
    (∃ q, q <+: text ∧ p = encode q ∧ byteLines p = (lines q).map .ok) ∨
    ∃ u v c r e, u ++ v ++ [c] <+: text ∧ (u = [] ∨ ∃ w, u = w ++ ['\n']) ∧ '\n' ∉ v ∧ p = encode (u ++ v) ++ r ∧ r ≠ [] ∧
      r.length < (String.utf8EncodeChar c).length ∧ byteLines p = (lines u).map .ok ++ [.error e] := by
  obtain ⟨q, hq, rfl | ⟨c, r, h1, rfl, h2, h3, h4⟩⟩ := encode_cut h
  · exact .inl ⟨q, hq, rfl, byteLines_encode q⟩
  · obtain ⟨u, v, rfl, hu, hv⟩ := split_last q
    have hlt : r.length < (String.utf8EncodeChar c).length :=
      Nat.lt_of_le_of_ne h3.length_le fun e => h4 (h3.eq_of_length e)
    have hr : (10 : UInt8) ∉ r := by
      intro hm
      have := line_feed (h3.subset hm)
      subst this
      have : (String.utf8EncodeChar '\n').length = 1 := rfl
      have h0 := List.length_pos_iff.2 h2
      omega
    obtain ⟨e, he⟩ := decode_cut v h3 h2 h4
    refine .inr ⟨u, v, c, r, e, h1, hu, hv, rfl, h2, hlt, ?_⟩
    rw [encode_append, List.append_assoc, byteLines_after _ u (Nat.le_refl _) hu]
    congr 1
    unfold byteLines
    rw [byteLinesFrom_last, List.nil_append, if_neg (by simp [h2]), he]
    simp [encode_feed hv, hr]

end Io

namespace Convert

open Io

theorem stream_lines {f : InFormat} {m : Bool} {ls more : List Str} {ss : List (Option (List Conllx.Token))} {ts : List Tree}
    (h : Stream f m ⟨ls ++ more, ss⟩ (ts.map .ok) true) :
    ∃ k, k ≤ ts.length ∧ Stream f m ⟨ls, ss⟩ ((ts.take k).map .ok) true := by
  obtain ⟨items, b, h1, -, -⟩ := stream_exists f m _ ⟨ls, ss⟩ (Nat.le_refl _)
  obtain ⟨g1, g2⟩ := stream_grows h1 ⟨more, []⟩
  have e : (⟨ls, ss⟩ : Source).followedBy ⟨more, []⟩ = ⟨ls ++ more, ss⟩ := by simp [Source.followedBy]
  rw [e] at g1 g2
  have hb : b = true := by
    cases b with
    | true => rfl
    | false => exact absurd (h.unique (g1 rfl)).2 (by decide)
  subst hb
  obtain ⟨tl, hp⟩ := g2 _ _ h
  refine ⟨items.length, ?_, ?_⟩
  · have := congrArg List.length hp
    simp at this
    omega
  · have : items = (ts.take items.length).map .ok := by
      rw [List.map_take, ← hp, List.take_left]
    rw [← this]; exact h1

/-- A cut within a character is an error after some of the trees. -/
theorem stream_cut {f : InFormat} {m : Bool} {text u more : Str} {ss : List (Option (List Conllx.Token))} {ts : List Tree}
    (hf : f.ByLines) (h : Stream f m ⟨Negra.lines text, ss⟩ (ts.map .ok) true) (hu : u = [] ∨ ∃ w, u = w ++ ['\n'])
    (ht : text = u ++ more) (e : Err) : ∃ k, k ≤ ts.length ∧ Stream f m ⟨Negra.lines u, ss⟩ ((ts.take k).map .ok) true ∧
      StreamIo f m ⟨(Negra.lines u).map .ok ++ [.error e], ss⟩ ((ts.take k).map .ok ++ [.error e]) true := by
  rw [ht, lines_split hu] at h
  obtain ⟨k, hk, g⟩ := stream_lines h
  refine ⟨k, hk, g, (streamIo_error hf g e []).2 rfl [] true ?_⟩
  have : nextIo f m ⟨[], ss⟩ = .ok (none, ⟨[], ss⟩) := by
    cases f with
    | absolute => exact absurd rfl hf.1
    | relative => exact absurd rfl hf.2
    | negra => rfl
    | simple => cases m <;> rfl
    | ptb => cases m <;> rfl
    | tueba => cases m <;> rfl
  exact .stop this

theorem streamIo_exists (f : InFormat) (m : Bool) (inp : Input) : ∃ items b, StreamIo f m inp items b := by
  obtain ⟨ls, ss⟩ := inp
  by_cases hf : f.ByLines
  · induction hk : ls.length using Nat.strongRecOn generalizing ls with
    | ind k ih =>
      have hs : ∃ (a : List Str) (more : List (Except Err Str)), ls = a.map .ok ++ more ∧ Stopped more := by
        clear ih hk
        induction ls with
        | nil => exact ⟨[], [], rfl, .inl rfl⟩
        | cons l ls ih =>
          cases l with
          | error e => exact ⟨[], .error e :: ls, rfl, .inr ⟨e, ls, rfl⟩⟩
          | ok l =>
            obtain ⟨a, more, rfl, h⟩ := ih
            exact ⟨l :: a, more, rfl, h⟩
      obtain ⟨a, more, rfl, rfl | ⟨e, rest, rfl⟩⟩ := hs
      · obtain ⟨items, b, h1, -, -⟩ := stream_exists f m _ ⟨a, ss⟩ (Nat.le_refl _)
        have := streamIo_readable h1
        exact ⟨items, b, by simpa using this⟩
      · obtain ⟨items, b, h1, -, -⟩ := stream_exists f m _ ⟨a, ss⟩ (Nat.le_refl _)
        obtain ⟨g1, g2⟩ := streamIo_error hf h1 e rest
        cases b with
        | false => exact ⟨_, _, g1 rfl⟩
        | true =>
          obtain ⟨items', b', h2⟩ := ih rest.length (by rw [← hk]; simp; omega) rest rfl
          exact ⟨_, _, g2 rfl _ _ h2⟩
  · have key : ∀ dec : List Conllx.Token → Res (Except Err Tree), (∀ s, dec s ≠ .diverge) →
        (∀ inp, nextIo f m inp = fromSentencesIo dec inp) → ∃ items b, StreamIo f m ⟨ls, ss⟩ items b := by
      intro dec hd he
      induction ss with
      | nil => exact ⟨[], true, .stop (inp' := ⟨ls, []⟩) (by rw [he]; rfl)⟩
      | cons s ss ih =>
        obtain ⟨items, b, h⟩ := ih
        cases s with
        | none => exact ⟨_, b, .item (by rw [he]; rfl) h⟩
        | some s =>
          cases hs : dec s with
          | diverge => exact absurd hs (hd s)
          | panic => exact ⟨[], false, .crash (by rw [he]; simp only [fromSentencesIo, hs]; rfl)⟩
          | ok r => exact ⟨r :: items, b, .item (by rw [he]; simp only [fromSentencesIo, hs]; rfl) h⟩
    cases f with
    | absolute => exact key _ (fun s h => by rcases absolute_total s with g | ⟨r, g⟩ | ⟨r, g, -⟩ <;> rw [g] at h <;> cases h) fun _ => rfl
    | relative => exact key _ (fun s h => by rcases relative_total s with g | ⟨r, g⟩ | ⟨r, g, -⟩ <;> rw [g] at h <;> cases h) fun _ => rfl
    | _ => exact absurd (by unfold InFormat.ByLines; simp) hf

end Convert
end Lumberjack
