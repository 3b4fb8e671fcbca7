import Verif.Proofs.IoBytes

/-!
# The order of the UTF-8 encodings of two texts is the order of their characters
-/

namespace Lumberjack
namespace Io

theorem byte_toNat {v : UInt32} {m : UInt8} (k a : Nat) (s : UInt32) (hm : m.toNat = 2 ^ k - 1) (high : UInt8)
    (hh : high.toNat = 2 ^ k * a) (hs : s.toNat < 32) (hk : k ≤ 8) :
    ((v >>> s).toUInt8 &&& m ||| high).toNat = high.toNat + v.toNat / 2 ^ s.toNat % 2 ^ k := by
  rw [UInt8.toNat_or, UInt8.toNat_and, hm, UInt32.toNat_toUInt8, UInt32.toNat_shiftRight,
    Nat.and_two_pow_sub_one_eq_mod, Nat.mod_eq_of_lt hs, Nat.shiftRight_eq_div_pow, hh, Nat.or_comm,
    ← Nat.two_pow_add_eq_or_of_lt (Nat.mod_lt _ (Nat.two_pow_pos k))]
  congr 1
  exact Nat.mod_mod_of_dvd _ (Nat.pow_dvd_pow 2 hk)

theorem last_toNat {v : UInt32} :
    (v.toUInt8 &&& 63 ||| 128).toNat = 128 + v.toNat % 64 := by
  have h := byte_toNat (v := v) (m := 63) 6 2 0 rfl 128 rfl (by decide) (by decide)
  simpa using h

/-- The bytes of the code point `v`. -/
def natBytes (v : Nat) : List Nat :=
  if v < 128 then [v]
  else if v < 2048 then [192 + v / 64, 128 + v % 64]
  else if v < 65536 then [224 + v / 4096, 128 + v / 64 % 64, 128 + v % 64]
  else [240 + v / 262144, 128 + v / 4096 % 64, 128 + v / 64 % 64, 128 + v % 64]

theorem map_encodeChar (c : Char) : (String.utf8EncodeChar c).map UInt8.toNat = natBytes c.val.toNat := by
  have b3 := fun v => byte_toNat (v := v) (m := 31) 5 6 6 rfl 192 rfl (by decide) (by decide)
  have b4 := fun v => byte_toNat (v := v) (m := 15) 4 14 12 rfl 224 rfl (by decide) (by decide)
  have b5 := fun v => byte_toNat (v := v) (m := 7) 3 30 18 rfl 240 rfl (by decide) (by decide)
  have m6 := fun v => byte_toNat (v := v) (m := 63) 6 2 6 rfl 128 rfl (by decide) (by decide)
  have m12 := fun v => byte_toNat (v := v) (m := 63) 6 2 12 rfl 128 rfl (by decide) (by decide)
  simp only [UInt32.reduceToNat, UInt8.reduceToNat, Nat.reducePow] at b3 b4 b5 m6 m12
  have hmax : c.val.toNat < 1114112 := by
    rcases c.valid with h | h
    · have : c.val.toNat < 55296 := h
      omega
    · exact h.2
  rcases Char.utf8Size_eq c with h | h | h | h
  · have h1 : c.val.toNat ≤ 127 := UInt32.le_iff_toNat_le.1 (Char.utf8Size_eq_one_iff.1 h)
    rw [String.utf8EncodeChar_eq_singleton h, natBytes, if_pos (by omega)]
    simp only [List.map_cons, List.map_nil, UInt32.toNat_toUInt8]
    rw [Nat.mod_eq_of_lt (by omega)]
  · have h1 : 127 < c.val.toNat := UInt32.lt_iff_toNat_lt.1 (Char.utf8Size_eq_two_iff.1 h).1
    have h2 : c.val.toNat ≤ 2047 := UInt32.le_iff_toNat_le.1 (Char.utf8Size_eq_two_iff.1 h).2
    rw [String.utf8EncodeChar_eq_cons_cons h, natBytes, if_neg (by omega), if_pos (by omega)]
    simp only [List.map_cons, List.map_nil, b3, last_toNat]
    rw [Nat.mod_eq_of_lt (by omega)]
  · have h1 : 2047 < c.val.toNat := UInt32.lt_iff_toNat_lt.1 (Char.utf8Size_eq_three_iff.1 h).1
    have h2 : c.val.toNat ≤ 65535 := UInt32.le_iff_toNat_le.1 (Char.utf8Size_eq_three_iff.1 h).2
    rw [String.utf8EncodeChar_eq_cons_cons_cons h, natBytes, if_neg (by omega), if_neg (by omega),
      if_pos (by omega)]
    simp only [List.map_cons, List.map_nil, b4, m6, last_toNat]
    rw [Nat.mod_eq_of_lt (by omega)]
  · have h1 : 65535 < c.val.toNat := UInt32.lt_iff_toNat_lt.1 (Char.utf8Size_eq_four_iff.1 h)
    rw [String.utf8EncodeChar_eq_cons_cons_cons_cons h, natBytes, if_neg (by omega), if_neg (by omega),
      if_neg (by omega)]
    simp only [List.map_cons, List.map_nil, b5, m12, m6, last_toNat]
    rw [Nat.mod_eq_of_lt (by omega)]

theorem natBytes_lt {v w : Nat} (h : v < w) (x y : List Nat) : natBytes v ++ x < natBytes w ++ y := by
  unfold natBytes
  split_ifs <;> simp only [List.cons_append, List.nil_append, List.cons_lt_cons_iff] <;> omega

theorem map_toNat_lt {a b : Bytes} : a.map UInt8.toNat < b.map UInt8.toNat ↔ a < b := by
  induction a generalizing b with
  | nil => cases b <;> simp
  | cons x a ih =>
    cases b with
    | nil => simp
    | cons y b => simp only [List.map_cons, List.cons_lt_cons_iff, ih, UInt8.lt_iff_toNat_lt, UInt8.toNat_inj]

theorem encodeChar_lt {c d : Char} (h : c < d) (x y : Bytes) :
    String.utf8EncodeChar c ++ x < String.utf8EncodeChar d ++ y := by
  rw [← map_toNat_lt, List.map_append, List.map_append, map_encodeChar, map_encodeChar]
  exact natBytes_lt (show c.val.toNat < d.val.toNat from h) _ _

theorem encode_lt_of_lt {a b : Str} (h : a < b) : encode a < encode b := by
  induction a generalizing b with
  | nil =>
    cases b with
    | nil => simp at h
    | cons d b =>
      rw [encode_cons]
      cases hd : String.utf8EncodeChar d with
      | nil => exact absurd hd (encode_ne_nil d)
      | cons z zs => simp [encode]
  | cons c a ih =>
    cases b with
    | nil => simp at h
    | cons d b =>
      rw [encode_cons, encode_cons]
      rcases List.cons_lt_cons_iff.1 h with h1 | ⟨rfl, h1⟩
      · exact encodeChar_lt h1 _ _
      · exact List.append_left_lt (ih h1)

theorem bytes_lt_irrefl (a : Bytes) : ¬ a < a := fun h =>
  lt_irrefl (a.map UInt8.toNat) (map_toNat_lt.2 h)

theorem encode_lt_iff {a b : Str} : encode a < encode b ↔ a < b := by
  refine ⟨fun h => ?_, encode_lt_of_lt⟩
  rcases lt_trichotomy a b with h1 | h1 | h1
  · exact h1
  · exact absurd (h1 ▸ h) (bytes_lt_irrefl _)
  · exact absurd (map_toNat_lt.1 (lt_trans (map_toNat_lt.2 h) (map_toNat_lt.2 (encode_lt_of_lt h1))))
      (bytes_lt_irrefl _)

theorem encode_eq_iff {a b : Str} : encode a = encode b ↔ a = b := by
  refine ⟨fun h => ?_, fun h => h ▸ rfl⟩
  rcases lt_trichotomy a b with h1 | h1 | h1
  · exact absurd (h ▸ encode_lt_of_lt h1) (bytes_lt_irrefl _)
  · exact h1
  · exact absurd (h ▸ encode_lt_of_lt h1) (bytes_lt_irrefl _)

end Io
end Lumberjack
