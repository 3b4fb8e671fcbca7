import Verif.Proofs.NegraText
import Verif.Proofs.Num

/-!
# Rows are read back from their columns
-/

namespace Lumberjack
namespace Negra

open Lumberjack.Tree

/-! ## Rows -/

structure AttachOK (a : Attach) : Prop where
  edge : ∀ s, a.edge = some s → Field s ∧ s ≠ "--".toList
  parent : a.parent < 2 ^ 64
  sec : ∀ s k, a.sec = some (s, k) → Field s ∧ s.head? ≠ some '%' ∧ k < 2 ^ 64

structure TermOK (r : TermRow) : Prop where
  form : Field r.form
  comment : r.form.head? ≠ some '#'
  pos : Field r.pos
  lem : ∀ s, r.lem = some s → Field s ∧ s ≠ "--".toList
  morph : ∀ s, r.morph = some s → Field s ∧ s ≠ "--".toList
  att : AttachOK r.att

structure NtOK (r : NtRow) : Prop where
  id : r.id < 2 ^ 64
  label : ∀ c ∈ r.label, isWs c = false ∧ c ≠ '='
  ann : ∀ s, r.ann = some s → ∀ c ∈ s, isWs c = false ∧ c ≠ '='
  something : r.label ≠ [] ∨ r.ann ≠ none
  att : AttachOK r.att

theorem isWs_digit {c : Char} (h : c.isDigit = true) : isWs c = false := by
  have : 48 ≤ c.toNat ∧ c.toNat ≤ 57 := by
    simp only [Char.isDigit, Bool.and_eq_true, decide_eq_true_eq] at h
    exact ⟨by have := h.1; simpa [UInt32.le_iff_toNat_le] using this,
      by have := h.2; simpa [UInt32.le_iff_toNat_le] using this⟩
  unfold isWs
  generalize c.toNat = n at this
  simp only [Bool.or_eq_false_iff, Bool.and_eq_false_iff, decide_eq_false_iff_not]
  omega

theorem field_natToStr (n : Nat) : Field (natToStr n) := by
  refine ⟨?_, fun c hc => isWs_digit (isDigit_of_mem_natToStr hc)⟩
  obtain ⟨c, cs, h, _⟩ := natToStr_cons n
  simp [h]

theorem field_dashes : Field "--".toList := by unfold Field; decide

theorem field_getD {o : Option Str} (h : ∀ s, o = some s → Field s ∧ s ≠ "--".toList) :
    Field (o.getD "--".toList) ∧ undash (o.getD "--".toList) = o := by
  cases o with
  | none => exact ⟨field_dashes, by simp [undash]⟩
  | some s => exact ⟨(h s rfl).1, by simp only [Option.getD_some, undash, if_neg (h s rfl).2]⟩

theorem AttachOK.fields {a : Attach} (h : AttachOK a) : ∀ c ∈ a.columns, Field c := by
  intro c hc
  unfold Attach.columns at hc
  simp only [List.cons_append, List.nil_append, List.mem_cons] at hc
  rcases hc with rfl | rfl | hc
  · exact (field_getD h.edge).1
  · exact field_natToStr _
  · cases hs : a.sec with
    | none => rw [hs] at hc; cases hc
    | some x =>
      obtain ⟨l, k⟩ := x
      rw [hs] at hc
      simp only [List.mem_cons, List.not_mem_nil, or_false] at hc
      rcases hc with rfl | rfl
      · exact (h.sec _ _ hs).1
      · exact field_natToStr _

theorem not_percent {l : Str} (h : l.head? ≠ some '%') : ['%'].isPrefixOf l = false := by
  cases l with
  | nil => rfl
  | cons c l =>
    have : c ≠ '%' := by rintro rfl; exact h rfl
    simp [List.isPrefixOf, this.symm]

theorem AttachOK.read {a : Attach} (h : AttachOK a) : Attach.read a.columns = some a := by
  unfold Attach.columns
  rw [List.cons_append, List.cons_append, List.nil_append, Attach.read, parseUsize_digits h.parent,
    (field_getD h.edge).2]
  obtain ⟨e, p, s⟩ := a
  cases s with
  | none => rfl
  | some x =>
    obtain ⟨l, k⟩ := x
    have := h.sec _ _ rfl
    simp [readSec, not_percent this.2.1, parseUsize_digits this.2.2]

theorem TermOK.fields {r : TermRow} (h : TermOK r) : ∀ c ∈ r.columns, Field c := by
  intro c hc
  unfold TermRow.columns at hc
  simp only [List.cons_append, List.nil_append, List.mem_cons] at hc
  rcases hc with rfl | rfl | rfl | rfl | hc
  · exact h.form
  · exact (field_getD h.lem).1
  · exact h.pos
  · exact (field_getD h.morph).1
  · exact h.att.fields c hc

theorem TermOK.read {r : TermRow} (h : TermOK r) : TermRow.read r.columns = some r := by
  unfold TermRow.columns
  simp only [List.cons_append, List.nil_append]
  rw [TermRow.read, h.att.read, (field_getD h.lem).2, (field_getD h.morph).2]
  rfl

theorem TermOK.line {r : TermRow} (h : TermOK r) {l : Str} (hl : Columns l r.columns) : IsTermLine l r := by
  unfold IsTermLine
  rw [trim_tight (hl.tight h.fields), hl.splitWs h.fields]
  refine ⟨?_, h.read⟩
  have := Columns.head (c := r.form) hl h.form.1
  cases l with
  | nil => rfl
  | cons c l =>
    have hc : c ≠ '#' := by
      rintro rfl
      exact h.comment this.symm
    simp [List.isPrefixOf, hc.symm]

theorem field_label {r : NtRow} (h : NtOK r) : Field (r.label ++ (match r.ann with | some a => '=' :: a | none => [])) := by
  constructor
  · rcases h.something with h1 | h1
    · simp [h1]
    · cases ha : r.ann with
      | none => exact absurd ha h1
      | some a => simp
  · intro c hc
    rw [List.mem_append] at hc
    rcases hc with hc | hc
    · exact (h.label c hc).1
    · cases ha : r.ann with
      | none => rw [ha] at hc; cases hc
      | some a =>
        rw [ha] at hc
        rcases List.mem_cons.1 hc with rfl | hc
        · decide
        · exact (h.ann a ha c hc).1

theorem NtOK.fields {r : NtRow} (h : NtOK r) : ∀ c ∈ r.columns, Field c := by
  intro c hc
  unfold NtRow.columns at hc
  simp only [List.cons_append, List.nil_append, List.mem_cons] at hc
  rcases hc with rfl | rfl | rfl | rfl | hc
  · refine ⟨by simp, fun x hx => ?_⟩
    rcases List.mem_cons.1 hx with rfl | hx
    · decide
    · exact (field_natToStr _).2 x hx
  · exact field_dashes
  · exact field_label h
  · exact field_dashes
  · exact h.att.fields c hc

theorem split_label {r : NtRow} (h : NtOK r) :
    splitOn '=' (r.label ++ (match r.ann with | some a => '=' :: a | none => [])) = r.label :: r.ann.toList := by
  have h1 : '=' ∉ r.label := fun hm => (h.label _ hm).2 rfl
  cases ha : r.ann with
  | none => simp [splitOn_of_not_mem h1]
  | some a =>
    have h2 : '=' ∉ a := fun hm => (h.ann _ ha _ hm).2 rfl
    simp [splitOn_append h1, splitOn_of_not_mem h2]

theorem NtOK.read {r : NtRow} (h : NtOK r) : NtRow.read r.columns = some r := by
  have hsp := split_label h
  unfold NtRow.columns
  simp only [List.cons_append, List.nil_append]
  rw [NtRow.read]
  simp only [List.drop_succ_cons, List.drop_zero]
  rw [parseUsize_digits h.id, h.att.read]
  obtain ⟨i, l, a, t⟩ := r
  cases a with
  | none => simp only at hsp ⊢; rw [hsp]; rfl
  | some a => simp only at hsp ⊢; rw [hsp]; rfl

theorem NtOK.line {r : NtRow} (h : NtOK r) {l : Str} (hl : Columns l r.columns) : IsNtLine l r := by
  have hf : IsFrame l ↔ (startsWith bos l = true ∨ startsWith eos l = true) := by
    unfold IsFrame
    rw [trim_tight (hl.tight h.fields)]
  unfold IsNtLine
  rw [hf, trim_tight (hl.tight h.fields), hl.splitWs h.fields]
  obtain ⟨d, ds, hd, hdig⟩ := natToStr_cons r.id
  obtain ⟨k, rest, h1, _⟩ : ∃ k rest, l = ('#' :: natToStr r.id) ++ List.replicate (k + 1) ' ' ++ rest ∧ _ := hl
  rw [hd] at h1
  simp only [List.cons_append] at h1
  refine ⟨?_, by rw [h1]; rfl, h.read⟩
  rw [h1]
  have b : d ≠ 'B' := by rintro rfl; revert hdig; decide
  have e : d ≠ 'E' := by rintro rfl; revert hdig; decide
  unfold startsWith bos eos
  simp [b.symm, e.symm]

/-! ## Header and footer -/

theorem splitFirstWs_field {c : Str} (h : Field c) (s : Str) : splitFirstWs (c ++ ' ' :: s) = (c, some s) := by
  have h2 := h.2
  clear h
  induction c with
  | nil => simp [splitFirstWs, isWs]
  | cons x c ih =>
    rw [List.cons_append, splitFirstWs, h2 x (by simp), ih (fun y hy => h2 y (by simp [hy]))]
    simp

theorem splitFirstWs_last {c : Str} (h : Field c) : splitFirstWs c = (c, none) := by
  have h2 := h.2
  clear h
  induction c with
  | nil => rfl
  | cons x c ih =>
    rw [splitFirstWs, h2 x (by simp), ih (fun y hy => h2 y (by simp [hy]))]
    simp

/-- Metadata that can be read back. -/
def Clean (info : Option Str) : Prop := ∀ m, info = some m → m ≠ [] ∧ trim m = m ∧ '\n' ∉ m

theorem field_bos : Field bos := by unfold Field bos; decide
theorem field_eos : Field eos := by unfold Field eos; decide

theorem header_eq (s : Str) (info : Option Str) : header s info = bos ++ ' ' :: (s ++ match info with
    | some m => ' ' :: ' ' :: m
    | none => []) := by
  cases info <;> simp [header, bos]

theorem footer_eq (s : Str) : footer s = eos ++ ' ' :: s := by simp [footer, eos]

theorem header_tight (id : Nat) {info : Option Str} (h : Clean info) : Tight (header (natToStr id) info) := by
  rw [header_eq]
  refine ⟨fun c hc => ?_, fun c hc => ?_⟩
  · refine field_bos.tight.1 c ?_
    have : bos ≠ [] := field_bos.1
    rwa [List.head?_append_of_ne_nil _ this] at hc
  · cases info with
    | none =>
      refine (field_natToStr id).tight.2 c ?_
      simp only [List.append_nil] at hc
      rw [List.getLast?_append_of_ne_nil _ (by simp), List.getLast?_cons_of_ne_nil (field_natToStr id).1] at hc
      exact hc
    | some m =>
      obtain ⟨h1, h2, _⟩ := h m rfl
      refine (tight_trim h2).2 c ?_
      simp only at hc
      rw [List.getLast?_append_of_ne_nil _ (by simp), List.getLast?_cons_of_ne_nil (by simp),
        List.getLast?_append_of_ne_nil _ (by simp), List.getLast?_cons_of_ne_nil (by simp),
        List.getLast?_cons_of_ne_nil h1] at hc
      exact hc

theorem header_no_newline (id : Nat) {info : Option Str} (h : Clean info) : '\n' ∉ header (natToStr id) info := by
  have hn : '\n' ∉ natToStr id := not_mem_natToStr (by decide)
  rw [header_eq]
  cases info with
  | none => simp [hn, bos]
  | some m => simp [hn, bos, (h m rfl).2.2]

theorem trim_space {m : Str} (h : trim m = m) : trim (' ' :: m) = m := by
  unfold trim at h ⊢
  rw [List.dropWhile_cons, if_pos (by decide), h]

theorem header_opens {id : Nat} (hid : id < 2 ^ 64) {info : Option Str} (h : Clean info) :
    Opens (header (natToStr id) info) id info := by
  unfold Opens
  rw [trim_tight (header_tight id h), header_eq]
  refine ⟨?_, bos, natToStr id, info.toList.map (fun m => ' ' :: m), ?_, parseUsize_digits hid, ?_⟩
  · unfold startsWith
    simp
  · unfold splitn3
    rw [splitFirstWs_field field_bos]
    cases info with
    | none => simp [splitFirstWs_last (field_natToStr id)]
    | some m => simp [splitFirstWs_field (field_natToStr id)]
  · cases info with
    | none => rfl
    | some m => simp [trim_space (h m rfl).2.1]

theorem footer_tight (id : Nat) : Tight (footer (natToStr id)) := by
  rw [footer_eq]
  refine ⟨fun c hc => ?_, fun c hc => ?_⟩
  · refine field_eos.tight.1 c ?_
    rwa [List.head?_append_of_ne_nil _ field_eos.1] at hc
  · refine (field_natToStr id).tight.2 c ?_
    rw [List.getLast?_append_of_ne_nil _ (by simp), List.getLast?_cons_of_ne_nil (field_natToStr id).1] at hc
    exact hc

theorem footer_no_newline (id : Nat) : '\n' ∉ footer (natToStr id) := by
  have hn : '\n' ∉ natToStr id := not_mem_natToStr (by decide)
  rw [footer_eq]
  simp [hn, eos]

theorem footer_closes (id : Nat) : Closes (footer (natToStr id)) id := by
  unfold Closes
  rw [trim_tight (footer_tight id), footer_eq]
  refine ⟨by unfold startsWith; simp, ?_⟩
  rw [splitWs_field field_eos, splitWs_last (field_natToStr id)]
  rfl

end Negra
end Lumberjack
