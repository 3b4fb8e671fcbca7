import Verif.Proofs.NegraWrite
import Verif.Proofs.NegraRead
import Verif.Spec.NegraTrip

/-!
# Reading back columns and lines
-/

namespace Lumberjack
namespace Negra

open Lumberjack.Tree

/-! ## Columns -/

theorem splitWs_ws {c : Char} (h : isWs c = true) (s : Str) : splitWs (c :: s) = splitWs s := by
  cases s <;> simp [splitWs, h]

theorem splitWs_field {c : Str} (h : Field c) (s : Str) :
    splitWs (c ++ ' ' :: s) = c :: splitWs s := by
  obtain ⟨h1, h2⟩ := h
  induction c with
  | nil => exact absurd rfl h1
  | cons x c ih =>
    have hx := h2 x (by simp)
    cases c with
    | nil =>
      have hsp : splitWs (' ' :: s) = splitWs s := splitWs_ws (by decide) s
      rw [List.singleton_append, splitWs]
      · simp only [hx, Bool.false_eq_true, if_false]
        rw [if_pos (by decide), hsp]
    | cons y c =>
      have hy := h2 y (by simp)
      have hr := ih (by simp) (fun z hz => h2 z (by simp [hz]))
      rw [List.cons_append, List.cons_append, splitWs]
      simp only [hx, hy, Bool.false_eq_true, if_false]
      rw [List.cons_append] at hr
      rw [hr]

theorem splitWs_last {c : Str} (h : Field c) : splitWs c = [c] := by
  obtain ⟨h1, h2⟩ := h
  induction c with
  | nil => exact absurd rfl h1
  | cons x c ih =>
    have hx := h2 x (by simp)
    cases c with
    | nil => rw [splitWs]; simp [hx]
    | cons y c =>
      have hy := h2 y (by simp)
      have hr := ih (by simp) (fun z hz => h2 z (by simp [hz]))
      rw [splitWs]
      simp only [hx, hy, Bool.false_eq_true, if_false]
      rw [hr]

theorem splitWs_spaces (k : Nat) (s : Str) : splitWs (List.replicate k ' ' ++ s) = splitWs s := by
  induction k with
  | zero => rfl
  | succ k ih => rw [List.replicate_succ, List.cons_append, splitWs_ws (by decide), ih]

theorem Columns.splitWs {l : Str} {cs : List Str} (hc : Columns l cs) (h : ∀ c ∈ cs, Field c) :
    splitWs l = cs := by
  induction cs generalizing l with
  | nil => rw [show l = [] from hc]; rfl
  | cons c cs ih =>
    cases cs with
    | nil => rw [show l = c from hc]; exact splitWs_last (h c (by simp))
    | cons d cs =>
      obtain ⟨k, rest, h1, h2⟩ := hc
      rw [h1, List.replicate_succ, List.append_assoc, List.cons_append, splitWs_field (h c (by simp)), splitWs_spaces,
        ih h2 (fun x hx => h x (by simp [hx]))]

/-- A text that neither begins nor ends with whitespace. -/
def Tight (s : Str) : Prop := (∀ c, s.head? = some c → isWs c = false) ∧ ∀ c, s.getLast? = some c → isWs c = false

theorem dropWhile_head {s : Str} (h : ∀ c, s.head? = some c → isWs c = false) : s.dropWhile isWs = s := by
  cases s with
  | nil => rfl
  | cons x s => rw [List.dropWhile_cons, h x rfl]; simp

theorem trim_tight {s : Str} (h : Tight s) : trim s = s := by
  unfold trim
  rw [dropWhile_head h.1, dropWhile_head (by simpa using h.2), List.reverse_reverse]

theorem tight_trim {s : Str} (h : trim s = s) : Tight s := by
  have hd : ∀ (l : Str) c, (l.dropWhile isWs).head? = some c → isWs c = false := by
    intro l c hc
    have := List.head?_dropWhile_not isWs l
    rw [hc] at this
    simpa using this
  refine ⟨fun c hc => ?_, fun c hc => ?_⟩
  · have h0 : s <+: s.dropWhile isWs := by
      conv_lhs => rw [← h]
      unfold trim
      rw [← List.reverse_suffix, List.reverse_reverse]
      exact List.dropWhile_suffix _
    obtain ⟨r, hr⟩ := h0
    refine hd s c ?_
    rw [← hr]
    cases s with
    | nil => cases hc
    | cons x s => simpa using hc
  · rw [← h] at hc
    unfold trim at hc
    rw [List.getLast?_reverse] at hc
    exact hd _ _ hc

theorem Field.tight {c : Str} (h : Field c) : Tight c :=
  ⟨fun x hx => h.2 x (List.mem_of_mem_head? hx), fun x hx => h.2 x (List.mem_of_mem_getLast? hx)⟩

theorem Columns.head {l : Str} {c : Str} {cs : List Str} (hc : Columns l (c :: cs)) (h : c ≠ []) :
    l.head? = c.head? := by
  cases cs with
  | nil => rw [show l = c from hc]
  | cons d cs =>
    obtain ⟨k, rest, h1, h2⟩ := hc
    rw [h1, List.append_assoc]
    cases c with
    | nil => exact absurd rfl h
    | cons x c => rfl

theorem Columns.ne_nil {l : Str} {c : Str} {cs : List Str} (hc : Columns l (c :: cs)) (h : c ≠ []) : l ≠ [] := by
  intro hl
  have := hc.head h
  rw [hl] at this
  cases c with
  | nil => exact h rfl
  | cons => cases this

theorem Columns.tight {l : Str} {cs : List Str} (hc : Columns l cs) (h : ∀ c ∈ cs, Field c) : Tight l := by
  induction cs generalizing l with
  | nil => rw [show l = [] from hc]; exact ⟨by simp, by simp⟩
  | cons c cs ih =>
    cases cs with
    | nil => rw [show l = c from hc]; exact (h c (by simp)).tight
    | cons d cs =>
      have hf := h c (by simp)
      refine ⟨fun x hx => hf.tight.1 x (by rwa [hc.head hf.1] at hx), ?_⟩
      obtain ⟨k, rest, h1, h2⟩ := hc
      have hr := h2.ne_nil (h d (by simp)).1
      have ht := ih h2 (fun x hx => h x (by simp [hx]))
      intro x hx
      rw [h1, List.getLast?_append_of_ne_nil _ hr] at hx
      exact ht.2 x hx

theorem Columns.no_newline {l : Str} {cs : List Str} (hc : Columns l cs) (h : ∀ c ∈ cs, Field c) : '\n' ∉ l := by
  have hf : ∀ c, Field c → '\n' ∉ c := fun c hc hm => absurd (hc.2 _ hm) (by decide)
  induction cs generalizing l with
  | nil => rw [show l = [] from hc]; simp
  | cons c cs ih =>
    cases cs with
    | nil => rw [show l = c from hc]; exact hf _ (h c (by simp))
    | cons d cs =>
      obtain ⟨k, rest, h1, h2⟩ := hc
      have := ih h2 (fun x hx => h x (by simp [hx]))
      rw [h1]
      simp only [List.mem_append, List.mem_replicate, not_or]
      exact ⟨⟨hf _ (h c (by simp)), fun h => absurd h.2 (by decide)⟩, this⟩

/-! ## Lines -/

theorem stripCr_tight {s : Str} (h : Tight s) : stripCr s = s := by
  unfold stripCr
  rw [if_neg]
  intro hl
  exact absurd (h.2 _ hl) (by decide)

theorem splitOn_unlines {ls : List Str} (h : ∀ l ∈ ls, '\n' ∉ l) : splitOn '\n' (unlines ls) = ls ++ [[]] := by
  induction ls with
  | nil => rfl
  | cons l ls ih =>
    have : unlines (l :: ls) = l ++ '\n' :: unlines ls := by simp [unlines]
    rw [this, splitOn_append (h l (by simp)), ih (fun x hx => h x (by simp [hx]))]
    rfl

theorem lines_unlines {ls : List Str} (h : ∀ l ∈ ls, '\n' ∉ l ∧ Tight l) : lines (unlines ls) = ls := by
  unfold lines
  rw [splitOn_unlines (fun l hl => (h l hl).1)]
  have : ls ++ [[]] ≠ [] := by simp
  cases hp : ls ++ [([] : Str)] with
  | nil => exact absurd hp this
  | cons a as =>
    simp only
    rw [← hp]
    simp only [List.dropLast_concat, List.getLast?_concat, List.append_nil]
    rw [List.map_congr_left (fun l hl => stripCr_tight (h l hl).2), List.map_id']

theorem unlines_append (a b : List Str) : unlines (a ++ b) = unlines a ++ unlines b := by simp [unlines]

end Negra
end Lumberjack
