import Verif.Model.Features
import Mathlib.Order.Basic

/-!
# Lemmas about splitting and joining strings
-/

namespace Lumberjack

theorem splitOn_ne_nil (c : Char) (s : Str) : splitOn c s ≠ [] := by
  cases s with
  | nil => simp [splitOn]
  | cons x xs =>
    simp only [splitOn]
    split
    · simp
    · split <;> simp

theorem splitOn_of_not_mem {c : Char} {s : Str} (h : c ∉ s) : splitOn c s = [s] := by
  induction s with
  | nil => rfl
  | cons x xs ih =>
    simp only [List.mem_cons, not_or] at h
    simp only [splitOn, if_neg (Ne.symm h.1), ih h.2]

theorem splitOn_append {c : Char} {p : Str} (h : c ∉ p) (s : Str) :
    splitOn c (p ++ c :: s) = p :: splitOn c s := by
  induction p with
  | nil => simp [splitOn]
  | cons x xs ih =>
    simp only [List.mem_cons, not_or] at h
    simp only [List.cons_append, splitOn, if_neg (Ne.symm h.1), ih h.2]

theorem splitOn_join {c : Char} {ps : List Str} (hne : ps ≠ []) (h : ∀ p ∈ ps, c ∉ p) :
    splitOn c (join [c] ps) = ps := by
  induction ps with
  | nil => exact absurd rfl hne
  | cons p ps ih =>
    cases ps with
    | nil => exact splitOn_of_not_mem (h p (by simp))
    | cons q qs =>
      simp only [join]
      rw [List.append_assoc, List.singleton_append, splitOn_append (h p (by simp)),
        ih (by simp) (fun r hr => h r (by simp_all))]

theorem join_splitOn (c : Char) (s : Str) : join [c] (splitOn c s) = s := by
  induction s with
  | nil => rfl
  | cons x xs ih =>
    simp only [splitOn]
    split
    · rename_i h
      subst h
      cases h' : splitOn x xs with
      | nil => exact absurd h' (splitOn_ne_nil _ _)
      | cons p ps => simp only [join]; rw [h'] at ih; rw [ih]; rfl
    · cases h' : splitOn c xs with
      | nil => exact absurd h' (splitOn_ne_nil _ _)
      | cons p ps =>
        rw [h'] at ih
        dsimp only
        cases ps with
        | nil => simp only [join] at *; rw [ih]
        | cons q qs => simp only [join] at *; rw [← ih]; simp

theorem not_mem_of_mem_splitOn {c : Char} {s p : Str} (h : p ∈ splitOn c s) : c ∉ p := by
  induction s generalizing p with
  | nil => simp [splitOn] at h; simp [h]
  | cons x xs ih =>
    simp only [splitOn] at h
    split at h
    · rcases List.mem_cons.1 h with rfl | h
      · simp
      · exact ih h
    · rename_i hx
      cases h' : splitOn c xs with
      | nil => exact absurd h' (splitOn_ne_nil _ _)
      | cons q qs =>
        simp only [h'] at h
        rcases List.mem_cons.1 h with rfl | h
        · simp only [List.mem_cons, not_or]
          exact ⟨Ne.symm hx, ih (by simp [h'])⟩
        · exact ih (by simp [h', h])

theorem mem_of_mem_splitOn {c : Char} {s p : Str} (h : p ∈ splitOn c s) : ∀ x ∈ p, x ∈ s := by
  induction s generalizing p with
  | nil => simp [splitOn] at h; simp [h]
  | cons y ys ih =>
    simp only [splitOn] at h
    split at h
    · rcases List.mem_cons.1 h with rfl | h
      · simp
      · intro x hx; exact List.mem_cons_of_mem _ (ih h x hx)
    · cases h' : splitOn c ys with
      | nil => exact absurd h' (splitOn_ne_nil _ _)
      | cons q qs =>
        simp only [h'] at h
        rcases List.mem_cons.1 h with rfl | h
        · intro x hx
          rcases List.mem_cons.1 hx with rfl | hx
          · simp
          · exact List.mem_cons_of_mem _ (ih (by simp [h']) x hx)
        · intro x hx; exact List.mem_cons_of_mem _ (ih (by simp [h', h]) x hx)

theorem mem_join {c : Char} {sep : Str} {ps : List Str} (h : c ∈ join sep ps) :
    c ∈ sep ∨ ∃ p ∈ ps, c ∈ p := by
  induction ps with
  | nil => simp [join] at h
  | cons p ps ih =>
    cases ps with
    | nil => exact .inr ⟨p, by simp, h⟩
    | cons q qs =>
      simp only [join, List.mem_append] at h
      rcases h with (h | h) | h
      · exact .inr ⟨p, by simp, h⟩
      · exact .inl h
      · rcases ih h with h | ⟨r, hr, hc⟩
        · exact .inl h
        · exact .inr ⟨r, by simp_all, hc⟩

theorem join_cons {sep p : Str} {ps : List Str} (h : ps ≠ []) :
    join sep (p :: ps) = p ++ sep ++ join sep ps := by
  cases ps with
  | nil => exact absurd rfl h
  | cons q qs => rfl

end Lumberjack
