import Verif.Proofs.Truncate
import Verif.Spec.Truncate

/-!
# The lines of a text
-/

namespace Lumberjack
namespace Negra

theorem stripCr_ended {l e : Str} (h : EndedLine l e) (s : Str) : lines (l ++ e ++ s) = l :: lines s := by
  obtain ⟨h1, rfl | ⟨rfl, h2⟩⟩ := h
  · have : '\n' ∉ l ++ ['\r'] := by simp [h1]
    rw [show l ++ ['\r', '\n'] ++ s = (l ++ ['\r']) ++ '\n' :: s by simp, lines_cons this]
    congr 1
    unfold stripCr
    rw [if_pos (by simp), List.dropLast_concat]
  · rw [show l ++ ['\n'] ++ s = l ++ '\n' :: s by simp, lines_cons h1]
    congr 1
    unfold stripCr
    rw [if_neg h2]

theorem lines_ended {ls : List (Str × Str)} (h : ∀ x ∈ ls, EndedLine x.1 x.2) (last : Str) (hl : '\n' ∉ last) :
    lines (endedText ls ++ last) = ls.map (·.1) ++ if last = [] then [] else [last] := by
  induction ls with
  | nil =>
    simp only [endedText, List.flatMap_nil, List.nil_append, List.map_nil]
    split
    · next h => rw [h, lines_nil]
    · next h => rw [lines_one hl h]
  | cons x ls ih =>
    have e : endedText (x :: ls) ++ last = x.1 ++ x.2 ++ (endedText ls ++ last) := by simp [endedText]
    rw [e, stripCr_ended (h x (by simp)), ih fun y hy => h y (by simp [hy])]
    rfl

/-- Every text consists of lines with endings and a rest. -/
theorem ended_exists (text : Str) : ∃ ls last, text = endedText ls ++ last ∧ (∀ x ∈ ls, EndedLine x.1 x.2) ∧ '\n' ∉ last := by
  induction hn : text.length using Nat.strong_induction_on generalizing text with
  | _ n ih =>
    rcases split_line text with h | ⟨a, r, ha, rfl⟩
    · exact ⟨[], text, by simp [endedText], by simp, h⟩
    · obtain ⟨ls, last, rfl, h1, h2⟩ := ih r.length (by rw [← hn]; simp; omega) r rfl
      by_cases hc : a.getLast? = some '\r'
      · obtain ⟨b, rfl⟩ := List.getLast?_eq_some_iff.1 hc
        refine ⟨(b, ['\r', '\n']) :: ls, last, by simp [endedText], ?_, h2⟩
        intro x hx
        rcases List.mem_cons.1 hx with rfl | hx
        · exact ⟨fun h => ha (by simp [h]), .inl rfl⟩
        · exact h1 x hx
      · refine ⟨(a, ['\n']) :: ls, last, by simp [endedText], ?_, h2⟩
        intro x hx
        rcases List.mem_cons.1 hx with rfl | hx
        · exact ⟨ha, .inr ⟨rfl, hc⟩⟩
        · exact h1 x hx

theorem lines_newline (q r : Str) : lines (q ++ '\n' :: r) = lines (q ++ ['\n']) ++ lines r := by
  induction hn : q.length using Nat.strong_induction_on generalizing q with
  | _ n ih =>
    rcases split_line q with h | ⟨a, b, ha, rfl⟩
    · rw [lines_cons h, lines_cons h, lines_nil]; rfl
    · rw [List.append_assoc, List.append_assoc, List.cons_append, List.cons_append, lines_cons ha, lines_cons ha,
        ih b.length (by rw [← hn]; simp; omega) b rfl]
      rfl

end Negra
end Lumberjack
