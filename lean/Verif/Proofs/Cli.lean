import Verif.Spec.Cli
import Verif.Proofs.NegraExport

/-!
# The command line: words of a file, format names
-/

namespace Lumberjack
namespace Negra

/-! ## Words of a text -/

theorem splitWs_word {c : Str} (h : Field c) {d : Char} (hd : isWs d = true) (s : Str) :
    splitWs (c ++ d :: s) = c :: splitWs s := by
  obtain ⟨h1, h2⟩ := h
  induction c with
  | nil => exact absurd rfl h1
  | cons x c ih =>
    have hx := h2 x (by simp)
    cases c with
    | nil =>
      have hsp : splitWs (d :: s) = splitWs s := splitWs_ws hd s
      rw [List.singleton_append, splitWs]
      simp only [hx, Bool.false_eq_true, if_false]
      rw [if_pos hd, hsp]
    | cons y c =>
      have hy := h2 y (by simp)
      have hr := ih (by simp) (fun z hz => h2 z (by simp [hz]))
      rw [List.cons_append, List.cons_append, splitWs]
      simp only [hx, hy, Bool.false_eq_true, if_false]
      rw [List.cons_append] at hr
      rw [hr]

/-- The first word of a text which does not start with white space. -/
theorem first_word {x : Char} (s : Str) (hx : isWs x = false) : ∃ w b, x :: s = w ++ b ∧ Field w ∧
    (b = [] ∨ ∃ d b', b = d :: b' ∧ isWs d = true) := by
  refine ⟨(x :: s).takeWhile (fun c => !isWs c), (x :: s).dropWhile (fun c => !isWs c),
    List.takeWhile_append_dropWhile.symm, ⟨?_, ?_⟩, ?_⟩
  · simp [hx]
  · intro c hc
    simpa using List.mem_takeWhile_imp hc
  · cases hb : (x :: s).dropWhile (fun c => !isWs c) with
    | nil => exact .inl rfl
    | cons d b =>
      refine .inr ⟨d, b, rfl, ?_⟩
      have := List.head?_dropWhile_not (fun c => !isWs c) (x :: s)
      rw [hb] at this
      simpa using this

theorem splitWs_first_word {w b : Str} (hw : Field w) (hb : b = [] ∨ ∃ d b', b = d :: b' ∧ isWs d = true) :
    splitWs (w ++ b) = w :: splitWs b := by
  rcases hb with rfl | ⟨d, b, rfl, hd⟩
  · rw [List.append_nil, splitWs_last hw]; rfl
  · rw [splitWs_word hw hd, splitWs_ws hd]

end Negra

namespace Convert

open Negra

theorem isWordOf_of_mem : ∀ (k : Nat) (s q : Str), s.length ≤ k → q ∈ splitWs s → IsWordOf q s := by
  intro k
  induction k with
  | zero =>
    intro s q hs h
    rw [List.length_eq_zero_iff.1 (Nat.le_zero.1 hs)] at h
    cases h
  | succ k ih =>
    intro s q hs h
    cases s with
    | nil => cases h
    | cons x s =>
      by_cases hx : isWs x = true
      · rw [splitWs_ws hx] at h
        obtain ⟨h1, h2, a, b, rfl, h3, h4⟩ := ih s q (by simpa using hs) h
        refine ⟨h1, h2, x :: a, b, rfl, fun c hc => ?_, h4⟩
        cases a with
        | nil => simp at hc; exact hc ▸ hx
        | cons y a => rw [List.getLast?_cons_cons] at hc; exact h3 c hc
      · obtain ⟨w, b, e, hw, hb⟩ := first_word s (by simpa using hx)
        rw [e, splitWs_first_word hw hb] at h
        rw [e]
        rcases List.mem_cons.1 h with rfl | h
        · refine ⟨hw.1, hw.2, [], b, rfl, by simp, fun c hc => ?_⟩
          rcases hb with rfl | ⟨d, b, rfl, hd⟩
          · cases hc
          · simp at hc; exact hc ▸ hd
        · have hl : b.length ≤ k := by
            have := congrArg List.length e
            have := List.length_pos_of_ne_nil hw.1
            simp at *; omega
          obtain ⟨h1, h2, a', b', rfl, h3, h4⟩ := ih b q hl h
          refine ⟨h1, h2, w ++ a', b', by simp, fun c hc => ?_, h4⟩
          cases a' with
          | nil =>
            cases q with
            | nil => exact absurd rfl h1
            | cons z q =>
              rcases hb with hb | ⟨d, b, hb, hd⟩
              · simp at hb
              · simp at hb
                rw [← hb.1, h2 z (by simp)] at hd
                cases hd
          | cons y a' =>
            rw [List.getLast?_append] at hc
            exact h3 c (by simpa using hc)

theorem mem_of_isWordOf : ∀ (k : Nat) (a q b : Str), a.length ≤ k → Field q →
    (∀ c, a.getLast? = some c → isWs c = true) → (∀ c, b.head? = some c → isWs c = true) →
    q ∈ splitWs (a ++ q ++ b) := by
  have base : ∀ q b : Str, Field q → (∀ c, b.head? = some c → isWs c = true) → q ∈ splitWs (q ++ b) := by
    intro q b hq hb
    rw [splitWs_first_word hq]
    · exact List.mem_cons_self
    · cases b with
      | nil => exact .inl rfl
      | cons d b => exact .inr ⟨d, b, rfl, hb d rfl⟩
  intro k
  induction k with
  | zero =>
    intro a q b ha hq _ hb
    rw [List.length_eq_zero_iff.1 (Nat.le_zero.1 ha)]
    exact base q b hq hb
  | succ k ih =>
    intro a q b ha hq hl hb
    cases a with
    | nil => exact base q b hq hb
    | cons x a =>
      have tail : ∀ {u v : Str} {y : Char}, x :: a = u ++ y :: v → ∀ c, v.getLast? = some c → isWs c = true := by
        intro u v y e c hc
        refine hl c ?_
        rw [e, List.getLast?_append, List.getLast?_cons, hc]
        rfl
      by_cases hx : isWs x = true
      · rw [List.cons_append, List.cons_append, splitWs_ws hx]
        exact ih a q b (by simpa using ha) hq (tail (u := []) rfl) hb
      · obtain ⟨w, v, e, hw, hv⟩ := first_word a (by simpa using hx)
        rcases hv with rfl | ⟨d, v, rfl, hd⟩
        · have : ∃ c, (x :: a).getLast? = some c := ⟨_, List.getLast?_eq_some_getLast (by simp)⟩
          obtain ⟨c, hc⟩ := this
          have h1 := hl c hc
          have h2 := hw.2 c (by rw [← List.append_nil w, ← e]; exact List.mem_of_getLast? hc)
          rw [h2] at h1; cases h1
        · rw [e, List.append_assoc, List.append_assoc, List.cons_append, splitWs_word hw hd]
          refine List.mem_cons_of_mem _ ?_
          have := ih v q b (by have := congrArg List.length e; simp at *; omega) hq (tail e) hb
          rwa [List.append_assoc] at this

theorem mem_splitWs {q s : Str} : q ∈ splitWs s ↔ IsWordOf q s := by
  refine ⟨isWordOf_of_mem _ s q le_rfl, ?_⟩
  rintro ⟨h1, h2, a, b, rfl, h3, h4⟩
  exact mem_of_isWordOf _ a q b le_rfl ⟨h1, h2⟩ h3 h4

theorem setFromText_matches {q s : Str} : (setFromText s).matches q = true ↔ IsWordOf q s := by
  rw [← mem_splitWs]
  simp [setFromText, LabelSet.matches]

/-! ## Format names -/

theorem sameButCase_iff {s t : Str} : SameButCase s t ↔ lower s = lower t := by
  induction s generalizing t with
  | nil => cases t <;> simp [SameButCase, lower]
  | cons c s ih =>
    cases t with
    | nil => simp [SameButCase, lower]
    | cons d t =>
      have := ih (t := t)
      simp only [SameButCase, lower, List.forall₂_cons, List.map_cons, List.cons.injEq] at this ⊢
      rw [this]

theorem in_parse {s : Str} {f : InFormat} : InFormat.parse s = some f ↔ SameButCase s f.name := by
  rw [sameButCase_iff]
  have e : lower f.name = f.name := by cases f <;> decide
  rw [e]
  unfold InFormat.parse
  simp only
  generalize lower s = s
  constructor
  · intro h
    split at h
    · simp at h; subst h; assumption
    split at h
    · simp at h; subst h; assumption
    split at h
    · simp at h; subst h; assumption
    split at h
    · simp at h; subst h; assumption
    split at h
    · simp at h; subst h; assumption
    split at h
    · simp at h; subst h; assumption
    cases h
  · rintro rfl
    cases f <;> decide

theorem out_parse {s : Str} {f : OutFormat} : OutFormat.parse s = some f ↔ SameButCase s f.name := by
  rw [sameButCase_iff]
  have e : lower f.name = f.name := by cases f <;> decide
  rw [e]
  unfold OutFormat.parse
  simp only
  generalize lower s = s
  constructor
  · intro h
    split at h
    · simp at h; subst h; assumption
    split at h
    · simp at h; subst h; assumption
    split at h
    · simp at h; subst h; assumption
    split at h
    · simp at h; subst h; assumption
    split at h
    · simp at h; subst h; assumption
    split at h
    · simp at h; subst h; assumption
    split at h
    · simp at h; subst h; assumption
    cases h
  · rintro rfl
    cases f <;> decide

theorem SameButCase.refl (s : Str) : SameButCase s s := sameButCase_iff.2 rfl

theorem mem_inNames {s : Str} : inNames.contains s = true ↔ ∃ f : InFormat, s = f.name := by
  constructor
  · intro h
    simp only [inNames, List.contains_iff_mem, List.mem_cons, List.not_mem_nil, or_false] at h
    rcases h with rfl | rfl | rfl | rfl | rfl | rfl
    exacts [⟨.absolute, rfl⟩, ⟨.negra, rfl⟩, ⟨.ptb, rfl⟩, ⟨.relative, rfl⟩, ⟨.simple, rfl⟩, ⟨.tueba, rfl⟩]
  · rintro ⟨f, rfl⟩
    cases f <;> decide

theorem mem_outNames {s : Str} : outNames.contains s = true ↔ ∃ f : OutFormat, s = f.name := by
  constructor
  · intro h
    simp only [outNames, List.contains_iff_mem, List.mem_cons, List.not_mem_nil, or_false] at h
    rcases h with rfl | rfl | rfl | rfl | rfl | rfl | rfl
    exacts [⟨.absolute, rfl⟩, ⟨.conllx, rfl⟩, ⟨.negra, rfl⟩, ⟨.ptb, rfl⟩, ⟨.relative, rfl⟩, ⟨.simple, rfl⟩,
      ⟨.tueba, rfl⟩]
  · rintro ⟨f, rfl⟩
    cases f <;> decide

theorem value_getD (g : Option Str) (d : Str) : Value g d (g.getD d) := by
  cases g with
  | none => exact .inr ⟨rfl, rfl⟩
  | some s => exact .inl rfl

theorem Value.eq {g : Option Str} {d v : Str} (h : Value g d v) : g.getD d = v := by
  rcases h with rfl | ⟨rfl, rfl⟩ <;> rfl

/-! ## Runs -/

theorem readSet_ok {file : Option (Option Str)} (h : file ≠ some none) :
    ∃ s, readSet file = .ok s ∧ SetMeans file s := by
  match file with
  | none => exact ⟨none, rfl, .inl ⟨rfl, rfl⟩⟩
  | some none => exact absurd rfl h
  | some (some text) =>
    exact ⟨_, rfl, .inr ⟨text, _, rfl, rfl, fun q => setFromText_matches⟩⟩

theorem options_ok {c : Cli} {f : InFormat} {out : OutFormat} (hi : Value c.inFormat "tueba".toList f.name)
    (ho : Value c.outFormat "simple".toList out.name) (hs : c.secEdges = true → c.projectivize = true)
    (h1 : c.filter ≠ some none) (h2 : c.idSet ≠ some none) (h3 : c.insertionSet ≠ some none) :
    ∃ o, c.options out = .ok o ∧ c.Means f o ∧ o.out = out := by
  obtain ⟨s1, e1, m1⟩ := readSet_ok h1
  obtain ⟨s2, e2, m2⟩ := readSet_ok h2
  obtain ⟨s3, e3, m3⟩ := readSet_ok h3
  refine ⟨_, by unfold Cli.options; rw [e1, e2, e3]; rfl, ?_, rfl⟩
  exact ⟨hi, ho, rfl, rfl, rfl, rfl, rfl, hs, m1, m2, value_getD _ _, m3, value_getD _ _⟩

theorem options_panic {c : Cli} (out : OutFormat)
    (h : c.filter = some none ∨ c.idSet = some none ∨ c.insertionSet = some none) :
    c.options out = .panic := by
  unfold Cli.options
  rcases hf : c.filter with _ | _ | s1 <;> rcases hi : c.idSet with _ | _ | s2 <;>
    rcases hs : c.insertionSet with _ | _ | s3 <;> first | rfl | (rw [hf, hi, hs] at h; simp at h)

theorem allowed_iff {c : Cli} : c.allowed = true ↔ (∃ f : InFormat, Value c.inFormat "tueba".toList f.name) ∧
    (∃ f : OutFormat, Value c.outFormat "simple".toList f.name) ∧ (c.secEdges = true → c.projectivize = true) := by
  have hi : inNames.contains c.inName = true ↔ ∃ f : InFormat, Value c.inFormat "tueba".toList f.name := by
    rw [mem_inNames]
    constructor
    · rintro ⟨f, hf⟩; exact ⟨f, hf ▸ value_getD _ _⟩
    · rintro ⟨f, hf⟩; exact ⟨f, hf.eq⟩
  have ho : outNames.contains c.outName = true ↔ ∃ f : OutFormat, Value c.outFormat "simple".toList f.name := by
    rw [mem_outNames]
    constructor
    · rintro ⟨f, hf⟩; exact ⟨f, hf ▸ value_getD _ _⟩
    · rintro ⟨f, hf⟩; exact ⟨f, hf.eq⟩
  rw [Cli.allowed, Bool.and_eq_true, Bool.and_eq_true, hi, ho, and_assoc]
  cases c.secEdges <;> simp

end Convert
end Lumberjack
