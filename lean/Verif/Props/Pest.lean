import Verif.Proofs.Pest
import Verif.Proofs.PtbParse

/-!
# Property C63: the parser follows the grammar file

`Pest.Parses` is the parser pest generates from ptb.pest; `Reads` says which texts are bracketings
without reference to the grammar.
-/

namespace Lumberjack.Props

open Lumberjack.Bracketed Lumberjack.Ptb

/-- C63: for every text the grammar has an outcome, and only one. -/
theorem C63_one_outcome (s : Str) : ∃ o, Pest.Parses s o ∧ ∀ o', Pest.Parses s o' → o' = o := by
  have h : ∃ o, Pest.Parses s o := by
    have := Pest.parse_runs s
    cases hp : parsePairs s with
    | none => rw [hp] at this; exact ⟨_, this⟩
    | some p => rw [hp] at this; obtain ⟨q, -, h⟩ := this; exact ⟨_, h⟩
  obtain ⟨o, x, hx, rfl⟩ := h
  refine ⟨_, ⟨x, hx, rfl⟩, ?_⟩
  rintro o' ⟨x', hx', rfl⟩
  rw [hx.det hx']

/-- C63: a text matches the grammar exactly if it is one bracketing; the pairs are those of the
bracketing, followed by that of the end of the input. -/
theorem C63_matches (s : Str) :
    ((∃ ps, Pest.Parses s (some ps)) ↔ ∃ b, Brackets.Single b ∧ Reads s b) ∧
    ∀ b, Brackets.Single b → Reads s b → ∀ ps, Pest.Parses s (some ps) →
      ∃ q, Pest.Stand [q] b ∧ ps = [q, .eoi] := by
  obtain ⟨o, ho, hu⟩ := C63_one_outcome s
  have hr := Pest.parse_runs s
  refine ⟨⟨?_, ?_⟩, ?_⟩
  · rintro ⟨ps, hps⟩
    cases hp : parsePairs s with
    | none =>
      rw [hp] at hr
      have := (hu _ hr).trans (hu _ hps).symm
      cases this
    | some p => exact ⟨_, Ptb.single_br p, Ptb.parsePairs_sound hp⟩
  · rintro ⟨b, hb, h⟩
    obtain ⟨p, hp, rfl⟩ := Ptb.parsePairs_complete h hb
    rw [hp] at hr
    obtain ⟨q, -, h⟩ := hr
    exact ⟨_, h⟩
  · intro b hb h ps hps
    obtain ⟨p, hp, rfl⟩ := Ptb.parsePairs_complete h hb
    rw [hp] at hr
    obtain ⟨q, hq, h'⟩ := hr
    have := (hu _ hps).trans (hu _ h').symm
    simp at this
    exact ⟨q, hq, this⟩

/-- C63: `string_to_tree` gives a tree if the text matches the grammar, and an error otherwise; the tree
is the one the pairs stand for. -/
theorem C63_string_to_tree (f : Format) (s : Str) :
    ((∃ t, stringToTree f s = .ok (.ok t)) ↔ ∃ ps, Pest.Parses s (some ps)) ∧
    ((∃ e, stringToTree f s = .ok (.error e)) ↔ Pest.Parses s none) ∧
    ∀ q b, Pest.Parses s (some [q, .eoi]) → Pest.Stand [q] b → ∃ t, stringToTree f s = .ok (.ok t) ∧ t.WF ∧
      t.Is ((b.forest f 0).setTop none) := by
  obtain ⟨o, ho, hu⟩ := C63_one_outcome s
  obtain ⟨h1, h2⟩ := C63_matches s
  by_cases h : ∃ b, Brackets.Single b ∧ Reads s b
  · obtain ⟨b, hb, hr⟩ := h
    obtain ⟨t, ht, W, -, hF⟩ := Ptb.stringToTree_ok (f := f) hr hb
    obtain ⟨ps, hps⟩ := h1.2 ⟨b, hb, hr⟩
    refine ⟨⟨fun _ => ⟨ps, hps⟩, fun _ => ⟨t, ht⟩⟩, ⟨?_, fun h => ?_⟩, fun q b' hq hb' => ?_⟩
    · rintro ⟨e, he⟩; rw [ht] at he; cases he
    · have := (hu _ h).trans (hu _ hps).symm; cases this
    · refine ⟨t, ht, W, ?_⟩
      obtain ⟨q', hq', e⟩ := h2 b hb hr _ hq
      simp at e
      subst e
      rwa [hq'.det hb']
  · have he := Ptb.stringToTree_err (f := f) h
    have hn : Pest.Parses s none := by
      cases o with
      | none => exact ho
      | some ps => exact absurd (h1.1 ⟨ps, ho⟩) h
    refine ⟨⟨?_, fun hp => absurd (h1.1 hp) h⟩, ⟨fun _ => hn, fun _ => ⟨_, he⟩⟩,
      fun q b' hq _ => absurd (h1.1 ⟨_, hq⟩) h⟩
    rintro ⟨t, ht⟩; rw [he] at ht; cases ht

private theorem outcome_some {s : Str} {b : Brackets} (h : (parsePairs s).map (fun p => p.br .nil) = some b) :
    ∃ q, Pest.Parses s (some [q, .eoi]) ∧ Pest.Stand [q] b := by
  obtain ⟨p, hp, rfl⟩ := Option.map_eq_some_iff.1 h
  have hr := Pest.parse_runs s
  rw [hp] at hr; obtain ⟨q, h1, h2⟩ := hr; exact ⟨q, h2, h1⟩

private theorem outcome_none {s : Str} (h : (parsePairs s).isNone = true) : Pest.Parses s none := by
  have hr := Pest.parse_runs s
  rwa [Option.isNone_iff_eq_none.1 h] at hr

/-- C63: a text with white space around brackets, and one with a bracket missing. -/
example : (∃ q, Pest.Parses "( S(N  x\r\n) (V y) )\n".toList (some [q, .eoi]) ∧
      Pest.Stand [q] (.node ['S'] (.leaf ['N'] ['x'] (.leaf ['V'] ['y'] .nil)) .nil)) ∧
    Pest.Parses "(S (N x)".toList none :=
  ⟨outcome_some (by decide +kernel), outcome_none (by decide +kernel)⟩

end Lumberjack.Props
