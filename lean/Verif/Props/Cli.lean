import Verif.Proofs.Cli

/-!
# Property C64: the command line
-/

namespace Lumberjack.Props

open Lumberjack.Tree Lumberjack.Convert

/-- C64: a string is read as the format whose name it is up to case, and as no other. -/
theorem C64_format_names (s : Str) :
    (∀ f, InFormat.parse s = some f ↔ SameButCase s f.name) ∧
    (∀ f, OutFormat.parse s = some f ↔ SameButCase s f.name) :=
  ⟨fun _ => in_parse, fun _ => out_parse⟩

/-- C64: the set read from a file matches exactly the words of the file. -/
theorem C64_set_file (text q : Str) : (setFromText text).matches q = true ↔ IsWordOf q text :=
  setFromText_matches

/-- C64: a command line with known format names, `--sec_edges` only together with `--projectivize`, and
readable files runs the conversion with the options it asks for. -/
theorem C64_run (c : Cli) (f : InFormat) (out : OutFormat) (pos : Option (List PosItem))
    (hi : Value c.inFormat "tueba".toList f.name) (ho : Value c.outFormat "simple".toList out.name)
    (hs : c.secEdges = true → c.projectivize = true) (h1 : c.filter ≠ some none) (h2 : c.idSet ≠ some none)
    (h3 : c.insertionSet ≠ some none) (hp : c.pos = pos.map some) :
    ∃ o, c.Means f o ∧ ∀ pick src, runCli pick c (some src) = main f c.multiline pick o src pos := by
  obtain ⟨o, e, hm, -⟩ := options_ok hi ho hs h1 h2 h3
  refine ⟨o, hm, fun pick src => ?_⟩
  have ei : InFormat.parse c.inName = some f :=
    in_parse.2 (by rw [Cli.inName, hi.eq]; exact SameButCase.refl _)
  have eo : OutFormat.parse c.outName = some out :=
    out_parse.2 (by rw [Cli.outName, ho.eq]; exact SameButCase.refl _)
  rw [runCli, if_pos (allowed_iff.2 ⟨⟨f, hi⟩, ⟨out, ho⟩, hs⟩), ei, eo]
  simp only [e]
  rw [hp]
  cases pos <;> rfl

/-- C64: all other command lines write nothing and end with an error message, or with a panic if a set
file is not readable. -/
theorem C64_rejected (pick : Tree → Finset Nat → Option Nat) (c : Cli) (input : Option Source)
    (h : (∀ f : InFormat, ¬ Value c.inFormat "tueba".toList f.name) ∨
      (∀ f : OutFormat, ¬ Value c.outFormat "simple".toList f.name) ∨
      (c.secEdges = true ∧ c.projectivize = false) ∨ input = none ∨ c.pos = some none ∨
      c.filter = some none ∨ c.idSet = some none ∨ c.insertionSet = some none) :
    ∃ e, runCli pick c input = ([], e) ∧ ((∃ x, e = .exited x) ∨
      (e = .panicked ∧ (c.filter = some none ∨ c.idSet = some none ∨ c.insertionSet = some none))) := by
  by_cases ha : c.allowed = true
  · obtain ⟨⟨f, hi⟩, ⟨out, ho⟩, hs⟩ := allowed_iff.1 ha
    have ei : InFormat.parse c.inName = some f :=
      in_parse.2 (by rw [Cli.inName, hi.eq]; exact SameButCase.refl _)
    have eo : OutFormat.parse c.outName = some out :=
      out_parse.2 (by rw [Cli.outName, ho.eq]; exact SameButCase.refl _)
    rw [runCli, if_pos ha, ei, eo]
    cases input with
    | none => exact ⟨_, rfl, .inl ⟨_, rfl⟩⟩
    | some src =>
      by_cases hset : c.filter = some none ∨ c.idSet = some none ∨ c.insertionSet = some none
      · simp only [options_panic out hset]
        exact ⟨_, rfl, .inr ⟨rfl, hset⟩⟩
      · have hset' := hset
        simp only [not_or] at hset'
        obtain ⟨o, e, -⟩ := options_ok hi ho hs hset'.1 hset'.2.1 hset'.2.2
        simp only [e]
        rcases h with h | h | h | h | h | h
        · exact absurd hi (h f)
        · exact absurd ho (h out)
        · rw [hs h.1] at h; simp at h
        · cases h
        · rw [h]; exact ⟨_, rfl, .inl ⟨_, rfl⟩⟩
        · exact absurd h hset
  · rw [runCli, if_neg ha]
    exact ⟨_, rfl, .inl ⟨_, rfl⟩⟩

/-- C64: without options the tool converts from TueBa with one tree per line to the simple format; a
filter file with three words, an unknown name, and `--sec_edges` on its own. -/
example : (∃ o, ({} : Cli).Means .tueba o ∧ o.out = .simple ∧
      ∀ pick src, runCli pick {} (some src) = main .tueba false pick o src none) ∧
    (∀ q ∈ ["NP".toList, "S".toList, "VP".toList], IsWordOf q "NP S\n  VP\n".toList) ∧
    ¬ IsWordOf "N".toList "NP S\n  VP\n".toList ∧
    ({ inFormat := some "conllx".toList } : Cli).allowed = false ∧
    ({ secEdges := true } : Cli).allowed = false ∧
    InFormat.parse "NEGRA".toList = some .negra := by
  refine ⟨?_, ?_, ?_, by decide, by decide, by decide⟩
  · obtain ⟨o, h1, h2⟩ := C64_run {} .tueba .simple none (.inr ⟨rfl, rfl⟩) (.inr ⟨rfl, rfl⟩) (by simp) (by simp)
      (by simp) (by simp) rfl
    refine ⟨o, h1, ?_, h2⟩
    have := h1.outFormat.eq
    revert this
    cases o.out <;> decide
  · intro q hq
    rw [← setFromText_matches]
    revert q
    decide
  · rw [← setFromText_matches]
    decide

end Lumberjack.Props
