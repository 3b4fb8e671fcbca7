import Verif.Proofs.ConllxRead
import Verif.Props.Conllx
import Verif.Props.Decode

/-!
# Reading tagged sentences (C59)
-/

namespace Lumberjack
namespace Props

open Lumberjack.Tree Conllx

/-- C59: a sentence each of whose tokens has a readable absolute tag with a count of at least one is read as the
well-formed projective tree over these tokens that the tags stand for. -/
theorem C59_absolute (toks : List Token) (hne : toks ≠ []) (e : AbsEncoding)
    (h : List.Forall₂ (Tag "abs_ancestor".toList AbsAncestor.parse) toks e) (hp : AbsPositive e) :
    ∃ t, tryFromAbsolute toks = .ok (.ok t) ∧ Decoded e toks t := by
  obtain ⟨t, h1, h2⟩ := decoded_total h.length_eq.symm hne hp
  refine ⟨t, ?_, h2⟩
  unfold tryFromAbsolute
  rw [readTokens_tags h]
  exact h1

/-- C59: a sentence each of whose tokens has a readable relative tag is read, whatever the offsets are. -/
theorem C59_relative (toks : List Token) (hne : toks ≠ []) (e : RelEncoding)
    (h : List.Forall₂ (Tag "rel_ancestor".toList RelAncestor.parse) toks e) :
    ∃ t, Conllx.tryFromRelative toks = .ok (.ok t) ∧ Decoded (Lumberjack.tryFromRelative e).unwrapOrFix toks t := by
  obtain ⟨g1, g2, g3⟩ := C35_unwrap_or_fix e
  obtain ⟨t, h1, h2⟩ := decoded_total (g1.trans h.length_eq.symm) hne g3
  refine ⟨t, ?_, h2⟩
  unfold Conllx.tryFromRelative
  rw [readTokens_tags h]
  exact h1

/-- C59: a token without a readable tag makes reading fail with an error. -/
theorem C59_error (toks : List Token) :
    ((∃ tok ∈ toks, ∀ e, ¬ Tag "abs_ancestor".toList AbsAncestor.parse tok e) →
      ∃ err, tryFromAbsolute toks = .ok (.error err)) ∧
    ((∃ tok ∈ toks, ∀ e, ¬ Tag "rel_ancestor".toList RelAncestor.parse tok e) →
      ∃ err, Conllx.tryFromRelative toks = .ok (.error err)) := by
  constructor
  · rintro ⟨tok, h1, h2⟩
    obtain ⟨err, h⟩ := readTokens_error (k := 0) h1 h2
    exact ⟨err, by unfold tryFromAbsolute; rw [h]⟩
  · rintro ⟨tok, h1, h2⟩
    obtain ⟨err, h⟩ := readTokens_error (k := 0) h1 h2
    exact ⟨err, by unfold Conllx.tryFromRelative; rw [h]⟩

/-- C59: the other sentences panic: those without tokens ... -/
theorem C59_empty : tryFromAbsolute [] = .panic ∧ Conllx.tryFromRelative [] = .panic := by
  constructor
  · show finishDecode [] [] = .panic
    unfold finishDecode
    rw [Decoding.decode_nil _ _ (.inl rfl)]
    rfl
  · show finishDecode _ [] = .panic
    unfold finishDecode
    rw [Decoding.decode_nil _ _ (.inr rfl)]
    rfl

/-- ... and those with an absolute count of zero. -/
theorem C59_zero (toks : List Token) (e : AbsEncoding)
    (h : List.Forall₂ (Tag "abs_ancestor".toList AbsAncestor.parse) toks e) (hp : ¬ AbsPositive e) :
    tryFromAbsolute toks = .panic := by
  unfold tryFromAbsolute
  rw [readTokens_tags h]
  show finishDecode _ _ = .panic
  unfold finishDecode
  rw [C33_zero_count _ _ (by simpa using h.length_eq.symm) hp]
  rfl

/-- C59: each sentence is of one of these kinds, and a tag reads in one way only. -/
theorem C59_cases {α : Type} (key : Str) (parse : Str → Except Err α) (toks : List Token) :
    (∃! e, List.Forall₂ (Tag key parse) toks e) ∨
      ((∃ tok ∈ toks, ∀ e, ¬ Tag key parse tok e) ∧ ∀ e, ¬ List.Forall₂ (Tag key parse) toks e) := by
  rcases tags_total key parse toks with ⟨e, h⟩ | ⟨tok, h1, h2⟩
  · refine .inl ⟨e, h, fun e' h' => ?_⟩
    have := (readTokens_tags h (k := 0)).symm.trans (readTokens_tags h')
    simpa using this.symm
  · refine .inr ⟨⟨tok, h1, h2⟩, fun e h => ?_⟩
    obtain ⟨i, hi, rfl⟩ := List.getElem_of_mem h1
    have := List.forall₂_iff_get.1 h
    exact h2 _ (this.2 i hi (this.1 ▸ hi))

/-- A token with the given features. -/
def tagged (form feats : String) : Token := ⟨form.toList, none, none, some feats.toList⟩

/-- `(S (NP (X (_ a)) (_ b)) (_ c))` in tags: the words `b` and `c` share the topmost node only, and there is an
`X` over `a`. -/
example := C59_absolute
  [tagged "a" "abs_ancestor:NP+2~X", tagged "b" "k:v|abs_ancestor:S+1", tagged "c" "abs_ancestor:NONE"] (by simp)
  [(some ⟨2, "NP".toList⟩, some "X".toList), (some ⟨1, "S".toList⟩, none), (none, none)]
  (.cons ⟨"NP+2~X".toList, ⟨_, rfl, by decide +kernel⟩, ⟨"NP+2".toList, ["X".toList], by decide +kernel, rfl, .inr ⟨by decide, _, by decide +kernel, rfl⟩⟩⟩
    (.cons ⟨"S+1".toList, ⟨_, rfl, by decide +kernel⟩, ⟨"S+1".toList, [], by decide +kernel, rfl, .inr ⟨by decide, _, by decide +kernel, rfl⟩⟩⟩
      (.cons ⟨"NONE".toList, ⟨_, rfl, by decide +kernel⟩, ⟨"NONE".toList, [], by decide +kernel, rfl, .inl ⟨rfl, rfl⟩⟩⟩ .nil)))
  (by unfold AbsPositive; decide)

/-- The same with relative tags, where the offset of the second token leads below the root and is repaired. -/
example := C59_relative
  [tagged "a" "rel_ancestor:NP+2", tagged "b" "rel_ancestor:S+-7", tagged "c" "rel_ancestor:NONE"] (by simp)
  [(some (.regular 2 "NP".toList), none), (some (.regular (-7) "S".toList), none), (none, none)]
  (.cons ⟨"NP+2".toList, ⟨_, rfl, by decide +kernel⟩, ⟨"NP+2".toList, [], by decide +kernel, rfl, .inr ⟨by decide, _, by decide +kernel, rfl⟩⟩⟩
    (.cons ⟨"S+-7".toList, ⟨_, rfl, by decide +kernel⟩, ⟨"S+-7".toList, [], by decide +kernel, rfl, .inr ⟨by decide, _, by decide +kernel, rfl⟩⟩⟩
      (.cons ⟨"NONE".toList, ⟨_, rfl, by decide +kernel⟩, ⟨"NONE".toList, [], by decide +kernel, rfl, .inl ⟨rfl, rfl⟩⟩⟩ .nil)))

example := C59_zero [tagged "a" "abs_ancestor:NP+0"] [(some ⟨0, "NP".toList⟩, none)]
  (.cons ⟨"NP+0".toList, ⟨_, rfl, by decide +kernel⟩, ⟨"NP+0".toList, [], by decide +kernel, rfl, .inr ⟨by decide, _, by decide +kernel, rfl⟩⟩⟩ .nil)
  (by unfold AbsPositive; decide)

/-- A token without features has no tag, and neither has one whose tag lacks the count. -/
example : ∀ e, ¬ Tag "abs_ancestor".toList AbsAncestor.parse ⟨"a".toList, none, none, none⟩ e := by
  rintro e ⟨s, ⟨fs, h, _⟩, _⟩
  cases h
example : ∃ err, tryFromAbsolute [tagged "a" "abs_ancestor:NP"] = .ok (.error err) := ⟨_, rfl⟩

end Props
end Lumberjack
