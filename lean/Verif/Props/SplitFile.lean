import Verif.Proofs.SplitFile
import Verif.Props.Split

/-!
# Doing the steps of a conversion of a bracketed file in two runs (C93)
-/

namespace Lumberjack
namespace Props

open Lumberjack.Tree Lumberjack.Convert

private theorem held_input {g : Ptb.Format} {o : Options} {pos : Option (List PosItem)} (A : AddsNothing g o pos) {ts : List Tree}
    (hT : EachTagged pos ts) (hH : ∀ t ∈ ts, t.HeldBy g) (i : Nat) (t : Tree) (tags : Option (List Str)) (h : ts[i]? = some t)
    (hk : TagsAt pos i tags) : Held g o tags t := by
  have H := hH t (List.mem_of_getElem? h)
  refine ⟨.inl ((noGaps_iff H.wf).1 H.noGap), H.primary, H.writable, H.annotated, H.bare, A.steps, A.label, fun l hl => ?_⟩
  subst hl
  rcases hk with ⟨_, hk⟩ | ⟨ps, l', hps, hl, e⟩
  · cases hk
  · cases e
    obtain ⟨l', h1, h2⟩ := hT ps hps i t h
    rw [hl] at h1; cases h1
    exact ⟨h2, A.tags ps hps l (List.mem_of_getElem? hl)⟩

/-- C93: for a file in the simple or the TueBa format, with the same format between the runs, there are conditions on the
options and tags of the first run only. -/
theorem C93_file (f : Ptb.Format) (hf : f = .simple ∨ f = .tueba) (multiline multiline' : Bool)
    (pick pick' : Tree → Finset Nat → Option Nat) (hpick : IsOrder pick) (hpick' : IsOrder pick') (o : Options) (k : Nat)
    (src : Source) (pos : Option (List PosItem)) (ss : List (Option (List Conllx.Token))) (ts : List Tree)
    (hs : Stream (bracketInput f) multiline src (ts.map .ok) true) (hE : ∀ t ∈ ts, Enough o t)
    (hT : EachTagged (firstPos k pos) ts) (hA : AddsNothing f (firstSteps k (bracketOutput f) o) (firstPos k pos)) :
    ∃ wn, main (bracketInput f) multiline pick (firstSteps k (bracketOutput f) o) src (firstPos k pos) = (wn, .finished) ∧
      wn.length = ts.length ∧
      main (bracketInput f) multiline' pick' (lastSteps k o) ⟨Negra.lines (textOf wn), ss⟩ (lastPos k pos) =
        main (bracketInput f) multiline pick o src pos := by
  have hp : ∀ t ∈ ts, ∃ s, Ptb.stringToTree f s = .ok (.ok t) := fun t ht => stream_parsed hs t (List.mem_map_of_mem ht)
  have hg : f ≠ .ptb := by rcases hf with rfl | rfl <;> simp
  refine C93_input _ f multiline multiline' pick pick' hpick hpick' o k src pos ss ts hs (fun t ht => ?_) hT
    (held_input hA hT fun t ht => ?_)
  · obtain ⟨s, h⟩ := hp t ht
    exact (ptb_read h).suits (hE t ht)
  · obtain ⟨s, h⟩ := hp t ht
    exact exact_heldBy hg (parsed_exact hg h)

/-- C93: the same for a file in whatever bracketed format, with the TueBa format between the runs, if no label, tag or
annotation has a colon or an equals sign. -/
theorem C93_file_tueba (f : Ptb.Format) (multiline multiline' : Bool)
    (pick pick' : Tree → Finset Nat → Option Nat) (hpick : IsOrder pick) (hpick' : IsOrder pick') (o : Options) (k : Nat)
    (src : Source) (pos : Option (List PosItem)) (ss : List (Option (List Conllx.Token))) (ts : List Tree)
    (hs : Stream (bracketInput f) multiline src (ts.map .ok) true) (hE : ∀ t ∈ ts, Enough o t) (hn : ∀ t ∈ ts, t.NoSigns)
    (hT : EachTagged (firstPos k pos) ts) (hA : AddsNothing .tueba (firstSteps k .tueba o) (firstPos k pos)) :
    ∃ wn, main (bracketInput f) multiline pick (firstSteps k .tueba o) src (firstPos k pos) = (wn, .finished) ∧
      wn.length = ts.length ∧
      main .tueba multiline' pick' (lastSteps k o) ⟨Negra.lines (textOf wn), ss⟩ (lastPos k pos) =
        main (bracketInput f) multiline pick o src pos := by
  have hp : ∀ t ∈ ts, ∃ s, Ptb.stringToTree f s = .ok (.ok t) := fun t ht => stream_parsed hs t (List.mem_map_of_mem ht)
  refine C93_input _ .tueba multiline multiline' pick pick' hpick hpick' o k src pos ss ts hs (fun t ht => ?_) hT
    (held_input hA hT fun t ht => ?_)
  · obtain ⟨s, h⟩ := hp t ht
    exact (ptb_read h).suits (hE t ht)
  · obtain ⟨s, h⟩ := hp t ht
    exact exact_heldBy (by simp) (parsed_tueba h (hn t ht))

/-! ## The hypotheses are met -/

/-- A file with annotations, edge labels and white space; tags, filtering and inserting first, then parent labels and the
encoding. -/
example : ∃ wn, main .tueba true minPick (firstSteps 7 .tueba splitOptions)
      ⟨["( S (NP=x:SB (D a)".toList, " (N b)) (V c) )".toList], []⟩ (some [.ok ["A".toList, "B".toList, "C".toList]]) = (wn, .finished) ∧
    wn.length = 1 ∧
    main .tueba false minPick (lastSteps 7 splitOptions) ⟨Negra.lines (textOf wn), []⟩ none =
      main .tueba true minPick splitOptions ⟨["( S (NP=x:SB (D a)".toList, " (N b)) (V c) )".toList], []⟩
        (some [.ok ["A".toList, "B".toList, "C".toList]]) := by
  obtain ⟨t, h1, h2⟩ := onlyItem_spec (f := .tueba) (multiline := true)
    (src := ⟨["( S (NP=x:SB (D a)".toList, " (N b)) (V c) )".toList], []⟩) (test := fun t => decide (t.nTerminals = 3))
    (by decide +kernel)
  rw [decide_eq_true_eq] at h2
  refine C93_file .tueba (.inr rfl) true false minPick minPick minPick_order minPick_order splitOptions 7 _
    (some [.ok ["A".toList, "B".toList, "C".toList]]) [] [t] h1 (by simp; left; omega) ?_ ⟨⟨rfl, rfl, rfl⟩, fun _ => ?_, ?_⟩
  · rintro ps h i u hu
    cases h
    cases i with
    | zero => cases hu; exact ⟨_, rfl, h2.symm⟩
    | succ i => simp at hu
  · show (_ ∨ Bracketed.Word "UNK".toList) ∧ _
    decide
  · rintro ps h l hl
    cases h
    simp only [List.mem_singleton, Except.ok.injEq] at hl
    subst hl
    show ∀ s ∈ _, ((_ ∨ Bracketed.Word s) ∧ _) ∧ _
    decide

/-- A file in the simple format, with TueBa between the runs. -/
example : ∃ wn, main .simple false minPick (firstSteps 7 .tueba splitOptions) ⟨throughFile, []⟩ none = (wn, .finished) ∧
    wn.length = 2 ∧
    main .tueba false minPick (lastSteps 7 splitOptions) ⟨Negra.lines (textOf wn), []⟩ none =
      main .simple false minPick splitOptions ⟨throughFile, []⟩ none := by
  obtain ⟨ts, h1, hl, h2⟩ := throughFile_trees
  rw [← hl]
  refine C93_file_tueba .simple false false minPick minPick minPick_order minPick_order splitOptions 7 _ none [] ts h1
    (fun t ht => ((h2 t ht).2 splitOptions).words.imp_right fun h => ⟨((h2 t ht).2 splitOptions).fit.rootNt, h⟩) (fun t ht n nd hnd => ?_) (by intro ps h; cases h)
    ⟨⟨rfl, rfl, rfl⟩, fun _ => ?_, by rintro ps ⟨⟩⟩
  · have H := (h2 t ht).1
    cases nd with
    | term x =>
      have h3 := (H.writable.term n x hnd).1
      rw [(H.annotated.term n x hnd).2.1] at h3
      exact ⟨h3.2.1, h3.2.2, by simp [Node.features, (H.annotated.term n x hnd).2.2.2, Bracketed.annotationOf]⟩
    | nt x =>
      obtain ⟨h3, h4⟩ := H.writable.nt n x hnd
      exact ⟨h3.2.1, h3.2.2, fun a ha => (h4 a ha).2⟩
  · show (_ ∨ Bracketed.Word "UNK".toList) ∧ _
    decide

end Props
end Lumberjack
