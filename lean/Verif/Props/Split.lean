import Verif.Proofs.Split
import Verif.Props.Through
import Verif.Props.RewriteGather

/-!
# Doing the steps of a conversion in two runs (C93)
-/

namespace Lumberjack
namespace Props

open Lumberjack.Tree Lumberjack.Convert

/-- C93: on one tree, whatever it is: all steps at once do what the first `k` and then the others do, also when a step
fails. -/
theorem C93_tree (pick : Tree → Finset Nat → Option Nat) (o : Options) (tags : Option PosItem) (t : Tree) (k : Nat)
    (out : OutFormat) (h1 : out ≠ .absolute) (h2 : out ≠ .relative) :
    process pick o tags t = (process pick (firstSteps k out o) (firstPos k tags) t >>= fun r => match r with
      | .error e => .ok (.error e)
      | .ok t' => process pick (lastSteps k o) (lastPos k tags) t') :=
  process_split pick o tags t k out h1 h2

/-- C93: a run with the first `k` steps that writes a bracketed format, and a run with the other steps on what is written,
write and end together like one run with all steps, if the format can hold the trees in between. -/
theorem C93_run (f : InFormat) (g : Ptb.Format) (multiline multiline' : Bool)
    (pick pick' : Tree → Finset Nat → Option Nat) (hpick : IsOrder pick) (hpick' : IsOrder pick') (o : Options) (k : Nat)
    (src : Source) (pos : Option (List PosItem)) (ss : List (Option (List Conllx.Token))) (ts : List Tree)
    (hs : Stream f multiline src (ts.map .ok) true) (hS : ∀ t ∈ ts, Suits o t) (hT : EachTagged (firstPos k pos) ts)
    (hH : ∀ (i : Nat) t t' tags, ts[i]? = some t → TagsAt (firstPos k pos) i tags →
      Pipeline (firstSteps k (bracketOutput g) o) tags t t' → t'.HeldBy g) :
    ∃ wn, main f multiline pick (firstSteps k (bracketOutput g) o) src (firstPos k pos) = (wn, .finished) ∧
      wn.length = ts.length ∧
      main (bracketInput g) multiline' pick' (lastSteps k o) ⟨Negra.lines (textOf wn), ss⟩ (lastPos k pos) =
        main f multiline pick o src pos :=
  split_run hpick hpick' ss g hs hS hT fun i t t' tags h1 h2 h3 => heldBy_exact (hH i t t' tags h1 h2 h3)

/-- C93: the same, with conditions on the input only. -/
theorem C93_input (f : InFormat) (g : Ptb.Format) (multiline multiline' : Bool)
    (pick pick' : Tree → Finset Nat → Option Nat) (hpick : IsOrder pick) (hpick' : IsOrder pick') (o : Options) (k : Nat)
    (src : Source) (pos : Option (List PosItem)) (ss : List (Option (List Conllx.Token))) (ts : List Tree)
    (hs : Stream f multiline src (ts.map .ok) true) (hS : ∀ t ∈ ts, Suits o t) (hT : EachTagged (firstPos k pos) ts)
    (hH : ∀ (i : Nat) t tags, ts[i]? = some t → TagsAt (firstPos k pos) i tags →
      Held g (firstSteps k (bracketOutput g) o) tags t) :
    ∃ wn, main f multiline pick (firstSteps k (bracketOutput g) o) src (firstPos k pos) = (wn, .finished) ∧
      wn.length = ts.length ∧
      main (bracketInput g) multiline' pick' (lastSteps k o) ⟨Negra.lines (textOf wn), ss⟩ (lastPos k pos) =
        main f multiline pick o src pos :=
  C93_run f g multiline multiline' pick pick' hpick hpick' o k src pos ss ts hs hS hT fun i t _ tags h1 h2 h3 =>
    held_pipeline (hH i t tags h1 h2) (suits_first (hS t (List.mem_of_getElem? h1))) h3

/-- C93: a tree the format can hold is held after the steps, if they add nothing the format does not hold. -/
theorem C93_held (g : Ptb.Format) (o : Options) (tags : Option (List Str)) (t t' : Tree) (S : Suits o t) (h : Pipeline o tags t t')
    (H : Held g o tags t) : t'.HeldBy g :=
  held_pipeline H S h

/-- The feature columns of CoNLL-X sentences. -/
def featureColumns (ws : List Written) : List (List (Option Str)) :=
  ws.map fun w => match w with
    | .sentence s => s.map fun t => t.features
    | .text _ => []

/-- C93: the features of words are lost in between, so the first run cannot add parent labels. -/
theorem C93_features_lost :
    featureColumns (main .simple false minPick { plain .conllx with parentFeature := some "p".toList }
      ⟨["(S (N a) (V b))".toList], []⟩ none).1 = [[some "p:S".toList, some "p:S".toList]] ∧
    main .simple false minPick (firstSteps 8 .simple { plain .conllx with parentFeature := some "p".toList })
      ⟨["(S (N a) (V b))".toList], []⟩ none = ([.text "(S (N a) (V b))\n".toList], .finished) ∧
    featureColumns (main .simple false minPick (lastSteps 8 { plain .conllx with parentFeature := some "p".toList })
      ⟨["(S (N a) (V b))".toList], []⟩ none).1 = [[none, none]] := by decide +kernel

/-! ## The hypotheses are met -/

/-- Filtering, inserting and parent labels. -/
def splitOptions : Options := { rewriteOptions with parentFeature := some "p".toList, out := .absolute }

theorem splitOptions_held {t : Tree} (h : t.HeldBy .tueba) : Held .tueba (firstSteps 7 .tueba splitOptions) none t where
  gaps := .inl ((noGaps_iff h.wf).1 h.noGap)
  primary := h.primary
  writable := h.writable
  annotated := h.annotated
  bare := h.bare
  steps := ⟨rfl, rfl, rfl⟩
  label _ := by
    show (_ ∨ Bracketed.Word "UNK".toList) ∧ _
    decide
  tags := by simp

/-- All steps but the parent labels first, then the parent labels and the encoding. -/
example : ∃ wn, main .simple false minPick (firstSteps 7 .tueba splitOptions) ⟨throughFile, []⟩ none = (wn, .finished) ∧
    wn.length = 2 ∧
    main .tueba false minPick (lastSteps 7 splitOptions) ⟨Negra.lines (textOf wn), []⟩ none =
      main .simple false minPick splitOptions ⟨throughFile, []⟩ none := by
  obtain ⟨ts, h1, hl, h2⟩ := throughFile_trees
  rw [← hl]
  refine C93_input .simple .tueba false false minPick minPick minPick_order minPick_order splitOptions 7 _ none [] ts h1
    (fun t ht => (h2 t ht).2 _) (by intro ps h; cases h) fun i t tags ht hk => ?_
  have : tags = none := by
    rcases hk with ⟨_, h⟩ | ⟨_, _, h, _⟩
    · exact h
    · cases h
  subst this
  exact splitOptions_held (h2 t (List.mem_of_getElem? ht)).1

theorem disc_held : Held .tueba (firstSteps 7 .tueba rewriteOptions) none Examples.disc := by
  obtain ⟨_, h2, h3, h4⟩ := clearB_sound (t := Examples.disc) (by decide +kernel)
  refine ⟨.inr ⟨rfl, rfl⟩, h2, h3, h4, fun h => absurd rfl h, ⟨rfl, rfl, rfl⟩, fun _ => ?_, by simp⟩
  show (_ ∨ Bracketed.Word "UNK".toList) ∧ _
  decide

/-- A tree with a gap that is projectivized in the first run is held afterwards. -/
example : ∃ t', Pipeline (firstSteps 7 .tueba rewriteOptions) none Examples.disc t' ∧ t'.HeldBy .tueba := by
  obtain ⟨t', k, _⟩ := process_spec minPick_order (firstSteps 7 .tueba rewriteOptions) none (disc_suits _) (by simp)
  exact ⟨t', k, C93_held _ _ none _ t' (disc_suits _) k disc_held⟩

end Props
end Lumberjack
