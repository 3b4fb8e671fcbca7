import Verif.Proofs.SplitNegra
import Verif.Props.Split
import Verif.Props.ThroughNegra

/-!
# Doing the steps of a conversion in two runs, with NEGRA between them (C93)
-/

namespace Lumberjack
namespace Props

open Lumberjack.Tree Lumberjack.Convert

/-- C93: a run with the first `k` steps that writes NEGRA, and a run with the other steps on what is written, write and end
together like one run with all steps, if NEGRA holds the trees in between, and trees with gaps are not projectivized in
the second run. -/
theorem C93_negra (f : InFormat) (multiline multiline' : Bool)
    (pick pick' : Tree → Finset Nat → Option Nat) (hpick : IsOrder pick) (hpick' : IsOrder pick') (o : Options) (k : Nat)
    (src : Source) (pos : Option (List PosItem)) (ss : List (Option (List Conllx.Token))) (ts : List Tree)
    (hs : Stream f multiline src (ts.map .ok) true) (hS : ∀ t ∈ ts, Suits o t) (hT : EachTagged (firstPos k pos) ts)
    (hH : ∀ (i : Nat) t t' tags, ts[i]? = some t → TagsAt (firstPos k pos) i tags →
      Pipeline (firstSteps k .negra o) tags t t' → process pick (firstSteps k .negra o) (tags.map .ok) t = .ok (.ok t') →
      NegraHeld t' ∧ ((lastSteps k o).projectivize = true → NoGaps t')) :
    ∃ wn, main f multiline pick (firstSteps k .negra o) src (firstPos k pos) = (wn, .finished) ∧ wn.length = ts.length ∧
      main .negra multiline' pick' (lastSteps k o) ⟨Negra.lines (textOf wn), ss⟩ (lastPos k pos) =
        main f multiline pick o src pos :=
  split_negra hpick hpick' ss hs hS hT hH

/-- C93: for an export file with one line per nonterminal and children before parents, the same with conditions on the
file and the options only: words can be moved to the root in either run. -/
theorem C93_negra_file (multiline multiline' : Bool)
    (pick pick' : Tree → Finset Nat → Option Nat) (hpick : IsOrder pick) (hpick' : IsOrder pick') (o : Options) (k : Nat)
    (ls : List Str) (pos : Option (List PosItem)) (ss ss' : List (Option (List Conllx.Token))) (ts : List Tree)
    (hO : Orderly ls) (hn : ∀ l ∈ ls, '\n' ∉ l) (hl : ls.length + 500 ≤ 2 ^ 64)
    (hs : Stream .negra multiline ⟨ls, ss⟩ (ts.map .ok) true) (hE : ∀ t ∈ ts, Enough o t)
    (hT : EachTagged (firstPos k pos) ts)
    (hN : ∀ (i : Nat) t tags, ts[i]? = some t → TagsAt (firstPos k pos) i tags → NegraSteps (firstSteps k .negra o) tags t)
    (hg : (lastSteps k o).projectivize = true → ∀ t ∈ ts, NoGaps t) :
    ∃ wn, main .negra multiline pick (firstSteps k .negra o) ⟨ls, ss⟩ (firstPos k pos) = (wn, .finished) ∧
      wn.length = ts.length ∧
      main .negra multiline' pick' (lastSteps k o) ⟨Negra.lines (textOf wn), ss'⟩ (lastPos k pos) =
        main .negra multiline pick o ⟨ls, ss⟩ pos := by
  have h := negra_file_held hO hn hl hs
  exact split_negra_input hpick hpick' ss' hs (fun t ht => (h t ht).1.suits (hE t ht)) hT (fun t ht => (h t ht).2.1) hN hg
    fun t ht => (h t ht).2.2

/-- C93: a tree NEGRA holds is held after the steps, if they add nothing NEGRA does not hold. -/
theorem C93_negra_held (o : Options) (tags : Option (List Str)) (t t' : Tree) (S : Suits o t) (h : Pipeline o tags t t')
    (H : NegraHeld t) (N : NegraSteps o tags t) (hz : t.nonterminals.length + t.nTerminals + 499 ≤ 2 ^ 64) :
    NegraHeld t' :=
  negra_pipeline H N S h hz

/-! ## The hypotheses are met -/

/-- Projectivizing, reattaching, inserting; then parent labels and output in TueBa. -/
def splitNegra : Options :=
  { plain .tueba with projectivize := true, reattachLabel := some "P".toList, insertionSet := some (.positive []), insertionLabel := "I".toList, parentFeature := some "p".toList }

/-- A file with a gap, cut after the seventh step. -/
example : ∃ wn, main .negra false minPick (firstSteps 7 .negra splitNegra) gapFile none = (wn, .finished) ∧ wn.length = 1 ∧
    main .negra false minPick (lastSteps 7 splitNegra) ⟨Negra.lines (textOf wn), []⟩ none =
      main .negra false minPick splitNegra gapFile none := by
  obtain ⟨t, h1, h2⟩ := onlyItem_spec (f := .negra) (multiline := false) (src := gapFile)
    (test := fun t => decide (2 ≤ t.nTerminals)) (by decide +kernel)
  rw [decide_eq_true_eq] at h2
  have none_tags : ∀ {i : Nat} {tags : Option (List Str)}, TagsAt (none : Option (List PosItem)) i tags → tags = none := by
    intro i tags hk
    rcases hk with ⟨_, h⟩ | ⟨_, _, h, _⟩
    · exact h
    · cases h
  exact C93_negra_file false false minPick minPick minPick_order minPick_order splitNegra 7 gapFile.lines none [] [] [t]
    gapFile_orderly (by decide +kernel) (by decide +kernel) h1 (by simp; exact .inl h2) (by intro ps h; cases h)
    (fun i u tags hu hk => by
      have := none_tags hk
      subst this
      exact ⟨fun _ h => (by cases h), ⟨rfl, rfl⟩, fun _ => by decide, by simp⟩)
    (fun h => by cases h)

end Props
end Lumberjack
