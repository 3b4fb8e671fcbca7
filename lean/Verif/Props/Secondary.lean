import Verif.Proofs.NegraColumns
import Verif.Props.IsoOptions

/-!
# Secondary edges show in the NEGRA format only (C86)
-/

namespace Lumberjack
namespace Props

open Lumberjack.Tree Lumberjack.Convert

/-- C86: what is written in a format other than NEGRA does not depend on the secondary edges of the tree, whatever the
options, and not on whether the moves of a projectivization are to be recorded as secondary edges. -/
theorem C86_tree (t u : Tree) (H : OtherSecondary t u) (o : Options) (S : Suits o t) (S' : Suits o u) (ho : o.out ≠ .negra)
    (b : Bool) (pick pick' : Tree → Finset Nat → Option Nat) (hpick : IsOrder pick) (hpick' : IsOrder pick')
    (tags : Option PosItem) (c : Nat) :
    convertTree pick' { o with secEdges := b } tags c u = convertTree pick o tags c t :=
  other_convert H S S' ho b hpick hpick' tags c

/-- C86: the same for trees whose nodes are numbered differently as well, unless a tree with gaps is projectivized (see
C74). -/
theorem C86_numbering (t u : Tree) (φ : Nat → Nat) (H : SamePrimary t u φ) (o : Options) (S : Suits o t) (S' : Suits o u)
    (ho : o.out ≠ .negra) (hp : o.projectivize = true → t.isProjective = true)
    (pick pick' : Tree → Finset Nat → Option Nat) (hpick : IsOrder pick) (hpick' : IsOrder pick')
    (tags : Option PosItem) (c : Nat) :
    convertTree pick' o tags c u = convertTree pick o tags c t :=
  secondary_convert H S S' ho hp hpick hpick' tags c

/-- C86: two runs that read trees that differ in their secondary edges write the same and end the same, unless the output
is in the NEGRA format. -/
theorem C86_runs (f f' : InFormat) (multiline multiline' : Bool) (pick pick' : Tree → Finset Nat → Option Nat)
    (hpick : IsOrder pick) (hpick' : IsOrder pick') (o : Options) (ho : o.out ≠ .negra) (b : Bool) (src src' : Source)
    (pos : Option (List PosItem)) (ts us : List Tree) (hs : Stream f multiline src (ts.map .ok) true)
    (hs' : Stream f' multiline' src' (us.map .ok) true)
    (h : List.Forall₂ (fun t u => Suits o t ∧ Suits o u ∧ OtherSecondary t u) ts us) :
    main f multiline pick o src pos = main f' multiline' pick' { o with secEdges := b } src' pos := by
  obtain ⟨items, x, k1, k2, _⟩ := stream_exists f multiline src.size src (Nat.le_refl _)
  obtain ⟨rfl, rfl⟩ := hs.unique k1
  obtain ⟨items', x', k1', k2', _⟩ := stream_exists f' multiline' src'.size src' (Nat.le_refl _)
  obtain ⟨rfl, rfl⟩ := hs'.unique k1'
  rw [List.length_map] at k2 k2'
  exact other_loop hpick hpick' ho b h hs hs' (Nat.lt_succ_of_le k2) (Nat.lt_succ_of_le k2')

/-- C86: two NEGRA files that agree in the first six columns and in the lines around the sentences, and can both be read
without error, hold the same trees with possibly other secondary edges. -/
theorem C86_columns (ls ls' : List Str) (H : List.Forall₂ Negra.SameColumns ls ls') (ss ss' : List (Option (List Conllx.Token)))
    (ts us : List Tree) (h : Stream .negra false ⟨ls, ss⟩ (ts.map .ok) true) (h' : Stream .negra false ⟨ls', ss'⟩ (us.map .ok) true) :
    List.Forall₂ OtherSecondary ts us :=
  Negra.streams_with H h h'

/-- C86: what follows the sixth column of a NEGRA file that can be read, secondary edges and comments, can be removed: the
file can still be read, holds the same trees without secondary edges, and gives the same output in all formats but NEGRA. -/
theorem C86_stripped (ls ls' : List Str) (H : List.Forall₂ Negra.Stripped ls ls') (ss : List (Option (List Conllx.Token)))
    (ts : List Tree) (h : Stream .negra false ⟨ls, ss⟩ (ts.map .ok) true) :
    (∃ us, Stream .negra false ⟨ls', ss⟩ (us.map .ok) true ∧
      List.Forall₂ (fun t u => OtherSecondary t u ∧ u.NoSecondary) ts us) ∧
    ∀ (o : Options), o.out ≠ .negra → (∀ t ∈ ts, Suits o t) → ∀ pick pick', IsOrder pick → IsOrder pick' → ∀ pos,
      main .negra false pick o ⟨ls', ss⟩ pos = main .negra false pick' o ⟨ls, ss⟩ pos := by
  obtain ⟨us, h1, h2⟩ := Negra.stream_stripped (m' := false) (src' := ⟨ls', ss⟩) H h
  refine ⟨⟨us, h1, h2.imp fun _ _ h => ⟨h.1, h.2.1⟩⟩, ?_⟩
  intro o ho hS pick pick' hp hp' pos
  refine (C86_runs .negra .negra false false pick' pick hp' hp o ho o.secEdges _ _ pos ts us h h1 ?_).symm
  clear h h1
  induction h2 with
  | nil => exact .nil
  | cons h _ ih =>
    have hS1 := hS _ List.mem_cons_self
    exact .cons ⟨hS1, h.2.2 o hS1, h.1⟩ (ih fun t ht => hS t (by simp [ht]))

/-- C86: without projectivization the option to record moves has no effect in any format. -/
theorem C86_unused (pick : Tree → Finset Nat → Option Nat) (o : Options) (h : o.projectivize = false) (b : Bool)
    (tags : Option PosItem) (c : Nat) (t : Tree) :
    convertTree pick { o with secEdges := b } tags c t = convertTree pick o tags c t := by
  unfold convertTree process stepProjectivize
  simp only [h]
  rfl

/-! ## The hypotheses are met -/

/-- A check that the tool can handle a tree, possibly with secondary edges. -/
def fitSecB (t : Tree) : Bool :=
  t.checkWF && Negra.ntB t t.root && decide (2 ≤ t.nTerminals) &&
  (List.range t.graph.nodes.length).all (fun n => (List.range t.graph.nodes.length).all fun m =>
    Negra.ntB t n || Negra.ntB t m || decide (n < m ↔ t.startOf n < t.startOf m)) &&
  t.graph.edges.all fun e => e.w.isPrimary || Negra.ntB t e.src

theorem fitSecB_sound {t : Tree} (h : fitSecB t = true) (o : Options) : Suits o t := by
  simp only [fitSecB, Bool.and_eq_true, List.all_eq_true, decide_eq_true_eq, List.mem_range, Bool.or_eq_true] at h
  obtain ⟨⟨⟨⟨h1, h2⟩, h3⟩, h4⟩, h5⟩ := h
  have no : ∀ n, t.IsTerm n → Negra.ntB t n ≠ true := fun n hn h => not_isTerm_isNt hn (Negra.ntB_sound h)
  refine ⟨⟨wf_of_check h1, Negra.ntB_sound h2, ?_, ?_⟩, .inl h3⟩
  · intro n m i j hi hj
    have lt : ∀ {n : Nat}, t.IsTerm n → n < t.graph.nodes.length := fun ⟨_, h⟩ => Negra.node?_lt h
    rcases h4 n (lt hi.isTerm) m (lt hj.isTerm) with (h | h) | h
    · exact absurd h (no n hi.isTerm)
    · exact absurd h (no m hj.isTerm)
    · rwa [hi.startOf, hj.startOf] at h
  · intro e he hw
    rcases h5 e he with h | h
    · rw [h] at hw; cases hw
    · exact Negra.ntB_sound h

/-- Does an input hold one tree, which the tool can handle? -/
def holdsOne (src : Source) : Bool :=
  match next .negra false src with
  | .ok (some (.ok t), s) => fitSecB t && !t.isProjective && t.graph.edges.any (fun e => !e.w.isPrimary) &&
    (match next .negra false s with
      | .ok (none, _) => true
      | _ => false)
  | _ => false

theorem holdsOne_spec {src : Source} (h : holdsOne src = true) : ∃ t, Stream .negra false src ([t].map .ok) true ∧
    fitSecB t = true ∧ t.isProjective = false ∧ ¬ t.NoSecondary := by
  unfold holdsOne at h
  split at h
  · rename_i t s h1
    simp only [Bool.and_eq_true, List.any_eq_true, Bool.not_eq_true'] at h
    obtain ⟨⟨⟨a, b⟩, e, c1, c2⟩, h⟩ := h
    split at h
    · rename_i h2
      exact ⟨t, .item h1 (.stop h2), a, b, fun hn => by rw [hn e c1] at c2; cases c2⟩
    · cases h
  · cases h

/-- Two crossing constituents, with secondary edges to a word and to a constituent, and a comment. -/
def crossingSide : Source := ⟨["%% a corpus", "#BOS 1", "a -- X -- -- 500", "b -- P -- -- 501 SB 500", "c -- X -- HD 500 %% c",
  "d -- X -- HD 501", "#500 -- A -- -- 0 REFINT 501 %% more", "#501 -- B -- -- 0", "#EOS 1"].map String.toList, []⟩

/-- The file without what follows the sixth column. -/
def crossingBare : Source := ⟨["%% a corpus", "#BOS 1", "a -- X -- -- 500", "b -- P -- -- 501", "c -- X -- HD 500",
  "d -- X -- HD 501", "#500 -- A -- -- 0", "#501 -- B -- -- 0", "#EOS 1"].map String.toList, []⟩

def strippedB (l l' : Str) : Bool :=
  if Negra.startsWith Negra.bos (Negra.trim l) || Negra.startsWith Negra.eos (Negra.trim l) then decide (l' = l) else decide (Negra.splitWs l' = (Negra.splitWs l).take 6)

theorem strippedB_sound {l l' : Str} (h : strippedB l l' = true) : Negra.Stripped l l' := by
  unfold strippedB at h
  split at h
  · rename_i hf
    rw [Bool.or_eq_true] at hf
    exact .inl ⟨hf, of_decide_eq_true h⟩
  · rename_i hf
    rw [Bool.or_eq_true] at hf
    exact .inr ⟨hf, _, (Text.splitWs_iff _ _).1 rfl, (Text.splitWs_iff _ _).1 (of_decide_eq_true h)⟩

theorem crossing_stripped : List.Forall₂ Negra.Stripped crossingSide.lines crossingBare.lines := by
  have : List.Forall₂ (fun l l' => strippedB l l' = true) crossingSide.lines crossingBare.lines := by decide +kernel
  exact this.imp fun _ _ h => strippedB_sound h

/-- Options that switch on most of the steps, projectivization included. -/
def mostSteps (out : OutFormat) : Options :=
  { plain out with projectivize := true, secEdges := true, parentFeature := some "parent".toList,
                   idSet := some (.positive ["A".toList]), idFeatureName := "id".toList, insertionSet := some (.positive []), insertionLabel := "I".toList }

/-- The tree has gaps and secondary edges and is projectivized; the output is that of the file without the secondary
edges. -/
example (out : OutFormat) (ho : out ≠ .negra) : main .negra false minPick (mostSteps out) crossingBare none =
    main .negra false minPick (mostSteps out) crossingSide none := by
  obtain ⟨t, h1, h2, _⟩ := holdsOne_spec (src := crossingSide) (by decide +kernel)
  refine (C86_stripped _ _ crossing_stripped [] [t] h1).2 (mostSteps out) ho ?_ _ _ minPick_order minPick_order none
  intro t' ht
  rw [List.mem_singleton] at ht
  rw [ht]
  exact fitSecB_sound h2 _

/-- Nor is that for want of output. -/
example : (main .negra false minPick (mostSteps .simple) crossingSide none).2 = .finished ∧
    (main .negra false minPick (mostSteps .simple) crossingSide none).1.length = 1 := by decide +kernel

/-- The trees of the two files. -/
example : ∃ t u, OtherSecondary t u ∧ ¬ t.NoSecondary ∧ u.NoSecondary ∧ t.isProjective = false ∧ ∀ o, Suits o t := by
  obtain ⟨t, h1, h2, h3, h4⟩ := holdsOne_spec (src := crossingSide) (by decide +kernel)
  obtain ⟨us, _, k⟩ := (C86_stripped _ _ crossing_stripped [] [t] h1).1
  cases k with
  | cons k _ => exact ⟨t, _, k.1, h4, k.2, h3, fitSecB_sound h2⟩

/-- C86: the NEGRA format holds the secondary edges, those of the file and those that record moves. -/
theorem C86_negra : main .negra false minPick (plain .negra) crossingSide none ≠ main .negra false minPick (plain .negra) crossingBare none ∧
    main .negra false minPick { plain .negra with projectivize := true, secEdges := true } crossing none ≠
      main .negra false minPick { plain .negra with projectivize := true } crossing none := by
  constructor <;> decide +kernel

end Props
end Lumberjack
