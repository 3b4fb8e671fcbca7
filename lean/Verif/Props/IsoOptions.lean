import Verif.Proofs.IsoSteps
import Verif.Props.Iso

/-!
# What the options do depends on the tree alone, but for one (C74)
-/

namespace Lumberjack
namespace Props

open Lumberjack.Tree Lumberjack.Convert

/-- C74: whatever the options, what is written for a tree depends neither on the numbering of its nodes and edges nor on
the order in which they were added, unless a tree with gaps is projectivized.  For the NEGRA format no node may have two
secondary edges. -/
theorem C74_options (t u : Tree) (φ : Nat → Nat) (I : Iso t u φ) (o : Options) (S : Suits o t) (S' : Suits o u)
    (hp : o.projectivize = true → t.isProjective = true) (hs : o.out = .negra → t.OneSecondary)
    (pick pick' : Tree → Finset Nat → Option Nat) (hpick : IsOrder pick) (hpick' : IsOrder pick')
    (tags : Option PosItem) (c : Nat) : convertTree pick o tags c t = convertTree pick' o tags c u :=
  (iso_options I S S' hp hs hpick hpick' tags c).symm

/-- C74: the trees the steps of the tool (C57) give differ in the numbering only. -/
theorem C74_steps (t u t' u' : Tree) (φ : Nat → Nat) (I : Iso t u φ) (o : Options) (tags : Option (List Str))
    (S : Suits o t) (S' : Suits o u) (hp : o.projectivize = true → t.isProjective = true)
    (h : Pipeline o tags t t') (h' : Pipeline o tags u u') : ∃ ψ, Iso t' u' ψ :=
  (pipeline_iso I S S' hp h h').iso

/-- C74: two runs with the same options and POS sentences that read, from whatever formats, trees that differ only in the
numbering, write the same and end the same. -/
theorem C74_option_runs (f f' : InFormat) (multiline multiline' : Bool) (pick pick' : Tree → Finset Nat → Option Nat)
    (hpick : IsOrder pick) (hpick' : IsOrder pick') (o : Options) (src src' : Source) (pos : Option (List PosItem))
    (ts us : List Tree) (hs : Stream f multiline src (ts.map .ok) true)
    (hs' : Stream f' multiline' src' (us.map .ok) true)
    (h : List.Forall₂ (fun t u => Suits o t ∧ Suits o u ∧ (o.projectivize = true → t.isProjective = true) ∧
      (o.out = .negra → t.OneSecondary) ∧ ∃ φ, Iso t u φ) ts us) :
    main f multiline pick o src pos = main f' multiline' pick' o src' pos := by
  obtain ⟨items, b, k1, k2, _⟩ := stream_exists f multiline src.size src (Nat.le_refl _)
  obtain ⟨rfl, rfl⟩ := hs.unique k1
  obtain ⟨items', b', k1', k2', _⟩ := stream_exists f' multiline' src'.size src' (Nat.le_refl _)
  obtain ⟨rfl, rfl⟩ := hs'.unique k1'
  rw [List.length_map] at k2 k2'
  exact iso_loop_options hpick hpick' h hs hs' (Nat.lt_succ_of_le k2) (Nat.lt_succ_of_le k2')

/-! ## The hypotheses are met -/

/-- A check that the tool can handle a tree. -/
def fitB (t : Tree) : Bool :=
  t.checkWF && Negra.ntB t t.root && decide (2 ≤ t.nTerminals) &&
  (List.range t.graph.nodes.length).all (fun n => (List.range t.graph.nodes.length).all fun m =>
    Negra.ntB t n || Negra.ntB t m || decide (n < m ↔ t.startOf n < t.startOf m)) &&
  t.graph.edges.all fun e => e.w.isPrimary

theorem fitB_sound {t : Tree} (h : fitB t = true) (o : Options) : Suits o t ∧ t.OneSecondary := by
  simp only [fitB, Bool.and_eq_true, List.all_eq_true, decide_eq_true_eq, List.mem_range, Bool.or_eq_true] at h
  obtain ⟨⟨⟨⟨h1, h2⟩, h3⟩, h4⟩, h5⟩ := h
  have no : ∀ n, t.IsTerm n → Negra.ntB t n ≠ true := fun n hn h => not_isTerm_isNt hn (Negra.ntB_sound h)
  refine ⟨⟨⟨wf_of_check h1, Negra.ntB_sound h2, ?_, ?_⟩, .inl h3⟩, ?_⟩
  · intro n m i j hi hj
    have lt : ∀ {n : Nat}, t.IsTerm n → n < t.graph.nodes.length := fun ⟨_, h⟩ => Negra.node?_lt h
    rcases h4 n (lt hi.isTerm) m (lt hj.isTerm) with (h | h) | h
    · exact absurd h (no n hi.isTerm)
    · exact absurd h (no m hj.isTerm)
    · rwa [hi.startOf, hj.startOf] at h
  · intro e he hw
    rw [h5 e he] at hw; cases hw
  · intro e he _ _ hw
    rw [h5 e he] at hw; cases hw

/-- Do two inputs hold one tree each, the same up to a numbering? -/
def sameOnly (f f' : InFormat) (src src' : Source) (m : List Nat) : Bool :=
  match next f false src, next f' false src' with
  | .ok (some (.ok t), s), .ok (some (.ok u), s') => isoB t u m && fitB t && fitB u &&
    (match next f false s, next f' false s' with
      | .ok (none, _), .ok (none, _) => true
      | _, _ => false)
  | _, _ => false

theorem sameOnly_spec {f f' : InFormat} {src src' : Source} {m : List Nat} (h : sameOnly f f' src src' m = true) :
    ∃ t u, Stream f false src [.ok t] true ∧ Stream f' false src' [.ok u] true ∧ Iso t u (renumber m) ∧
      fitB t = true ∧ fitB u = true := by
  unfold sameOnly at h
  split at h
  · rename_i t s u s' h1 h1'
    rw [Bool.and_eq_true, Bool.and_eq_true, Bool.and_eq_true] at h
    obtain ⟨⟨⟨a, b⟩, c⟩, h⟩ := h
    split at h
    · rename_i _ _ h2 h2'
      exact ⟨t, u, .item h1 (.stop h2), .item h1' (.stop h2'), isoB_sound a, b, c⟩
    · cases h
  · cases h

/-- The same tree with two crossing constituents; the lines of the constituents are in either order. -/
def crossing : Source := ⟨["#BOS 1", "a -- X -- -- 500", "b -- P -- -- 501", "c -- X -- HD 500", "d -- X -- HD 501",
  "#500 -- A -- -- 0", "#501 -- B -- -- 0", "#EOS 1"].map String.toList, []⟩

def crossingToo : Source := ⟨["#BOS 1", "a -- X -- -- 501", "b -- P -- -- 500", "c -- X -- HD 501", "d -- X -- HD 500",
  "#500 -- B -- -- 0", "#501 -- A -- -- 0", "#EOS 1"].map String.toList, []⟩

/-- Options that switch on most of the steps other than projectivization. -/
def many' (out : OutFormat) : Options :=
  { plain out with removeDummies := true, reattachLabel := some "P".toList, idSet := some (.positive ["A".toList]),
                   idFeatureName := "id".toList, parentFeature := some "parent".toList,
                   filterSet := some (.positive ["A".toList]), insertionSet := some (.positive []), insertionLabel := "I".toList }

/-- Both files give the same for all output formats. -/
example (out : OutFormat) : main .negra false minPick (many' out) crossing none =
    main .negra false minPick (many' out) crossingToo none := by
  obtain ⟨t, u, h1, h2, h3, h4, h5⟩ := sameOnly_spec (f := .negra) (f' := .negra) (src := crossing) (src' := crossingToo)
    (m := [0, 1, 2, 3, 4, 5, 6]) (by decide +kernel)
  exact C74_option_runs _ _ _ _ _ _ minPick_order minPick_order (many' out) _ _ none [t] [u] h1 h2
    (.cons ⟨(fitB_sound h4 _).1, (fitB_sound h5 _).1, fun h => (by cases h), fun _ => (fitB_sound h4 (many' out)).2, _, h3⟩ .nil)

/-- So do the trees themselves. -/
example (out : OutFormat) (c : Nat) : ∃ t u t' u', Pipeline (many' out) none t t' ∧ Pipeline (many' out) none u u' ∧
    (∃ ψ, Iso t' u' ψ) ∧ convertTree minPick (many' out) none c t = convertTree minPick (many' out) none c u := by
  obtain ⟨t, u, h1, h2, h3, h4, h5⟩ := sameOnly_spec (f := .negra) (f' := .negra) (src := crossing) (src' := crossingToo)
    (m := [0, 1, 2, 3, 4, 5, 6]) (by decide +kernel)
  obtain ⟨S, ho⟩ := fitB_sound h4 (many' out)
  have S' := (fitB_sound h5 (many' out)).1
  obtain ⟨t', k, _⟩ := process_spec minPick_order (many' out) none S (by simp)
  obtain ⟨u', k', _⟩ := process_spec minPick_order (many' out) none S' (by simp)
  exact ⟨t, u, t', u', k, k', C74_steps _ _ _ _ _ h3 _ _ S S' (fun h => by cases h) k k',
    C74_options _ _ _ h3 _ S S' (fun h => by cases h) (fun _ => ho) _ _ minPick_order minPick_order _ _⟩

/-- Nor is that for want of output. -/
example : (main .negra false minPick (many' .negra) crossing none).2 = .finished ∧
    (main .negra false minPick (many' .negra) crossing none).1.length = 1 := by decide +kernel

/-- C74: projectivization is different: two files that differ only in the order of the lines of two constituents hold
the same tree, but are projectivized to different trees. -/
theorem C74_projectivize : ∃ t u, Stream .negra false crossing [.ok t] true ∧ Stream .negra false crossingToo [.ok u] true ∧
    (∃ φ, Iso t u φ) ∧ (∀ o, Suits o t ∧ Suits o u) ∧
    main .negra false minPick { plain .simple with projectivize := true } crossing none =
      ([.text "(VROOT (A (X a) (B (P b) (X c) (X d))))\n".toList], .finished) ∧
    main .negra false minPick { plain .simple with projectivize := true } crossingToo none =
      ([.text "(VROOT (B (A (X a) (P b) (X c)) (X d)))\n".toList], .finished) := by
  obtain ⟨t, u, h1, h2, h3, h4, h5⟩ := sameOnly_spec (f := .negra) (f' := .negra) (src := crossing) (src' := crossingToo)
    (m := [0, 1, 2, 3, 4, 5, 6]) (by decide +kernel)
  exact ⟨t, u, h1, h2, ⟨_, h3⟩, fun o => ⟨(fitB_sound h4 o).1, (fitB_sound h5 o).1⟩, by decide +kernel, by decide +kernel⟩

end Props
end Lumberjack
