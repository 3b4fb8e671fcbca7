import Verif.Proofs.MachineSpan
import Verif.Proofs.NegraFix
import Verif.Props.TreeQuery

/-!
# Spans of machine integers (C94)
-/

namespace Lumberjack
namespace Props

open Lumberjack.Tree Lumberjack.Span

/-- C94: with or without overflow checks, a span below the greatest machine integer is made from an index as with unbounded
numbers. -/
theorem C94_from (b : Build) (i : Nat) (h : i < 2 ^ 64 - 1) : Machine.Span.ofIdx b i = .ok (ofIdx i) :=
  Machine.Span.ofIdx_eq (by omega)

/-- C94: from the greatest machine integer, a build with overflow checks panics, and one without makes a span without
indices. -/
theorem C94_from_max : Machine.Span.ofIdx .checked (2 ^ 64 - 1) = .panic ∧
    ∃ s, Machine.Span.ofIdx .wrapping (2 ^ 64 - 1) = .ok s ∧ ∀ i, s.contains i = false := by
  refine ⟨rfl, ⟨2 ^ 64 - 1, 0, none⟩, rfl, fun i => ?_⟩
  unfold contains
  rw [if_neg]
  simp

/-- C94: a list of indices is turned into a span as with unbounded numbers, unless it has the greatest machine integer: then
both builds panic. -/
theorem C94_from_vec (b : Build) (v : List Nat) (h : ∀ i ∈ v, i < 2 ^ 64) :
    (2 ^ 64 - 1 ∉ v → Machine.Span.fromVec b v = fromVec v) ∧ (2 ^ 64 - 1 ∈ v → Machine.Span.fromVec b v = .panic) := by
  refine ⟨fun hm => Machine.Span.fromVec_eq fun i hi => ?_, Machine.Span.fromVec_max h⟩
  have := h i hi
  have : i ≠ 2 ^ 64 - 1 := fun e => hm (e ▸ hi)
  omega

/-- C94: on spans that end below `2 ^ 64`, counting, comparing, merging, removing and extending give in both builds what
unbounded numbers give. -/
theorem C94_agree (b : Build) (s o : Span) (hs : Built s) (ho : Built o) (h1 : s.stop < 2 ^ 64) (h2 : o.stop < 2 ^ 64) :
    Machine.Span.nIndices b s = .ok s.nIndices ∧ Machine.Span.cmp b s o = .ok (s.cmp o) ∧
      Machine.Span.mergeSpans b s o = s.mergeSpans o ∧
      (∀ v, Machine.Span.removeIndices b s v = s.removeIndices v) ∧
      (s.stop + 1 < 2 ^ 64 → Machine.Span.extend b s = .ok s.extend) :=
  ⟨Machine.Span.nIndices_eq hs.valid h1, Machine.Span.cmp_eq hs.valid ho.valid h1 h2, Machine.Span.mergeSpans_eq h1 h2,
    fun v => Machine.Span.removeIndices_eq hs.valid h1 v, fun h => Machine.Span.extend_eq h⟩

/-- C94: a span that ends at the greatest machine integer cannot be extended: one build panics, the other leaves a span
without indices. -/
theorem C94_extend_max (s : Span) (h : s.stop = 2 ^ 64 - 1) : Machine.Span.extend .checked s = .panic ∧
    ∃ r, Machine.Span.extend .wrapping s = .ok r ∧ ∀ i, r.contains i = false := by
  have hc : Machine.usize .checked ((s.stop : Int) + 1) = .panic := by rw [h]; decide
  have hw : Machine.usize .wrapping ((s.stop : Int) + 1) = .ok 0 := by rw [h]; decide
  refine ⟨by unfold Machine.Span.extend; rw [hc]; rfl, { s with stop := 0 }, by unfold Machine.Span.extend; rw [hw]; rfl,
    fun i => ?_⟩
  unfold contains
  rw [if_neg]
  simp

/-- C94: so every span that a build makes, from indices other than the greatest machine integer, is one that could be made
with unbounded numbers: what the other properties say of spans holds in both builds. -/
theorem C94_made (b : Build) (s : Span) (h : Machine.Made b s) : Built s ∧ s.stop < 2 ^ 64 := h.fits

/-- C94: the converse. -/
theorem C94_makes (b : Build) (s : Span) (hs : Built s) (h : s.stop < 2 ^ 64) : Machine.Made b s := by
  have hlt : ∀ i ∈ s.toVec, i + 1 < 2 ^ 64 := fun i hi => by
    have := lt_stop_of_mem (mem_toVec.1 hi)
    omega
  refine .fromVec (v := s.toVec) (fun i hi => by have := hlt i hi; omega) ?_
  rw [Machine.Span.fromVec_eq hlt]
  exact Span.fromVec_eq hs.valid (toVec_toFinset s)

/-- C94: the spans in a well-formed tree are such spans, if the sentence has fewer than `2 ^ 64` words. -/
theorem C94_tree (b : Build) (t : Tree) (W : t.WF) (h : t.nTerminals < 2 ^ 64) (n : Nat) (x : Node)
    (hx : t.graph.node? n = some x) : x.span.stop ≤ t.nTerminals ∧ Machine.Made b x.span := by
  have key : x.span.Valid ∧ x.span.stop ≤ t.nTerminals := by
    cases x with
    | term x =>
      obtain ⟨i, hi, y, hy, e⟩ := W.sentence.pos n ⟨x, hx⟩
      rw [hx] at hy
      cases hy
      show x.span.Valid ∧ x.span.stop ≤ _
      rw [e]
      exact ⟨ofIdx_valid i, hi⟩
    | nt x =>
      obtain ⟨V, hc⟩ := W.spans n x hx
      refine ⟨V, ?_⟩
      obtain ⟨m, _, hm⟩ := (hc _).1 (contains_iff.2 V.last_mem)
      have := Negra.termAt_lt W hm
      have := V.lt
      show x.span.stop ≤ _
      omega
  exact ⟨key.2, C94_makes b _ key.1.built (by omega)⟩

/-- C94: the check of the number of skipped indices rests on overflow checks: without them only the exact number is
rejected. -/
theorem C94_skips (l u : Nat) (sk : Finset Nat) (hl : l < u) (hu : u < 2 ^ 64) (hs : sk.card < 2 ^ 64) (hne : sk ≠ ∅) :
    (Machine.Span.newWithSkips .checked l u sk = .ok ⟨l, u, some sk⟩ ↔ sk.card < u - l) ∧
      (Machine.Span.newWithSkips .wrapping l u sk = .ok ⟨l, u, some sk⟩ ↔ sk.card ≠ u - l) := by
  by_cases hc : sk.card ≤ u - l
  · rw [Machine.Span.newWithSkips_eq hu hc, Machine.Span.newWithSkips_eq hu hc]
    unfold newWithSkips
    by_cases h : sk.card < u - l
    · simp [h, hl, hne, Res.assert, h.ne]
    · have : sk.card = u - l := by omega
      simp [hl, hne, Res.assert, this]
  · unfold Machine.Span.newWithSkips
    rw [Machine.usize_exact (n := u - l) (by omega) (by omega), Machine.usize_exact (n := u - l) (by omega) (by omega)]
    simp only [hl, hne, Res.ok_bind, decide_true, Res.assert_true, ne_eq, not_false_eq_true]
    unfold Machine.usize
    rw [if_neg (by omega), if_neg (by omega)]
    have hm : ((u - l : Nat) : Int) - sk.card + 2 ^ 64 = (2 ^ 64 - (sk.card - (u - l)) : Nat) := by omega
    have he : (((u - l : Nat) : Int) - sk.card) % 2 ^ 64 = (2 ^ 64 - (sk.card - (u - l)) : Nat) := by omega
    constructor
    · simp only [show ¬ sk.card < u - l by omega, iff_false]
      exact fun h => by cases h
    · simp only [he, Int.toNat_natCast, show sk.card ≠ u - l by omega, not_false_eq_true, iff_true, Res.ok_bind]
      rw [show decide (0 < 2 ^ 64 - (sk.card - (u - l))) = true from decide_eq_true (by omega)]
      rfl

example : Machine.Made .wrapping ⟨1, 6, some {2, 4}⟩ := 
  C94_makes _ _ (Valid.built ⟨by decide, by decide, fun sk h => by cases h; decide⟩) (by decide)

example : Examples.disc.WF ∧ Examples.disc.nTerminals < 2 ^ 64 := ⟨disc_wf, by decide +kernel⟩

end Props
end Lumberjack
