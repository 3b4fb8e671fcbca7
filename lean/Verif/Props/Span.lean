import Verif.Proofs.Span

/-!
# Properties C01–C06: spans

`Span.Built s` says that `s` was obtained through the constructors and mutators of `Span`
(`Spec/Span.lean`).  `contains` is the crate's own observer of a span.
-/

namespace Lumberjack
namespace Props
open Span

/-- A discontinuous span obtained by merging, used as non-vacuity witness: {0, 2, 3}. -/
theorem built_023 : Built ⟨0, 4, some {1}⟩ := by
  refine .merge (.ofIdx 0) (.new (a := 2) (b := 4) (s := ⟨2, 4, none⟩) rfl) ?_
  decide

/-- {0, 1, 3} -/
theorem built_013 : Built ⟨0, 4, some {2}⟩ := by
  refine .merge (.new (a := 0) (b := 2) (s := ⟨0, 2, none⟩) rfl) (.ofIdx 3) ?_
  decide

/-- **C01.** Collecting a span yields, strictly increasing, exactly the contained indices, and
`n_indices` counts them. -/
theorem C01_iterate (s : Span) (h : Built s) :
    s.toVec.Pairwise (· < ·) ∧ (∀ i, i ∈ s.toVec ↔ s.contains i = true) ∧
      s.toVec.length = s.nIndices :=
  ⟨toVec_sorted s, fun i => by rw [mem_toVec, contains_iff], by
    rw [toVec_length, h.valid.card_indices]⟩

example : (⟨0, 4, some {1}⟩ : Span).toVec = [0, 2, 3] := by decide
example := C01_iterate _ built_023

/-- C01: `bounds` gives the first contained index and one more than the last; `skips` gives the indices in between that are
not contained, and `None` if there are none. -/
theorem C01_bounds (s : Span) (h : Built s) :
    s.contains s.bounds.1 = true ∧ 0 < s.bounds.2 ∧ s.contains (s.bounds.2 - 1) = true ∧
      (∀ i, s.contains i = true → s.bounds.1 ≤ i ∧ i < s.bounds.2) ∧
      (∀ sk, s.skips = some sk → sk ≠ ∅ ∧ ∀ i, i ∈ sk ↔ s.bounds.1 ≤ i ∧ i < s.bounds.2 ∧ s.contains i = false) ∧
      (s.skips = none → ∀ i, s.bounds.1 ≤ i → i < s.bounds.2 → s.contains i = true) := by
  have V := h.valid
  simp only [contains_iff, bounds]
  refine ⟨V.start_mem, Nat.lt_of_le_of_lt (Nat.zero_le _) V.lt, V.last_mem, fun i hi => ⟨start_le_of_mem hi, lt_stop_of_mem hi⟩,
    fun sk hsk => ⟨fun e => V.nonempty (e ▸ hsk), fun i => ?_⟩, fun hn i h1 h2 => ?_⟩
  · rw [← Bool.not_eq_true, contains_iff, mem_indices]
    constructor
    · intro hi
      obtain ⟨h1, h2⟩ := V.inside sk hsk i hi
      exact ⟨by omega, by omega, fun ⟨_, _, h3⟩ => h3 sk hsk hi⟩
    · rintro ⟨h1, h2, h3⟩
      by_contra hi
      exact h3 ⟨h1, h2, fun sk' hsk' hi' => by rw [hsk] at hsk'; cases hsk'; exact hi hi'⟩
  · rw [mem_indices]
    exact ⟨h1, h2, fun sk hsk => by rw [hn] at hsk; cases hsk⟩

example : (⟨0, 4, some {1}⟩ : Span).bounds = (0, 4) := by decide
example := C01_bounds _ built_023

/-- **C02.** `covers_span` is inclusion. -/
theorem C02_covers (a b : Span) (hb : Built b) :
    a.coversSpan b = true ↔ ∀ i, b.contains i = true → a.contains i = true := by
  rw [coversSpan_iff hb.valid]
  simp only [contains_iff]
  rfl

example : (⟨0, 5, some {1}⟩ : Span).coversSpan ⟨0, 4, some {1}⟩ = true ∧
    (⟨0, 4, some {1}⟩ : Span).coversSpan ⟨0, 4, some {2}⟩ = false := by decide
example := C02_covers ⟨0, 4, some {2}⟩ _ built_023

/-- **C03.** `from_vec` fails exactly on the empty vector and otherwise returns the span of the set
of its elements, discontinuous exactly if that set has a gap. -/
theorem C03_fromVec (v : List Nat) :
    (v = [] → Span.fromVec v = .ok (.error .emptyVec)) ∧
    (v ≠ [] → ∃ s, Span.fromVec v = .ok (.ok s) ∧ (∀ i, s.contains i = true ↔ i ∈ v) ∧
      (s.skips.isSome = true ↔ HasGap v.toFinset) ∧ (∀ i, i ∈ v → s.start ≤ i ∧ i < s.stop) ∧
      s.start ∈ v ∧ s.stop - 1 ∈ v) := by
  refine ⟨fun h => h ▸ rfl, fun h => ?_⟩
  obtain ⟨s, h1, h2, h3⟩ := fromVec_spec h
  have hm : ∀ i, i ∈ s.indices ↔ i ∈ v := fun i => by rw [h3]; simp
  refine ⟨s, h1, fun i => by rw [contains_iff, hm], by rw [h2.skips_iff, h3], fun i hi => ?_,
    (hm _).1 h2.start_mem, (hm _).1 h2.last_mem⟩
  have := mem_indices.1 ((hm i).2 hi)
  exact ⟨this.1, this.2.1⟩

/-- **C03.** The result of `from_vec` depends only on which indices occur. -/
theorem C03_fromVec_order (v w : List Nat) (h : ∀ i, i ∈ v ↔ i ∈ w) :
    Span.fromVec v = Span.fromVec w := by
  by_cases hv : v = []
  · subst hv
    have : w = [] := List.eq_nil_iff_forall_not_mem.2 fun i hi => by simpa using (h i).2 hi
    rw [this]
  · obtain ⟨s, h1, h2, h3⟩ := fromVec_spec hv
    rw [h1, fromVec_eq h2 (by rw [h3]; ext i; simp [h i])]

example : Span.fromVec [3, 0, 2, 3] = .ok (.ok ⟨0, 4, some {1}⟩) := by decide
example := C03_fromVec_order [3, 0, 2, 3] [0, 2, 3] (by simp)

/-- **C03.** Collecting a span and building a span from the result gives the span back. -/
theorem C03_fromVec_toVec (s : Span) (h : Built s) : Span.fromVec s.toVec = .ok (.ok s) :=
  fromVec_eq h.valid (toVec_toFinset s)

/-- **C03.** `Span::new` panics exactly if the bounds are not increasing, and otherwise covers all indices from the lower
to below the upper bound. -/
theorem C03_new (a b : Nat) :
    (a < b → ∃ s, Span.new a b = .ok s ∧ ∀ i, s.contains i = true ↔ a ≤ i ∧ i < b) ∧
    (¬ a < b → Span.new a b = .panic) := by
  refine ⟨fun h => ⟨⟨a, b, none⟩, by simp [Span.new, h], fun i => ?_⟩, fun h => by simp [Span.new, h]⟩
  rw [contains_iff, mem_indices]
  simp

/-- **C03.** `Span::new_with_skips` panics exactly if the bounds are not increasing, no index is to be skipped or as many as
there are between the bounds; otherwise it covers the indices between the bounds that are not skipped. -/
theorem C03_new_with_skips (a b : Nat) (sk : Finset Nat) :
    (a < b ∧ sk ≠ ∅ ∧ sk.card < b - a → ∃ s, newWithSkips a b sk = .ok s ∧
      ∀ i, s.contains i = true ↔ a ≤ i ∧ i < b ∧ i ∉ sk) ∧
    (¬ (a < b ∧ sk ≠ ∅ ∧ sk.card < b - a) → newWithSkips a b sk = .panic) := by
  refine ⟨fun ⟨h1, h2, h3⟩ => ⟨_, newWithSkips_ok h1 h2 h3, fun i => ?_⟩, fun h => ?_⟩
  · rw [contains_iff, mem_indices]
    simp
  · unfold newWithSkips
    by_cases h1 : a < b
    · by_cases h2 : sk = ∅
      · simp [h1, h2]
      · have h3 : ¬ sk.card < b - a := fun h3 => h ⟨h1, h2, h3⟩
        simp [h1, h2, h3]
    · simp [h1]

example : ∃ s, newWithSkips 0 4 {1, 2} = .ok s ∧ ∀ i, s.contains i = true ↔ 0 ≤ i ∧ i < 4 ∧ i ∉ ({1, 2} : Finset Nat) :=
  (C03_new_with_skips 0 4 {1, 2}).1 (by decide)
example : newWithSkips 0 2 ∅ = .panic ∧ newWithSkips 0 2 {0, 1} = .panic ∧ Span.new 1 1 = .panic :=
  ⟨(C03_new_with_skips 0 2 ∅).2 (by decide), (C03_new_with_skips 0 2 {0, 1}).2 (by decide), (C03_new 1 1).2 (by decide)⟩

/-- **C04.** `merge_spans` does not panic and is the union; it is discontinuous exactly if the union
has a gap. -/
theorem C04_merge (a b : Span) (ha : Built a) (hb : Built b) :
    ∃ m, a.mergeSpans b = .ok m ∧
      (∀ i, m.contains i = true ↔ a.contains i = true ∨ b.contains i = true) ∧
      (m.skips.isSome = true ↔ HasGap (a.indices ∪ b.indices)) := by
  obtain ⟨m, h1, h2, h3⟩ := mergeSpans_spec ha.valid hb.valid
  exact ⟨m, h1, fun i => by simp only [contains_iff, h3, Finset.mem_union], by
    rw [h2.skips_iff, h3]⟩

/-- **C04.** Merging is commutative. -/
theorem C04_merge_comm (a b : Span) (ha : Built a) (hb : Built b) :
    a.mergeSpans b = b.mergeSpans a := by
  obtain ⟨m, h1, h2, h3⟩ := mergeSpans_spec ha.valid hb.valid
  obtain ⟨m', h1', h2', h3'⟩ := mergeSpans_spec hb.valid ha.valid
  rw [h1, h1', Valid.ext h2 h2' (by rw [h3, h3', Finset.union_comm])]

/-- **C04.** Merging is associative. -/
theorem C04_merge_assoc (a b c : Span) (ha : Built a) (hb : Built b) (hc : Built c) :
    (do let ab ← a.mergeSpans b; ab.mergeSpans c) =
      (do let bc ← b.mergeSpans c; a.mergeSpans bc) := by
  obtain ⟨ab, h1, h2, h3⟩ := mergeSpans_spec ha.valid hb.valid
  obtain ⟨bc, i1, i2, i3⟩ := mergeSpans_spec hb.valid hc.valid
  obtain ⟨m, j1, j2, j3⟩ := mergeSpans_spec h2 hc.valid
  obtain ⟨m', k1, k2, k3⟩ := mergeSpans_spec ha.valid i2
  rw [h1, i1, Res.ok_bind, Res.ok_bind, j1, k1,
    Valid.ext j2 k2 (by rw [j3, k3, h3, i3, Finset.union_assoc])]

/-- **C04.** Merging is idempotent. -/
theorem C04_merge_idem (a : Span) (ha : Built a) : a.mergeSpans a = .ok a := by
  obtain ⟨m, h1, h2, h3⟩ := mergeSpans_spec ha.valid ha.valid
  rw [h1, Valid.ext h2 ha.valid (by rw [h3, Finset.union_self])]

example : (⟨0, 4, some {1}⟩ : Span).mergeSpans ⟨0, 4, some {2}⟩ = .ok ⟨0, 4, none⟩ := by decide
example := C04_merge _ _ built_023 built_013
example := C04_merge_assoc _ _ _ built_023 built_013 (.ofIdx 7)

/-- **C05.** `remove_indices` panics exactly if an index lies outside the bounds or nothing is
left. -/
theorem C05_remove_panic (s : Span) (h : Built s) (v : List Nat) :
    s.removeIndices v = .panic ↔
      (∃ i ∈ v, i < s.start ∨ s.stop ≤ i) ∨ ∀ i, s.contains i = true → i ∈ v := by
  by_cases hc : (∀ i ∈ v, s.start ≤ i ∧ i < s.stop) ∧ (s.indices \ v.toFinset).Nonempty
  · obtain ⟨r, c, h1, _⟩ := removeIndices_spec h.valid v hc.1 hc.2
    rw [h1]
    simp only [reduceCtorEq, false_iff, not_or]
    constructor
    · rintro ⟨i, hi, hb⟩
      have := hc.1 i hi
      omega
    · obtain ⟨x, hx⟩ := hc.2
      simp only [Finset.mem_sdiff, List.mem_toFinset] at hx
      intro hall
      exact hx.2 (hall x (contains_iff.2 hx.1))
  · rw [removeIndices_panic v hc]
    simp only [true_iff]
    by_cases hb : ∀ i ∈ v, s.start ≤ i ∧ i < s.stop
    · right
      intro i hi
      by_contra hn
      exact hc ⟨hb, i, by simpa [contains_iff, hn] using hi⟩
    · left
      push Not at hb
      obtain ⟨i, hi, hb⟩ := hb
      exact ⟨i, hi, by by_cases hlt : i < s.start <;> simp_all⟩

/-- **C05.** Otherwise the span afterwards contains exactly what it contained minus `v`, with tight
bounds, and the returned value tells whether a gap remains. -/
theorem C05_remove (s : Span) (h : Built s) (v : List Nat) :
    s.removeIndices v = .panic ∨ ∃ r c, s.removeIndices v = .ok (r, c) ∧
      (∀ i, r.contains i = true ↔ s.contains i = true ∧ i ∉ v) ∧
      r.contains r.start = true ∧ r.contains (r.stop - 1) = true ∧
      (c = .discontinuous ↔ HasGap (s.indices \ v.toFinset)) ∧
      (r.skips.isSome = true ↔ c = .discontinuous) := by
  by_cases hc : (∀ i ∈ v, s.start ≤ i ∧ i < s.stop) ∧ (s.indices \ v.toFinset).Nonempty
  · obtain ⟨r, c, h1, h2, h3, h4⟩ := removeIndices_spec h.valid v hc.1 hc.2
    refine .inr ⟨r, c, h1, fun i => by simp [contains_iff, h3], contains_iff.2 h2.start_mem,
      contains_iff.2 h2.last_mem, ?_, ?_⟩
    · rw [← h3, ← h2.skips_iff, h4]
      unfold continuity
      split <;> simp_all
    · rw [h4]
      unfold continuity
      split <;> simp_all
  · exact .inl (removeIndices_panic v hc)

example : (⟨0, 4, some {1}⟩ : Span).removeIndices [0] = .ok (⟨2, 4, none⟩, .continuous) := by decide
example := C05_remove _ built_023 [0]
example : (⟨0, 4, some {1}⟩ : Span).removeIndices [0, 3, 2] = .panic := by decide

/-- **C06.** Comparing a span with itself gives `Equal`; swapping the arguments swaps the result. -/
theorem C06_order_symm (a b : Span) : a.cmp a = .eq ∧ b.cmp a = (a.cmp b).swap := by
  constructor
  · simp [Span.cmp]
  · unfold Span.cmp
    by_cases h1 : a.start = b.start
    · by_cases h2 : a.stop = b.stop
      · simp [h1, h2, Nat.compare_swap]
      · simp [h1, h2, Nat.compare_swap, Ne.symm h2]
    · simp [h1, Ne.symm h1, Nat.compare_swap]

/-- **C06.** The order is transitive. -/
theorem C06_order_trans (a b c : Span) (h1 : a.cmp b ≠ .gt) (h2 : b.cmp c ≠ .gt) :
    a.cmp c ≠ .gt := by
  have key : ∀ x y : Span, x.cmp y ≠ .gt ↔ x.start < y.start ∨ (x.start = y.start ∧
      (x.stop < y.stop ∨ (x.stop = y.stop ∧ x.nIndices ≤ y.nIndices))) := by
    intro x y
    unfold Span.cmp
    by_cases e1 : x.start = y.start
    · by_cases e2 : x.stop = y.stop
      · simp [e1, e2, Nat.compare_eq_gt]
      · simp [e1, e2, Nat.compare_eq_gt]; omega
    · simp [e1, Nat.compare_eq_gt]; omega
  rw [key] at *
  omega

/-- **C06.** The order is total: of two spans one is not greater than the other. -/
theorem C06_order_total (a b : Span) : a.cmp b ≠ .gt ∨ b.cmp a ≠ .gt := by
  rw [(C06_order_symm a b).2]
  cases a.cmp b <;> simp

/-- **C06.** If every index of `a` precedes every index of `b`, then `a` is ordered before `b`. -/
theorem C06_order_position (a b : Span) (ha : Built a) (hb : Built b)
    (h : ∀ i j, a.contains i = true → b.contains j = true → i < j) : a.cmp b = .lt := by
  have := h a.start b.start (contains_iff.2 ha.valid.start_mem) (contains_iff.2 hb.valid.start_mem)
  unfold Span.cmp
  rw [if_pos (by omega), Nat.compare_eq_lt]
  exact this

example := C06_order_position (ofIdx 0) ⟨2, 4, none⟩ (.ofIdx 0) (.new (a := 2) (b := 4) rfl)
  (by simp only [contains_iff]; simp; omega)

/-- **C06.** `Equal` does not imply `==`: {0,2,3} and {0,1,3}. -/
theorem C06_order_eq_not_eq : ∃ a b : Span, Built a ∧ Built b ∧ a.cmp b = .eq ∧ a ≠ b :=
  ⟨_, _, built_023, built_013, by decide, by decide⟩

/-- **C06.** On continuous spans `Equal` is equality. -/
theorem C06_order_continuous_eq (a b : Span) (ha : a.skips = none) (hb : b.skips = none)
    (h : a.cmp b = .eq) : a = b := by
  unfold Span.cmp at h
  obtain ⟨_, _, _⟩ := a
  obtain ⟨_, _, _⟩ := b
  simp only at ha hb
  subst ha hb
  dsimp only at h
  split at h
  · rename_i h1; simp at h; omega
  · split at h
    · rename_i h1 h2; simp at h; omega
    · simp_all

end Props
end Lumberjack
