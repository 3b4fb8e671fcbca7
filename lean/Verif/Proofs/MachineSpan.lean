import Verif.Proofs.Span
import Verif.Spec.MachineSpan

/-!
# Spans of machine integers
-/

namespace Lumberjack
namespace Machine

theorem usize_exact {b : Build} {i : Int} {n : Nat} (h : i = n) (hn : n < 2 ^ 64) : usize b i = .ok n := by
  subst h
  unfold usize
  rw [if_pos ⟨by omega, by exact_mod_cast hn⟩]
  rfl

namespace Span

open Lumberjack.Span (Valid indices mem_indices)

variable {b : Build}

theorem ofIdx_eq {i : Nat} (h : i + 1 < 2 ^ 64) : ofIdx b i = .ok (Lumberjack.Span.ofIdx i) := by
  unfold ofIdx
  rw [usize_exact (n := i + 1) (by simp) h]
  rfl

/-- Enough room for the skips: no difference with unbounded numbers. -/
theorem newWithSkips_eq {l u : Nat} {sk : Finset Nat} (hu : u < 2 ^ 64) (h : sk.card ≤ u - l) :
    newWithSkips b l u sk = Lumberjack.Span.newWithSkips l u sk := by
  unfold newWithSkips Lumberjack.Span.newWithSkips
  by_cases h1 : l < u
  · by_cases h2 : sk = ∅
    · simp [h1, h2, Res.assert]
    · rw [usize_exact (n := u - l) (by omega) (by omega)]
      simp only [h1, h2, Res.ok_bind, decide_true, Res.assert_true, ne_eq, not_false_eq_true]
      rw [usize_exact (n := u - l - sk.card) (by omega) (by omega)]
      simp only [Res.ok_bind]
      rw [show decide (0 < u - l - sk.card) = decide (sk.card < u - l) from by simp]
  · simp [h1, Res.assert]

theorem card_inside {s : Span} (V : s.Valid) {sk : Finset Nat} (h : s.skips = some sk) : sk.card + 2 ≤ s.stop - s.start := by
  have hs : sk ⊆ Finset.Ico (s.start + 1) (s.stop - 1) := fun k hk => by
    have := V.inside sk h k hk
    exact Finset.mem_Ico.2 (by omega)
  have h1 := Finset.card_le_card hs
  have hne : sk ≠ ∅ := fun e => V.nonempty (e ▸ h)
  have h2 := Finset.card_pos.2 (Finset.nonempty_iff_ne_empty.2 hne)
  rw [Nat.card_Ico] at h1
  omega

theorem nIndices_eq {s : Span} (V : s.Valid) (h : s.stop < 2 ^ 64) : nIndices b s = .ok s.nIndices := by
  have hl := V.lt
  unfold nIndices Lumberjack.Span.nIndices
  rw [usize_exact (n := s.stop - s.start) (by omega) (by omega)]
  simp only [Res.ok_bind]
  cases hk : s.skips with
  | none => rfl
  | some sk =>
    have := card_inside V hk
    exact usize_exact (n := s.stop - s.start - sk.card) (by omega) (by omega)

theorem mergeSpans_eq {s o : Span} (h1 : s.stop < 2 ^ 64) (h2 : o.stop < 2 ^ 64) :
    mergeSpans b s o = s.mergeSpans o := by
  unfold mergeSpans Lumberjack.Span.mergeSpans
  simp only
  have hu : (if s.stop ≥ o.stop then s.stop else o.stop) < 2 ^ 64 := by split <;> assumption
  generalize (if s.start ≤ o.start then s.start else o.start) = l
  generalize (if s.stop ≥ o.stop then s.stop else o.stop) = u at hu
  rw [newWithSkips_eq hu]
  have := Finset.card_le_card (Finset.filter_subset (fun i => s.contains i = false ∧ o.contains i = false) (Finset.Ico l u))
  rwa [Nat.card_Ico] at this

theorem shrinkLower_eq (u : Nat) (hu : u < 2 ^ 64) : ∀ (k : Nat) (sk : Finset Nat) (a : Nat), (∀ i ∈ sk, i < u) →
    shrinkLower b k sk a = .ok (Lumberjack.Span.shrinkLower k sk a)
  | 0, _, _, _ => rfl
  | k + 1, sk, a, h => by
    unfold shrinkLower Lumberjack.Span.shrinkLower
    split
    · rename_i ha
      have := h a ha
      rw [usize_exact (n := a + 1) (by simp) (by omega)]
      exact shrinkLower_eq u hu k _ _ fun i hi => h i (Finset.mem_of_mem_erase hi)
    · rfl

theorem shrinkUpper_eq : ∀ (k : Nat) (sk : Finset Nat) (a c : Nat), (∀ i ∈ sk, a ≤ i) → sk.card ≤ k → a + sk.card < c →
    c < 2 ^ 64 → shrinkUpper b k sk c = .ok (Lumberjack.Span.shrinkUpper k sk c)
  | 0, sk, a, c, _, _, h3, h4 => by
    unfold shrinkUpper Lumberjack.Span.shrinkUpper
    rw [usize_exact (n := c - 1) (by omega) (by omega)]
    rfl
  | k + 1, sk, a, c, h1, h2, h3, h4 => by
    unfold shrinkUpper Lumberjack.Span.shrinkUpper
    rw [usize_exact (n := c - 1) (by omega) (by omega)]
    simp only [Res.ok_bind]
    split
    · rename_i hc
      have := Finset.card_erase_of_mem hc
      have := Finset.card_pos.2 ⟨_, hc⟩
      exact shrinkUpper_eq k _ a (c - 1) (fun i hi => h1 i (Finset.mem_of_mem_erase hi)) (by omega) (by omega) (by omega)
    · rfl

theorem shrinkLower_sub : ∀ (k : Nat) (q : Finset Nat) (a : Nat), (Lumberjack.Span.shrinkLower k q a).1 ⊆ q
  | 0, _, _ => Finset.Subset.refl _
  | k + 1, q, a => by
    unfold Lumberjack.Span.shrinkLower
    split
    · exact (shrinkLower_sub k _ _).trans (Finset.erase_subset _ _)
    · exact Finset.Subset.refl _

theorem removeIndices_eq {s : Span} (V : s.Valid) (hs : s.stop < 2 ^ 64) (v : List Nat) :
    removeIndices b s v = s.removeIndices v := by
  have hl := V.lt
  by_cases h1 : (v.all fun idx => decide (idx ≥ s.start ∧ idx < s.stop)) = true
  · have hv : ∀ i ∈ v, s.start ≤ i ∧ i < s.stop := fun i hi => by simpa using List.all_eq_true.1 h1 i hi
    have key : ∀ sk : Finset Nat, (∀ i ∈ sk, s.start ≤ i ∧ i < s.stop) → sk.card < s.stop - s.start →
        shrinkLower b sk.card sk s.start = .ok (Lumberjack.Span.shrinkLower sk.card sk s.start) ∧
        shrinkUpper b (Lumberjack.Span.shrinkLower sk.card sk s.start).1.card
          (Lumberjack.Span.shrinkLower sk.card sk s.start).1 s.stop = .ok (Lumberjack.Span.shrinkUpper
          (Lumberjack.Span.shrinkLower sk.card sk s.start).1.card (Lumberjack.Span.shrinkLower sk.card sk s.start).1
          s.stop) := fun sk hin hc => by
      have hsub := shrinkLower_sub sk.card sk s.start
      have := Finset.card_le_card hsub
      exact ⟨shrinkLower_eq s.stop hs _ _ _ fun i hi => (hin i hi).2,
        shrinkUpper_eq _ _ s.start _ (fun i hi => (hin i (hsub hi)).1) le_rfl (by omega) hs⟩
    unfold removeIndices Lumberjack.Span.removeIndices
    simp only [h1, Res.assert_true, Res.ok_bind]
    rw [usize_exact (n := s.stop - s.start) (by omega) (by omega)]
    simp only [Res.ok_bind]
    cases hsk : s.skips with
    | none =>
      simp only
      by_cases h2 : v.toFinset.card < s.stop - s.start
      · obtain ⟨k1, k2⟩ := key v.toFinset (fun i hi => hv i (by simpa using hi)) h2
        simp only [h2, decide_true, Res.assert_true, Res.ok_bind, k1, k2]
      · simp only [h2, decide_false, Res.assert_false]
        rfl
    | some q =>
      simp only
      by_cases h2 : (q ∪ v.toFinset).card < s.stop - s.start
      · obtain ⟨k1, k2⟩ := key (q ∪ v.toFinset) (fun i hi => by
          rcases Finset.mem_union.1 hi with hi | hi
          · have := V.inside q hsk i hi
            exact ⟨by omega, by omega⟩
          · exact hv i (by simpa using hi)) h2
        simp only [h2, decide_true, Res.assert_true, Res.ok_bind, k1, k2]
      · simp only [h2, decide_false, Res.assert_false]
        rfl
  · unfold removeIndices Lumberjack.Span.removeIndices
    simp only [h1, Res.assert_false]
    rfl

theorem gaps_eq {u : Nat} (hu : u < 2 ^ 64) : ∀ (l : List Nat) (acc : Finset Nat × Nat), (∀ i ∈ l, i < u) →
    gaps b l acc = .ok (l.foldl Lumberjack.Span.gapStep acc)
  | [], _, _ => rfl
  | id :: rest, acc, h => by
    have := h id (by simp)
    unfold gaps
    rw [usize_exact (n := id + 1) (by simp) (by omega), Res.ok_bind, gaps_eq hu rest _ fun i hi => h i (by simp [hi])]
    rfl

/-- Skips that are gaps between indices. -/
theorem foldl_gaps_sub {lo : Nat} : ∀ (l : List Nat) (acc : Finset Nat × Nat) (u : Nat), (∀ i ∈ l, lo ≤ i) → acc.2 ≤ u →
    acc.1 ⊆ Finset.Ico lo u → (∀ i ∈ l, i < u) → (l.foldl Lumberjack.Span.gapStep acc).1 ⊆ Finset.Ico lo u
  | [], _, _, _, _, h, _ => h
  | id :: rest, acc, u, h1, h2, h3, h4 => by
    have a1 := h1 id (by simp)
    have a2 := h4 id (by simp)
    rw [List.foldl_cons]
    refine foldl_gaps_sub rest _ u (fun i hi => h1 i (by simp [hi])) ?_ ?_ fun i hi => h4 i (by simp [hi])
    · unfold Lumberjack.Span.gapStep; split <;> simp only <;> omega
    · unfold Lumberjack.Span.gapStep
      split
      · exact h3
      · refine Finset.union_subset h3 fun k hk => ?_
        rw [Finset.mem_Ico] at hk ⊢
        omega

theorem sorted_ends {v : List Nat} {first last : Nat} (h1 : (v.insertionSort (· ≤ ·)).head? = some first)
    (h2 : (v.insertionSort (· ≤ ·)).getLast? = some last) : first ∈ v ∧ last ∈ v ∧ ∀ i ∈ v, first ≤ i ∧ i ≤ last := by
  have hp := List.perm_insertionSort (· ≤ · : Nat → Nat → Prop) v
  have hs : (v.insertionSort (· ≤ ·)).Pairwise (· ≤ ·) := List.pairwise_insertionSort _ v
  generalize v.insertionSort (· ≤ ·) = l at h1 h2 hp hs
  refine ⟨hp.mem_iff.1 (List.mem_of_mem_head? h1), hp.mem_iff.1 (List.mem_of_mem_getLast? h2), fun i hi => ?_⟩
  have hi := hp.mem_iff.2 hi
  constructor
  · cases l with
    | nil => cases hi
    | cons a l =>
      cases h1
      rcases List.mem_cons.1 hi with rfl | hi
      · exact le_rfl
      · exact (List.pairwise_cons.1 hs).1 i hi
  · obtain ⟨l', rfl⟩ : ∃ l', l = l' ++ [last] := ⟨l.dropLast, (List.dropLast_append_getLast? _ h2).symm⟩
    rcases List.mem_append.1 hi with hi | hi
    · exact (List.pairwise_append.1 hs).2.2 i hi last (by simp)
    · rw [List.mem_singleton.1 hi]

theorem fromVec_eq {v : List Nat} (h : ∀ i ∈ v, i + 1 < 2 ^ 64) : fromVec b v = Lumberjack.Span.fromVec v := by
  unfold fromVec Lumberjack.Span.fromVec
  simp only
  cases h1 : (v.insertionSort (· ≤ ·)).head? with
  | none => rfl
  | some first =>
    cases h2 : (v.insertionSort (· ≤ ·)).getLast? with
    | none => rfl
    | some last =>
      obtain ⟨m1, m2, m3⟩ := sorted_ends h1 h2
      have hl := h last m2
      have hp := List.perm_insertionSort (· ≤ · : Nat → Nat → Prop) v
      have hin : ∀ i ∈ (v.insertionSort (· ≤ ·)).reverse, first ≤ i ∧ i < last + 1 := fun i hi => by
        have := m3 i (hp.mem_iff.1 (List.mem_reverse.1 hi))
        omega
      simp only
      rw [usize_exact (n := last + 1) (by simp) hl]
      simp only [Res.ok_bind]
      rw [gaps_eq hl _ _ fun i hi => (hin i hi).2]
      simp only [Res.ok_bind]
      split
      · rfl
      · rw [newWithSkips_eq hl]
        have := Finset.card_le_card (foldl_gaps_sub (lo := first) (v.insertionSort (· ≤ ·)).reverse (∅, last + 1) (last + 1)
          (fun i hi => (hin i hi).1) le_rfl (by simp) fun i hi => (hin i hi).2)
        rwa [Nat.card_Ico] at this

/-- The greatest machine integer among the indices: a panic in either build. -/
theorem fromVec_max {v : List Nat} (h : ∀ i ∈ v, i < 2 ^ 64) (hm : 2 ^ 64 - 1 ∈ v) : fromVec b v = .panic := by
  have hp := List.perm_insertionSort (· ≤ · : Nat → Nat → Prop) v
  unfold fromVec
  simp only
  cases h1 : (v.insertionSort (· ≤ ·)).head? with
  | none =>
    rw [List.head?_eq_none_iff] at h1
    rw [h1] at hp
    exact absurd (hp.mem_iff.2 hm) (by simp)
  | some first =>
    cases h2 : (v.insertionSort (· ≤ ·)).getLast? with
    | none =>
      rw [List.getLast?_eq_none_iff] at h2
      rw [h2] at h1; cases h1
    | some last =>
      obtain ⟨m1, m2, m3⟩ := sorted_ends h1 h2
      have e : last = 2 ^ 64 - 1 := by
        have := h last m2
        have := (m3 _ hm).2
        omega
      subst e
      cases b with
      | checked => rfl
      | wrapping =>
        simp only
        rw [show usize .wrapping (((2 ^ 64 - 1 : Nat) : Int) + 1) = .ok 0 from by decide]
        simp only [Res.ok_bind]
        obtain ⟨acc, ha⟩ : ∃ acc, gaps .wrapping (v.insertionSort (· ≤ ·)).reverse (∅, 0) = .ok acc := by
          generalize (v.insertionSort (· ≤ ·)).reverse = l
          generalize ((∅, 0) : Finset Nat × Nat) = acc
          induction l generalizing acc with
          | nil => exact ⟨acc, rfl⟩
          | cons i l ih =>
            obtain ⟨n, hn⟩ : ∃ n, usize .wrapping ((i : Int) + 1) = .ok n := by
              unfold usize
              split
              · exact ⟨_, rfl⟩
              · exact ⟨_, rfl⟩
            unfold gaps
            rw [hn, Res.ok_bind]
            exact ih _
        rw [ha]
        simp only [Res.ok_bind]
        split
        · rfl
        · rfl

theorem cmp_eq {s o : Span} (V1 : s.Valid) (V2 : o.Valid) (h1 : s.stop < 2 ^ 64) (h2 : o.stop < 2 ^ 64) :
    cmp b s o = .ok (s.cmp o) := by
  unfold cmp Lumberjack.Span.cmp
  split
  · rfl
  · split
    · rfl
    · rw [nIndices_eq V1 h1, nIndices_eq V2 h2]; rfl

theorem extend_eq {s : Span} (h : s.stop + 1 < 2 ^ 64) : extend b s = .ok s.extend := by
  unfold extend
  rw [usize_exact (n := s.stop + 1) (by simp) h]
  rfl

end Span
end Machine
end Lumberjack

namespace Lumberjack

theorem Span.Valid.built {s : Span} (h : s.Valid) : Span.Built s :=
  .fromVec (Span.fromVec_eq h (Span.toVec_toFinset s))

namespace Machine

open Lumberjack.Span (Built lt_stop_of_mem)

/-- What a build makes could be made with unbounded numbers, and ends below the bound. -/
theorem Made.fits {b : Build} {s : Span} (h : Made b s) : Built s ∧ s.stop < 2 ^ 64 := by
  induction h with
  | @ofIdx i s hi hs =>
    rw [Span.ofIdx_eq hi] at hs
    cases hs
    exact ⟨.ofIdx _, hi⟩
  | @new l u s hu hs =>
    refine ⟨.new hs, ?_⟩
    rw [Lumberjack.Span.new_eq_ok] at hs
    rw [hs.2]
    exact hu
  | @fromVec v s hv hs =>
    have hm : 2 ^ 64 - 1 ∉ v := fun hm => by
      rw [Span.fromVec_max hv hm] at hs
      cases hs
    have hv' : ∀ i ∈ v, i + 1 < 2 ^ 64 := fun i hi => by
      have := hv i hi
      have : i ≠ 2 ^ 64 - 1 := fun e => hm (e ▸ hi)
      omega
    rw [Span.fromVec_eq hv'] at hs
    refine ⟨.fromVec hs, ?_⟩
    have hne : v ≠ [] := by
      rintro rfl
      rw [Lumberjack.Span.fromVec_nil] at hs
      cases hs
    obtain ⟨s', e, V, hi⟩ := Lumberjack.Span.fromVec_spec hne
    rw [e] at hs
    cases hs
    have hl := V.last_mem
    have := V.lt
    rw [hi, List.mem_toFinset] at hl
    have := hv' _ hl
    omega
  | @merge a c s _ _ hs iha ihc =>
    rw [Span.mergeSpans_eq iha.2 ihc.2] at hs
    refine ⟨.merge iha.1 ihc.1 hs, ?_⟩
    obtain ⟨m, e, V, hi⟩ := Lumberjack.Span.mergeSpans_spec iha.1.valid ihc.1.valid
    rw [e] at hs
    cases hs
    have hl := V.last_mem
    have := V.lt
    rw [hi, Finset.mem_union] at hl
    have h1 := iha.2
    have h2 := ihc.2
    rcases hl with hl | hl <;> have := lt_stop_of_mem hl <;> omega
  | @remove a s v c _ hs iha =>
    rw [Span.removeIndices_eq iha.1.valid iha.2] at hs
    have B : Built s := .remove iha.1 hs
    refine ⟨B, ?_⟩
    have V := B.valid
    by_cases hin : ∀ i ∈ v, a.start ≤ i ∧ i < a.stop
    · by_cases hl : (a.indices \ v.toFinset).Nonempty
      · obtain ⟨r, c', e, V, hi, _⟩ := Lumberjack.Span.removeIndices_spec iha.1.valid v hin hl
        rw [e] at hs
        cases hs
        have hl := V.last_mem
        have := V.lt
        rw [hi, Finset.mem_sdiff] at hl
        have := lt_stop_of_mem hl.1
        have := iha.2
        omega
      · rw [Lumberjack.Span.removeIndices_panic v fun h => hl h.2] at hs
        cases hs
    · rw [Lumberjack.Span.removeIndices_panic v fun h => hin h.1] at hs
      cases hs
  | @extend a s _ hb hs iha =>
    rw [Span.extend_eq hb] at hs
    cases hs
    exact ⟨.extend iha.1, hb⟩

end Machine
end Lumberjack
