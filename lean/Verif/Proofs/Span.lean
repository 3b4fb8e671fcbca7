import Verif.Spec.Span
import Mathlib.Data.Finset.Sort
import Mathlib.Tactic.Linarith

/-!
# Lemmas about spans
-/

namespace Lumberjack
namespace Span

theorem mem_indices {s : Span} {i : Nat} :
    i ∈ s.indices ↔ s.start ≤ i ∧ i < s.stop ∧ ∀ sk, s.skips = some sk → i ∉ sk := by
  unfold indices
  cases h : s.skips <;> simp [and_assoc]

theorem contains_iff {s : Span} {i : Nat} : s.contains i = true ↔ i ∈ s.indices := by
  rw [mem_indices]
  unfold contains
  cases h : s.skips <;> simp [and_assoc]

theorem contains_eq {s : Span} {i : Nat} : s.contains i = decide (i ∈ s.indices) := by
  rw [Bool.eq_iff_iff, contains_iff]; simp

theorem contains_false {s : Span} {i : Nat} : s.contains i = false ↔ i ∉ s.indices := by
  rw [contains_eq]; simp

theorem Valid.start_mem {s : Span} (h : s.Valid) : s.start ∈ s.indices := by
  rw [mem_indices]
  refine ⟨le_rfl, h.lt, fun sk hsk hm => ?_⟩
  have := h.inside sk hsk _ hm
  omega

theorem Valid.last_mem {s : Span} (h : s.Valid) : s.stop - 1 ∈ s.indices := by
  rw [mem_indices]
  have hl := h.lt
  refine ⟨by omega, by omega, fun sk hsk hm => ?_⟩
  have := h.inside sk hsk _ hm
  omega

theorem Valid.indices_nonempty {s : Span} (h : s.Valid) : s.indices.Nonempty := ⟨_, h.start_mem⟩

theorem start_le_of_mem {s : Span} {i : Nat} (h : i ∈ s.indices) : s.start ≤ i := (mem_indices.1 h).1
theorem lt_stop_of_mem {s : Span} {i : Nat} (h : i ∈ s.indices) : i < s.stop := (mem_indices.1 h).2.1

/-- Valid spans with the same positions are equal. -/
theorem Valid.ext {s t : Span} (hs : s.Valid) (ht : t.Valid) (h : s.indices = t.indices) : s = t := by
  have h1 : s.start = t.start := by
    have a := start_le_of_mem (h ▸ hs.start_mem)
    have b := start_le_of_mem (h.symm ▸ ht.start_mem)
    omega
  have h2 : s.stop = t.stop := by
    have a := lt_stop_of_mem (h ▸ hs.last_mem)
    have b := lt_stop_of_mem (h.symm ▸ ht.last_mem)
    have := hs.lt; have := ht.lt
    omega
  have key : ∀ k, (∃ sk, s.skips = some sk ∧ k ∈ sk) ↔ (∃ sk, t.skips = some sk ∧ k ∈ sk) := by
    intro k
    have hk : k ∈ s.indices ↔ k ∈ t.indices := by rw [h]
    rw [mem_indices, mem_indices] at hk
    constructor
    · rintro ⟨sk, e, m⟩
      have i := hs.inside sk e k m
      by_contra hn
      push Not at hn
      exact (hk.2 ⟨by omega, by omega, hn⟩).2.2 sk e m
    · rintro ⟨sk, e, m⟩
      have i := ht.inside sk e k m
      by_contra hn
      push Not at hn
      exact (hk.1 ⟨by omega, by omega, hn⟩).2.2 sk e m
  have h3 : s.skips = t.skips := by
    cases es : s.skips with
    | none =>
      cases et : t.skips with
      | none => rfl
      | some b =>
        exfalso
        have : b ≠ ∅ := fun hb => ht.nonempty (hb ▸ et)
        obtain ⟨k, hk⟩ := Finset.nonempty_iff_ne_empty.2 this
        obtain ⟨sk, e, _⟩ := (key k).2 ⟨b, et, hk⟩
        simp [es] at e
    | some a =>
      cases et : t.skips with
      | none =>
        exfalso
        have : a ≠ ∅ := fun hb => hs.nonempty (hb ▸ es)
        obtain ⟨k, hk⟩ := Finset.nonempty_iff_ne_empty.2 this
        obtain ⟨sk, e, _⟩ := (key k).1 ⟨a, es, hk⟩
        simp [et] at e
      | some b =>
        congr 1
        ext k
        have := key k
        simpa [es, et] using this
  cases s; cases t; simp_all

/-- A valid span has skips exactly if its set of positions has a gap. -/
theorem Valid.skips_iff {s : Span} (h : s.Valid) : s.skips.isSome = true ↔ HasGap s.indices := by
  constructor
  · intro hs
    obtain ⟨sk, e⟩ := Option.isSome_iff_exists.1 hs
    have : sk ≠ ∅ := fun hb => h.nonempty (hb ▸ e)
    obtain ⟨k, hk⟩ := Finset.nonempty_iff_ne_empty.2 this
    have i := h.inside sk e k hk
    refine ⟨s.start, h.start_mem, s.stop - 1, h.last_mem, k, ?_, by omega, by omega⟩
    intro hm
    exact (mem_indices.1 hm).2.2 sk e hk
  · rintro ⟨a, ha, b, hb, k, hk, h1, h2⟩
    by_contra hn
    have hn' : s.skips = none := by simpa using hn
    apply hk
    rw [mem_indices] at *
    refine ⟨by omega, by omega, ?_⟩
    simp [hn']

theorem ofIdx_valid (i : Nat) : (ofIdx i).Valid := ⟨by simp [ofIdx], by simp [ofIdx], by simp [ofIdx]⟩

@[simp] theorem ofIdx_indices (i : Nat) : (ofIdx i).indices = {i} := by
  ext k; rw [mem_indices]; simp [ofIdx]; omega

@[simp] theorem ofIdx_start (i : Nat) : (ofIdx i).start = i := rfl
@[simp] theorem ofIdx_stop (i : Nat) : (ofIdx i).stop = i + 1 := rfl
@[simp] theorem ofIdx_skips (i : Nat) : (ofIdx i).skips = none := rfl

theorem new_ok {a b : Nat} (h : a < b) : Span.new a b = .ok ⟨a, b, none⟩ := by
  simp [Span.new, h]

theorem new_panic {a b : Nat} (h : ¬ a < b) : Span.new a b = .panic := by
  simp [Span.new, h]

theorem new_eq_ok {a b : Nat} {s : Span} : Span.new a b = .ok s ↔ a < b ∧ s = ⟨a, b, none⟩ := by
  by_cases h : a < b
  · rw [new_ok h]; simp [h, eq_comm]
  · rw [new_panic h]; simp [h]

theorem cont_valid {a b : Nat} (h : a < b) : (⟨a, b, none⟩ : Span).Valid := ⟨h, by simp, by simp⟩

@[simp] theorem cont_indices {a b : Nat} : (⟨a, b, none⟩ : Span).indices = Finset.Ico a b := by
  ext k; rw [mem_indices]; simp

theorem newWithSkips_ok {a b : Nat} {sk : Finset Nat} (h : a < b) (hne : sk ≠ ∅)
    (hc : sk.card < b - a) : newWithSkips a b sk = .ok ⟨a, b, some sk⟩ := by
  simp [newWithSkips, h, hne, hc]

/-! ## Covering -/

theorem coversSpan_iff {s o : Span} (ho : o.Valid) :
    s.coversSpan o = true ↔ o.indices ⊆ s.indices := by
  unfold coversSpan
  constructor
  · intro h
    split at h
    · rename_i hb
      intro k hk
      have hk' := mem_indices.1 hk
      rw [mem_indices]
      refine ⟨by omega, by omega, fun sk e hm => ?_⟩
      simp only [e] at h
      have h' := of_decide_eq_true h k hm
      rw [contains_false] at h'
      exact h' hk
    · simp at h
  · intro h
    have h1 := mem_indices.1 (h ho.start_mem)
    have h2 := mem_indices.1 (h ho.last_mem)
    have hl := ho.lt
    rw [if_pos ⟨h1.1, by omega⟩]
    cases e : s.skips with
    | none => rfl
    | some sk =>
      simp only [decide_eq_true_eq]
      intro k hk
      rw [contains_false]
      intro hm
      exact (mem_indices.1 (h hm)).2.2 sk e hk

/-! ## Merging -/

/-- Building a span from bounds and the complement of a set containing the bounds. -/
theorem valid_of_set {a b : Nat} {A : Finset Nat} (hab : a < b) (ha : a ∈ A) (hb : b - 1 ∈ A)
    (hA : A ⊆ Finset.Ico a b) (sk : Finset Nat) (hsk : sk = Finset.Ico a b \ A) :
    (sk = ∅ → (⟨a, b, none⟩ : Span).Valid ∧ (⟨a, b, none⟩ : Span).indices = A) ∧
    (sk ≠ ∅ → sk.card < b - a ∧ (⟨a, b, some sk⟩ : Span).Valid ∧
      (⟨a, b, some sk⟩ : Span).indices = A) := by
  subst hsk
  refine ⟨fun h => ⟨cont_valid hab, ?_⟩, fun h => ⟨?_, ⟨hab, by simpa using h, ?_⟩, ?_⟩⟩
  · rw [cont_indices]
    exact Finset.Subset.antisymm (Finset.sdiff_eq_empty_iff_subset.1 h) hA
  · rw [← Nat.card_Ico]
    apply Finset.card_lt_card
    refine ⟨Finset.sdiff_subset, fun hh => ?_⟩
    have : a ∈ Finset.Ico a b \ A := hh (by simp [hab])
    simp [ha] at this
  · rintro sk e k hk
    simp only [Option.some.injEq] at e
    subst e
    simp only [Finset.mem_sdiff, Finset.mem_Ico] at hk
    have h1 : k ≠ a := fun e => hk.2 (e ▸ ha)
    have h2 : k ≠ b - 1 := fun e => hk.2 (e ▸ hb)
    dsimp only
    omega
  · ext k
    rw [mem_indices]
    simp only [Option.some.injEq, forall_eq', Finset.mem_sdiff, Finset.mem_Ico]
    constructor
    · rintro ⟨h1, h2, h3⟩
      by_contra hn
      exact h3 ⟨⟨h1, h2⟩, hn⟩
    · intro hk
      have := hA hk
      simp only [Finset.mem_Ico] at this
      exact ⟨this.1, this.2, fun h => h.2 hk⟩

theorem mergeSpans_spec {s o : Span} (hs : s.Valid) (ho : o.Valid) :
    ∃ m, s.mergeSpans o = .ok m ∧ m.Valid ∧ m.indices = s.indices ∪ o.indices := by
  have hsl := hs.lt
  have hol := ho.lt
  set a := if s.start ≤ o.start then s.start else o.start with ha
  set b := if s.stop ≥ o.stop then s.stop else o.stop with hb
  have hab : a < b := by rw [ha, hb]; split <;> split <;> omega
  set sk := (Finset.Ico a b).filter (fun i => s.contains i = false ∧ o.contains i = false) with hsk
  have hskeq : sk = Finset.Ico a b \ (s.indices ∪ o.indices) := by
    ext k
    simp [hsk, contains_eq]
  have hsub : s.indices ∪ o.indices ⊆ Finset.Ico a b := by
    intro k hk
    rw [Finset.mem_union, mem_indices, mem_indices] at hk
    rw [Finset.mem_Ico, ha, hb]
    split <;> split <;> omega
  have hma : a ∈ s.indices ∪ o.indices := by
    rw [Finset.mem_union, ha]
    split
    · exact .inl hs.start_mem
    · exact .inr ho.start_mem
  have hmb : b - 1 ∈ s.indices ∪ o.indices := by
    rw [Finset.mem_union, hb]
    split
    · exact .inl hs.last_mem
    · exact .inr ho.last_mem
  have key := valid_of_set hab hma hmb hsub sk hskeq
  have hdef : s.mergeSpans o = if sk = ∅ then Span.new a b else newWithSkips a b sk := rfl
  by_cases h : sk = ∅
  · refine ⟨⟨a, b, none⟩, ?_, (key.1 h).1, (key.1 h).2⟩
    rw [hdef, if_pos h, new_ok hab]
  · refine ⟨⟨a, b, some sk⟩, ?_, (key.2 h).2.1, (key.2 h).2.2⟩
    rw [hdef, if_neg h, newWithSkips_ok hab h (key.2 h).1]

/-! ## Removing -/

theorem shrinkLower_spec (k : Nat) (sk : Finset Nat) (a : Nat) (hk : sk.card ≤ k) :
    let r := shrinkLower k sk a
    a ≤ r.2 ∧ r.2 ∉ r.1 ∧ (∀ i, i ∈ r.1 ↔ i ∈ sk ∧ (r.2 ≤ i ∨ i < a)) ∧
      ∀ i, a ≤ i → i < r.2 → i ∈ sk := by
  induction k generalizing sk a with
  | zero =>
    have : sk = ∅ := Finset.card_eq_zero.1 (by omega)
    subst this
    simp only [shrinkLower]
    refine ⟨le_rfl, by simp, by simp, fun i h1 h2 => by omega⟩
  | succ k ih =>
    simp only [shrinkLower]
    split
    · rename_i hm
      have hc : (sk.erase a).card ≤ k := by rw [Finset.card_erase_of_mem hm]; omega
      obtain ⟨h1, h2, h3, h4⟩ := ih (sk.erase a) (a + 1) hc
      refine ⟨by omega, h2, fun i => ?_, fun i hi1 hi2 => ?_⟩
      · rw [h3 i, Finset.mem_erase]
        constructor
        · rintro ⟨⟨x, y⟩, z⟩
          exact ⟨y, by omega⟩
        · rintro ⟨x, y⟩
          exact ⟨⟨by omega, x⟩, by omega⟩
      · by_cases e : i = a
        · exact e ▸ hm
        · exact Finset.mem_of_mem_erase (h4 i (by omega) hi2)
    · rename_i hm
      refine ⟨le_rfl, hm, fun i => ?_, fun i h1 h2 => by omega⟩
      constructor
      · intro h; exact ⟨h, by omega⟩
      · intro h; exact h.1

theorem shrinkUpper_spec (k : Nat) (sk : Finset Nat) (a b : Nat) (hk : sk.card ≤ k)
    (ha : a ∉ sk) (hab : a < b) :
    let r := shrinkUpper k sk b
    r.2 ≤ b ∧ a < r.2 ∧ r.2 - 1 ∉ r.1 ∧ (∀ i, i ∈ r.1 ↔ i ∈ sk ∧ (i < r.2 ∨ b ≤ i)) ∧
      ∀ i, r.2 ≤ i → i < b → i ∈ sk := by
  induction k generalizing sk b with
  | zero =>
    have : sk = ∅ := Finset.card_eq_zero.1 (by omega)
    subst this
    simp only [shrinkUpper]
    refine ⟨le_rfl, hab, by simp, by simp, fun i h1 h2 => by omega⟩
  | succ k ih =>
    simp only [shrinkUpper]
    split
    · rename_i hm
      have hne : b - 1 ≠ a := fun e => ha (e ▸ hm)
      have hc : (sk.erase (b - 1)).card ≤ k := by rw [Finset.card_erase_of_mem hm]; omega
      obtain ⟨h1, h2, h3, h4, h5⟩ := ih (sk.erase (b - 1)) (b - 1) hc
        (fun h => ha (Finset.mem_of_mem_erase h)) (by omega)
      refine ⟨by omega, h2, h3, fun i => ?_, fun i hi1 hi2 => ?_⟩
      · rw [h4 i, Finset.mem_erase]
        constructor
        · rintro ⟨⟨x, y⟩, z⟩
          exact ⟨y, by omega⟩
        · rintro ⟨x, y⟩
          exact ⟨⟨by omega, x⟩, by omega⟩
      · by_cases e : i = b - 1
        · exact e ▸ hm
        · exact Finset.mem_of_mem_erase (h5 i hi1 (by omega))
    · rename_i hm
      refine ⟨le_rfl, hab, hm, fun i => ?_, fun i h1 h2 => by omega⟩
      constructor
      · intro h; exact ⟨h, by omega⟩
      · intro h; exact h.1

theorem indices_eq_sdiff (s : Span) : s.indices = Finset.Ico s.start s.stop \ s.skips.getD ∅ := rfl

theorem removeIndices_spec {s : Span} (hs : s.Valid) (v : List Nat)
    (hin : ∀ i ∈ v, s.start ≤ i ∧ i < s.stop) (hleft : (s.indices \ v.toFinset).Nonempty) :
    ∃ r c, s.removeIndices v = .ok (r, c) ∧ r.Valid ∧ r.indices = s.indices \ v.toFinset ∧
      c = r.continuity := by
  set sk0 := s.skips.getD ∅ ∪ v.toFinset with hsk0
  have hskdef : (match s.skips with
      | some skips => skips ∪ v.toFinset
      | none => v.toFinset) = sk0 := by
    cases e : s.skips <;> simp [hsk0, e]
  have hsub : sk0 ⊆ Finset.Ico s.start s.stop := by
    intro k hk
    rw [hsk0, Finset.mem_union] at hk
    rw [Finset.mem_Ico]
    rcases hk with hk | hk
    · cases e : s.skips with
      | none => simp [e] at hk
      | some sk =>
        have := hs.inside sk e k (by simpa [e] using hk)
        omega
    · exact hin k (by simpa using hk)
  have hleft' : s.indices \ v.toFinset = Finset.Ico s.start s.stop \ sk0 := by
    rw [indices_eq_sdiff, sdiff_sdiff_left]; rfl
  have hcard : sk0.card < s.stop - s.start := by
    rw [← Nat.card_Ico]
    apply Finset.card_lt_card
    refine ⟨hsub, fun hh => ?_⟩
    rw [hleft'] at hleft
    obtain ⟨x, hx⟩ := hleft
    simp only [Finset.mem_sdiff] at hx
    exact hx.2 (hh hx.1)
  obtain ⟨x, hx⟩ := hleft
  rw [hleft', Finset.mem_sdiff, Finset.mem_Ico] at hx
  obtain ⟨l1, l2, l3, l4⟩ := shrinkLower_spec sk0.card sk0 s.start le_rfl
  set lo := shrinkLower sk0.card sk0 s.start with hlo
  have hxlo : lo.2 ≤ x := by
    by_contra hn
    exact hx.2 (l4 x hx.1.1 (by omega))
  obtain ⟨u1, u2, u3, u4, u5⟩ := shrinkUpper_spec lo.1.card lo.1 lo.2 s.stop le_rfl l2 (by omega)
  set hi := shrinkUpper lo.1.card lo.1 s.stop with hhi
  have hskin : ∀ i ∈ sk0, s.start ≤ i ∧ i < s.stop := fun i hi => by
    simpa using hsub hi
  have hall : (v.all fun idx => decide (idx ≥ s.start ∧ idx < s.stop)) = true := by
    simpa using hin
  have hrun : s.removeIndices v = if hi.1 = ∅ then .ok (⟨lo.2, hi.2, none⟩, .continuous)
      else .ok (⟨lo.2, hi.2, some hi.1⟩, .discontinuous) := by
    unfold removeIndices
    rw [hall]
    simp only [Res.assert_true, Res.ok_bind]
    have hc := decide_eq_true hcard
    cases e : s.skips with
    | none =>
      simp only [e] at hskdef
      simp only [hskdef, hc, Res.assert_true, Res.ok_bind, Res.pure_eq, ← hlo, ← hhi]
    | some x =>
      simp only [e] at hskdef
      simp only [hskdef, hc, Res.assert_true, Res.ok_bind, Res.pure_eq, ← hlo, ← hhi]
  have hskeq : hi.1 = Finset.Ico lo.2 hi.2 \ (s.indices \ v.toFinset) := by
    ext i
    rw [u4 i, l3 i, hleft']
    simp only [Finset.mem_sdiff, Finset.mem_Ico]
    constructor
    · rintro ⟨⟨h1, h2⟩, h3⟩
      have := hskin i h1
      refine ⟨by omega, fun h => h.2 h1⟩
    · rintro ⟨h1, h2⟩
      have : i ∈ sk0 := by
        by_contra hn
        exact h2 ⟨by omega, hn⟩
      exact ⟨⟨this, by omega⟩, by omega⟩
  have hA1 : lo.2 ∈ s.indices \ v.toFinset := by
    rw [hleft', Finset.mem_sdiff, Finset.mem_Ico]
    refine ⟨by omega, fun h => l2 ?_⟩
    rw [l3]
    exact ⟨h, by omega⟩
  have hA2 : hi.2 - 1 ∈ s.indices \ v.toFinset := by
    rw [hleft', Finset.mem_sdiff, Finset.mem_Ico]
    refine ⟨by omega, fun h => u3 ?_⟩
    rw [u4, l3]
    exact ⟨⟨h, by omega⟩, by omega⟩
  have hA3 : s.indices \ v.toFinset ⊆ Finset.Ico lo.2 hi.2 := by
    intro i hi'
    rw [hleft', Finset.mem_sdiff, Finset.mem_Ico] at hi'
    rw [Finset.mem_Ico]
    constructor
    · by_contra hn
      exact hi'.2 (l4 i hi'.1.1 (by omega))
    · by_contra hn
      have := u5 i (by omega) hi'.1.2
      rw [l3] at this
      exact hi'.2 this.1
  have key := valid_of_set u2 hA1 hA2 hA3 hi.1 hskeq
  by_cases h : hi.1 = ∅
  · refine ⟨⟨lo.2, hi.2, none⟩, .continuous, ?_, (key.1 h).1, (key.1 h).2, rfl⟩
    rw [hrun, if_pos h]
  · refine ⟨⟨lo.2, hi.2, some hi.1⟩, .discontinuous, ?_, (key.2 h).2.1, (key.2 h).2.2, rfl⟩
    rw [hrun, if_neg h]

theorem removeIndices_panic {s : Span} (v : List Nat)
    (h : ¬ ((∀ i ∈ v, s.start ≤ i ∧ i < s.stop) ∧ (s.indices \ v.toFinset).Nonempty)) :
    s.removeIndices v = .panic := by
  unfold removeIndices
  by_cases hall : (v.all fun idx => decide (idx ≥ s.start ∧ idx < s.stop)) = true
  · rw [hall]
    simp only [Res.assert_true, Res.ok_bind]
    have hin : ∀ i ∈ v, s.start ≤ i ∧ i < s.stop := by simpa using hall
    have hemp : s.indices \ v.toFinset = ∅ := by
      by_contra hn
      exact h ⟨hin, Finset.nonempty_iff_ne_empty.2 hn⟩
    have hnot : ¬ (s.skips.getD ∅ ∪ v.toFinset).card < s.stop - s.start := by
      rw [indices_eq_sdiff, sdiff_sdiff_left, Finset.sdiff_eq_empty_iff_subset] at hemp
      have := Finset.card_le_card hemp
      rw [Nat.card_Ico] at this
      exact not_lt.2 this
    cases e : s.skips with
    | none => simp only [e, Option.getD_none, Finset.empty_union] at hnot; simp [hnot]
    | some x => simp only [e, Option.getD_some] at hnot; simp [hnot]
  · rw [Bool.not_eq_true] at hall
    rw [hall]
    rfl

/-! ## From a vector -/

theorem gap_fold (l : List Nat) (sk : Finset Nat) (u : Nat)
    (hl : l.Pairwise (· ≥ ·)) (hu : ∀ x ∈ l, x < u ∨ x = u) :
    ∀ k, k ∈ (l.foldl gapStep (sk, u)).1 ↔
      k ∈ sk ∨ (k ∉ l ∧ k < u ∧ ∃ x ∈ l, x < k) := by
  induction l generalizing sk u with
  | nil => intro k; simp
  | cons a as ih =>
    intro k
    rw [List.foldl_cons]
    rw [List.pairwise_cons] at hl
    have hau := hu a (by simp)
    have hstep : gapStep (sk, u) a = (sk ∪ Finset.Ico (a + 1) u, a) := by
      unfold gapStep
      dsimp only
      split
      · rename_i h; subst h; simp
      · rfl
    rw [hstep, ih (sk ∪ Finset.Ico (a + 1) u) a hl.2 (fun x hx => by
      have := hl.1 x hx; omega)]
    simp only [Finset.mem_union, Finset.mem_Ico, List.mem_cons]
    constructor
    · rintro ((h | h) | ⟨h1, h2, x, hx, hxk⟩)
      · exact .inl h
      · refine .inr ⟨?_, h.2, a, .inl rfl, by omega⟩
        rintro (e | e)
        · omega
        · have := hl.1 k e; omega
      · exact .inr ⟨by rintro (e | e); omega; exact h1 e, by omega, x, .inr hx, hxk⟩
    · rintro (h | ⟨h1, h2, x, hx, hxk⟩)
      · exact .inl (.inl h)
      · by_cases hka : a < k
        · exact .inl (.inr ⟨by omega, h2⟩)
        · refine .inr ⟨fun e => h1 (.inr e), ?_, ?_⟩
          · have : k ≠ a := fun e => h1 (.inl e)
            omega
          · rcases hx with e | e
            · omega
            · exact ⟨x, e, hxk⟩

theorem fromVec_nil : fromVec [] = .ok (.error .emptyVec) := rfl

theorem fromVec_spec {v : List Nat} (hv : v ≠ []) :
    ∃ s, fromVec v = .ok (.ok s) ∧ s.Valid ∧ s.indices = v.toFinset := by
  set w := v.insertionSort (· ≤ ·) with hw
  have hperm : w.Perm v := List.perm_insertionSort _ _
  have hsort : w.Pairwise (· ≤ ·) := List.pairwise_insertionSort _ _
  have hwne : w ≠ [] := fun e => hv (by simpa [e] using hperm)
  obtain ⟨lo, hlo⟩ : ∃ x, w.head? = some x := by
    cases h : w with
    | nil => exact absurd h hwne
    | cons a as => exact ⟨a, rfl⟩
  obtain ⟨hi, hhi⟩ : ∃ x, w.getLast? = some x := ⟨_, List.getLast?_eq_some_getLast hwne⟩
  have hlomem : lo ∈ w := List.mem_of_head? hlo
  have hhimem : hi ∈ w := List.mem_of_getLast? hhi
  have hlole : ∀ x ∈ w, lo ≤ x := by
    intro x hx
    cases h : w with
    | nil => exact absurd h hwne
    | cons a as =>
      rw [h] at hlo hx hsort
      simp only [List.head?_cons, Option.some.injEq] at hlo
      subst hlo
      rcases List.mem_cons.1 hx with e | e
      · exact e ▸ le_rfl
      · exact (List.pairwise_cons.1 hsort).1 x e
  have hrev : w.reverse.Pairwise (· ≥ ·) := List.pairwise_reverse.2 hsort
  have hlehi : ∀ x ∈ w, x ≤ hi := by
    intro x hx
    have hr : w.reverse.head? = some hi := by simpa using hhi
    cases h : w.reverse with
    | nil => exact absurd (by simpa using h) hwne
    | cons a as =>
      have hx' : x ∈ w.reverse := by simpa using hx
      rw [h] at hr hx' hrev
      simp only [List.head?_cons, Option.some.injEq] at hr
      subst hr
      rcases List.mem_cons.1 hx' with e | e
      · exact e ▸ le_rfl
      · exact (List.pairwise_cons.1 hrev).1 x e
  have hfold := gap_fold w.reverse ∅ (hi + 1) hrev (fun x hx => by
    have := hlehi x (by simpa using hx); omega)
  set sk := (w.reverse.foldl gapStep (∅, hi + 1)).1 with hsk
  have hmemw : ∀ k, k ∈ v.toFinset ↔ k ∈ w := fun k => by
    rw [List.mem_toFinset, hperm.mem_iff]
  have hskeq : sk = Finset.Ico lo (hi + 1) \ v.toFinset := by
    ext k
    rw [hfold k, Finset.mem_sdiff, hmemw, Finset.mem_Ico]
    simp only [Finset.notMem_empty, List.mem_reverse, false_or]
    constructor
    · rintro ⟨h1, h2, x, hx, hxk⟩
      exact ⟨⟨by have := hlole x hx; omega, h2⟩, h1⟩
    · rintro ⟨h1, h2⟩
      refine ⟨h2, h1.2, lo, hlomem, ?_⟩
      have : k ≠ lo := fun e => h2 (e ▸ hlomem)
      omega
  have hab : lo < hi + 1 := by have := hlole hi hhimem; omega
  have key := valid_of_set (A := v.toFinset) hab ((hmemw lo).2 hlomem)
    (by simpa using (hmemw hi).2 hhimem)
    (fun k hk => by
      rw [hmemw] at hk
      have := hlole k hk
      have := hlehi k hk
      rw [Finset.mem_Ico]; omega) sk hskeq
  have hrun : fromVec v = if sk = ∅ then (do let s ← Span.new lo (hi + 1); return .ok s)
      else (do let s ← newWithSkips lo (hi + 1) sk; return .ok s) := by
    unfold fromVec
    rw [← hw]
    simp only [hlo, hhi]
    rfl
  by_cases h : sk = ∅
  · refine ⟨⟨lo, hi + 1, none⟩, ?_, (key.1 h).1, (key.1 h).2⟩
    rw [hrun, if_pos h, new_ok hab]; rfl
  · refine ⟨⟨lo, hi + 1, some sk⟩, ?_, (key.2 h).2.1, (key.2 h).2.2⟩
    rw [hrun, if_neg h, newWithSkips_ok hab h (key.2 h).1]; rfl

/-- `from_vec` of any listing of a valid span's positions is the span. -/
theorem fromVec_eq {v : List Nat} {s : Span} (hs : s.Valid) (h : v.toFinset = s.indices) :
    fromVec v = .ok (.ok s) := by
  have hv : v ≠ [] := by
    rintro rfl
    exact hs.indices_nonempty.ne_empty (by simpa using h.symm)
  obtain ⟨s', h1, h2, h3⟩ := fromVec_spec hv
  rw [h1, Valid.ext h2 hs (h3.trans h)]

/-! ## Iteration -/

theorem iterNext_none {sk : Option (Finset Nat)} {k cur : Nat} :
    iterNext sk k cur = none ↔ ∀ i, cur ≤ i → i < cur + k → i ∈ sk.getD ∅ := by
  induction k generalizing cur with
  | zero => simp only [iterNext, true_iff]; intro i; omega
  | succ k ih =>
    simp only [iterNext]
    cases sk with
    | none =>
      simp only [reduceCtorEq, Option.getD_none, Finset.notMem_empty, false_iff]
      intro h
      exact h cur le_rfl (by omega)
    | some s =>
      simp only [Option.getD_some]
      split
      · rename_i hm
        rw [ih]
        simp only [Option.getD_some]
        constructor
        · intro h i h1 h2
          by_cases e : i = cur
          · exact e ▸ hm
          · exact h i (by omega) (by omega)
        · intro h i h1 h2
          exact h i (by omega) (by omega)
      · rename_i hm
        simp only [reduceCtorEq, false_iff]
        intro h
        exact hm (h cur le_rfl (by omega))

theorem iterNext_some {sk : Option (Finset Nat)} {k cur item left cur' : Nat}
    (h : iterNext sk k cur = some (item, left, cur')) :
    cur' = item + 1 ∧ cur ≤ item ∧ cur' + left = cur + k ∧ item ∉ sk.getD ∅ ∧ left < k ∧
      ∀ i, cur ≤ i → i < item → i ∈ sk.getD ∅ := by
  induction k generalizing cur with
  | zero => simp [iterNext] at h
  | succ k ih =>
    simp only [iterNext] at h
    cases sk with
    | none =>
      simp only [Option.some.injEq, Prod.mk.injEq] at h
      obtain ⟨rfl, rfl, rfl⟩ := h
      refine ⟨rfl, le_rfl, by omega, by simp, by omega, fun i => by omega⟩
    | some s =>
      simp only at h
      split at h
      · rename_i hm
        obtain ⟨a, b, c, d, e, f⟩ := ih h
        refine ⟨a, by omega, by omega, d, by omega, fun i h1 h2 => ?_⟩
        by_cases e : i = cur
        · exact e ▸ hm
        · exact f i (by omega) h2
      · rename_i hm
        simp only [Option.some.injEq, Prod.mk.injEq] at h
        obtain ⟨rfl, rfl, rfl⟩ := h
        refine ⟨rfl, le_rfl, by omega, by simpa using hm, by omega, fun i => by omega⟩

theorem iterCollect_spec (sk : Option (Finset Nat)) (fuel left cur : Nat) (hf : left ≤ fuel) :
    (iterCollect sk fuel left cur).Pairwise (· < ·) ∧
    ∀ i, i ∈ iterCollect sk fuel left cur ↔ cur ≤ i ∧ i < cur + left ∧ i ∉ sk.getD ∅ := by
  induction fuel generalizing left cur with
  | zero =>
    simp only [iterCollect]
    exact ⟨List.Pairwise.nil, fun i => by simp; omega⟩
  | succ fuel ih =>
    simp only [iterCollect]
    cases h : iterNext sk left cur with
    | none =>
      rw [iterNext_none] at h
      refine ⟨List.Pairwise.nil, fun i => ?_⟩
      simp only [List.not_mem_nil, false_iff]
      rintro ⟨h1, h2, h3⟩
      exact h3 (h i h1 h2)
    | some x =>
      obtain ⟨item, left', cur'⟩ := x
      obtain ⟨rfl, h2, h3, h4, h5, h6⟩ := iterNext_some h
      obtain ⟨i1, i2⟩ := ih left' (item + 1) (by omega)
      dsimp only
      refine ⟨List.pairwise_cons.2 ⟨fun j hj => ?_, i1⟩, fun i => ?_⟩
      · have := (i2 j).1 hj; omega
      · rw [List.mem_cons, i2 i]
        constructor
        · rintro (rfl | ⟨a, b, c⟩)
          · exact ⟨h2, by omega, h4⟩
          · exact ⟨by omega, by omega, c⟩
        · rintro ⟨a, b, c⟩
          by_cases e : i = item
          · exact .inl e
          · refine .inr ⟨?_, by omega, c⟩
            by_contra hn
            exact c (h6 i a (by omega))

theorem toVec_sorted (s : Span) : s.toVec.Pairwise (· < ·) :=
  (iterCollect_spec s.skips _ _ s.start le_rfl).1

theorem mem_toVec {s : Span} {i : Nat} : i ∈ s.toVec ↔ i ∈ s.indices := by
  unfold toVec
  rw [(iterCollect_spec s.skips _ _ s.start le_rfl).2, indices_eq_sdiff, Finset.mem_sdiff,
    Finset.mem_Ico]
  constructor
  · rintro ⟨a, b, c⟩; exact ⟨⟨a, by omega⟩, c⟩
  · rintro ⟨⟨a, b⟩, c⟩; exact ⟨a, by omega, c⟩

theorem toVec_nodup (s : Span) : s.toVec.Nodup := (toVec_sorted s).imp (fun h => by omega)

theorem toVec_toFinset (s : Span) : s.toVec.toFinset = s.indices := by
  ext i; simp [mem_toVec]

theorem toVec_length (s : Span) : s.toVec.length = s.indices.card := by
  rw [← toVec_toFinset, List.toFinset_card_of_nodup (toVec_nodup s)]

theorem Valid.card_indices {s : Span} (h : s.Valid) : s.indices.card = s.nIndices := by
  unfold nIndices
  cases e : s.skips with
  | none => rw [indices_eq_sdiff]; simp [e]
  | some sk =>
    rw [indices_eq_sdiff, e]
    simp only [Option.getD_some]
    rw [Finset.card_sdiff_of_subset, Nat.card_Ico]
    intro k hk
    have := h.inside sk e k hk
    rw [Finset.mem_Ico]; omega

theorem extend_valid {s : Span} (h : s.Valid) : s.extend.Valid :=
  ⟨by have := h.lt; simp [extend]; omega, h.nonempty, fun sk e k hk => by
    have := h.inside sk e k hk; simp [extend]; omega⟩

theorem extend_indices {s : Span} (h : s.Valid) : s.extend.indices = insert s.stop s.indices := by
  ext i
  rw [Finset.mem_insert, mem_indices, mem_indices]
  have hl := h.lt
  simp only [extend]
  constructor
  · rintro ⟨a, b, c⟩
    by_cases e : i = s.stop
    · exact .inl e
    · exact .inr ⟨a, by omega, c⟩
  · rintro (rfl | ⟨a, b, c⟩)
    · refine ⟨by omega, by omega, fun sk e hk => ?_⟩
      have := h.inside sk e _ hk; omega
    · exact ⟨a, by omega, c⟩

theorem Built.valid {s : Span} (h : Built s) : s.Valid := by
  induction h with
  | ofIdx i => exact ofIdx_valid i
  | new h => rw [new_eq_ok] at h; rw [h.2]; exact cont_valid h.1
  | @fromVec v s h =>
    by_cases hv : v = []
    · subst hv; simp [fromVec_nil] at h
    · obtain ⟨s', h1, h2, _⟩ := fromVec_spec hv
      rw [h1] at h
      simp only [Res.ok.injEq, Except.ok.injEq] at h
      exact h ▸ h2
  | merge _ _ h ia ib =>
    obtain ⟨m, h1, h2, _⟩ := mergeSpans_spec ia ib
    rw [h1] at h
    simp only [Res.ok.injEq] at h
    exact h ▸ h2
  | @remove a s v c _ h ia =>
    by_cases hc : (∀ i ∈ v, a.start ≤ i ∧ i < a.stop) ∧ (a.indices \ v.toFinset).Nonempty
    · obtain ⟨r, c', h1, h2, _⟩ := removeIndices_spec ia v hc.1 hc.2
      rw [h1] at h
      simp only [Res.ok.injEq, Prod.mk.injEq] at h
      exact h.1 ▸ h2
    · rw [removeIndices_panic v hc] at h
      simp at h
  | extend _ ih => exact extend_valid ih

end Span
end Lumberjack
