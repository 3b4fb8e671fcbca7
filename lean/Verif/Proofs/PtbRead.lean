import Verif.Proofs.PtbTrip

/-!
# The reader of bracketed files
-/

namespace Lumberjack
namespace Ptb

open Bracketed

theorem stringToTree_total (f : Format) (s : Str) : ∃ r, stringToTree f s = .ok r := by
  by_cases h : ∃ b, b.Single ∧ Reads s b
  · obtain ⟨b, hb, h⟩ := h
    obtain ⟨t, h, _⟩ := stringToTree_ok (f := f) h hb
    exact ⟨_, h⟩
  · exact ⟨_, stringToTree_err h⟩

/-! ## One tree per line -/

theorem nextSingle_spec (f : Format) (lines : List Str) :
    (nextSingle f lines = .ok (none, []) ∧ lines.filter (fun l => l.head? ≠ some '%') = []) ∨
    ∃ l r rest, nextSingle f lines = .ok (some r, rest) ∧ stringToTree f l = .ok r ∧
      lines.filter (fun l => l.head? ≠ some '%') = l :: rest.filter (fun l => l.head? ≠ some '%') ∧
      rest.length < lines.length := by
  induction lines with
  | nil => exact .inl ⟨rfl, rfl⟩
  | cons l ls ih =>
    by_cases hl : l.head? = some '%'
    · rcases ih with ⟨h1, h2⟩ | ⟨m, r, rest, h1, h2, h3, h4⟩
      · exact .inl ⟨by rw [nextSingle, if_pos hl, h1], by rw [List.filter_cons_of_neg (by simp [hl]), h2]⟩
      · exact .inr ⟨m, r, rest, by rw [nextSingle, if_pos hl, h1], h2,
          by rw [List.filter_cons_of_neg (by simp [hl]), h3], by simp; omega⟩
    · obtain ⟨r, hr⟩ := stringToTree_total f l
      exact .inr ⟨l, r, ls, by rw [nextSingle, if_neg hl, hr]; rfl, hr,
        by rw [List.filter_cons_of_pos (by simp [hl])], by simp⟩

theorem readAll_single (f : Format) : ∀ (fuel : Nat) (lines : List Str), lines.length < fuel →
    ∃ items, readAll f .single fuel lines = .ok items ∧
      List.Forall₂ (fun l r => stringToTree f l = .ok r) (lines.filter fun l => l.head? ≠ some '%') items := by
  intro fuel
  induction fuel with
  | zero => intro lines h; omega
  | succ n ih =>
    intro lines h
    rw [readAll]
    rcases nextSingle_spec f lines with ⟨h1, h2⟩ | ⟨l, r, rest, h1, h2, h3, h4⟩
    · refine ⟨[], ?_, by rw [h2]; exact .nil⟩
      rw [readerNext, h1]; rfl
    · obtain ⟨items, i1, i2⟩ := ih rest (by omega)
      refine ⟨r :: items, ?_, by rw [h3]; exact .cons h2 i2⟩
      rw [readerNext, h1]; simp only [Res.ok_bind, i1]; rfl

/-! ## Several lines per tree -/

/-- State of the loop after a part of a group. -/
theorem nextMulti_in (f : Format) : ∀ (lines : List Str) (buffer : Str) (o : Nat), buffer ≠ [] → 0 < o →
    (∃ g rest, lines = g ++ rest ∧ g ≠ [] ∧
      (∀ p, p <+: g → p ≠ g → p.flatten.count ')' < o + p.flatten.count '(') ∧
      g.flatten.count ')' = o + g.flatten.count '(' ∧
      ∃ r, stringToTree f (buffer ++ g.flatten) = .ok r ∧ nextMulti f lines buffer o = .ok (some r, rest)) ∨
    ((∀ p, p <+: lines → p.flatten.count ')' < o + p.flatten.count '(') ∧
      nextMulti f lines buffer o = .ok (none, [])) ∨
    ((∃ g, g <+: lines ∧ (∀ p, p <+: g → p ≠ g → p.flatten.count ')' < o + p.flatten.count '(') ∧
      o + g.flatten.count '(' < g.flatten.count ')') ∧ nextMulti f lines buffer o = .panic) := by
  intro lines
  induction lines with
  | nil =>
    intro buffer o hb ho
    refine .inr (.inl ⟨fun p hp => ?_, rfl⟩)
    rw [List.prefix_nil.1 hp]; simpa using ho
  | cons l ls ih =>
    intro buffer o hb ho
    have hstep : l = [] ∧ nextMulti f (l :: ls) buffer o = nextMulti f ls buffer o ∨
        l ≠ [] ∧ nextMulti f (l :: ls) buffer o = (do
          let opened ← Res.sub (o + l.count '(') (l.count ')')
          if opened = 0 then do
            let r ← stringToTree f (buffer ++ l)
            return (some r, ls)
          else nextMulti f ls (buffer ++ l) opened) := by
      by_cases hl : l = []
      · exact .inl ⟨hl, by rw [nextMulti, if_pos (.inr hl)]⟩
      · refine .inr ⟨hl, ?_⟩
        rw [nextMulti, if_neg (by rintro (h | h); exacts [hb h.2, hl h])]
        rfl
    have hnil : ∀ {g : List Str}, (∀ p, p <+: g → p ≠ g → p.flatten.count ')' < o + l.count '(' - l.count ')' + p.flatten.count '(') →
        l.count ')' ≤ o + l.count '(' →
        ∀ p, p <+: l :: g → p ≠ l :: g → p.flatten.count ')' < o + p.flatten.count '(' := by
      intro g hg hle p hp hne
      cases p with
      | nil => simpa using ho
      | cons a p =>
        obtain ⟨rfl, hp'⟩ := List.cons_prefix_cons.1 hp
        have := hg p hp' (by rintro rfl; exact hne rfl)
        simp only [List.flatten_cons, List.count_append]
        omega
    have case : ∀ (o' : Nat) (b' : Str), l.count ')' ≤ o + l.count '(' → o' = o + l.count '(' - l.count ')' → 0 < o' →
        b' ≠ [] → b' = buffer ++ l →
        nextMulti f (l :: ls) buffer o = nextMulti f ls b' o' →
        (∃ g rest, l :: ls = g ++ rest ∧ g ≠ [] ∧
          (∀ p, p <+: g → p ≠ g → p.flatten.count ')' < o + p.flatten.count '(') ∧
          g.flatten.count ')' = o + g.flatten.count '(' ∧
          ∃ r, stringToTree f (buffer ++ g.flatten) = .ok r ∧ nextMulti f (l :: ls) buffer o = .ok (some r, rest)) ∨
        ((∀ p, p <+: l :: ls → p.flatten.count ')' < o + p.flatten.count '(') ∧
          nextMulti f (l :: ls) buffer o = .ok (none, [])) ∨
        ((∃ g, g <+: l :: ls ∧ (∀ p, p <+: g → p ≠ g → p.flatten.count ')' < o + p.flatten.count '(') ∧
          o + g.flatten.count '(' < g.flatten.count ')') ∧ nextMulti f (l :: ls) buffer o = .panic) := by
      intro o' b' hle ho' hpos hb' hbb heq
      rw [heq]
      rcases ih b' o' hb' hpos with ⟨g, rest, h1, h2, h3, h4, r, h5, h6⟩ | ⟨h1, h2⟩ | ⟨⟨g, h1, h2, h3⟩, h4⟩
      · refine .inl ⟨l :: g, rest, by rw [h1]; rfl, by simp, hnil (by rw [← ho']; exact h3) hle, ?_, r, ?_, h6⟩
        · simp only [List.flatten_cons, List.count_append]; omega
        · rw [← h5, hbb]; simp
      · refine .inr (.inl ⟨fun p hp => ?_, h2⟩)
        cases p with
        | nil => simpa using ho
        | cons a p =>
          obtain ⟨rfl, hp'⟩ := List.cons_prefix_cons.1 hp
          have := h1 p hp'
          simp only [List.flatten_cons, List.count_append]
          omega
      · refine .inr (.inr ⟨⟨l :: g, List.cons_prefix_cons.2 ⟨rfl, h1⟩, hnil (by rw [← ho']; exact h2) hle, ?_⟩, h4⟩)
        simp only [List.flatten_cons, List.count_append]; omega
    have hone : ∀ p, p <+: [l] → p ≠ [l] → p.flatten.count ')' < o + p.flatten.count '(' := by
      intro p hp hne
      cases p with
      | nil => simpa using ho
      | cons a p =>
        obtain ⟨rfl, hp'⟩ := List.cons_prefix_cons.1 hp
        rw [List.prefix_nil.1 hp'] at hne
        exact absurd rfl hne
    rcases hstep with ⟨rfl, heq⟩ | ⟨hl, heq⟩
    · exact case o buffer (by simp) (by simp) ho hb (by simp) heq
    · by_cases hle : l.count ')' ≤ o + l.count '('
      · rw [Res.sub_of_le hle] at heq
        by_cases h0 : o + l.count '(' - l.count ')' = 0
        · obtain ⟨r, hr⟩ := stringToTree_total f (buffer ++ l)
          refine .inl ⟨[l], ls, rfl, by simp, hone, ?_, r, ?_, ?_⟩
          · simp; omega
          · simpa using hr
          · rw [heq]; simp [h0, hr]
        · refine case _ (buffer ++ l) hle rfl (by omega) (by simp [hb]) rfl ?_
          rw [heq]; simp [h0]
      · refine .inr (.inr ⟨⟨[l], by simp, hone, by simp; omega⟩, ?_⟩)
        rw [heq, Res.sub, if_neg hle]; rfl

/-- One call of the reader. -/
theorem nextMulti_spec (f : Format) (lines : List Str) :
    (∃ s g rest, lines = s ++ (g ++ rest) ∧ (∀ l ∈ s, Skipped l) ∧ Group g ∧
      ∃ r, stringToTree f g.flatten = .ok r ∧ nextMulti f lines [] 0 = .ok (some r, rest)) ∨
    (∃ s u, lines = s ++ u ∧ (∀ l ∈ s, Skipped l) ∧ (∀ l, u.head? = some l → ¬ Skipped l) ∧ Unfinished u ∧ nextMulti f lines [] 0 = .ok (none, [])) ∨
    (∃ s g rest, lines = s ++ (g ++ rest) ∧ (∀ l ∈ s, Skipped l) ∧
      (∃ l, g.head? = some l ∧ ¬ Skipped l) ∧ (∀ p, p <+: g → p ≠ [] → p ≠ g → OpenEnd p) ∧
      g.flatten.count '(' < g.flatten.count ')' ∧ nextMulti f lines [] 0 = .panic) := by
  induction lines with
  | nil => exact .inr (.inl ⟨[], [], rfl, by simp, by simp, fun p hp hne => absurd (List.prefix_nil.1 hp) hne, rfl⟩)
  | cons l ls ih =>
    by_cases hs : Skipped l
    · have heq : nextMulti f (l :: ls) [] 0 = nextMulti f ls [] 0 := by
        rw [nextMulti, if_pos]; rcases hs with h | h; exacts [.inr h, .inl ⟨h, rfl⟩]
      rw [heq]
      have hsk : ∀ {s : List Str}, (∀ x ∈ s, Skipped x) → ∀ x ∈ l :: s, Skipped x := by
        intro s h x hx
        rcases List.mem_cons.1 hx with rfl | hx
        exacts [hs, h x hx]
      rcases ih with ⟨s, g, rest, h1, h2, h3⟩ | ⟨s, u, h1, h2, h3⟩ | ⟨s, g, rest, h1, h2, h3⟩
      · exact .inl ⟨l :: s, g, rest, by rw [h1]; rfl, hsk h2, h3⟩
      · exact .inr (.inl ⟨l :: s, u, by rw [h1]; rfl, hsk h2, h3⟩)
      · exact .inr (.inr ⟨l :: s, g, rest, by rw [h1]; rfl, hsk h2, h3⟩)
    · have hl : l ≠ [] := fun h => hs (.inl h)
      have heq : nextMulti f (l :: ls) [] 0 = (do
          let opened ← Res.sub (0 + l.count '(') (l.count ')')
          if opened = 0 then do
            let r ← stringToTree f l
            return (some r, ls)
          else nextMulti f ls l opened) := by
        rw [nextMulti, if_neg (by rintro (h | h); exacts [hs (.inr h.1), hl h])]
        rfl
      rw [Nat.zero_add] at heq
      have hone : ∀ p, p <+: [l] → p ≠ [] → p ≠ [l] → OpenEnd p := by
        intro p hp hne hne'
        cases p with
        | nil => exact absurd rfl hne
        | cons a p =>
          obtain ⟨rfl, hp'⟩ := List.cons_prefix_cons.1 hp
          rw [List.prefix_nil.1 hp'] at hne'
          exact absurd rfl hne'
      by_cases hle : l.count ')' ≤ l.count '('
      · rw [Res.sub_of_le hle] at heq
        by_cases h0 : l.count '(' - l.count ')' = 0
        · obtain ⟨r, hr⟩ := stringToTree_total f l
          refine .inl ⟨[], [l], ls, rfl, by simp, ⟨⟨l, rfl, hs⟩, hone, ?_⟩, r, by simpa using hr, ?_⟩
          · simp; omega
          · rw [heq]; simp [h0, hr]
        · have heq' : nextMulti f (l :: ls) [] 0 = nextMulti f ls l (l.count '(' - l.count ')') := by
            rw [heq]; simp [h0]
          rw [heq']
          have hcons : ∀ {g : List Str}, (∀ p, p <+: g → p ≠ g →
              p.flatten.count ')' < l.count '(' - l.count ')' + p.flatten.count '(') →
              ∀ p, p <+: l :: g → p ≠ [] → p ≠ l :: g → OpenEnd p := by
            intro g hg p hp hne hne'
            cases p with
            | nil => exact absurd rfl hne
            | cons a p =>
              obtain ⟨rfl, hp'⟩ := List.cons_prefix_cons.1 hp
              have := hg p hp' (by rintro rfl; exact hne' rfl)
              simp only [OpenEnd, List.flatten_cons, List.count_append]
              omega
          rcases nextMulti_in f ls l (l.count '(' - l.count ')') hl (by omega) with
            ⟨g, rest, h1, h2, h3, h4, r, h5, h6⟩ | ⟨h1, h2⟩ | ⟨⟨g, ⟨rest, h1⟩, h2, h3⟩, h4⟩
          · refine .inl ⟨[], l :: g, rest, by rw [h1]; rfl, by simp, ⟨⟨l, rfl, hs⟩, hcons h3, ?_⟩, r, ?_, h6⟩
            · simp only [List.flatten_cons, List.count_append]; omega
            · simpa using h5
          · refine .inr (.inl ⟨[], l :: ls, rfl, by simp, by simpa using hs, ?_, h2⟩)
            intro p hp hne
            cases p with
            | nil => exact absurd rfl hne
            | cons a p =>
              obtain ⟨rfl, hp'⟩ := List.cons_prefix_cons.1 hp
              have := h1 p hp'
              simp only [OpenEnd, List.flatten_cons, List.count_append]
              omega
          · refine .inr (.inr ⟨[], l :: g, rest, by rw [← h1]; rfl, by simp, ⟨l, rfl, hs⟩, hcons h2, ?_, h4⟩)
            simp only [List.flatten_cons, List.count_append]; omega
      · refine .inr (.inr ⟨[], [l], ls, rfl, by simp, ⟨l, rfl, hs⟩, hone, by simp; omega, ?_⟩)
        rw [heq, Res.sub, if_neg hle]; rfl

theorem groups_skip {s ls ts : List Str} (hs : ∀ l ∈ s, Skipped l) (h : Groups ls ts) : Groups (s ++ ls) ts := by
  induction s with
  | nil => exact h
  | cons l s ih => exact .skip (hs l List.mem_cons_self) (ih fun x hx => hs x (List.mem_cons_of_mem _ hx))

theorem groups_inv {L ts : List Str} (h : Groups L ts) :
    (ts = [] ∧ (∀ l, L.head? = some l → ¬ Skipped l) ∧ Unfinished L) ∨
    (∃ l ls, L = l :: ls ∧ Skipped l ∧ Groups ls ts) ∨
    (∃ g ls ts', L = g ++ ls ∧ ts = g.flatten :: ts' ∧ Group g ∧ Groups ls ts') := by
  cases h with
  | tail h1 h2 => exact .inl ⟨rfl, h1, h2⟩
  | skip h1 h2 => exact .inr (.inl ⟨_, _, rfl, h1, h2⟩)
  | group h1 h2 => exact .inr (.inr ⟨_, _, _, rfl, rfl, h1, h2⟩)

theorem group_head {g rest : List Str} {l : Str} (h : g.head? = some l) : (g ++ rest).head? = some l := by
  cases g with
  | nil => simp at h
  | cons a g => simpa using h

theorem groups_unskip {s ls ts : List Str} (hs : ∀ l ∈ s, Skipped l) (h : Groups (s ++ ls) ts) : Groups ls ts := by
  induction s with
  | nil => exact h
  | cons l s ih =>
    have hl := hs l List.mem_cons_self
    refine ih (fun x hx => hs x (List.mem_cons_of_mem _ hx)) ?_
    rcases groups_inv h with ⟨-, h1, -⟩ | ⟨l', ls', h1, -, h2⟩ | ⟨g, ls', ts', h1, -, h2, -⟩
    · exact absurd hl (h1 l rfl)
    · rw [List.cons_append] at h1; simp at h1; rw [h1.2]; exact h2
    · obtain ⟨l', h3, h4⟩ := h2.first
      have := group_head (rest := ls') h3
      rw [← h1] at this; simp at this; subst this
      exact absurd hl h4

/-- Text starting with a group, or with lines closing too many brackets. -/
theorem groups_start {g rest ts : List Str} (hf : ∃ l, g.head? = some l ∧ ¬ Skipped l)
    (hp : ∀ p, p <+: g → p ≠ [] → p ≠ g → OpenEnd p) (hn : g.flatten.count '(' ≤ g.flatten.count ')')
    (h : Groups (g ++ rest) ts) : Group g ∧ ∃ ts', ts = g.flatten :: ts' ∧ Groups rest ts' := by
  obtain ⟨l, hl, hls⟩ := hf
  have hg : g ≠ [] := by rintro rfl; simp at hl
  rcases groups_inv h with ⟨-, -, h1⟩ | ⟨l', ls', h1, h2, -⟩ | ⟨g', ls', ts', h1, h2, h3, h4⟩
  · have := h1 g (List.prefix_append _ _) hg
    unfold OpenEnd at this; omega
  · have := group_head (rest := rest) hl
    rw [h1] at this; simp at this; subst this
    exact absurd h2 hls
  · have hg' : g' ≠ [] := by rintro rfl; obtain ⟨l, hl, _⟩ := h3.first; simp at hl
    have heq : g = g' := by
      rcases List.prefix_or_prefix_of_prefix (List.prefix_append g rest) (h1 ▸ List.prefix_append g' ls') with h5 | h5
      · by_contra hne
        have := h3.proper g h5 hg hne
        unfold OpenEnd at this; omega
      · by_contra hne
        have := hp g' h5 hg' (Ne.symm hne)
        have := h3.closed
        unfold OpenEnd at *; omega
    subst heq
    exact ⟨h3, ts', h2, List.append_cancel_left h1 ▸ h4⟩

theorem groups_unique {L ts : List Str} (h : Groups L ts) : ∀ {ts' : List Str}, Groups L ts' → ts = ts' := by
  induction h with
  | tail h1 h2 =>
    intro ts' h'
    rcases groups_inv h' with ⟨rfl, -⟩ | ⟨l', ls', rfl, h3, -⟩ | ⟨g', ls', ts', rfl, -, h3, -⟩
    · rfl
    · exact absurd h3 (h1 l' rfl)
    · have hg' : g' ≠ [] := by rintro rfl; obtain ⟨l, hl, _⟩ := h3.first; simp at hl
      have := h2 g' (List.prefix_append _ _) hg'
      have := h3.closed
      unfold OpenEnd at *; omega
  | @skip l ls ts h1 h2 ih =>
    intro ts' h'
    exact ih (groups_unskip (s := [l]) (by simpa using h1) h')
  | group h1 h2 ih =>
    intro ts' h'
    obtain ⟨-, ts'', rfl, h3⟩ := groups_start h1.first h1.proper (by rw [h1.closed]) h'
    rw [ih h3]

/-- Reading a whole file. -/
theorem readAll_multi (f : Format) : ∀ (fuel : Nat) (lines : List Str), lines.length < fuel →
    (∃ texts items, Groups lines texts ∧ readAll f .multi fuel lines = .ok items ∧
      List.Forall₂ (fun s r => stringToTree f s = .ok r) texts items) ∨
    (readAll f .multi fuel lines = .panic ∧ (¬ ∃ texts, Groups lines texts)) := by
  intro fuel
  induction fuel with
  | zero => intro lines h; omega
  | succ n ih =>
    intro lines h
    rw [readAll]
    rcases nextMulti_spec f lines with ⟨s, g, rest, h1, h2, h3, r, h4, h5⟩ | ⟨s, u, h1, h2, h3, h4, h5⟩ |
      ⟨s, g, rest, h1, h2, h3, h4, h5, h6⟩
    · have hg : g ≠ [] := by rintro rfl; obtain ⟨l, hl, _⟩ := h3.first; simp at hl
      have hlen : rest.length < n := by
        have : 0 < g.length := List.length_pos_iff.2 hg
        rw [h1] at h; simp at h; omega
      rw [readerNext, h5]
      simp only [Res.ok_bind]
      rcases ih rest hlen with ⟨ts, items, i1, i2, i3⟩ | ⟨i1, i2⟩
      · refine .inl ⟨g.flatten :: ts, r :: items, ?_, by rw [i2]; rfl, .cons h4 i3⟩
        rw [h1]; exact groups_skip h2 (.group h3 i1)
      · refine .inr ⟨by rw [i1]; rfl, ?_⟩
        rintro ⟨ts, hts⟩
        rw [h1] at hts
        obtain ⟨-, ts', -, h6⟩ := groups_start h3.first h3.proper (by rw [h3.closed]) (groups_unskip h2 hts)
        exact i2 ⟨ts', h6⟩
    · refine .inl ⟨[], [], ?_, by rw [readerNext, h5]; rfl, .nil⟩
      rw [h1]; exact groups_skip h2 (.tail h3 h4)
    · refine .inr ⟨by rw [readerNext, h6]; rfl, ?_⟩
      rintro ⟨ts, hts⟩
      rw [h1] at hts
      obtain ⟨hG, -⟩ := groups_start h3 h4 h5.le (groups_unskip h2 hts)
      have := hG.closed
      omega

end Ptb
end Lumberjack
