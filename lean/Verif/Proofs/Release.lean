import Verif.Spec.Machine
import Verif.Model.Machine
import Verif.Proofs.TruncateBracket

/-!
# Release builds: the number of open brackets
-/

namespace Lumberjack
namespace Machine

open Ptb Bracketed

theorem usize_wrapping (i : Int) : usize .wrapping i = .ok (i % 2 ^ 64).toNat := by
  unfold usize
  split
  · rename_i h
    rw [Int.emod_eq_of_lt h.1 h.2]
  · rfl

theorem usize_nat (b : Build) {n : Nat} (h : n < 2 ^ 64) : usize b n = .ok n := by
  unfold usize
  rw [if_pos ⟨by omega, by exact_mod_cast h⟩]
  simp

theorem usize_checked_sub {a c : Nat} (h : a < 2 ^ 64) : usize .checked ((a : Int) - c) = Res.sub a c := by
  unfold usize Res.sub
  by_cases hc : c ≤ a
  · rw [if_pos ⟨by omega, by omega⟩, if_pos hc]
    congr 1; omega
  · rw [if_neg (by omega), if_neg hc]

/-! ## Builds with overflow checks -/

theorem nextMulti_checked_aux (f : Format) {M : Nat} (hM : ∀ n : Nat, n < M → usize .checked n = .ok n)
    (hS : ∀ a c : Nat, a < M → usize .checked ((a : Int) - c) = Res.sub a c) : ∀ (lines : List Str) (buffer : Str) (o : Nat),
    o + lines.flatten.count '(' < M → nextMulti .checked f lines buffer o = Ptb.nextMulti f lines buffer o := by
  intro lines
  induction lines with
  | nil => intros; rw [nextMulti, Ptb.nextMulti]
  | cons l ls ih =>
    intro buffer o h
    simp only [List.flatten_cons, List.count_append] at h
    rw [nextMulti, Ptb.nextMulti]
    split
    · exact ih _ _ (by omega)
    · simp only [countPars]
      have e : ((o : Int) + (l.count '(' : Nat)) = ((o + l.count '(' : Nat) : Int) := (Int.natCast_add _ _).symm
      rw [e, hM _ (by omega), Res.ok_bind, hS _ _ (by omega)]
      by_cases hc : l.count ')' ≤ o + l.count '('
      · rw [Res.sub_of_le hc, Res.ok_bind, Res.ok_bind, ih _ _ (by omega)]
      · rw [Res.sub, if_neg hc, Res.panic_bind, Res.panic_bind]

theorem nextMulti_checked (f : Format) (lines : List Str) (h : lines.flatten.count '(' < 2 ^ 64) :
    nextMulti .checked f lines [] 0 = Ptb.nextMulti f lines [] 0 :=
  nextMulti_checked_aux f (fun _ h => usize_nat _ h) (fun _ _ h => usize_checked_sub h) lines [] 0
    ((Nat.zero_add _).symm ▸ h)

theorem nextMulti_rest {f : Format} : ∀ {lines : List Str} {buffer : Str} {o : Nat} {r : Option (Except Err Tree)} {rest : List Str},
    Ptb.nextMulti f lines buffer o = .ok (r, rest) → rest <:+ lines := by
  intro lines
  induction lines with
  | nil => intro buffer o r rest h; simp [Ptb.nextMulti] at h; simp [h.2]
  | cons l ls ih =>
    intro buffer o r rest h
    rw [Ptb.nextMulti] at h
    split at h
    · exact (ih h).trans (List.suffix_cons _ _)
    · simp only [Res.bind_eq_ok] at h
      obtain ⟨k, -, h⟩ := h
      split at h
      · obtain ⟨x, -, h⟩ := Res.bind_eq_ok.1 h
        simp at h
        rw [← h.2]; exact List.suffix_cons _ _
      · exact (ih h).trans (List.suffix_cons _ _)

theorem count_suffix {c : Char} {a b : List Str} (h : a <:+ b) : a.flatten.count c ≤ b.flatten.count c := by
  obtain ⟨x, rfl⟩ := h
  simp

theorem readMulti_checked_aux (f : Format) {M : Nat}
    (hC : ∀ lines : List Str, lines.flatten.count '(' < M → nextMulti .checked f lines [] 0 = Ptb.nextMulti f lines [] 0) :
    ∀ (fuel : Nat) (lines : List Str), lines.flatten.count '(' < M →
      readMulti .checked f fuel lines = readAll f .multi fuel lines := by
  intro fuel
  induction fuel with
  | zero => intros; rw [readMulti, readAll]
  | succ n ih =>
    intro lines h
    rw [readMulti, readAll, readerNext, hC lines h]
    cases hr : Ptb.nextMulti f lines [] 0 with
    | panic => rw [Res.panic_bind, Res.panic_bind]
    | diverge => rw [Res.diverge_bind, Res.diverge_bind]
    | ok x =>
      obtain ⟨item, rest⟩ := x
      simp only [Res.ok_bind]
      cases item with
      | none => simp only []
      | some r =>
        have := count_suffix (c := '(') (nextMulti_rest hr)
        simp only []
        rw [ih rest (by omega)]

theorem readMulti_checked (f : Format) (fuel : Nat) (lines : List Str) (h : lines.flatten.count '(' < 2 ^ 64) :
    readMulti .checked f fuel lines = readAll f .multi fuel lines :=
  readMulti_checked_aux f (nextMulti_checked f) fuel lines h

/-! ## Builds without overflow checks -/

/-- The number of open brackets such a build has counted in a text. -/
def counted (s : Str) : Nat := (((s.count '(' : Int) - s.count ')') % 2 ^ 64).toNat

/-- As many opening as closing brackets. -/
def EvenStr (s : Str) : Prop := s.count '(' = s.count ')'

theorem counted_step (s l : Str) :
    (do let more ← usize .wrapping ((counted s : Int) + (l.count '(' : Nat))
        usize .wrapping ((more : Int) - (l.count ')' : Nat))) = .ok (counted (s ++ l)) := by
  rw [usize_wrapping, Res.ok_bind, usize_wrapping]
  unfold counted
  simp only [List.count_append]
  congr 1
  rw [Nat.cast_add, Nat.cast_add]
  have h1 : ∀ x : Int, ((x % 2 ^ 64).toNat : Int) = x % 2 ^ 64 := fun x => Int.toNat_of_nonneg (by omega)
  rw [h1, h1]
  congr 1
  omega

theorem counted_zero {s : Str} (h1 : s.count '(' < 2 ^ 64) (h2 : s.count ')' < 2 ^ 64) :
    counted s = 0 ↔ EvenStr s := by
  unfold counted EvenStr
  omega

theorem release_in (f : Format) : ∀ (lines : List Str) (buffer : Str), buffer ≠ [] → ¬ EvenStr buffer →
    (buffer ++ lines.flatten).count '(' < 2 ^ 64 → (buffer ++ lines.flatten).count ')' < 2 ^ 64 →
    (∃ g rest, lines = g ++ rest ∧ (∀ p, p <+: g → p ≠ g → ¬ EvenStr (buffer ++ p.flatten)) ∧
      EvenStr (buffer ++ g.flatten) ∧
      ∃ r, stringToTree f (buffer ++ g.flatten) = .ok r ∧
        nextMulti .wrapping f lines buffer (counted buffer) = .ok (some r, rest)) ∨
    ((∀ p, p <+: lines → ¬ EvenStr (buffer ++ p.flatten)) ∧
      nextMulti .wrapping f lines buffer (counted buffer) = .ok (none, [])) := by
  intro lines
  induction lines with
  | nil =>
    intro buffer hb hne _ _
    exact .inr ⟨fun p hp => by rw [List.prefix_nil.1 hp]; simpa using hne, rfl⟩
  | cons l ls ih =>
    intro buffer hb hne h1 h2
    simp only [List.flatten_cons, List.count_append] at h1 h2
    have hcons : ∀ {g : List Str}, (∀ p, p <+: g → p ≠ g → ¬ EvenStr (buffer ++ l ++ p.flatten)) →
        ∀ p, p <+: l :: g → p ≠ l :: g → ¬ EvenStr (buffer ++ p.flatten) := by
      intro g hg p hp hne'
      cases p with
      | nil => simpa using hne
      | cons a p =>
        obtain ⟨rfl, hp'⟩ := List.cons_prefix_cons.1 hp
        have := hg p hp' (by rintro rfl; exact hne' rfl)
        simpa using this
    have hall : (∀ p, p <+: ls → ¬ EvenStr (buffer ++ l ++ p.flatten)) →
        ∀ p, p <+: l :: ls → ¬ EvenStr (buffer ++ p.flatten) := by
      intro hg p hp
      cases p with
      | nil => simpa using hne
      | cons a p =>
        obtain ⟨rfl, hp'⟩ := List.cons_prefix_cons.1 hp
        simpa using hg p hp'
    by_cases hl : l = []
    · subst hl
      rw [nextMulti, if_pos (.inr rfl)]
      rcases ih buffer hb hne (by simpa using h1) (by simpa using h2) with ⟨g, rest, a1, a2, a3, a4⟩ | ⟨a1, a2⟩
      · exact .inl ⟨[] :: g, rest, by rw [a1]; rfl, hcons (by simpa using a2), by simpa using a3, by simpa using a4⟩
      · exact .inr ⟨hall (by simpa using a1), a2⟩
    · have heq : nextMulti .wrapping f (l :: ls) buffer (counted buffer) =
          if counted (buffer ++ l) = 0 then do
            let r ← stringToTree f (buffer ++ l)
            return (some r, ls)
          else nextMulti .wrapping f ls (buffer ++ l) (counted (buffer ++ l)) := by
        rw [nextMulti, if_neg (by rintro (h | h); exacts [hb h.2, hl h])]
        simp only [countPars]
        rw [← bind_assoc, counted_step, Res.ok_bind]
      rw [heq]
      have hz := counted_zero (s := buffer ++ l) (by simp; omega) (by simp; omega)
      by_cases h0 : EvenStr (buffer ++ l)
      · rw [if_pos (hz.2 h0)]
        obtain ⟨r, hr⟩ := stringToTree_total f (buffer ++ l)
        refine .inl ⟨[l], ls, rfl, hcons (g := []) (fun p hp hne => absurd (List.prefix_nil.1 hp) hne), by simpa using h0, r, by simpa using hr, ?_⟩
        rw [hr]; rfl
      · rw [if_neg (fun h => h0 (hz.1 h))]
        rcases ih (buffer ++ l) (by simp [hb]) h0 (by simp; omega) (by simp; omega) with
          ⟨g, rest, a1, a2, a3, a4⟩ | ⟨a1, a2⟩
        · exact .inl ⟨l :: g, rest, by rw [a1]; rfl, hcons a2, by simpa using a3, by simpa using a4⟩
        · exact .inr ⟨hall a1, a2⟩

theorem release_spec (f : Format) (lines : List Str) (hb : FewBrackets lines) :
    (∃ s g rest, lines = s ++ (g ++ rest) ∧ (∀ l ∈ s, Skipped l) ∧ EvenGroup g ∧
      ∃ r, stringToTree f g.flatten = .ok r ∧ nextMulti .wrapping f lines [] 0 = .ok (some r, rest)) ∨
    (∃ s u, lines = s ++ u ∧ (∀ l ∈ s, Skipped l) ∧ (∀ l, u.head? = some l → ¬ Skipped l) ∧
      (∀ p, p <+: u → p ≠ [] → ¬ EvenLines p) ∧ nextMulti .wrapping f lines [] 0 = .ok (none, [])) := by
  induction lines with
  | nil => exact .inr ⟨[], [], rfl, by simp, by simp, fun p hp hne => absurd (List.prefix_nil.1 hp) hne, rfl⟩
  | cons l ls ih =>
    have hb' := hb
    simp only [FewBrackets, List.flatten_cons, List.count_append] at hb'
    by_cases hs : Skipped l
    · have heq : nextMulti .wrapping f (l :: ls) [] 0 = nextMulti .wrapping f ls [] 0 := by
        rw [nextMulti, if_pos]; rcases hs with h | h; exacts [.inr h, .inl ⟨h, rfl⟩]
      rw [heq]
      have hsk : ∀ {s : List Str}, (∀ x ∈ s, Skipped x) → ∀ x ∈ l :: s, Skipped x := by
        intro s h x hx
        rcases List.mem_cons.1 hx with rfl | hx
        exacts [hs, h x hx]
      rcases ih ⟨by omega, by omega⟩ with ⟨s, g, rest, h1, h2, h3⟩ | ⟨s, u, h1, h2, h3⟩
      · exact .inl ⟨l :: s, g, rest, by rw [h1]; rfl, hsk h2, h3⟩
      · exact .inr ⟨l :: s, u, by rw [h1]; rfl, hsk h2, h3⟩
    · have hl : l ≠ [] := fun h => hs (.inl h)
      have heq : nextMulti .wrapping f (l :: ls) [] 0 =
          if counted l = 0 then do
            let r ← stringToTree f l
            return (some r, ls)
          else nextMulti .wrapping f ls l (counted l) := by
        rw [nextMulti, if_neg (by rintro (h | h); exacts [hs (.inr h.1), hl h])]
        simp only [countPars]
        have := counted_step [] l
        rw [List.nil_append] at this
        have h0 : counted [] = 0 := rfl
        rw [h0] at this
        rw [← bind_assoc, this, Res.ok_bind, List.nil_append]
      rw [heq]
      have hz := counted_zero (s := l) (by omega) (by omega)
      by_cases h0 : EvenStr l
      · rw [if_pos (hz.2 h0)]
        obtain ⟨r, hr⟩ := stringToTree_total f l
        refine .inl ⟨[], [l], ls, rfl, by simp, ⟨⟨l, rfl, hs⟩, ?_, by simpa [EvenLines, EvenStr] using h0⟩, r, by simpa using hr, ?_⟩
        · intro p hp hne hne'
          cases p with
          | nil => exact absurd rfl hne
          | cons a p =>
            obtain ⟨rfl, hp'⟩ := List.cons_prefix_cons.1 hp
            rw [List.prefix_nil.1 hp'] at hne'
            exact absurd rfl hne'
        · rw [hr]; rfl
      · rw [if_neg (fun h => h0 (hz.1 h))]
        rcases release_in f ls l hl h0 (by simp; omega) (by simp; omega) with
          ⟨g, rest, a1, a2, a3, r, a4, a5⟩ | ⟨a1, a2⟩
        · refine .inl ⟨[], l :: g, rest, by rw [a1]; rfl, by simp, ⟨⟨l, rfl, hs⟩, ?_, by simpa [EvenLines, EvenStr] using a3⟩,
            r, by simpa using a4, a5⟩
          intro p hp hne hne'
          cases p with
          | nil => exact absurd rfl hne
          | cons a p =>
            obtain ⟨rfl, hp'⟩ := List.cons_prefix_cons.1 hp
            have := a2 p hp' (by rintro rfl; exact hne' rfl)
            simpa [EvenLines, EvenStr] using this
        · refine .inr ⟨[], l :: ls, rfl, by simp, by simpa using hs, ?_, a2⟩
          intro p hp hne
          cases p with
          | nil => exact absurd rfl hne
          | cons a p =>
            obtain ⟨rfl, hp'⟩ := List.cons_prefix_cons.1 hp
            simpa [EvenLines, EvenStr] using a1 p hp'

theorem evenGroups_skip {s ls ts : List Str} (hs : ∀ l ∈ s, Skipped l) (h : EvenGroups ls ts) : EvenGroups (s ++ ls) ts := by
  induction s with
  | nil => exact h
  | cons l s ih => exact .skip (hs l List.mem_cons_self) (ih fun x hx => hs x (List.mem_cons_of_mem _ hx))

theorem readMulti_release (f : Format) : ∀ (fuel : Nat) (lines : List Str), FewBrackets lines → lines.length < fuel →
    ∃ ts items, EvenGroups lines ts ∧ readMulti .wrapping f fuel lines = .ok items ∧
      List.Forall₂ (fun s r => stringToTree f s = .ok r) ts items := by
  intro fuel
  induction fuel with
  | zero => intro lines _ h; omega
  | succ n ih =>
    intro lines hb h
    rw [readMulti]
    rcases release_spec f lines hb with ⟨s, g, rest, h1, h2, h3, r, h4, h5⟩ | ⟨s, u, h1, h2, h3, h4, h5⟩
    · have hg : 0 < g.length := by
        obtain ⟨l, hl, _⟩ := h3.first
        cases g with
        | nil => simp at hl
        | cons a g => simp
      have hsuf : rest <:+ lines := ⟨s ++ g, by rw [h1]; simp⟩
      have c1 := count_suffix (c := '(') hsuf
      have c2 := count_suffix (c := ')') hsuf
      obtain ⟨ts, items, i1, i2, i3⟩ := ih rest ⟨by have := hb.1; omega, by have := hb.2; omega⟩ (by
        rw [h1] at h; simp at h; omega)
      refine ⟨g.flatten :: ts, r :: items, ?_, ?_, .cons h4 i3⟩
      · rw [h1]; exact evenGroups_skip h2 (.group h3 i1)
      · rw [h5]; simp only [Res.ok_bind, i2]; rfl
    · refine ⟨[], [], ?_, ?_, .nil⟩
      · rw [h1]; exact evenGroups_skip h2 (.tail h3 h4)
      · rw [h5]; rfl

/-- A file of groups is read alike. -/
theorem even_of_group {g : List Str} (h : Group g) : EvenGroup g :=
  ⟨h.first, fun p h1 h2 h3 => by have := h.proper p h1 h2 h3; unfold OpenEnd at this; unfold EvenLines; omega, h.closed.symm⟩

theorem even_of_groups {ls ts : List Str} (h : Groups ls ts) : EvenGroups ls ts := by
  induction h with
  | tail h1 h2 => exact .tail h1 fun p hp hne => by have := h2 p hp hne; unfold OpenEnd at this; unfold EvenLines; omega
  | skip h1 _ ih => exact .skip h1 ih
  | group h1 _ ih => exact .group (even_of_group h1) ih

/-- What is parsed as a tree is a group. -/
theorem group_of_parsed {f : Format} {g : List Str} {t : Tree} (h : EvenGroup g)
    (hp : stringToTree f g.flatten = .ok (.ok t)) : Group g := by
  obtain ⟨b, -, hr⟩ := parsed_reads hp
  have hbal := reads_bal hr
  refine ⟨h.first, fun p h1 h2 h3 => ?_, h.closed.symm⟩
  have h4 := h.proper p h1 h2 h3
  obtain ⟨x, rfl⟩ := h1
  have := hbal.2 p.flatten (by simp)
  unfold EvenLines at h4; unfold OpenEnd; omega

theorem evenGroups_inv {L ts : List Str} (h : EvenGroups L ts) :
    (ts = [] ∧ (∀ l, L.head? = some l → ¬ Skipped l) ∧ (∀ p, p <+: L → p ≠ [] → ¬ EvenLines p)) ∨
    (∃ l ls, L = l :: ls ∧ Skipped l ∧ EvenGroups ls ts) ∨
    (∃ g ls ts', L = g ++ ls ∧ ts = g.flatten :: ts' ∧ EvenGroup g ∧ EvenGroups ls ts') := by
  cases h with
  | tail h1 h2 => exact .inl ⟨rfl, h1, h2⟩
  | skip h1 h2 => exact .inr (.inl ⟨_, _, rfl, h1, h2⟩)
  | group h1 h2 => exact .inr (.inr ⟨_, _, _, rfl, rfl, h1, h2⟩)

theorem EvenGroup.ne_nil {g : List Str} (h : EvenGroup g) : g ≠ [] := by
  rintro rfl; obtain ⟨l, hl, _⟩ := h.first; simp at hl

theorem EvenGroup.head {g rest : List Str} (h : EvenGroup g) : ∃ l, (g ++ rest).head? = some l ∧ ¬ Skipped l := by
  obtain ⟨l, hl, hs⟩ := h.first
  exact ⟨l, group_head hl, hs⟩

theorem evenGroups_unique {L ts : List Str} (h : EvenGroups L ts) : ∀ {ts' : List Str}, EvenGroups L ts' → ts = ts' := by
  induction h with
  | tail h1 h2 =>
    intro ts' h'
    rcases evenGroups_inv h' with ⟨rfl, -⟩ | ⟨l', ls', rfl, h3, -⟩ | ⟨g', ls', ts', rfl, -, h3, -⟩
    · rfl
    · exact absurd h3 (h1 l' rfl)
    · exact absurd h3.closed (h2 g' (List.prefix_append _ _) (EvenGroup.ne_nil h3))
  | @skip l ls ts h1 h2 ih =>
    intro ts' h'
    rcases evenGroups_inv h' with ⟨-, h3, -⟩ | ⟨l', ls', h3, -, h4⟩ | ⟨g', ls', ts', h3, -, h4, -⟩
    · exact absurd h1 (h3 l rfl)
    · obtain ⟨rfl, rfl⟩ := List.cons.inj h3
      exact ih h4
    · obtain ⟨x, hx, hs⟩ := EvenGroup.head (rest := ls') h4
      rw [← h3] at hx; simp at hx; subst hx
      exact absurd h1 hs
  | @group g ls ts h1 h2 ih =>
    intro ts' h'
    rcases evenGroups_inv h' with ⟨-, -, h3⟩ | ⟨l', ls', h3, h4, -⟩ | ⟨g', ls', ts', h3, rfl, h4, h5⟩
    · exact absurd h1.closed (h3 g (List.prefix_append _ _) (EvenGroup.ne_nil h1))
    · obtain ⟨x, hx, hs⟩ := EvenGroup.head (rest := ls) h1
      rw [h3] at hx; simp at hx; subst hx
      exact absurd h4 hs
    · have : g = g' := by
        rcases List.prefix_or_prefix_of_prefix (List.prefix_append g ls) (h3 ▸ List.prefix_append g' ls') with h6 | h6
        · by_contra hne
          exact h4.proper g h6 (EvenGroup.ne_nil h1) hne h1.closed
        · by_contra hne
          exact h1.proper g' h6 (EvenGroup.ne_nil h4) (Ne.symm hne) h4.closed
      subst this
      rw [ih (List.append_cancel_left h3 ▸ h5)]

/-- The text of each group is that of consecutive lines of the file. -/
theorem evenGroups_mem {L ts : List Str} (h : EvenGroups L ts) :
    ∀ s ∈ ts, ∃ pre g post, L = pre ++ (g ++ post) ∧ EvenGroup g ∧ s = g.flatten := by
  induction h with
  | tail => intro s hs; simp at hs
  | @skip l ls ts h1 h2 ih =>
    intro s hs
    obtain ⟨pre, g, post, rfl, h3, h4⟩ := ih s hs
    exact ⟨l :: pre, g, post, rfl, h3, h4⟩
  | @group g ls ts h1 h2 ih =>
    intro s hs
    rcases List.mem_cons.1 hs with rfl | hs
    · exact ⟨[], g, ls, rfl, h1, rfl⟩
    · obtain ⟨pre, g', post, rfl, h3, h4⟩ := ih s hs
      exact ⟨g ++ pre, g', post, by simp, h3, h4⟩

/-! ## Decoding -/

theorem decodeLoop_eq (b : Build) (n : Nat) : ∀ (l : List (((Option AbsAncestor × Option Str) × Terminal) × Nat)),
    (∀ x ∈ l, ∀ a, x.1.1.1 = some a → usize b ((a.common : Int) - 1) = Res.sub a.common 1) →
    ∀ s, decodeLoop b n l s = Tree.decodeLoop n l s := by
  intro l
  induction l with
  | nil => intro _ s; rw [decodeLoop, Tree.decodeLoop]
  | cons x l ih =>
    intro h s
    obtain ⟨⟨⟨anc, chain⟩, term⟩, idx⟩ := x
    have ih' := ih (fun y hy => h y (List.mem_cons_of_mem _ hy))
    cases anc with
    | none => simp only [decodeLoop, Tree.decodeLoop, ih']; rfl
    | some a =>
      have ha := h _ List.mem_cons_self a rfl
      simp only [decodeLoop, Tree.decodeLoop, ih', ha]; rfl

theorem decode_eq (b : Build) {e : AbsEncoding} {ts : List Terminal}
    (h : ∀ x ∈ e, ∀ a, x.1 = some a → usize b ((a.common : Int) - 1) = Res.sub a.common 1) :
    decode b e ts = Tree.decode e ts := by
  unfold decode Tree.decode
  simp only []
  rw [decodeLoop_eq b ts.length _ fun x hx a ha => ?_]
  obtain ⟨y, i⟩ := x
  have hy := (List.of_mem_zip (List.fst_mem_of_mem_zipIdx hx : y ∈ e.zip ts)).1
  exact h _ hy a ha

theorem decode_checked {e : AbsEncoding} {ts : List Terminal}
    (h : CountsUsize e) : decode .checked e ts = Tree.decode e ts :=
  decode_eq _ fun x hx a ha => by exact_mod_cast usize_checked_sub (c := 1) (h x hx a ha)

theorem decode_positive (b : Build) {e : AbsEncoding} {ts : List Terminal}
    (h : CountsUsize e) (hp : AbsPositive e) : decode b e ts = Tree.decode e ts := by
  refine decode_eq _ fun x hx a ha => ?_
  have h1 := hp x hx a ha
  have h2 := h x hx a ha
  rw [Res.sub_of_le h1, ← usize_nat b (n := a.common - 1) (lt_of_le_of_lt (Nat.sub_le _ _) h2)]
  congr 1
  omega

/-- Counts read from tags are of type `usize`. -/
theorem readTokens_usize {key : Str} (toks : List Conllx.Token) : ∀ {i : Nat} {enc : AbsEncoding} {tms : List Terminal},
    Conllx.readTokens key AbsAncestor.parse toks i = .ok (enc, tms) → CountsUsize enc := by
  induction toks with
  | nil =>
    intro i enc tms h
    simp only [Conllx.readTokens, Except.ok.injEq, Prod.mk.injEq] at h
    rw [← h.1]
    intro x hx
    simp at hx
  | cons tok toks ih =>
    intro i enc tms h
    simp only [Conllx.readTokens] at h
    split at h
    · simp at h
    · split at h
      · simp at h
      · rename_i entry hs
        split at h
        · simp at h
        · rename_i enc' tms' hr
          simp only [Except.ok.injEq, Prod.mk.injEq] at h
          rw [← h.1]
          intro x hx a ha
          rcases List.mem_cons.1 hx with rfl | hx
          · unfold Conllx.splitAncestor at hs
            split at hs
            · simp at hs
            · dsimp only at hs
              split at hs
              · simp only [Except.ok.injEq] at hs; rw [← hs] at ha; simp at ha
              · split at hs
                · rename_i hp
                  simp only [Except.ok.injEq] at hs
                  rw [← hs] at ha
                  simp only [Option.some.injEq] at ha
                  subst ha
                  unfold AbsAncestor.parse at hp
                  split at hp
                  · split at hp
                    · rename_i n hn
                      simp only [Except.ok.injEq] at hp
                      subst hp
                      unfold parseUsize at hn
                      split at hn
                      · simp at hn
                      · split at hn
                        · split at hn
                          · rename_i hlt
                            simp only [Option.some.injEq] at hn
                            exact hn ▸ hlt
                          · simp at hn
                        · simp at hn
                    · simp at hp
                  · simp at hp
                · simp at hs
          · exact ih hr x hx a ha

theorem readAbsolute_eq (b : Build) (toks : List Conllx.Token)
    (h : ∀ enc tms, Conllx.readTokens "abs_ancestor".toList AbsAncestor.parse toks 0 = .ok (enc, tms) →
      decode b enc tms = Tree.decode enc tms) :
    readAbsolute b toks = Conllx.tryFromAbsolute toks := by
  unfold readAbsolute Conllx.tryFromAbsolute
  cases hr : Conllx.readTokens "abs_ancestor".toList AbsAncestor.parse toks 0 with
  | error e => simp only []
  | ok r =>
    obtain ⟨enc, tms⟩ := r
    simp only [Conllx.finishDecode, h enc tms hr]
    rfl

end Machine
end Lumberjack
