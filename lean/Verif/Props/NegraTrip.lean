import Verif.Proofs.NegraCopy
import Mathlib.Tactic.IntervalCases

/-!
# The NEGRA round trip (C48)
-/

namespace Lumberjack
namespace Props

open Lumberjack.Tree Negra

private theorem not_frame_nil : ∀ l ∈ [([] : Str)], ¬ IsFrame l := by
  intro l hl
  rw [List.mem_singleton.1 hl]
  unfold IsFrame
  decide

private theorem file_lines (ts : List Tree) (ids : Nat → Nat) (infos : Nat → Option Str) (counter : Nat)
    (H : ∀ (i : Nat) (t : Tree), ts[i]? = some t → Exportable t ∧ Head t (counter + ((ts.take i).filter
      fun u => (featOf (rootFeatures u) "sentence_id".toList).isNone).length) (ids i) (infos i)) :
    ∃ (ls : List Str) (ts' : List Tree), writeTrees counter ts = .ok (unlines ls) ∧ (∀ l ∈ ls, '\n' ∉ l ∧ Tight l) ∧ ts'.length = ts.length ∧
      (∀ (pre : List Str) (fuel : Nat), (∀ l ∈ pre, ¬ IsFrame l) → (pre ++ ls).length < fuel →
        readAll fuel (pre ++ ls) = .ok (ts'.map .ok)) ∧
      ∀ (i : Nat) (t t' : Tree), ts[i]? = some t → ts'[i]? = some t' → ∃ φ, Copy (ids i) (infos i) t t' φ := by
  induction ts generalizing ids infos counter with
  | nil =>
    refine ⟨[], [], rfl, by simp, rfl, fun pre fuel h hf => ?_, by simp⟩
    cases fuel with
    | zero => omega
    | succ fuel =>
      rw [readAll, next_outside h]
      rfl
  | cons t ts ih =>
    obtain ⟨E, Hd⟩ := H 0 t rfl
    simp only [List.take_zero, List.filter_nil, List.length_nil, Nat.add_zero] at Hd
    obtain ⟨ns, nts, T, N, ls, R, h1, h2, h3⟩ := written_read E Hd
    obtain ⟨more, ts', g1, g2, g3, g4, g5⟩ := ih (fun i => ids (i + 1)) (fun i => infos (i + 1))
      (if (featOf (rootFeatures t) sentenceIdKey).isSome then counter else counter + 1) (fun i u hu => by
        have := H (i + 1) u (by simpa using hu)
        refine ⟨this.1, ?_⟩
        have h := this.2
        rw [List.take_succ_cons, List.filter_cons] at h
        have hk : "sentence_id".toList = sentenceIdKey := rfl
        rw [hk] at h ⊢
        cases hv : featOf (rootFeatures t) sentenceIdKey with
        | none =>
          rw [hv] at h
          simp only [Option.isNone_none, if_true, List.length_cons] at h
          simp only [Option.isSome_none, Bool.false_eq_true, if_false]
          rwa [Nat.add_assoc, Nat.add_comm 1]
        | some v =>
          rw [hv] at h
          simp only [Option.isNone_some, Bool.false_eq_true, if_false] at h
          simpa using h)
    obtain ⟨t', τ, ν, r1, D, W'⟩ := h3 ([] :: more)
    refine ⟨ls ++ [] :: more, t' :: ts', ?_, ?_, by simp [g3], ?_, ?_⟩
    · rw [writeTrees, h2]
      simp only [Res.ok_bind]
      rw [show (if (featOf (rootFeatures t) "sentence_id".toList).isSome = true then counter else counter + 1) =
        (if (featOf (rootFeatures t) sentenceIdKey).isSome then counter else counter + 1) from rfl, g1]
      simp [unlines]
    · intro l hl
      simp only [List.mem_append, List.mem_cons] at hl
      rcases hl with hl | rfl | hl
      · exact h1 l hl
      · exact ⟨by simp, by unfold Tight; simp⟩
      · exact g2 l hl
    · intro pre fuel hp hf
      cases fuel with
      | zero => omega
      | succ fuel =>
        rw [readAll, next_outside hp, r1]
        have hr := g4 [[]] fuel not_frame_nil (by
          have hne : ls ≠ [] := by
            rintro rfl
            have hx := h3 []
            obtain ⟨_, _, _, hx, _⟩ := hx
            simp [readerNext, nextFrom] at hx
          have : 0 < ls.length := List.length_pos_iff.2 hne
          simp at hf ⊢
          omega)
        simp only [List.cons_append, List.nil_append] at hr
        simp [hr]
    · intro i u u' hu hu'
      cases i with
      | zero =>
        simp only [List.getElem?_cons_zero, Option.some.injEq] at hu hu'
        subst hu hu'
        exact ⟨_, back_copy R E D W'⟩
      | succ i => exact g5 i u u' (by simpa using hu) (by simpa using hu')

/-- C48: a file written from trees the format can hold is read as the same number of trees, each a copy of the
one written: same terminals, nonterminals, features and spans, same edges with their labels, including one
secondary edge per node. -/
theorem C48_file (ts : List Tree) (ids : Nat → Nat) (infos : Nat → Option Str) (counter : Nat)
    (H : ∀ (i : Nat) (t : Tree), ts[i]? = some t → Exportable t ∧ Head t (counter + ((ts.take i).filter
      fun u => (featOf (rootFeatures u) "sentence_id".toList).isNone).length) (ids i) (infos i)) :
    ∃ (text : Str) (ts' : List Tree), writeTrees counter ts = .ok text ∧
      readAll ((lines text).length + 1) (lines text) = .ok (ts'.map .ok) ∧ ts'.length = ts.length ∧
      ∀ (i : Nat) (t t' : Tree), ts[i]? = some t → ts'[i]? = some t' → ∃ φ, Copy (ids i) (infos i) t t' φ := by
  obtain ⟨ls, ts', h1, h2, h3, h4, h5⟩ := file_lines ts ids infos counter H
  refine ⟨_, ts', h1, ?_, h3, h5⟩
  rw [lines_unlines h2]
  exact h4 [] _ (by simp) (by simp)

/-- C48: a copy is equal to the tree, provided the root of the tree is labelled `VROOT` and has no features but
those of the header; the word forms are the same, too. -/
theorem C48_copy_equal (t t' : Tree) (W : t.WF) (id : Nat) (info : Option Str) (φ : Nat → Nat)
    (C : Copy id info t t' φ) (hr : SameRoot t id info) :
    t.eq t' = .ok true ∧ ∀ f g, t.Is f → t'.Is g → Forest.Same f g ∧ f.leaves.map (·.form) = g.leaves.map (·.form) := by
  refine ⟨C.eq W hr, fun f g hf hg => ?_⟩
  obtain ⟨g', k1, k2, k3⟩ := C.rep W hr f [t.root] (by simpa using W.shape.root_live) hf
  have : t'.Is g' := by
    unfold Is
    rw [C.root]
    exact k1
  rw [Rep.unique hg this]
  exact ⟨k2, k3⟩

/-- C48: a tree the format can hold, with root `VROOT` and the features of a header, survives writing and
reading. -/
theorem C48_round_trip (t : Tree) (E : Exportable t) (id : Nat) (info : Option Str) (counter : Nat)
    (Hd : Head t counter id info) (hr : SameRoot t id info) :
    ∃ text c t', writeTree counter t = .ok (text, c) ∧
      readAll ((lines text).length + 1) (lines text) = .ok [.ok t'] ∧ t.eq t' = .ok true ∧
      (∃ φ, Copy id info t t' φ) := by
  obtain ⟨text, ts', h1, h2, h3, h4⟩ := C48_file [t] (fun _ => id) (fun _ => info) counter (fun i u hu => by
    cases i with
    | succ i => simp at hu
    | zero =>
      simp only [List.getElem?_cons_zero, Option.some.injEq] at hu
      subst hu
      exact ⟨E, by simpa using Hd⟩)
  match ts', h3 with
  | [t'], _ =>
    obtain ⟨φ, C⟩ := h4 0 t t' rfl rfl
    rw [writeTrees] at h1
    obtain ⟨⟨s, c⟩, k1, k2⟩ := Res.bind_eq_ok.1 h1
    simp only [writeTrees, Res.ok_bind, Res.pure_eq, List.append_nil, Res.ok.injEq] at k2
    subst k2
    exact ⟨s, c, t', k1, h2, (C48_copy_equal t t' E.wf id info φ C hr).1, φ, C⟩

/-! ## The hypotheses are met -/

/-- A discontinuous tree with a morphological feature, an annotation, labels, a secondary edge and a header. -/
def sample : Tree :=
  ⟨⟨[some (.term ⟨"a".toList, "X".toList, some "l".toList, some ⟨[("morph".toList, some "m".toList)]⟩, ⟨0, 1, none⟩⟩),
      Examples.tm "b" "Y" 1, Examples.tm "c" "Z" 2,
      some (.nt ⟨"A".toList, some ⟨[("node_annotation".toList, some "n".toList)]⟩, ⟨0, 3, some {1}⟩⟩),
      some (.nt ⟨"VROOT".toList, some ⟨[("metadata".toList, some "u v".toList), ("sentence_id".toList, some "17".toList)]⟩,
        ⟨0, 3, none⟩⟩)],
    [], [⟨4, 3, 1, .secondary (some "SB".toList)⟩, Examples.pe 3 4 1, Examples.pe 2 4 3,
      ⟨1, 3, 2, .primary (some "HD".toList)⟩, Examples.pe 0 3 0], 5, []⟩, 3, 4, 1⟩

theorem sample_exportable : Exportable sample := by
  have hn : ∀ n nd, sample.graph.node? n = some nd → n < 5 := fun n nd h => node?_lt h
  refine ⟨wf_of_check (by decide +kernel), ⟨_, rfl⟩, ?_, ?_, ?_, ?_, by decide⟩
  · intro n x hx
    have := hn n _ hx
    interval_cases n
    · injection hx with hx
      injection hx with hx
      subst hx
      exact ⟨by unfold Negra.Field; decide, by decide, by unfold Negra.Field; decide,
        fun l hl => by injection hl with hl; subst hl; unfold Negra.Field; decide,
        .inr ⟨"m".toList, rfl, by unfold Negra.Field; decide⟩⟩
    · injection hx with hx
      injection hx with hx
      subst hx
      exact ⟨by unfold Negra.Field; decide, by decide, by unfold Negra.Field; decide, fun l hl => (by cases hl), .inl rfl⟩
    · injection hx with hx
      injection hx with hx
      subst hx
      exact ⟨by unfold Negra.Field; decide, by decide, by unfold Negra.Field; decide, fun l hl => (by cases hl), .inl rfl⟩
    · cases hx
    · cases hx
  · intro n x hr hx
    have := hn n _ hx
    interval_cases n
    · cases hx
    · cases hx
    · cases hx
    · injection hx with hx
      injection hx with hx
      subst hx
      exact ⟨by decide, .inr ⟨"n".toList, rfl, by decide⟩, .inl (by decide)⟩
    · exact absurd rfl hr
  · intro e he
    simp only [sample, List.mem_cons, List.not_mem_nil, or_false] at he
    rcases he with rfl | rfl | rfl | rfl | rfl
    · exact ⟨_, rfl, by unfold Negra.Field; decide⟩
    · intro s hs; cases hs
    · intro s hs; cases hs
    · intro s hs
      injection hs with hs
      subst hs
      unfold Negra.Field
      decide
    · intro s hs; cases hs
  · intro e he hw
    simp only [sample, List.mem_cons, List.not_mem_nil, or_false] at he
    rcases he with rfl | rfl | rfl | rfl | rfl
    · exact ⟨_, rfl⟩
    all_goals cases hw

theorem sample_head : Head sample 0 17 (some "u v".toList) :=
  ⟨by decide +kernel, by decide, by decide +kernel, fun m hm => by injection hm with hm; subst hm; decide +kernel⟩

example : ∃ text c t', writeTree 0 sample = .ok (text, c) ∧
    readAll ((lines text).length + 1) (lines text) = .ok [.ok t'] ∧ sample.eq t' = .ok true ∧
    (∃ φ, Copy 17 (some "u v".toList) sample t' φ) :=
  C48_round_trip sample sample_exportable 17 _ 0 sample_head ⟨_, rfl, rfl, by decide +kernel⟩

end Props
end Lumberjack
