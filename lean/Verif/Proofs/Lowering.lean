import Mathlib.Data.Set.Card
import Verif.Proofs.Projectivize

/-!
# Dominance and projectivization
-/

namespace Lumberjack
namespace Tree

open Relation

variable {t t' : Tree}

theorem LoweredTo.child (W : t.WF) {q p c : Nat} {w : Edge} (h : LoweredTo q t t' (p, w, c)) (a b : Nat) :
    t'.IsChild a b ↔ (a = q ∧ b = c) ∨ (t.IsChild a b ∧ b ≠ c) := by
  obtain ⟨id, id', g1, g2, _, _, _, _, _, g3, _⟩ := h
  simp only at g1 g2 g3
  constructor
  · rintro ⟨r, hr, rfl, rfl, hw⟩
    rw [g3] at hr
    rcases List.mem_cons.1 hr with rfl | hr
    · exact .inl ⟨rfl, rfl⟩
    · rw [List.mem_filter] at hr
      obtain ⟨h1, h2⟩ := hr
      refine .inr ⟨⟨r, h1, rfl, rfl, hw⟩, fun e => ?_⟩
      have := W.shape.unique r h1 _ g1 e hw g2
      rw [this] at h2
      simp at h2
  · rintro (⟨rfl, rfl⟩ | ⟨⟨r, hr, rfl, rfl, hw⟩, hne⟩)
    · exact ⟨_, by rw [g3]; exact List.mem_cons_self, rfl, rfl, g2⟩
    · refine ⟨r, ?_, rfl, rfl, hw⟩
      rw [g3]
      refine List.mem_cons_of_mem _ (List.mem_filter.2 ⟨hr, decide_eq_true fun e => hne ?_⟩)
      rw [edge_eq_of_id W.graph hr g1 e]

/-- Lowering a node keeps what its new and old ancestors dominate. -/
theorem LoweredTo.mono (W : t.WF) {q p c : Nat} {w : Edge} (h : LoweredTo q t t' (p, w, c)) {a b : Nat}
    (hab : t.Dom a b) : t'.Dom a b := by
  have hC := h.child W
  obtain ⟨id, id', g1, g2, _, hpq, _, hcq, _⟩ := h
  simp only at g1 g2 hpq hcq
  have key : ∀ b, t.Dom p b → ¬ t.Dom c b → t'.Dom p b := by
    intro b hb hcb
    induction hb with
    | refl => exact .refl
    | @tail x y h1 h2 ih =>
      refine (ih fun hx => hcb (hx.tail h2)).tail ((hC x y).2 (.inr ⟨h2, ?_⟩))
      rintro rfl
      exact hcb .refl
  induction hab with
  | refl => exact .refl
  | @tail x y h1 h2 ih =>
    by_cases hy : y = c
    · subst hy
      have hxp : x = p := W.shape.isChild_unique h2 ⟨_, g1, rfl, rfl, g2⟩
      subst hxp
      exact (ih.trans (key q hpq hcq)).tail ((hC _ _).2 (.inl ⟨rfl, rfl⟩))
    · exact ih.tail ((hC _ _).2 (.inr ⟨h2, hy⟩))

/-- A node without gap dominates nothing new. -/
theorem LoweredTo.gapless (W : t.WF) {q p c : Nat} {w : Edge} (h : LoweredTo q t t' (p, w, c)) {n : Nat}
    (hn : t.Gapless n) {m : Nat} (hm : t'.Dom n m) : t.Dom n m := by
  have hC := h.child W
  obtain ⟨id, id', g1, g2, _, _, _, hcq, ⟨i, k, j, hik, hkj, hi, hj, _, x, hx, hk⟩, _⟩ := h
  simp only at hcq hx
  induction hm with
  | refl => exact .refl
  | @tail y z h1 h2 ih =>
    rcases (hC y z).1 h2 with ⟨rfl, rfl⟩ | ⟨h3, _⟩
    · obtain ⟨a, ha, hai⟩ := hi
      obtain ⟨b, hb, hbj⟩ := hj
      obtain ⟨x', hx', hk'⟩ := hn i j k ⟨a, ih.trans ha, hai⟩ ⟨b, ih.trans hb, hbj⟩ hik.le hkj.le
      have : x' = x := W.sentence.inj _ _ k hk' hk
      subst this
      rcases W.shape.dom_linear hx' hx with h4 | h4
      · exact h4
      · exact absurd (h4.trans ih) hcq
    · exact ih.tail h3

theorem Moves.mono {log : List Move} (h : Moves t log t') {a b : Nat} (hab : t.Dom a b) : t'.Dom a b := by
  induction h with
  | nil => exact hab
  | snoc h W hm ih =>
    obtain ⟨q, hq⟩ := hm
    exact LoweredTo.mono W hq ih

theorem Moves.gapless {log : List Move} (h : Moves t log t') {n : Nat} (hn : t.Gapless n) :
    t'.Gapless n ∧ ∀ m, t'.Dom n m ↔ t.Dom n m := by
  induction h with
  | nil => exact ⟨hn, fun _ => Iff.rfl⟩
  | @snoc t1 t2 log m h W hm ih =>
    have M : Moves t (log ++ [m]) t2 := .snoc h W hm
    obtain ⟨q, hq⟩ := hm
    have hd : ∀ m, t2.Dom n m ↔ t.Dom n m := fun m =>
      ⟨fun hm => (ih.2 m).1 (LoweredTo.gapless W hq ih.1 hm), fun hm => M.mono hm⟩
    refine ⟨?_, hd⟩
    have hcov : ∀ i, t2.Covers n i ↔ t.Covers n i := by
      intro i
      unfold Covers
      simp only [hd, M.termAt]
    intro i j k
    simp only [hcov]
    exact hn i j k

/-- A move adds a pair to the dominance relation. -/
theorem LoweredTo.gain (W : t.WF) {q p c : Nat} {w : Edge} (h : LoweredTo q t t' (p, w, c)) :
    t'.Dom q c ∧ ¬ t.Dom q c := by
  refine ⟨.single ((h.child W q c).2 (.inl ⟨rfl, rfl⟩)), fun hqc => ?_⟩
  obtain ⟨id, id', g1, g2, _, hpq, hne, hcq, _⟩ := h
  simp only at g1 g2 hpq hcq hne
  rcases hqc.cases_parent with e | ⟨x, hx, hxc⟩
  · rw [e] at hcq
    exact hcq .refl
  · rw [W.shape.isChild_unique hxc ⟨_, g1, rfl, rfl, g2⟩] at hx
    exact hne (W.shape.dom_antisymm W.graph hx hpq)

/-- After a node has left a parent, there is a node between them. -/
theorem Moves.between {log : List Move} (h : Moves t log t') {p c : Nat} {w : Edge} (hm : (p, w, c) ∈ log) :
    ∃ q, q ≠ p ∧ q ≠ c ∧ t'.Dom p q ∧ t'.Dom q c := by
  induction h with
  | nil => simp at hm
  | @snoc t1 t2 log m h W hl ih =>
    obtain ⟨q, hq⟩ := hl
    rcases List.mem_append.1 hm with hm | hm
    · obtain ⟨x, h1, h2, h3, h4⟩ := ih hm
      exact ⟨x, h1, h2, hq.mono W h3, hq.mono W h4⟩
    · obtain rfl := List.mem_singleton.1 hm
      refine ⟨q, ?_, ?_, hq.mono W ?_, (hq.gain W).1⟩
      · obtain ⟨_, _, _, _, _, _, hne, _⟩ := hq
        exact hne
      · rintro rfl
        exact (hq.gain W).2 .refl
      · obtain ⟨_, _, _, _, _, hd, _⟩ := hq
        exact hd

/-- A node leaves a parent once. -/
theorem Moves.nodup {log : List Move} (h : Moves t log t') : (log.map fun m => (m.1, m.2.2)).Nodup := by
  induction h with
  | nil => simp
  | @snoc t1 t2 log m h W hl ih =>
    obtain ⟨p, w, c⟩ := m
    rw [List.map_append, List.nodup_append]
    refine ⟨ih, by simp, ?_⟩
    rintro a ha b hb rfl
    simp only [List.map_cons, List.map_nil, List.mem_singleton] at hb
    subst hb
    obtain ⟨⟨p', w', c'⟩, hm, e⟩ := List.mem_map.1 ha
    simp only [Prod.mk.injEq] at e
    obtain ⟨rfl, rfl⟩ := e
    obtain ⟨x, h1, h2, h3, h4⟩ := h.between hm
    obtain ⟨q, id, id', g1, g2, _⟩ := hl
    rcases h4.cases_parent with e | ⟨y, hy, hyc⟩
    · exact h2 e.symm
    · rw [W.shape.isChild_unique hyc ⟨_, g1, rfl, rfl, g2⟩] at hy
      exact h1 (W.shape.dom_antisymm W.graph hy h3)

/-- The number of moves is bounded by the number of pairs added to the dominance relation. -/
theorem Moves.count {log : List Move} (h : Moves t log t') (W' : t'.WF) :
    log.length ≤ Set.ncard {x : Nat × Nat | t'.Dom x.1 x.2 ∧ ¬ t.Dom x.1 x.2} := by
  induction h with
  | nil => simp
  | @snoc t1 t2 log m h W hl ih =>
    have ih := ih W
    obtain ⟨p, w, c⟩ := m
    obtain ⟨q, hq⟩ := hl
    have hfin : Set.Finite {x : Nat × Nat | t2.Dom x.1 x.2 ∧ ¬ t.Dom x.1 x.2} := by
      have hb : ∀ n, t2.Live n → n < t2.graph.nodes.length := fun n hn => Graph.Live.lt hn
      refine Set.Finite.subset (Finset.finite_toSet (Finset.range t2.graph.nodes.length ×ˢ
        Finset.range t2.graph.nodes.length)) ?_
      rintro ⟨a, b⟩ ⟨h1, h2⟩
      simp only [Finset.coe_product, Finset.coe_range, Set.mem_prod, Set.mem_Iio]
      simp only at h1 h2
      rcases h1.cases_parent with rfl | ⟨x, hx, hxb⟩
      · exact absurd .refl h2
      · have hb' : t2.Live b := (Graph.IsChild.live W'.graph hxb).2
        exact ⟨hb _ (h1.live_left W'.graph hb'), hb _ hb'⟩
    have : Set.ncard {x : Nat × Nat | t1.Dom x.1 x.2 ∧ ¬ t.Dom x.1 x.2} <
        Set.ncard {x : Nat × Nat | t2.Dom x.1 x.2 ∧ ¬ t.Dom x.1 x.2} := by
      refine Set.ncard_lt_ncard ⟨fun x hx => ⟨hq.mono W hx.1, hx.2⟩, fun hs => ?_⟩ hfin
      obtain ⟨g1, g2⟩ := hq.gain W
      exact g2 (hs (show (q, c) ∈ {x : Nat × Nat | t2.Dom x.1 x.2 ∧ ¬ t.Dom x.1 x.2} from
        ⟨g1, fun hd => g2 (h.mono hd)⟩)).1
    simp only [List.length_append, List.length_cons, List.length_nil]
    omega

end Tree
end Lumberjack
