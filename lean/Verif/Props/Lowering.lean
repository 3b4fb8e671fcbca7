import Verif.Proofs.Check
import Verif.Proofs.Lowering
import Verif.Props.Projectivize

/-!
# C88: projectivization only attaches nodes further down
-/

namespace Lumberjack
namespace Props

open Lumberjack.Tree

theorem projectivize_gapless (t : Tree) (W : t.WF) (pick : Tree → Finset Nat → Option Nat) (hpick : IsOrder pick)
    {t' : Tree} {log : List Move} (h : t.projectivize pick = .ok (t', some log)) :
    t'.WF ∧ ∀ n, t'.Live n → t'.Gapless n := by
  have hgap : ∃ n, t.Live n ∧ ¬ t.Gapless n := by
    by_contra hc
    rw [C22_projective_unchanged t W pick (fun n hn => by_contra fun hg => hc ⟨n, hn, hg⟩)] at h
    simp at h
  obtain ⟨t1, log1, h1, W', _, hall⟩ := C22_projectivize t W pick hpick hgap
  rw [h1] at h
  simp only [Res.ok.injEq, Prod.mk.injEq, Option.some.injEq] at h
  obtain ⟨rfl, rfl⟩ := h
  exact ⟨W', hall⟩

/-- C88: whatever is below a node stays below it. -/
theorem C88_below (t : Tree) (W : t.WF) (pick : Tree → Finset Nat → Option Nat) (hpick : IsOrder pick) {t' : Tree}
    {log : List Move} (h : t.projectivize pick = .ok (t', some log)) {a b : Nat} (hab : t.Dom a b) : t'.Dom a b :=
  (C23_moves t W pick hpick h).mono hab

/-- C88: a node that covers a contiguous block of positions has the same nodes below it as before, and so the same
words. -/
theorem C88_gapless (t : Tree) (W : t.WF) (pick : Tree → Finset Nat → Option Nat) (hpick : IsOrder pick) {t' : Tree}
    {log : List Move} (h : t.projectivize pick = .ok (t', some log)) {n : Nat} (hn : t.Gapless n) :
    (∀ m, t'.Dom n m ↔ t.Dom n m) ∧ ∀ i, t'.Covers n i ↔ t.Covers n i := by
  have M := C23_moves t W pick hpick h
  have hd := (M.gapless hn).2
  refine ⟨hd, fun i => ?_⟩
  unfold Covers
  simp only [hd, M.termAt]

/-- C88: what a node gains comes from below each contiguous node above it. -/
theorem C88_within (t : Tree) (W : t.WF) (pick : Tree → Finset Nat → Option Nat) (hpick : IsOrder pick) {t' : Tree}
    {log : List Move} (h : t.projectivize pick = .ok (t', some log)) {g n m : Nat} (hg : t.Gapless g) (hgn : t.Dom g n)
    (hm : t'.Dom n m) : t.Dom g m :=
  ((C88_gapless t W pick hpick h hg).1 m).1 ((C88_below t W pick hpick h hgn).trans hm)

/-- C88: a node covers all positions from its first to its last one afterwards. -/
theorem C88_filled (t : Tree) (W : t.WF) (pick : Tree → Finset Nat → Option Nat) (hpick : IsOrder pick) {t' : Tree}
    {log : List Move} (h : t.projectivize pick = .ok (t', some log)) {n i j k : Nat} (hi : t.Covers n i)
    (hj : t.Covers n j) (hik : i ≤ k) (hkj : k ≤ j) : t'.Covers n k := by
  have M := C23_moves t W pick hpick h
  have up : ∀ i, t.Covers n i → t'.Covers n i := fun i ⟨x, hx, hi⟩ => ⟨x, M.mono hx, (M.termAt _ _).2 hi⟩
  obtain ⟨W', hall⟩ := projectivize_gapless t W pick hpick h
  refine hall n ?_ i j k (up i hi) (up j hj) hik hkj
  obtain ⟨x, hx, y, hy, _⟩ := up i hi
  exact hx.live_left W'.graph ⟨_, hy⟩

/-- C88: the node a node is attached to afterwards is, or is below, the one it was attached to. -/
theorem C88_parent (t : Tree) (W : t.WF) (pick : Tree → Finset Nat → Option Nat) (hpick : IsOrder pick) {t' : Tree}
    {log : List Move} (h : t.projectivize pick = .ok (t', some log)) {p q c : Nat} (hp : t.IsChild p c)
    (hq : t'.IsChild q c) : t'.Dom p q := by
  obtain ⟨W', _⟩ := projectivize_gapless t W pick hpick h
  rcases (C88_below t W pick hpick h (Relation.ReflTransGen.single hp)).cases_parent with e | ⟨x, hx, hxc⟩
  · rw [e] at hp
    exact absurd (Relation.TransGen.single hp) (W.shape.acyclic W.graph p)
  · rwa [W'.shape.isChild_unique hq hxc]

/-- C88: no node leaves the same parent twice. -/
theorem C88_once (t : Tree) (W : t.WF) (pick : Tree → Finset Nat → Option Nat) (hpick : IsOrder pick) {t' : Tree}
    {log : List Move} (h : t.projectivize pick = .ok (t', some log)) : (log.map fun m => (m.1, m.2.2)).Nodup :=
  (C23_moves t W pick hpick h).nodup

/-- C88: there are at most as many moves as pairs of nodes of which one is below the other afterwards and was not
before. -/
theorem C88_moves (t : Tree) (W : t.WF) (pick : Tree → Finset Nat → Option Nat) (hpick : IsOrder pick) {t' : Tree}
    {log : List Move} (h : t.projectivize pick = .ok (t', some log)) :
    log.length ≤ Set.ncard {x : Nat × Nat | t'.Dom x.1 x.2 ∧ ¬ t.Dom x.1 x.2} :=
  (C23_moves t W pick hpick h).count (projectivize_gapless t W pick hpick h).1

/-- `A` covers positions 0 and 2, `B` covers 1 and 3. -/
def crossed : Tree :=
  ⟨⟨[Examples.tm "a" "X" 0, Examples.tm "b" "Y" 1, Examples.tm "c" "Z" 2, Examples.tm "d" "W" 3,
      Examples.nt "A" ⟨0, 3, some {1}⟩, Examples.nt "B" ⟨1, 4, some {2}⟩, Examples.nt "ROOT" ⟨0, 4, none⟩],
    [], [Examples.pe 5 6 5, Examples.pe 4 6 4, Examples.pe 3 5 3, Examples.pe 2 5 1, Examples.pe 1 4 2, Examples.pe 0 4 0],
    6, []⟩, 4, 6, 2⟩

/-- C88: more than the gap may be filled: the block of a node can end later than before. -/
theorem C88_beyond : ∃ (t : Tree) (pick : Tree → Finset Nat → Option Nat) (t' : Tree) (log : List Move) (n : Nat)
    (x x' : NonTerminal), t.WF ∧ IsOrder pick ∧ t.projectivize pick = .ok (t', some log) ∧
      t.graph.node? n = some (.nt x) ∧ t'.graph.node? n = some (.nt x') ∧ x.span = ⟨0, 3, some {1}⟩ ∧
      x'.span = ⟨0, 4, none⟩ := by
  have e : ((do let r ← crossed.projectivize minPick
                return (r.2, r.1.graph.node? 4)) : Res _) =
      .ok (some [(6, .primary none, 5), (4, .primary none, 2)], Examples.nt "A" ⟨0, 4, none⟩) := by decide +kernel
  simp only [Res.bind_eq_ok, Res.pure_eq, Res.ok.injEq, Prod.mk.injEq] at e
  obtain ⟨⟨t', l⟩, h1, h2, h3⟩ := e
  simp only at h2 h3
  subst h2
  exact ⟨crossed, minPick, t', _, 4, _, _, wf_of_check (by decide +kernel), minPick_order, h1, rfl, h3, rfl, rfl⟩

/-- The theorems apply to this tree and to the example `disc`: there, `B` (node 5) has no gap and keeps its words, and
`A` (node 3) covers position 1 afterwards. -/
example : Examples.disc.WF ∧ IsOrder minPick ∧ ∃ t' log, Examples.disc.projectivize minPick = .ok (t', some log) ∧
    Examples.disc.IsChild 4 5 ∧ t'.IsChild 3 5 ∧ t'.Dom 4 3 ∧ t'.Covers 3 1 := by
  have W : Examples.disc.WF := wf_of_check (by decide +kernel)
  have e : ((do let r ← Examples.disc.projectivize minPick
                return (r.2, r.1.graph.edges.head?)) : Res _) =
      .ok (some [(4, .primary none, 5)], some ⟨3, 3, 5, .primary none⟩) := by decide +kernel
  simp only [Res.bind_eq_ok, Res.pure_eq, Res.ok.injEq, Prod.mk.injEq] at e
  obtain ⟨⟨t', l⟩, h1, h2, h3⟩ := e
  simp only at h2 h3
  subst h2
  have hp : Examples.disc.IsChild 4 5 := ⟨⟨3, 4, 5, .primary none⟩, by decide, rfl, rfl, rfl⟩
  have hq : t'.IsChild 3 5 := ⟨⟨3, 3, 5, .primary none⟩, List.mem_of_mem_head? h3, rfl, rfl, rfl⟩
  refine ⟨W, minPick_order, t', _, h1, hp, hq, C88_parent _ W _ minPick_order h1 hp hq, ?_⟩
  refine C88_filled _ W _ minPick_order h1 (i := 0) (j := 2) ⟨0, .single ?_, _, rfl, rfl⟩ ⟨2, .single ?_, _, rfl, rfl⟩
    (by decide) (by decide)
  · exact ⟨Examples.pe 0 3 0, by decide, rfl, rfl, rfl⟩
  · exact ⟨Examples.pe 1 3 2, by decide, rfl, rfl, rfl⟩

end Props
end Lumberjack
