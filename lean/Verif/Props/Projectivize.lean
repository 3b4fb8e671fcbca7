import Verif.Proofs.Projectivize
import Verif.Spec.Examples

/-!
# Projectivization (C22, C23)
-/

namespace Lumberjack
namespace Props

open Lumberjack.Tree

/-- An iteration order for the examples: smallest element first. -/
def minPick (_ : Tree) (s : Finset Nat) : Option Nat := if h : s.Nonempty then some (s.min' h) else none

theorem minPick_order : IsOrder minPick := by
  intro t s
  unfold minPick
  constructor
  · intro h; exact ⟨_, s.min'_mem h, by rw [dif_pos h]⟩
  · rintro rfl; simp

/-! ## C22 -/

/-- C22: `projectivize` on a tree in which some node dominates a block of positions with a gap.
Whatever order the hash sets have, it ends, and gives a well-formed tree in which every node
dominates a contiguous block of positions and which reports to be projective. -/
theorem C22_projectivize (t : Tree) (W : t.WF) (pick : Tree → Finset Nat → Option Nat)
    (hpick : IsOrder pick) (hgap : ∃ n, t.Live n ∧ ¬ t.Gapless n) :
    ∃ t' log, t.projectivize pick = .ok (t', some log) ∧ t'.WF ∧ t'.isProjective = true ∧
      ∀ n, t'.Live n → t'.Gapless n := by
  have hp : t.isProjective = false := by
    rw [← Bool.not_eq_true, isProjective_iff W.count]
    intro h
    obtain ⟨n, ⟨nd, hnd⟩, hn⟩ := hgap
    cases nd with
    | nt x => exact h n ((disc_iff W).2 ⟨⟨x, hnd⟩, hn⟩)
    | term x => exact hn (gapless_term W ⟨x, hnd⟩)
  obtain ⟨t', log, h1, h2, _, h4⟩ := projectivize_spec hpick W hp
  refine ⟨t', log, h1, h2, ?_, h4⟩
  rw [isProjective_iff h2.count]
  intro n hn
  have := (disc_iff h2).1 hn
  exact this.2 (h4 n this.1.live')

/-- C22: a tree without gaps is returned as it is, with no list of moves. -/
theorem C22_projective_unchanged (t : Tree) (W : t.WF) (pick : Tree → Finset Nat → Option Nat)
    (h : ∀ n, t.Live n → t.Gapless n) : t.projectivize pick = .ok (t, none) := by
  have hp : t.isProjective = true := by
    rw [isProjective_iff W.count]
    intro n hn
    have := (disc_iff W).1 hn
    exact this.2 (h n this.1.live')
  unfold projectivize
  simp only [hp, Bool.not_true]
  rfl

example : Examples.disc.WF ∧ Examples.disc.isProjective = false ∧ Examples.proj.isProjective = true :=
  ⟨wf_of_check (by decide +kernel), by decide, by decide⟩

/-- The example tree really has a gap. -/
example : ∃ n, Examples.disc.Live n ∧ ¬ Examples.disc.Gapless n := by
  have W : Examples.disc.WF := wf_of_check (by decide +kernel)
  have h : Examples.disc.Disc 3 := ⟨_, rfl, by decide⟩
  have := (disc_iff W).1 h
  exact ⟨3, this.1.live', this.2⟩

/-! ## C23 -/

/-- C23: `projectivize` is a sequence of reattachments, recorded in the returned list; each attaches
a node, with its edge content, further down, to fill a gap. -/
theorem C23_moves (t : Tree) (W : t.WF) (pick : Tree → Finset Nat → Option Nat)
    (hpick : IsOrder pick) {t' : Tree} {log : List Move}
    (h : t.projectivize pick = .ok (t', some log)) : Moves t log t' := by
  have hp : t.isProjective = false := by
    cases hp : t.isProjective with
    | false => rfl
    | true =>
      unfold projectivize at h
      simp only [hp, Bool.not_true] at h
      simp [Res.pure_eq] at h
  obtain ⟨t1, log1, h1, _, h3, _⟩ := projectivize_spec hpick W hp
  rw [h1] at h
  simp only [Res.ok.injEq, Prod.mk.injEq, Option.some.injEq] at h
  obtain ⟨rfl, rfl⟩ := h
  exact h3

/-- C23: nodes keep their index, label and features, terminals their position, and every node is
attached by an edge with the same content as before.  Secondary edges are untouched. -/
theorem C23_kept (t : Tree) (W : t.WF) (pick : Tree → Finset Nat → Option Nat)
    (hpick : IsOrder pick) {t' : Tree} {log : List Move}
    (h : t.projectivize pick = .ok (t', some log)) :
    (∀ n, t'.content n = t.content n) ∧ (∀ n i, t'.TermAt n i ↔ t.TermAt n i) ∧
    t'.root = t.root ∧ t'.nTerminals = t.nTerminals ∧
    (∀ c w, (∃ r ∈ t'.graph.edges, r.tgt = c ∧ r.w = w) ↔ ∃ r ∈ t.graph.edges, r.tgt = c ∧ r.w = w) ∧
    (∀ r : EdgeRec, r.w.isPrimary = false → (r ∈ t'.graph.edges ↔ r ∈ t.graph.edges)) := by
  have M := C23_moves t W pick hpick h
  exact ⟨M.content, M.termAt, M.root.1, M.root.2, fun c w => M.weight, fun r hr => M.secondary hr⟩

/-- C23: a node that the list does not name keeps its parent and its edge. -/
theorem C23_unlisted (t : Tree) (W : t.WF) (pick : Tree → Finset Nat → Option Nat)
    (hpick : IsOrder pick) {t' : Tree} {log : List Move}
    (h : t.projectivize pick = .ok (t', some log)) (c : Nat) (hc : ∀ m ∈ log, m.2.2 ≠ c) :
    ∀ r : EdgeRec, r.tgt = c → (r ∈ t'.graph.edges ↔ r ∈ t.graph.edges) := by
  have M := C23_moves t W pick hpick h
  intro r hr
  cases hw : r.w.isPrimary with
  | true => exact M.kept hw (fun m hm => hr ▸ hc m hm)
  | false => exact M.secondary hw

/-- C23: the first entry for a node names the parent and the edge content it had before. -/
theorem C23_listed (t : Tree) (W : t.WF) (pick : Tree → Finset Nat → Option Nat)
    (hpick : IsOrder pick) {t' : Tree} {log : List Move}
    (h : t.projectivize pick = .ok (t', some log)) (pre post : List Move) (p : Nat) (w : Edge) (c : Nat)
    (hl : log = pre ++ (p, w, c) :: post) (hf : ∀ m ∈ pre, m.2.2 ≠ c) :
    w.isPrimary = true ∧ ∃ id, (⟨id, p, c, w⟩ : EdgeRec) ∈ t.graph.edges :=
  (C23_moves t W pick hpick h).first hl hf

/-- The example is changed by one move: `B` goes from the root to `A`. -/
example : (do let r ← Examples.disc.projectivize minPick
              return (r.2, r.1.graph.node? 3)) =
    .ok (some [(4, .primary none, 5)], Examples.nt "A" ⟨0, 3, none⟩) := by decide +kernel

end Props
end Lumberjack
