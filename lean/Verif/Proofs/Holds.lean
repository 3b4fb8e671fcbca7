import Verif.Proofs.NegraFix

/-!
# What the NEGRA format holds
-/

namespace Lumberjack
namespace Negra

open Lumberjack.Tree

variable {t u r : Tree} {id : Nat} {info : Option Str} {φ ψ : Nat → Nat}

theorem Agree.body (A : Agree t u φ) (E : Exportable u) : Body t u φ :=
  ⟨E.wf, A.root, E.root, A.inj, A.onto, A.terms, A.nts, A.primary, A.second, E.sources⟩

/-- Trees with a common copy agree. -/
theorem agree_of_copies (C : Copy id info t r φ) (D : Copy id info u r ψ) (E : Exportable t) (E' : Exportable u) :
    ∃ θ, Agree t u θ := by
  have B := C.body E.wf E.sources
  have B' := D.body E'.wf E'.sources
  have hex : ∀ n, ∃ n', t.Live n → u.Live n' ∧ ψ n' = φ n := by
    intro n
    by_cases hn : t.Live n
    · obtain ⟨n', h1, h2⟩ := D.onto (φ n) (B.live hn)
      exact ⟨n', fun _ => ⟨h1, h2⟩⟩
    · exact ⟨0, fun h => absurd h hn⟩
  choose θ hθ using hex
  have hroot : u.root = θ t.root := by
    obtain ⟨h1, h2⟩ := hθ t.root E.wf.shape.root_live
    exact (D.inj _ _ h1 E'.wf.shape.root_live (by rw [h2, ← C.root, D.root])).symm
  refine ⟨θ, hroot, ?_, ?_, ?_, ?_, ?_, ?_⟩
  · intro n m hn hm h
    exact C.inj n m hn hm (by rw [← (hθ n hn).2, ← (hθ m hm).2, h])
  · intro n' hn'
    obtain ⟨n, h1, h2⟩ := C.onto (ψ n') (B'.live hn')
    exact ⟨n, h1, D.inj _ _ (hθ n h1).1 hn' ((hθ n h1).2.trans h2)⟩
  · intro n x hx
    obtain ⟨h1, h2⟩ := hθ n ⟨_, hx⟩
    obtain ⟨f, k1, k2⟩ := C.terms n x hx
    obtain ⟨nd, hnd⟩ := h1
    cases nd with
    | nt z =>
      exfalso
      by_cases hz : θ n = u.root
      · obtain ⟨_, _, h⟩ := D.root_node
        rw [D.root, ← hz, h2, k1] at h
        cases h
      · obtain ⟨g, hg, _⟩ := D.nts _ z hz hnd
        rw [h2, k1] at hg
        cases hg
    | term z =>
      obtain ⟨g, hg, hg'⟩ := D.terms _ z hnd
      rw [h2, k1] at hg
      simp only [Option.some.injEq, Node.term.injEq] at hg
      refine ⟨z.features, ?_, ?_⟩
      · rw [show u.graph.node? (θ n) = some (.term z) from hnd]
        cases x; cases z
        simp_all
      · have : f = g := congrArg Terminal.features hg
        exact k2.trans (this ▸ hg'.symm)
  · intro n x hn hx
    obtain ⟨h1, h2⟩ := hθ n ⟨_, hx⟩
    obtain ⟨f, k1, k2⟩ := C.nts n x hn hx
    obtain ⟨nd, hnd⟩ := h1
    have hne : θ n ≠ u.root := by
      intro h
      exact hn (C.inj n t.root ⟨_, hx⟩ E.wf.shape.root_live (by rw [← h2, h, ← D.root, C.root]))
    cases nd with
    | term z =>
      exfalso
      obtain ⟨g, hg, _⟩ := D.terms _ z hnd
      rw [h2, k1] at hg
      cases hg
    | nt z =>
      obtain ⟨g, hg, hg'⟩ := D.nts _ z hne hnd
      rw [h2, k1] at hg
      simp only [Option.some.injEq, Node.nt.injEq] at hg
      refine ⟨z.features, ?_, ?_⟩
      · rw [show u.graph.node? (θ n) = some (.nt z) from hnd]
        cases x; cases z
        simp_all
      · have : f = g := congrArg NonTerminal.features hg
        exact k2.trans (this ▸ hg'.symm)
  · intro p n l hp hn
    have a := C.primary p n l hp hn
    have b := D.primary (θ p) (θ n) l (hθ p hp).1 (hθ n hn).1
    rw [(hθ p hp).2, (hθ n hn).2] at b
    exact a.trans b.symm
  · intro n p l hn hr hp
    have hne : θ n ≠ u.root := by
      intro h
      exact hr (C.inj n t.root hn E.wf.shape.root_live (by rw [← (hθ n hn).2, h, ← D.root, C.root]))
    have a := B.second n p l hn hr hp
    have b := B'.second (θ n) (θ p) l (hθ n hn).1 hne (hθ p hp).1
    rw [(hθ p hp).2, (hθ n hn).2] at b
    exact a.trans b.symm

end Negra
end Lumberjack
