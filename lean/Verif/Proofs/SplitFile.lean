import Verif.Proofs.Split

/-!
# Doing the steps of a conversion of a bracketed file in two runs
-/

namespace Lumberjack

open Lumberjack.Tree Bracketed Relation

namespace Forest

/-- All nodes of a forest, with the labels of their edges, satisfy a property. -/
def Every (Q : Option Str → Node → Prop) : Forest → Prop
  | nil => True
  | leaf e x r => Q e (.term x) ∧ r.Every Q
  | node e x k r => Q e (.nt x) ∧ k.Every Q ∧ r.Every Q

end Forest

namespace Tree

variable {t : Tree}

theorem Rep.every_conv (S : t.Shape) {Q : Option Str → Node → Prop} {f : Forest} : ∀ {ids : List Nat}, t.Rep ids f → f.Every Q →
    ∀ a ∈ ids, ∀ m nd, t.Dom a m → t.graph.node? m = some nd → Q (t.inLabel m) nd := by
  induction f with
  | nil => intro ids h _ a ha; rw [show ids = [] from h] at ha; simp at ha
  | leaf e x r ih =>
    rintro ids ⟨n, ns, rfl, h4, h5, h6⟩ ⟨g1, g2⟩ a ha m nd hd hm
    rcases List.mem_cons.1 ha with rfl | ha
    · have := S.dom_term ⟨x, h4⟩ hd
      subst this
      rw [h4] at hm; simp only [Option.some.injEq] at hm; subst hm; rw [h5]; exact g1
    · exact ih h6 g2 a ha m nd hd hm
  | node e x k r ihk ih =>
    rintro ids ⟨n, ns, ks, rfl, h4, h5, h6, h7, h8⟩ ⟨g1, g2, g3⟩ a ha m nd hd hm
    rcases List.mem_cons.1 ha with rfl | ha
    · rcases ReflTransGen.cases_head hd with rfl | ⟨b, hb, hd⟩
      · rw [h4] at hm; simp only [Option.some.injEq] at hm; subst hm; rw [h5]; exact g1
      · exact ihk h7 g2 b ((h6.1 b).2 hb) m nd hd hm
    · exact ih h8 g3 a ha m nd hd hm

end Tree

namespace Convert

variable {t t' : Tree} {pick pick' : Tree → Finset Nat → Option Nat} {o : Options} {k : Nat} {m m' : Bool}

/-- What a node and its edge must be like. -/
def Fits (g : Ptb.Format) (e : Option Str) : Node → Prop
  | .term x => CleanLabel g (escape x.pos) ∧ Word (escape x.form) ∧ escape x.form = x.form ∧ escape x.pos = x.pos ∧
      x.lem = none ∧ x.features = none ∧ CleanEdge g e ∧ (g ≠ .tueba → e = none)
  | .nt x => CleanLabel g x.label ∧ CleanAnnotation g (annotationOf x.features) ∧ x.features = annotated (annotationOf x.features) ∧
      CleanEdge g e ∧ (g ≠ .tueba → e = none ∧ x.features = none)

theorem forest_fits {g : Ptb.Format} (hg : g ≠ .ptb) {F : Forest} : F.Clean g → F.written g = F → F.Every (Fits g) := by
  induction F with
  | nil => exact fun _ _ => trivial
  | leaf e x r ih =>
    rintro ⟨h1, h2, h3, h4⟩ hw
    simp only [Forest.written, Forest.leaf.injEq] at hw
    obtain ⟨w1, w2, w3⟩ := hw
    refine ⟨?_, ih h4 w3⟩
    cases x with
    | mk form pos lem fs sp =>
      simp only [Terminal.mk.injEq] at w2
      obtain ⟨a1, a2, a3, a4, _⟩ := w2
      exact ⟨h1, h2, a1, a2, a3.symm, a4.symm, h3, fun h => by rw [if_neg h] at w1; exact w1.symm⟩
  | node e x k r ihk ih =>
    rintro ⟨h1, h2, h3, h4, h5⟩ hw
    simp only [Forest.written, Forest.node.injEq] at hw
    obtain ⟨w1, w2, w3, w4⟩ := hw
    refine ⟨?_, ihk h4 w3, ih h5 w4⟩
    cases x with
    | mk label fs sp =>
      simp only [NonTerminal.mk.injEq] at w2
      obtain ⟨_, a2, _⟩ := w2
      refine ⟨h1, h2, ?_, h3, fun h => ⟨by rw [if_neg h] at w1; exact w1.symm, ?_⟩⟩
      · cases g with
        | ptb => exact absurd rfl hg
        | simple => simp only at a2 ⊢; rw [← a2]; rfl
        | tueba => exact a2.symm
      · cases g with
        | ptb => exact absurd rfl hg
        | simple => exact a2.symm
        | tueba => exact absurd rfl h

theorem inLabel_live (h : t.inLabel n ≠ none) (G : t.graph.OK) : t.Live n := by
  cases hl : t.inLabel n with
  | none => exact absurd hl h
  | some l =>
    obtain ⟨r, g1, g2, g3, g4⟩ := inLabel_edge hl
    exact g3 ▸ (G.ends r g1).2

/-- What is kept exactly has nothing the format does not hold. -/
theorem exact_heldBy {g : Ptb.Format} (hg : g ≠ .ptb) (E : Exact g t) : t.HeldBy g := by
  obtain ⟨W, hp, hn, F, hF, hc, hw⟩ := E
  have key : ∀ n nd, t.graph.node? n = some nd → Fits g (t.inLabel n) nd := fun n nd hnd =>
    Rep.every_conv W.shape hF (forest_fits hg hc hw) t.root (by simp) n nd (W.shape.reach n ⟨_, hnd⟩) hnd
  have edge : ∀ n, CleanEdge g (t.inLabel n) ∧ (g ≠ .tueba → t.inLabel n = none) := by
    intro n
    by_cases hl : t.inLabel n = none
    · rw [hl]; exact ⟨by cases g <;> simp [CleanEdge], fun _ => rfl⟩
    · obtain ⟨nd, hnd⟩ := inLabel_live hl W.graph
      have := key n nd hnd
      cases nd with
      | term x => exact ⟨this.2.2.2.2.2.2.1, this.2.2.2.2.2.2.2⟩
      | nt x => exact ⟨this.2.2.2.1, fun h => (this.2.2.2.2 h).1⟩
  refine ⟨W, hp, hn, ⟨fun n x hx => ?_, fun n x hx => ?_, fun n => (edge n).1⟩, ⟨fun n x hx => ?_, fun n x hx => ?_⟩,
    fun h => ⟨fun n => (edge n).2 h, fun n x hx => ?_⟩⟩
  · have := key n _ hx; exact ⟨this.1, this.2.1⟩
  · have := key n _ hx; exact ⟨this.1, this.2.1⟩
  · have := key n _ hx
    exact ⟨this.2.2.1 ▸ this.2.1, this.2.2.2.1, this.2.2.2.2.1, this.2.2.2.2.2.1⟩
  · have := key n _ hx; exact this.2.2.1
  · have := key n _ hx; exact (this.2.2.2.2 h).2

end Convert
end Lumberjack
