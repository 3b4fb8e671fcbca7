import Verif.Proofs.Equality
import Verif.Props.TreeQuery

/-!
# Tree equality: C21
-/

namespace Lumberjack
namespace Props

open Lumberjack.Tree

/-- Every well-formed tree stands for exactly one ordered labelled forest. -/
theorem C21_meaning (t : Tree) (W : t.WF) : ∃ f, t.Is f ∧ ∀ g, t.Is g → g = f := by
  obtain ⟨f, hf⟩ := W.is_exists
  exact ⟨f, hf, fun g hg => Rep.unique hg hf⟩

/-- C21: comparing two well-formed trees returns, and the result is true if and only if both consist
of a single terminal or they stand for the same ordered tree up to word forms: same shape, edge
labels, labels, features, spans, tags and lemmas. -/
theorem C21_equality (t1 t2 : Tree) (W1 : t1.WF) (W2 : t2.WF) (f g : Forest) (h1 : t1.Is f)
    (h2 : t2.Is g) : ∃ b, t1.eq t2 = .ok b ∧
      (b = true ↔ (t1.IsTerm t1.root ∧ t2.IsTerm t2.root) ∨ Forest.Same f g) :=
  eq_spec W1 W2 h1 h2

/-- C21: equality is an equivalence relation on well-formed trees. -/
theorem C21_equivalence :
    (∀ t : Tree, t.WF → t.eq t = .ok true) ∧
    (∀ t1 t2 : Tree, t1.WF → t2.WF → t1.eq t2 = t2.eq t1) ∧
    (∀ t1 t2 t3 : Tree, t1.WF → t2.WF → t3.WF → t1.eq t2 = .ok true → t2.eq t3 = .ok true →
      t1.eq t3 = .ok true) := by
  refine ⟨?_, ?_, ?_⟩
  · intro t W
    obtain ⟨f, hf⟩ := W.is_exists
    obtain ⟨b, h1, h2⟩ := eq_spec W W hf hf
    rw [h1, h2.2 (.inr (Forest.Same.refl f))]
  · intro t1 t2 W1 W2
    obtain ⟨f, hf⟩ := W1.is_exists
    obtain ⟨g, hg⟩ := W2.is_exists
    obtain ⟨b, h1, h2⟩ := eq_spec W1 W2 hf hg
    obtain ⟨c, h3, h4⟩ := eq_spec W2 W1 hg hf
    rw [h1, h3]
    congr 1
    rw [Bool.eq_iff_iff, h2, h4, and_comm]
    exact or_congr Iff.rfl ⟨Forest.Same.symm, Forest.Same.symm⟩
  · intro t1 t2 t3 W1 W2 W3 e1 e2
    obtain ⟨f, hf⟩ := W1.is_exists
    obtain ⟨g, hg⟩ := W2.is_exists
    obtain ⟨h, hh⟩ := W3.is_exists
    obtain ⟨b1, h1, h1'⟩ := eq_spec W1 W2 hf hg
    obtain ⟨b2, h2, h2'⟩ := eq_spec W2 W3 hg hh
    obtain ⟨b3, h3, h3'⟩ := eq_spec W1 W3 hf hh
    rw [h1] at e1; rw [h2] at e2; rw [h3]
    simp only [Res.ok.injEq] at e1 e2
    congr 1
    rw [h3']
    have term_leaf : ∀ {t : Tree} {f : Forest}, t.Is f → t.IsTerm t.root → ∃ e x, f = .leaf e x .nil := by
      intro t f hf ht
      unfold Is at hf
      cases f with
      | nil => exact absurd hf (by simp [Rep])
      | leaf e x r =>
        obtain ⟨n, ns, k1, _, _, k4⟩ := hf
        simp only [List.cons.injEq] at k1
        obtain ⟨_, k5⟩ := k1
        subst k5
        refine ⟨e, x, ?_⟩
        cases r with
        | nil => rfl
        | leaf e x r => exact absurd k4 (by simp [Rep])
        | node e x k r => exact absurd k4 (by simp [Rep])
      | node e x k r =>
        obtain ⟨n, ns, ks, k1, k2, _⟩ := hf
        simp only [List.cons.injEq] at k1
        rw [← k1.1] at k2
        exact absurd ⟨x, k2⟩ (fun h => not_isTerm_isNt ht h)
    have nt_node : ∀ {t : Tree} {f : Forest} {e : Option Str} {x : Terminal}, t.Is f →
        f = .leaf e x .nil → t.IsTerm t.root := by
      intro t f e x hf he
      subst he
      obtain ⟨n, ns, k1, k2, _⟩ := hf
      simp only [List.cons.injEq] at k1
      exact ⟨x, k1.1 ▸ k2⟩
    have same_leaf : ∀ {f g : Forest} {e : Option Str} {x : Terminal}, Forest.Same f g →
        f = .leaf e x .nil → ∃ e' x', g = .leaf e' x' .nil := by
      intro f g e x hs hf
      subst hf
      cases g with
      | nil => simp [Forest.Same] at hs
      | leaf e' x' r' =>
        obtain ⟨_, _, _, _, _, hr⟩ := hs
        cases r' with
        | nil => exact ⟨e', x', rfl⟩
        | leaf _ _ _ => simp [Forest.Same] at hr
        | node _ _ _ _ => simp [Forest.Same] at hr
      | node _ _ _ _ => simp [Forest.Same] at hs
    rcases h1'.1 e1 with ⟨a1, a2⟩ | a <;> rcases h2'.1 e2 with ⟨b1, b2⟩ | b
    · exact .inl ⟨a1, b2⟩
    · obtain ⟨e, x, hx⟩ := term_leaf hg a2
      obtain ⟨e', x', hx'⟩ := same_leaf b hx
      exact .inl ⟨a1, nt_node hh hx'⟩
    · obtain ⟨e, x, hx⟩ := term_leaf hg b1
      obtain ⟨e', x', hx'⟩ := same_leaf a.symm hx
      exact .inl ⟨nt_node hf hx', b2⟩
    · exact .inr (a.trans b)

/-- The projective example with another word. -/
def otherWord : Tree := Examples.proj.setNode 3 (.term (Terminal.new "cat".toList "N".toList 1))

theorem otherWord_wf : otherWord.WF := by
  refine wf_of_check ?_
  decide +kernel

/-- C21: word forms are not compared: two well-formed trees that differ in a word are equal. -/
theorem C21_ignores_forms : ∃ t1 t2 : Tree, t1.WF ∧ t2.WF ∧ t1.eq t2 = .ok true ∧
    ∃ n x y, t1.graph.node? n = some (.term x) ∧ t2.graph.node? n = some (.term y) ∧ x.form ≠ y.form :=
  ⟨Examples.proj, otherWord, proj_wf, otherWord_wf, by decide +kernel, 3,
    Terminal.new "dog".toList "N".toList 1, Terminal.new "cat".toList "N".toList 1, rfl, rfl, by decide⟩

/-- C21: a single terminal equals every other single terminal, whatever its tag. -/
theorem C21_ignores_terminal_root (f p f' p' : Str) : (Tree.new f p).eq (Tree.new f' p') = .ok true := rfl

/-- Two trees that differ only in one label, and are different. -/
example : Examples.proj.eq (Examples.proj.setNode 2 (.nt (NonTerminal.new "VP".toList ⟨0, 2, none⟩))) = .ok false := by
  decide +kernel

end Props
end Lumberjack
