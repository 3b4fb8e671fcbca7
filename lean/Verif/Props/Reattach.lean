import Verif.Proofs.ReattachTerms
import Verif.Proofs.Check
import Verif.Spec.Examples

/-!
# Moving terminals to the root (C25)
-/

namespace Lumberjack
namespace Props

open Lumberjack.Tree

/-- C25: for a predicate looking at the terminal only, `reattach_terminals(a, f)` with a
nonterminal `a` terminates and attaches exactly the terminals matched by `f` to `a`, unless the first
terminal it matches is the only one below `a`. -/
theorem C25_reattach_terminals (t : Tree) (W : t.WF) (a : Nat) (ha : t.IsNt a) (f : Tree → Nat → Bool)
    (hf : TermLocal f)
    (h2 : ∀ n, t.IsTerm n → f t n = true → (∀ m, t.IsTerm m → f t m = true → n ≤ m) →
      ∃ m, t.IsTerm m ∧ m ≠ n ∧ t.Dom a m) :
    ∃ t', t.reattachTerminals a f = .ok t' ∧
      Gathered t a (fun n => t.IsTerm n ∧ f t n = true) t' :=
  reattachTerminals_spec W ha hf h2

/-- C25: for any predicate at all, under the same proviso, `reattach_terminals(a, f)` attaches to `a` the terminals on
which `f` is true, each asked about in the tree `u n` in which the terminals matched before, those with smaller
indices, have been attached to `a` already. -/
theorem C25_any (t : Tree) (W : t.WF) (a : Nat) (ha : t.IsNt a) (f : Tree → Nat → Bool)
    (h2 : ∀ n, t.IsTerm n → f t n = true → (∀ m, t.IsTerm m → f t m = true → n ≤ m) →
      ∃ m, t.IsTerm m ∧ m ≠ n ∧ t.Dom a m) :
    ∃ (t' : Tree) (u : Nat → Tree) (R : Nat → Prop), t.reattachTerminals a f = .ok t' ∧ Gathered t a R t' ∧
      (∀ n, R n ↔ t.IsTerm n ∧ f (u n) n = true) ∧ ∀ n, t.IsTerm n → Gath t a (fun m => R m ∧ m < n) (u n) :=
  reattachTerminals_asked W ha f h2

/-- C25: for a predicate that looks at the terminal and its parent, like the one in the documentation, the terminals
moved are those it holds of in the tree before the call. -/
theorem C25_parents (t : Tree) (W : t.WF) (a : Nat) (ha : t.IsNt a) (f : Tree → Nat → Bool) (hf : ParentLocal f)
    (h2 : ∀ n, t.IsTerm n → f t n = true → (∀ m, t.IsTerm m → f t m = true → n ≤ m) →
      ∃ m, t.IsTerm m ∧ m ≠ n ∧ t.Dom a m) :
    ∃ t', t.reattachTerminals a f = .ok t' ∧ Gathered t a (fun n => t.IsTerm n ∧ f t n = true) t' := by
  obtain ⟨t', u, R, h1, H, h3, h4⟩ := C25_any t W a ha f h2
  refine ⟨t', h1, H.congr fun n => ?_⟩
  rw [h3]
  refine and_congr_right fun hn => ?_
  have G := h4 n hn
  obtain ⟨x, hx⟩ := id hn
  have hne : n ≠ t.root := by
    rintro rfl
    have := W.shape.dom_term hn (W.shape.reach a ha.live)
    subst this
    exact not_isTerm_isNt hn ha
  obtain ⟨p, hp⟩ := W.shape.exists_parent hn.live hne
  have hl : (u n).Live n := ⟨_, G.term n x hx⟩
  have hp' : (u n).IsChild p n := (G.child p n).2 (.inl ⟨hp, hl, fun h => lt_irrefl n h.2⟩)
  obtain ⟨e, he⟩ := W.shape.parent_of_isChild hp
  obtain ⟨e', he'⟩ := G.loose.shape.parent_of_isChild hp'
  rw [hf t (u n) n x p e e' hx (G.term n x hx) he he' (G.content p (isChild_live G.loose.graph hp').1)]

/-- C25: with the root as attachment point two terminals are enough. -/
theorem C25_to_root (t : Tree) (W : t.WF) (h2 : 2 ≤ t.nTerminals) (f : Tree → Nat → Bool)
    (hf : TermLocal f) :
    ∃ t', t.reattachTerminals t.root f = .ok t' ∧
      Gathered t t.root (fun n => t.IsTerm n ∧ f t n = true) t' := by
  refine reattachTerminals_spec W ?_ hf fun n _ _ _ => ?_
  · rcases live_iff.1 W.shape.root_live with h | h
    · exfalso
      obtain ⟨m, hm, hne⟩ := two_terms W.sentence (T := t.root) h2
      exact hne (W.shape.dom_term h (W.shape.reach m hm.live))
    · exact h
  · obtain ⟨m, hm, hne⟩ := two_terms W.sentence (T := n) h2
    exact ⟨m, hm, hne, W.shape.reach m hm.live⟩

/-- C25: if no terminal is matched nothing changes, whatever the attachment point. -/
theorem C25_no_match (t : Tree) (W : t.WF) (a : Nat) (f : Tree → Nat → Bool)
    (hf : ∀ n, t.IsTerm n → f t n = false) : t.reattachTerminals a f = .ok t :=
  reattachTerminals_none W hf

/-- C25: if the first terminal matched is the only one below the attachment point, or the only one
of the sentence, the call does not return: for every bound on the number of turns the inner loop
is still running. -/
theorem C25_diverges (t : Tree) (W : t.WF) (a n : Nat) (f : Tree → Nat → Bool)
    (hn : t.IsTerm n) (hf : f t n = true) (hfirst : ∀ m, t.IsTerm m → f t m = true → n ≤ m)
    (h1 : (t.IsNt a ∧ ∀ m, t.IsTerm m → t.Dom a m → m = n) ∨ t.nTerminals = 1) :
    t.reattachTerminals a f = .diverge ∧ ∀ fuel, detachLoop fuel a n t = .diverge := by
  have key : ∀ fuel, detachLoop fuel a n t = .diverge := by
    intro fuel
    rw [detachLoop_eq]
    have hcl : ∀ q e, t.climberNew n = some (q, e) → t.IsNt q := by
      intro q e h
      obtain ⟨r, k1, k2, k3, _, k5⟩ := parent_some h
      exact W.shape.parent_isNt W.graph ⟨r, k1, k2, k3, k5⟩
    rcases h1 with ⟨ha, h1⟩ | h1
    · obtain ⟨m, m1, m2⟩ := W.shape.exists_terminal W.graph a ha.live
      have := h1 m m2 m1
      subst this
      exact detachLoop_diverges (t := t) (b := a) (.inl rfl) fuel W rfl (.inl ha) m1 h1 hn hcl
    · exact detachLoop_diverges (t := t) (b := t.root) (.inr rfl) fuel W rfl (.inr rfl) (W.shape.reach n hn.live)
        (fun m hm _ => single_term W h1 hm hn) hn hcl
  refine ⟨?_, key⟩
  obtain ⟨l, hl⟩ := reattach_first (a := a) hn hf hfirst
  have : reattachTerminalStep a f t n = .diverge := by
    unfold reattachTerminalStep
    rw [if_pos hf, key]; rfl
  unfold reattachTerminals
  rw [hl, this]; rfl

/-- C25: a sentence of at least two words whose matched words are to be attached to a terminal or
to a node that is not in the tree makes the call panic. -/
theorem C25_bad_attachment (t : Tree) (W : t.WF) (h2 : 2 ≤ t.nTerminals) (a n : Nat) (f : Tree → Nat → Bool)
    (ha : ¬ t.IsNt a) (hn : t.IsTerm n) (hf : f t n = true) : t.reattachTerminals a f = .panic :=
  reattachTerminals_panics W ha h2 hn hf

/-- Matches the words tagged `N` or `Y`. -/
def isNY (t : Tree) (n : Nat) : Bool :=
  (t.graph.node? n).any fun nd => nd.label = "N".toList ∨ nd.label = "Y".toList

theorem isNY_local : TermLocal isNY := by
  intro t t' n x h h'
  unfold isNY
  rw [h, h']

/-- In `disc` the first matched word is `b`; `A` covers `a` and `c`. -/
example : Examples.disc.WF ∧ Examples.disc.IsNt 3 ∧ TermLocal isNY ∧
    (∀ n, Examples.disc.IsTerm n → isNY Examples.disc n = true → (∀ m, Examples.disc.IsTerm m → isNY Examples.disc m = true → n ≤ m) →
      ∃ m, Examples.disc.IsTerm m ∧ m ≠ n ∧ Examples.disc.Dom 3 m) ∧
    ∃ t', Examples.disc.reattachTerminals 3 isNY = .ok t' ∧ t'.graph.node? 5 = none ∧
      (t'.parent 1).map (·.1) = some 3 ∧ (t'.graph.node? 3).map (·.span) = some ⟨0, 3, none⟩ := by
  refine ⟨wf_of_check (by decide +kernel), ⟨_, rfl⟩, isNY_local, ?_, _, rfl, rfl, rfl, rfl⟩
  intro n _ h _
  by_cases h0 : n = 0
  · subst h0; exact absurd h (by decide)
  · exact ⟨0, ⟨_, rfl⟩, Ne.symm h0, .single ⟨⟨0, 3, 0, .primary none⟩, by decide, rfl, rfl, rfl⟩⟩

example : Examples.disc.WF ∧ 2 ≤ Examples.disc.nTerminals ∧ TermLocal isNY ∧
    isNY Examples.disc 1 = true ∧ isNY Examples.disc 0 = false ∧
    ∃ t', Examples.disc.reattachTerminals Examples.disc.root isNY = .ok t' ∧ t'.graph.node? 5 = none ∧
      (t'.parent 1).map (·.1) = some 4 :=
  ⟨wf_of_check (by decide +kernel), by decide, isNY_local, by decide, by decide, _, rfl, rfl, rfl⟩

/-- Attaching `b` to `B`, above which it is the only word, hangs; attaching it to the word `a`
panics. -/
example : Examples.disc.WF ∧ Examples.disc.IsTerm 1 ∧ isNY Examples.disc 1 = true ∧
    (∀ m, Examples.disc.IsTerm m → isNY Examples.disc m = true → 1 ≤ m) ∧ Examples.disc.IsNt 5 ∧
    (∀ m, Examples.disc.IsTerm m → Examples.disc.Dom 5 m → m = 1) ∧ ¬ Examples.disc.IsNt 0 := by
  have W : Examples.disc.WF := wf_of_check (by decide +kernel)
  refine ⟨W, ⟨_, rfl⟩, by decide, ?_, ⟨_, rfl⟩, ?_, ?_⟩
  · intro m _ h
    rcases m with _ | m
    · exact absurd h (by decide)
    · omega
  · intro m hm hd
    rcases Relation.ReflTransGen.cases_head hd with rfl | ⟨c, ⟨r, h1, h2, h3, h4⟩, hc⟩
    · obtain ⟨x, hx⟩ := hm
      cases hx
    · have : c = 1 := by
        simp only [Examples.disc, Examples.pe, List.mem_cons, List.not_mem_nil, or_false] at h1
        rcases h1 with rfl | rfl | rfl | rfl | rfl | rfl <;> simp_all
      subst this
      exact W.shape.dom_term ⟨_, rfl⟩ hc
  · rintro ⟨x, hx⟩
    cases hx

/-- `(ROOT (NP (N a)))`. -/
def oneWord : Tree :=
  ⟨⟨[Examples.tm "a" "N" 0, Examples.nt "NP" ⟨0, 1, none⟩, Examples.nt "ROOT" ⟨0, 1, none⟩],
    [], [Examples.pe 1 2 1, Examples.pe 0 1 0], 2, []⟩, 1, 2, 0⟩

example : oneWord.WF ∧ oneWord.nTerminals = 1 ∧ oneWord.IsTerm 0 ∧ isNY oneWord 0 = true :=
  ⟨wf_of_check (by decide +kernel), rfl, ⟨_, rfl⟩, by decide⟩

/-- `(ROOT (A (X a) (Y b)) (Z c))`. -/
def pairTree : Tree :=
  ⟨⟨[Examples.tm "a" "X" 0, Examples.tm "b" "Y" 1, Examples.tm "c" "Z" 2, Examples.nt "A" ⟨0, 2, none⟩,
      Examples.nt "ROOT" ⟨0, 3, none⟩],
    [], [Examples.pe 3 4 2, Examples.pe 2 4 3, Examples.pe 1 3 1, Examples.pe 0 3 0], 4, []⟩, 3, 4, 0⟩

/-- Matches the words with one sibling. -/
def oneSibling (t : Tree) (n : Nat) : Bool := (t.siblings n).length = 1

/-- C25: so for predicates that look around it does not suffice to ask about the tree before the call: both `a` and
`b` have one sibling, but when `b` is asked about, `a` has gone. -/
theorem C25_current : pairTree.WF ∧ oneSibling pairTree 0 = true ∧ oneSibling pairTree 1 = true ∧
    ∃ t', pairTree.reattachTerminals 4 oneSibling = .ok t' ∧ (t'.parent 0).map (·.1) = some 4 ∧
      (t'.parent 1).map (·.1) = some 3 :=
  ⟨wf_of_check (by decide +kernel), by decide +kernel, by decide +kernel, _, rfl, rfl, rfl⟩

example : ∃ (t' : Tree) (u : Nat → Tree) (R : Nat → Prop), pairTree.reattachTerminals 4 oneSibling = .ok t' ∧ Gathered pairTree 4 R t' ∧
    (∀ n, R n ↔ pairTree.IsTerm n ∧ oneSibling (u n) n = true) ∧
    ∀ n, pairTree.IsTerm n → Gath pairTree 4 (fun m => R m ∧ m < n) (u n) := by
  have W : pairTree.WF := wf_of_check (by decide +kernel)
  refine C25_any pairTree W 4 ⟨_, rfl⟩ oneSibling fun n _ _ _ => ?_
  obtain ⟨m, hm, hne⟩ := two_terms W.sentence (T := n) (by decide)
  exact ⟨m, hm, hne, W.shape.reach m hm.live⟩

/-- The predicate of the documentation: the parent has features, but not `key`. -/
def parentUnkeyed (t : Tree) (n : Nat) : Bool :=
  match t.parent n with
  | some (p, _) => match t.graph.node? p with
    | some (.nt x) => match x.features with
      | some fs => (fs.getVal "key".toList).isNone
      | none => false
    | _ => false
  | none => false

example : ParentLocal parentUnkeyed := by
  intro t t' n x p e e' hx hx' hp hp' hc
  unfold parentUnkeyed
  rw [hp, hp']
  unfold content at hc
  cases h1 : t.graph.node? p with
  | none =>
    rw [h1] at hc
    cases h2 : t'.graph.node? p with
    | none => simp [h1, h2]
    | some nd => rw [h2] at hc; simp at hc
  | some nd =>
    rw [h1] at hc
    cases h2 : t'.graph.node? p with
    | none => rw [h2] at hc; simp at hc
    | some nd' =>
      rw [h2] at hc
      cases nd <;> cases nd' <;> simp [Node.replaceSpan, h1, h2] at hc ⊢
      rw [hc.2]

end Props
end Lumberjack
