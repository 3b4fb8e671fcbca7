import Verif.Proofs.Terminals
import Verif.Proofs.RemoveTerm
import Verif.Proofs.ReattachAny
import Verif.Props.TreeQuery

/-!
# Structural editing of trees: C11 – C17
-/

namespace Lumberjack
namespace Props

open Lumberjack.Tree

/-! ## C11: removing a nonterminal -/

/-- C11: removing an inner nonterminal `n` gives a well-formed tree without `n` in which exactly the
children of `n` have become children of its parent `p`; the removed node is returned; every other
node is untouched, label, features and span included; dominance and covered positions among the
remaining nodes are unchanged; every edge not touching `n` survives and the only new edges are the
unlabelled ones from `p` to the children of `n`. -/
theorem C11_remove_nonterminal (t : Tree) (W : t.WF) (n p : Nat) (x : NonTerminal)
    (hx : t.graph.node? n = some (.nt x)) (hp : t.IsChild p n) :
    ∃ t', t.removeNode n = .ok (t', .ok (.nt x)) ∧ t'.WF ∧ ¬ t'.Live n ∧
      (∀ m, m ≠ n → t'.graph.node? m = t.graph.node? m) ∧
      (∀ a b, t'.IsChild a b ↔ (t.IsChild a b ∧ a ≠ n ∧ b ≠ n) ∨ (a = p ∧ t.IsChild n b)) ∧
      (∀ a b, a ≠ n → b ≠ n → (t'.Dom a b ↔ t.Dom a b)) ∧
      (∀ a i, a ≠ n → (t'.Covers a i ↔ t.Covers a i)) ∧
      t'.root = t.root ∧ t'.nTerminals = t.nTerminals ∧
      (∀ r ∈ t.graph.edges, r.src ≠ n → r.tgt ≠ n → r ∈ t'.graph.edges) ∧
      (∀ r ∈ t'.graph.edges, r ∈ t.graph.edges ∨
        (r.src = p ∧ t.IsChild n r.tgt ∧ r.w = .primary none)) := by
  obtain ⟨t', h1, h2, h3, h4, h5, h6, h7, h8⟩ := removeNonterminal_inner W hx hp
  have hself := W.shape.not_isChild_self W.graph n
  refine ⟨t', (removeNode_nt hx).trans h1, h2, ?_, h3.node, ?_, ?_, ?_, h4, h5, h6, h7⟩
  · rintro ⟨nd, hnd⟩
    rw [h3.dead] at hnd; simp at hnd
  · intro a b
    rw [h3.splice a b]
    constructor
    · rintro ⟨ha, hb, h | ⟨h, h'⟩⟩
      · exact .inl ⟨h, ha, hb⟩
      · exact .inr ⟨W.shape.isChild_unique h hp, h'⟩
    · rintro (⟨h, ha, hb⟩ | ⟨rfl, h⟩)
      · exact ⟨ha, hb, .inl h⟩
      · refine ⟨?_, ?_, .inr ⟨hp, h⟩⟩
        · rintro rfl; exact hself hp
        · rintro rfl; exact hself h
  · intro a b ha hb
    exact h3.splice.dom_iff hself ha hb
  · intro a i ha
    exact h3.covers_nt hself ⟨x, hx⟩ ha

/-- C11: removing the root succeeds if it has exactly one child, which becomes the root; everything
below stays as it is. -/
theorem C11_remove_root (t : Tree) (W : t.WF) (c : Nat) (x : NonTerminal)
    (hx : t.graph.node? t.root = some (.nt x)) (hc : ∀ c', t.IsChild t.root c' ↔ c' = c) :
    ∃ t', t.removeNode t.root = .ok (t', .ok (.nt x)) ∧ t'.WF ∧ t'.root = c ∧ ¬ t'.Live t.root ∧
      (∀ m, m ≠ t.root → t'.graph.node? m = t.graph.node? m) ∧
      (∀ a b, t'.IsChild a b ↔ t.IsChild a b ∧ a ≠ t.root) ∧
      t'.nTerminals = t.nTerminals ∧
      t'.graph.edges = t.graph.edges.filter (fun r => r.src ≠ t.root ∧ r.tgt ≠ t.root) := by
  obtain ⟨t', h1, h2, h3, h4, h5, h6, h7⟩ := removeNonterminal_root W hx ((hc c).2 rfl)
    (fun c' h => (hc c').1 h)
  refine ⟨t', (removeNode_nt hx).trans h1, h2, h4, ?_, h3.node, ?_, h5, h6⟩
  · rintro ⟨nd, hnd⟩
    rw [h3.dead] at hnd; simp at hnd
  · intro a b
    rw [h3.splice a b]
    constructor
    · rintro ⟨ha, hb, h | ⟨h, h'⟩⟩
      · exact ⟨h, ha⟩
      · exact absurd h (W.shape.root_top a)
    · rintro ⟨h, ha⟩
      refine ⟨ha, ?_, .inl h⟩
      rintro rfl
      exact W.shape.root_top a h

/-- C11: a root with several children is not removed. -/
theorem C11_remove_root_multiple (t : Tree) (W : t.WF) (c c' : Nat) (hc : t.IsChild t.root c)
    (hc' : t.IsChild t.root c') (hne : c ≠ c') :
    t.removeNode t.root = .ok (t, .error .rootMultiple) := by
  obtain ⟨x, hx⟩ := W.shape.parent_isNt W.graph hc
  exact (removeNode_nt hx).trans (removeNonterminal_root_err W hx hc hc' hne)

/-- C11: `remove_node` returns for every node of the tree, and panics for every other index. -/
theorem C11_remove_total (t : Tree) (W : t.WF) (n : Nat) :
    (t.Live n → ∃ v, t.removeNode n = .ok v) ∧ (¬ t.Live n → t.removeNode n = .panic) := by
  constructor
  · intro hn
    rcases live_iff.1 hn with ⟨x, hx⟩ | ⟨x, hx⟩
    · rw [removeNode_term hx]
      by_cases h : ∀ p s, t.IsChild p n → t.IsChild p s → s = n
      · exact ⟨_, removeTerminal_last W hx h⟩
      · push Not at h
        obtain ⟨p, s, h1, h2, h3⟩ := h
        obtain ⟨t', h4, _⟩ := removeTerminal_spec W hx h1 h2 h3
        exact ⟨_, h4⟩
    · rw [removeNode_nt hx]
      by_cases hr : n = t.root
      · subst hr
        obtain ⟨c, hc⟩ := W.shape.nt_child _ ⟨x, hx⟩
        by_cases h : ∀ c', t.IsChild t.root c' → c' = c
        · obtain ⟨t', h1, _⟩ := removeNonterminal_root W hx hc h
          exact ⟨_, h1⟩
        · push Not at h
          obtain ⟨c', h1, h2⟩ := h
          exact ⟨_, removeNonterminal_root_err W hx hc h1 (Ne.symm h2)⟩
      · obtain ⟨p, hp⟩ := W.shape.exists_parent hn hr
        obtain ⟨t', h1, _⟩ := removeNonterminal_inner W hx hp
        exact ⟨_, h1⟩
  · intro hn
    have : t.graph.contains n = false := by
      cases h : t.graph.contains n with
      | false => rfl
      | true => exact absurd (Graph.contains_iff.1 h) hn
    unfold removeNode
    rw [this]; rfl

example : Examples.disc.graph.node? 5 = some (Examples.nt "B" ⟨1, 2, none⟩) ∧
    Examples.disc.parent 5 = some (4, 3) := by decide
example : ∃ v, Examples.disc.removeNode 3 = .ok v ∧ v.1.children 4 ≠ Examples.disc.children 4 ∧
    v.1.isProjective = true := ⟨_, rfl, by decide +kernel⟩

/-! ## C12: removing a terminal -/

/-- C12: what `remove_node` does to a terminal with a sibling: the node and the edges touching it
disappear and the terminal counter goes down; every other node – including its span, hence the
sentence positions – and every other edge is left exactly as it was. -/
theorem C12_remove_terminal (t : Tree) (W : t.WF) (n p s : Nat) (x : Terminal)
    (hx : t.graph.node? n = some (.term x)) (hp : t.IsChild p n) (hs : t.IsChild p s) (hne : s ≠ n) :
    ∃ t', t.removeNode n = .ok (t', .ok (.term x)) ∧ ¬ t'.Live n ∧
      (∀ m, m ≠ n → t'.graph.node? m = t.graph.node? m) ∧
      t'.graph.edges = t.graph.edges.filter (fun r => r.src ≠ n ∧ r.tgt ≠ n) ∧
      t'.nTerminals + 1 = t.nTerminals ∧ t'.root = t.root ∧ t'.Shape ∧
      (∀ a b, t'.IsChild a b ↔ t.IsChild a b ∧ b ≠ n) := by
  obtain ⟨t', h1, h2, h3, h4, h5, h6, h7⟩ := removeTerminal_spec W hx hp hs hne
  have hchild : ∀ a b, t'.IsChild a b ↔ t.IsChild a b ∧ b ≠ n := by
    intro a b
    constructor
    · rintro ⟨r, hr, rfl, rfl, hw⟩
      rw [h4] at hr
      have := (List.mem_filter.1 hr)
      simp only [decide_eq_true_eq] at this
      exact ⟨⟨r, this.1, rfl, rfl, hw⟩, this.2.2⟩
    · rintro ⟨⟨r, hr, rfl, rfl, hw⟩, hb⟩
      refine ⟨r, ?_, rfl, rfl, hw⟩
      rw [h4, List.mem_filter]
      refine ⟨hr, ?_⟩
      have : r.src ≠ n := by
        rintro e
        exact W.shape.term_leaf n r.tgt ⟨x, hx⟩ ⟨r, hr, e, rfl, hw⟩
      simpa using ⟨this, hb⟩
  have hlive : ∀ m, t'.Live m ↔ t.Live m ∧ m ≠ n := by
    intro m
    unfold Live Graph.Live
    rw [h3]
    by_cases e : m = n <;> simp [e]
  have hdom : ∀ {a b}, b ≠ n → t.Dom a b → t'.Dom a b := by
    intro a b hb hd
    induction hd with
    | refl => exact Dom.refl
    | @tail b c _ hbc ih =>
      refine (ih ?_).tail ((hchild b c).2 ⟨hbc, hb⟩)
      rintro rfl
      exact W.shape.term_leaf _ _ ⟨x, hx⟩ hbc
  refine ⟨t', (removeNode_term hx).trans h1, ?_, ?_, h4, h5, h6, ?_, hchild⟩
  · rw [hlive]; simp
  · intro m hm; rw [h3, if_neg hm]
  · refine ⟨?_, ?_, ?_, ?_, ?_, ?_⟩
    · rw [h6, hlive]
      refine ⟨W.shape.root_live, ?_⟩
      rintro rfl
      exact W.shape.root_top p hp
    · intro q hq
      rw [h6] at hq
      exact W.shape.root_top q ((hchild _ _).1 hq).1
    · intro r1 hr1 r2 hr2
      rw [h4] at hr1 hr2
      exact W.shape.unique r1 (List.mem_of_mem_filter hr1) r2 (List.mem_of_mem_filter hr2)
    · intro m hm
      rw [h6]
      obtain ⟨h8, h9⟩ := (hlive m).1 hm
      exact hdom h9 (W.shape.reach m h8)
    · rintro m c ⟨y, hy⟩ hc
      rw [h3] at hy
      by_cases e : m = n
      · rw [if_pos e] at hy; simp at hy
      · rw [if_neg e] at hy
        exact W.shape.term_leaf m c ⟨y, hy⟩ ((hchild _ _).1 hc).1
    · rintro m ⟨y, hy⟩
      rw [h3] at hy
      by_cases e : m = n
      · rw [if_pos e] at hy; simp at hy
      · rw [if_neg e] at hy
        obtain ⟨c, hc⟩ := W.shape.nt_child m ⟨y, hy⟩
        by_cases hcn : c = n
        · subst hcn
          have := W.shape.isChild_unique hc hp
          subst this
          exact ⟨s, (hchild _ _).2 ⟨hs, hne⟩⟩
        · exact ⟨c, (hchild _ _).2 ⟨hc, hcn⟩⟩

/-- C12: the expected repair of the positions does not take place: the tree left behind is never
well formed, whatever the tree and the terminal. -/
theorem C12_remove_terminal_not_wf (t t' : Tree) (W : t.WF) (n : Nat) (v : Node) (hn : t.IsTerm n)
    (h : t.removeNode n = .ok (t', .ok v)) : ¬ t'.WF := by
  obtain ⟨x, hx⟩ := hn
  rw [removeNode_term hx] at h
  by_cases hs : ∀ p s, t.IsChild p n → t.IsChild p s → s = n
  · rw [removeTerminal_last W hx hs] at h; simp at h
  · push Not at hs
    obtain ⟨p, s, h1, h2, h3⟩ := hs
    obtain ⟨t2, h4, _, h5, _⟩ := removeTerminal_spec W hx h1 h2 h3
    rw [h] at h4
    simp only [Res.ok.injEq, Prod.mk.injEq] at h4
    obtain ⟨rfl, _⟩ := h4
    exact removeTerminal_not_wf W ⟨x, hx⟩ h1 h5

/-- C12: the terminal's position stays in the span of every node that dominated it, and the position
becomes a hole in the sentence. -/
theorem C12_stale_position (t t' : Tree) (W : t.WF) (n i : Nat) (v : Node) (hn : t.TermAt n i)
    (h : t.removeNode n = .ok (t', .ok v)) :
    (∀ m, ¬ t'.TermAt m i) ∧
    (∀ m y, m ≠ n → t.Dom m n → t'.graph.node? m = some (.nt y) → y.span.contains i = true) := by
  obtain ⟨x, hx⟩ := hn.isTerm
  rw [removeNode_term hx] at h
  by_cases hs : ∀ p s, t.IsChild p n → t.IsChild p s → s = n
  · rw [removeTerminal_last W hx hs] at h; simp at h
  · push Not at hs
    obtain ⟨p, s, h1, h2, h3⟩ := hs
    obtain ⟨t2, h4, _, h5, _⟩ := removeTerminal_spec W hx h1 h2 h3
    rw [h] at h4
    simp only [Res.ok.injEq, Prod.mk.injEq] at h4
    obtain ⟨rfl, _⟩ := h4
    constructor
    · rintro m ⟨z, hz, hzs⟩
      rw [h5] at hz
      by_cases e : m = n
      · rw [if_pos e] at hz; simp at hz
      · rw [if_neg e] at hz
        exact e (W.sentence.inj m n i ⟨z, hz, hzs⟩ hn)
    · intro m y hm hd hy
      rw [h5, if_neg hm] at hy
      rw [(W.spans m y hy).2 i]
      exact ⟨n, hd, hn⟩

/-- C12: the last terminal below a node is not removed. -/
theorem C12_last_terminal (t : Tree) (W : t.WF) (n : Nat) (hn : t.IsTerm n)
    (h : ∀ p s, t.IsChild p n → t.IsChild p s → s = n) :
    t.removeNode n = .ok (t, .error .lastTerminal) := by
  obtain ⟨x, hx⟩ := hn
  exact (removeNode_term hx).trans (removeTerminal_last W hx h)

example : ∃ v, Examples.proj.removeNode 4 = .ok v ∧ v.1.nTerminals = 2 ∧ v.2.isOk = true :=
  ⟨_, rfl, by decide +kernel⟩
/-- Concretely: after removing the first word of "the dog barks" the remaining words are still at
positions 1 and 2. -/
example : ∃ v, Examples.proj.removeNode 4 = .ok v ∧ v.1.nTerminals = 2 ∧
    v.1.graph.node? 3 = some (Examples.tm "dog" "N" 1) ∧ v.1.graph.node? 1 = some (Examples.tm "barks" "V" 2) :=
  ⟨_, rfl, by decide +kernel⟩

/-! ## C15: moving a terminal -/

/-- C15: moving the terminal `n` to position `i` succeeds, the tree stays well formed, `n` ends up at
`i`, and any two other terminals keep their relative order; edges, root and everything about nodes
but their spans are unchanged. -/
theorem C15_move_terminal (t : Tree) (W : t.WF) (n i : Nat) (hn : t.IsTerm n) (hi : i < t.nTerminals) :
    ∃ t', t.moveTerminal n i = .ok t' ∧ t'.WF ∧ t'.TermAt n i ∧
      (∀ a b p q p' q', a ≠ n → b ≠ n → t.TermAt a p → t.TermAt b q → t'.TermAt a p' → t'.TermAt b q' →
        (p < q ↔ p' < q')) ∧
      (∀ a, t'.content a = t.content a) ∧ t'.graph.edges = t.graph.edges ∧ t'.root = t.root ∧
      t'.nTerminals = t.nTerminals := by
  obtain ⟨o, ho, hno⟩ := W.sentence.pos n hn
  obtain ⟨t', h1, h2, h3, h4, h5, h6, h7, h8⟩ := moveTerminal_spec W hno hi
  refine ⟨t', h1, h2, h3, ?_, h5, h6, h7, h8⟩
  intro a b p q p' q' ha hb hap hbq hap' hbq'
  have e1 := hap'.pos_unique (h4 a p ha hap)
  have e2 := hbq'.pos_unique (h4 b q hb hbq)
  have hpo : p ≠ o := by rintro rfl; exact ha (W.sentence.inj _ _ _ hap hno)
  have hqo : q ≠ o := by rintro rfl; exact hb (W.sentence.inj _ _ _ hbq hno)
  subst e1 e2
  by_cases hoi : o = i
  · simp [hoi]
  · simp only [if_neg hoi, moveShift]
    split_ifs <;> omega

/-- C15: the other terminals move by at most one place, exactly those between the two positions. -/
theorem C15_move_shift (t t' : Tree) (W : t.WF) (n o i a p : Nat) (hn : t.TermAt n o)
    (hi : i < t.nTerminals) (h : t.moveTerminal n i = .ok t') (ha : a ≠ n) (hap : t.TermAt a p) :
    t'.TermAt a (if o < p ∧ p ≤ i then p - 1 else if i ≤ p ∧ p < o then p + 1 else p) := by
  obtain ⟨t2, h1, h2, h3, h4, _⟩ := moveTerminal_spec W hn hi
  rw [h] at h1
  simp only [Res.ok.injEq] at h1
  subst h1
  have := h4 a p ha hap
  have hpo : p ≠ o := by rintro rfl; exact ha (W.sentence.inj _ _ _ hap hn)
  by_cases hoi : o = i
  · rw [if_pos hoi] at this
    rw [if_neg (by omega), if_neg (by omega)]
    exact this
  · rw [if_neg hoi] at this
    unfold moveShift at this
    have e : (if o < p ∧ p ≤ i then p - 1 else if i ≤ p ∧ p < o then p + 1 else p) =
        if o ≤ p ∧ p ≤ i then p - 1 else if i ≤ p ∧ p ≤ o then p + 1 else p := by
      split_ifs <;> omega
    rw [e]; exact this

/-- C15: the exact panic condition. -/
theorem C15_move_panics (t : Tree) (W : t.WF) (n i : Nat) :
    (¬ ∃ t', t.moveTerminal n i = .ok t') ↔
      ¬ t.Live n ∨ (∃ x, t.graph.node? n = some (.nt x) ∧ x.span.start ≠ i) ∨
      (∃ o, t.TermAt n o ∧ o ≠ i ∧ t.nTerminals ≤ i) := by
  constructor
  · intro h
    by_cases hl : t.Live n
    · right
      obtain ⟨nd, hnd⟩ := hl
      have hs : nd.span.start ≠ i := by
        intro e
        apply h
        refine ⟨t, ?_⟩
        unfold moveTerminal
        rw [node_eq hnd]
        simp only [Res.ok_bind]
        rw [if_pos e]; rfl
      cases nd with
      | nt x => exact .inl ⟨x, hnd, hs⟩
      | term x =>
        right
        obtain ⟨o, ho, hno⟩ := W.sentence.pos n ⟨x, hnd⟩
        have hoi : o ≠ i := by
          rintro rfl
          obtain ⟨y, hy, hys⟩ := hno
          rw [hnd] at hy
          simp only [Option.some.injEq, Node.term.injEq] at hy
          subst hy
          exact hs (by show x.span.start = o; rw [hys]; rfl)
        refine ⟨o, hno, hoi, ?_⟩
        by_contra hlt
        obtain ⟨t', h1, _⟩ := moveTerminal_spec W hno (i := i) (by omega)
        exact h ⟨t', h1⟩
    · exact .inl hl
  · rintro (h | ⟨x, hx, hs⟩ | ⟨o, ⟨x, hx, hs⟩, hoi, hi⟩) ⟨t', ht'⟩
    · unfold moveTerminal at ht'
      rw [node_panic h] at ht'; simp at ht'
    · unfold moveTerminal at ht'
      rw [node_eq hx] at ht'
      simp only [Res.ok_bind] at ht'
      rw [if_neg (show ¬ (Node.nt x).span.start = i from hs)] at ht'
      simp [Node.isTerminal] at ht'
    · unfold moveTerminal at ht'
      rw [node_eq hx] at ht'
      simp only [Res.ok_bind] at ht'
      rw [if_neg (by show x.span.start ≠ i; rw [hs]; exact hoi)] at ht'
      simp only [Node.isTerminal, Res.assert_true, Res.ok_bind, show decide (i < t.nTerminals) = false by simpa using hi] at ht'
      simp at ht'

example : Examples.disc.IsTerm 6 ∧ 0 < Examples.disc.nTerminals ∧
    ∃ t', Examples.disc.moveTerminal 6 0 = .ok t' ∧ t'.numDisc = 1 := ⟨⟨_, rfl⟩, by decide, _, rfl, by decide +kernel⟩

/-! ## C16: inserting a terminal -/

/-- C16: `insert_terminal(p, x)` with `x` created for position `i ≤ n_terminals` adds one leaf below
`p` at position `i`; the terminals at or after `i` move one place to the right, the others stay; no
other node, edge or label changes, and the result is well formed. -/
theorem C16_insert_terminal (t : Tree) (W : t.WF) (p i : Nat) (x : Terminal) (hp : t.IsNt p)
    (hx : x.span = Span.ofIdx i) (hi : i ≤ t.nTerminals) :
    ∃ t' new, t.insertTerminal p x = .ok (t', new) ∧ t'.WF ∧ ¬ t.Live new ∧
      t'.graph.node? new = some (.term x) ∧ t'.nTerminals = t.nTerminals + 1 ∧ t'.root = t.root ∧
      (∀ a q, t.TermAt a q → t'.TermAt a (if i ≤ q then q + 1 else q)) ∧
      (∀ a, a ≠ new → t'.content a = t.content a) ∧
      (∃ e, t'.graph.edges = ⟨e, p, new, .primary none⟩ :: t.graph.edges) := by
  obtain ⟨t', new, h1, h2, h3, h4, h5, h6, h7, h8, h9, h10⟩ := insertTerminal_spec W hp x hx hi
  refine ⟨t', new, h1, h2, h3, h4, h5, h6, ?_, h8, h9⟩
  intro a q haq
  refine (h7 a _ ?_).2 ⟨q, haq, rfl⟩
  rintro rfl
  exact h3 haq.isTerm.live

/-- C16: `insert_terminal` panics if the parent is absent or a terminal, or the position is beyond
the end of the sentence. -/
theorem C16_insert_panics (t : Tree) (p : Nat) (x : Terminal)
    (h : ¬ t.IsNt p ∨ t.nTerminals < x.span.start) : t.insertTerminal p x = .panic := by
  unfold insertTerminal
  cases hp : t.graph.node? p with
  | none =>
    rw [node_panic (by rintro ⟨y, hy⟩; rw [hp] at hy; simp at hy)]; rfl
  | some nd =>
    rw [node_eq hp]
    cases nd with
    | term y => rfl
    | nt y =>
      rcases h with h | h
      · exact absurd ⟨y, hp⟩ h
      · simp only [Res.ok_bind, Node.isTerminal, Bool.not_false, Res.assert_true,
          show decide (x.span.start ≤ t.nTerminals) = false by simpa using h, Res.assert_false,
          Res.panic_bind]

/-- C16: `push_terminal` appends a leaf below a nonterminal root at the end of the sentence; no other
node but the root (whose span grows by the new position) changes. -/
theorem C16_push_terminal (t : Tree) (W : t.WF) (form pos : Str) (hr : t.IsNt t.root) :
    ∃ t' new, t.pushTerminal form pos = .ok (t', .ok new) ∧ t'.WF ∧ ¬ t.Live new ∧
      t'.graph.node? new = some (.term (Terminal.new form pos t.nTerminals)) ∧
      t'.nTerminals = t.nTerminals + 1 ∧ t'.root = t.root ∧
      (∀ a, a ≠ new → a ≠ t.root → t'.graph.node? a = t.graph.node? a) ∧
      (∀ a, a ≠ new → t'.content a = t.content a) ∧
      (∃ e, t'.graph.edges = ⟨e, t.root, new, .primary none⟩ :: t.graph.edges) := by
  obtain ⟨t', new, h1, h2, h3, h4, h5, h6, h7, h8, h9, _⟩ := pushTerminal_spec W hr form pos
  exact ⟨t', new, h1, h2, h3, h4, h5, h6, h7, h8, h9⟩

/-- C16: pushing onto a tree that is a single terminal fails. -/
theorem C16_push_terminal_root (t : Tree) (form pos : Str) (hr : t.IsTerm t.root) :
    t.pushTerminal form pos = .ok (t, .error .rootIsTerminal) := by
  obtain ⟨x, hx⟩ := hr
  unfold pushTerminal
  rw [node_eq hx]; rfl

example : Examples.disc.IsNt 3 ∧ ∃ v, Examples.disc.insertTerminal 3 (Terminal.new "x".toList "X".toList 1) = .ok v ∧
    v.1.nTerminals = 5 := ⟨⟨_, rfl⟩, _, rfl, by decide +kernel⟩
example : Examples.disc.IsNt Examples.disc.root := ⟨_, rfl⟩
example : (Tree.new "a".toList "b".toList).IsTerm (Tree.new "a".toList "b".toList).root := ⟨_, rfl⟩

/-! ## C17: unary insertion -/

/-- C17: `insert_unary_above(n, l)` adds one node labelled `l`, without features and with the span of
`n`, as the new parent of `n` and child of its old parent (or as root); every other node is
untouched, dominance and covered positions among the old nodes are unchanged, and the edge label of
`n` moves along with it.  The result is well formed exactly if `n` is not discontinuous. -/
theorem C17_insert_unary_above (t : Tree) (W : t.WF) (n : Nat) (nd : Node) (label : Str)
    (hn : t.graph.node? n = some nd) :
    ∃ t' ins, t.insertUnaryAbove n label = .ok (t', ins) ∧ ¬ t.Live ins ∧
      t'.graph.node? ins = some (.nt ⟨label, none, nd.span⟩) ∧
      (∀ m, m ≠ ins → t'.graph.node? m = t.graph.node? m) ∧
      (∀ a b, t'.IsChild a b ↔ (t.IsChild a b ∧ b ≠ n) ∨ (t.IsChild a n ∧ b = ins) ∨
        (a = ins ∧ b = n)) ∧
      (∀ a b, a ≠ ins → b ≠ ins → (t'.Dom a b ↔ t.Dom a b)) ∧
      (∀ a i, a ≠ ins → (t'.Covers a i ↔ t.Covers a i)) ∧
      t'.root = (if n = t.root then ins else t.root) ∧ t'.nTerminals = t.nTerminals ∧
      (∀ r ∈ t.graph.edges, (r.w.isPrimary = false ∨ r.tgt ≠ n) → r ∈ t'.graph.edges) ∧
      (∀ r ∈ t.graph.edges, r.w.isPrimary = true → r.tgt = n →
        ∃ r' ∈ t'.graph.edges, r'.src = ins ∧ r'.tgt = n ∧ r'.w = r.w) ∧
      t'.Shape ∧ t'.Sentence ∧ t'.SpansOK ∧ (t'.WF ↔ ¬ t.Disc n) := by
  obtain ⟨t', ins, h1, h2, h3, h4, h5, h6, h7, h8, h9, h10⟩ := insertUnaryAbove_spec W.core hn label
  have hself := h2.shape.not_isChild_self h2.graph ins
  have hdead : ¬ t.Live ins := by rintro ⟨y, hy⟩; rw [h3.dead] at hy; simp at hy
  refine ⟨t', ins, h1, hdead, h4, fun m hm => (h3.node m hm).symm, h7, ?_, ?_, h8, h6, h9, ?_,
    h2.shape, h2.sentence, h2.spans, ?_⟩
  · intro a b ha hb
    exact (h3.splice.dom_iff hself ha hb).symm
  · intro a i ha
    exact (h3.covers_nt hself ⟨_, h4⟩ ha).symm
  · intro r hr hw htgt
    have : t'.IsChild ins n := (h7 ins n).2 (.inr (.inr ⟨rfl, rfl⟩))
    obtain ⟨s, hs, hs1, hs2, hs3⟩ := this
    refine ⟨s, hs, hs1, hs2, ?_⟩
    rcases h10 s hs with hs4 | ⟨_, hs5, _⟩ | ⟨_, _, _, ⟨s', hs6, hs7, hs8⟩ | ⟨hs6, _⟩⟩
    · exfalso
      exact hdead (by rw [← hs1]; exact (W.graph.ends s hs4).1)
    · exfalso
      exact hself ⟨s, hs, hs1, hs5, hs3⟩
    · have := W.shape.unique s' hs6 r hr (hs7.trans htgt.symm) (by rw [hs8]; exact hs3) hw
      rw [← hs8, this]
    · exact absurd ⟨r, hr, rfl, htgt, hw⟩ (hs6 r.src)
  · have hdisc : t'.Disc ins ↔ t.Disc n := by
      cases nd with
      | nt x =>
        rw [isNt_disc h4, isNt_disc hn]; rfl
      | term x =>
        rw [isNt_disc h4]
        obtain ⟨i, _, y, hy, hys⟩ := W.sentence.pos n ⟨x, hn⟩
        rw [hn] at hy
        simp only [Option.some.injEq, Node.term.injEq] at hy
        subst hy
        constructor
        · intro h
          exfalso
          have : (NonTerminal.new label (Node.term x).span).span = Span.ofIdx i := hys
          rw [this] at h
          simp at h
        · rintro ⟨y, hy, _⟩
          rw [hn] at hy; simp at hy
    rw [← hdisc]
    have hds := h3.discSet_eq
    have hc := countOK_iff.1 W.count
    constructor
    · intro W' hd
      have hc' := countOK_iff.1 W'.count
      have hmem : ins ∈ t'.discSet := mem_discSet.2 hd
      rw [hds, Finset.card_erase_of_mem hmem] at hc
      have := Finset.card_pos.2 ⟨_, hmem⟩
      omega
    · intro hd
      refine ⟨h2.graph, h2.shape, h2.sentence, h2.spans, ?_⟩
      rw [countOK_iff]
      have hmem : ins ∉ t'.discSet := fun h => hd (mem_discSet.1 h)
      rw [hds, Finset.erase_eq_of_notMem hmem] at hc
      rw [h5, hc]

/-- C17: `insert_unary_below(n, l)` for a nonterminal `n` adds one node labelled `l`, without
features and with the span of `n`, as the only child of `n` and parent of all its old children; every
other node is untouched and dominance and covered positions among the old nodes are unchanged.  The
result is well formed exactly if `n` is not discontinuous.  The edges to the old children lose their
labels. -/
theorem C17_insert_unary_below (t : Tree) (W : t.WF) (n : Nat) (x : NonTerminal) (label : Str)
    (hn : t.graph.node? n = some (.nt x)) :
    ∃ t' ins, t.insertUnaryBelow n label = .ok (t', .ok ins) ∧ ¬ t.Live ins ∧
      t'.graph.node? ins = some (.nt ⟨label, none, x.span⟩) ∧
      (∀ m, m ≠ ins → t'.graph.node? m = t.graph.node? m) ∧
      (∀ a b, t'.IsChild a b ↔ (t.IsChild a b ∧ a ≠ n) ∨ (a = n ∧ b = ins) ∨
        (a = ins ∧ t.IsChild n b)) ∧
      (∀ a b, a ≠ ins → b ≠ ins → (t'.Dom a b ↔ t.Dom a b)) ∧
      (∀ a i, a ≠ ins → (t'.Covers a i ↔ t.Covers a i)) ∧
      t'.root = t.root ∧ t'.nTerminals = t.nTerminals ∧
      (∀ r ∈ t.graph.edges, (r.w.isPrimary = false ∨ r.src ≠ n) → r ∈ t'.graph.edges) ∧
      (∀ r ∈ t'.graph.edges, r.src = ins → r.w = .primary none) ∧
      t'.Shape ∧ t'.Sentence ∧ t'.SpansOK ∧ (t'.WF ↔ ¬ t.Disc n) := by
  obtain ⟨t', ins, h1, h2, h3, h4, h5, h6, h7, h8, h9, h10⟩ := insertUnaryBelow_spec W.core hn label
  have hself := h2.shape.not_isChild_self h2.graph ins
  have hdead : ¬ t.Live ins := by rintro ⟨y, hy⟩; rw [h3.dead] at hy; simp at hy
  refine ⟨t', ins, h1, hdead, h4, fun m hm => (h3.node m hm).symm, h7, ?_, ?_, h8, h6, h9, ?_,
    h2.shape, h2.sentence, h2.spans, ?_⟩
  · intro a b ha hb
    exact (h3.splice.dom_iff hself ha hb).symm
  · intro a i ha
    exact (h3.covers_nt hself ⟨_, h4⟩ ha).symm
  · intro r hr hsrc
    rcases h10 r hr with h | ⟨_, _, h⟩ | ⟨_, _, h⟩
    · exact absurd (by rw [← hsrc]; exact (W.graph.ends r h).1) hdead
    · exact h
    · exact h
  · have hdisc : t'.Disc ins ↔ t.Disc n := by
      rw [isNt_disc h4, isNt_disc hn]; rfl
    rw [← hdisc]
    have hds := h3.discSet_eq
    have hc := countOK_iff.1 W.count
    constructor
    · intro W' hd
      have hc' := countOK_iff.1 W'.count
      have hmem : ins ∈ t'.discSet := mem_discSet.2 hd
      rw [hds, Finset.card_erase_of_mem hmem] at hc
      have := Finset.card_pos.2 ⟨_, hmem⟩
      omega
    · intro hd
      refine ⟨h2.graph, h2.shape, h2.sentence, h2.spans, ?_⟩
      rw [countOK_iff]
      have hmem : ins ∉ t'.discSet := fun h => hd (mem_discSet.1 h)
      rw [hds, Finset.erase_eq_of_notMem hmem] at hc
      rw [h5, hc]

/-- C17: nothing can be inserted below a terminal. -/
theorem C17_insert_unary_below_terminal (t : Tree) (n : Nat) (label : Str) (hn : t.IsTerm n) :
    t.insertUnaryBelow n label = .ok (t, .error .attachToTerminal) := by
  obtain ⟨x, hx⟩ := hn
  unfold insertUnaryBelow
  rw [node_eq hx]; rfl

/-- C17: inserting above or below a discontinuous node leaves the counter of discontinuous nodes one
too low; in particular a tree can be reported as projective after its gap was removed only from one
of the two nodes. -/
theorem C17_counter_refuted : ∃ t : Tree, t.WF ∧ ∃ n l t' ins, t.insertUnaryAbove n l = .ok (t', ins) ∧
    t'.Disc n ∧ t'.Disc ins ∧ n ≠ ins ∧ t'.numDisc = 1 :=
  ⟨Examples.disc, disc_wf, 3, "U".toList, _, _, rfl, by decide +kernel⟩

example : ∃ nd, Examples.disc.graph.node? 5 = some nd ∧ ¬ Examples.disc.Disc 5 := ⟨_, rfl, by decide⟩

/-! ## C14: reattaching -/

/-- C14: reattaching a node `c` (the target of the primary edge `r`) to a nonterminal `q` that is not
below `c`, when `q` is the old parent or the old parent keeps another child, replaces the edge by an
unlabelled one from `q` to `c` and returns the old edge; all terminals, all other edges and
everything about nodes but their spans stay.  The result is well formed exactly if one of the old and
the new parent dominates the other. -/
theorem C14_reattach (t : Tree) (W : t.WF) (r : EdgeRec) (q : Nat) (hr : r ∈ t.graph.edges)
    (hw : r.w.isPrimary = true) (hq : t.IsNt q) (hcq : ¬ t.Dom r.tgt q)
    (hsib : r.src = q ∨ ∃ s, s ≠ r.tgt ∧ t.IsChild r.src s) :
    ∃ t' e', t.reattachNode q r.id = .ok (t', .ok (e', r.w)) ∧ t'.Shape ∧ t'.Sentence ∧
      t'.graph.edges = ⟨e', q, r.tgt, .primary none⟩ :: t.graph.edges.filter (fun s => s.id ≠ r.id) ∧
      (∀ a b, t'.IsChild a b ↔ (t.IsChild a b ∧ b ≠ r.tgt) ∨ (a = q ∧ b = r.tgt)) ∧
      t'.root = t.root ∧ t'.nTerminals = t.nTerminals ∧
      (∀ n x, t.graph.node? n = some (.term x) → t'.graph.node? n = some (.term x)) ∧
      (∀ n, t'.content n = t.content n) ∧
      (t'.WF ↔ t.Dom q r.src ∨ t.Dom r.src q) := by
  obtain ⟨t', e', k1, k2, k3, k4, k5, k6, k7, k8, k9, k10, k11, k12, k13, k14⟩ :=
    reattachPrimary_spec W hr hw hq hcq hsib
  have hne : r.tgt ≠ q := by rintro e; exact hcq (e ▸ Dom.refl)
  have := reattachPrimary_wf_iff W hr hw k1
  refine ⟨t', e', ?_, k3, k4, k7, k6, k8, k9, k10, k11, ?_⟩
  · unfold reattachNode
    rw [Graph.contains_iff.2 hq.live, (Graph.edge?_eq W.graph).2 ⟨hr, rfl⟩]
    simp only [Res.assert_true, Res.ok_bind, Res.ofOption_some, if_neg hne]
    cases hw' : r.w with
    | primary l => rw [hw'] at k1; exact k1
    | secondary l => rw [hw'] at hw; simp [Edge.isPrimary] at hw
  · rw [this]; simp [hcq]

/-- C14: if `q` is below the child, a successful reattachment produces a cycle, so the result is not
a tree. -/
theorem C14_reattach_below (t t' : Tree) (W : t.WF) (r : EdgeRec) (q : Nat) (v : Nat × Edge)
    (hr : r ∈ t.graph.edges) (hw : r.w.isPrimary = true) (hcq : t.Dom r.tgt q)
    (h : t.reattachNode q r.id = .ok (t', .ok v)) : ¬ t'.WF := by
  unfold reattachNode at h
  obtain ⟨_, _, h⟩ := Res.bind_eq_ok.1 h
  rw [(Graph.edge?_eq W.graph).2 ⟨hr, rfl⟩] at h
  simp only [Res.ok_bind, Res.ofOption_some] at h
  by_cases hne : r.tgt = q
  · rw [if_pos hne] at h; simp at h
  · rw [if_neg hne] at h
    cases hw' : r.w with
    | primary l => rw [hw'] at h; exact reattachPrimary_cycle W hr hw hcq h
    | secondary l => rw [hw'] at hw; simp [Edge.isPrimary] at hw

/-- C14: the three ways to fail. -/
theorem C14_reattach_err (t : Tree) (W : t.WF) (r : EdgeRec) (q : Nat) (hr : r ∈ t.graph.edges)
    (hq : t.Live q) :
    (r.tgt = q → t.reattachNode q r.id = .ok (t, .error .selfParent)) ∧
    (r.tgt ≠ q → r.w.isPrimary = true → t.IsTerm q →
      t.reattachNode q r.id = .ok (t, .error .attachToTerminal)) ∧
    (r.tgt ≠ q → r.w.isPrimary = true → t.IsNt q → r.src ≠ q →
      (∀ s, t.IsChild r.src s → s = r.tgt) → t.reattachNode q r.id = .ok (t, .error .lastChild)) := by
  have he := (Graph.edge?_eq W.graph).2 ⟨hr, rfl⟩
  refine ⟨?_, ?_, ?_⟩
  · intro h
    unfold reattachNode
    rw [Graph.contains_iff.2 hq, he]
    simp only [Res.assert_true, Res.ok_bind, Res.ofOption_some, if_pos h]
    rfl
  · rintro h hw ⟨x, hx⟩
    unfold reattachNode
    rw [Graph.contains_iff.2 hq, he]
    simp only [Res.assert_true, Res.ok_bind, Res.ofOption_some, if_neg h]
    cases hw' : r.w with
    | secondary l => rw [hw'] at hw; simp [Edge.isPrimary] at hw
    | primary l =>
      simp only
      unfold reattachPrimary
      rw [he, node_eq hx]; rfl
  · rintro h hw ⟨x, hx⟩ hsrc hs
    unfold reattachNode
    rw [Graph.contains_iff.2 hq, he]
    simp only [Res.assert_true, Res.ok_bind, Res.ofOption_some, if_neg h]
    cases hw' : r.w with
    | secondary l => rw [hw'] at hw; simp [Edge.isPrimary] at hw
    | primary l =>
      simp only
      unfold reattachPrimary
      rw [he, node_eq hx]
      have h0 : (t.siblings r.tgt).length = 0 := by
        rw [List.length_eq_zero_iff, List.eq_nil_iff_forall_not_mem]
        intro y hy
        have : y.1 ∈ (t.siblings r.tgt).map (·.1) := List.mem_map_of_mem hy
        obtain ⟨h1, p, h2, h3⟩ := (mem_siblings W.shape).1 this
        rw [W.shape.isChild_unique h2 ⟨r, hr, rfl, rfl, hw⟩] at h3
        exact h1 (hs _ h3)
      simp only [Res.ofOption_some, Res.ok_bind, Node.isTerminal, Bool.false_eq_true, if_false]
      rw [if_pos ⟨h0, hsrc⟩]
      rfl

/-- C14: absent nodes and edges panic. -/
theorem C14_reattach_panics (t : Tree) (q e : Nat) (h : ¬ t.Live q ∨ ∀ r ∈ t.graph.edges, r.id ≠ e) :
    t.reattachNode q e = .panic := by
  unfold reattachNode
  by_cases hq : t.Live q
  · rw [Graph.contains_iff.2 hq, Graph.edge?_none.2 (h.resolve_left (fun hn => hn hq))]; rfl
  · have : t.graph.contains q = false := by
      cases hc : t.graph.contains q with
      | false => rfl
      | true => exact absurd (Graph.contains_iff.1 hc) hq
    rw [this]; rfl

/-- Moving `V` from the root below `NP` in the projective example meets the hypotheses, and the root
dominates `NP`. -/
example : ∃ v, Examples.proj.reattachNode 2 0 = .ok v ∧ v.2.isOk = true ∧ v.1.parent 1 = some (2, 0) :=
  ⟨_, rfl, by decide +kernel⟩
/-- A node whose span misses a position does not dominate the terminal there. -/
theorem not_dom_of_span {t : Tree} (W : t.WF) {a b m i : Nat} {x : NonTerminal}
    (hx : t.graph.node? a = some (.nt x)) (hc : x.span.contains i = false) (hm : t.TermAt m i)
    (hb : t.Dom b m) : ¬ t.Dom a b := by
  intro h
  have := ((W.spans a x hx).2 i).2 ⟨m, h.trans hb, hm⟩
  rw [hc] at this
  simp at this

/-- C14: a reattachment between cousins, with an ill-formed result: moving the terminal `c` of the
discontinuous example from `A` to `B` leaves position 2 in the span of `A`. -/
theorem C14_cousin_refuted : ∃ t : Tree, t.WF ∧ ∃ r ∈ t.graph.edges, r.w.isPrimary = true ∧ ∃ q t' v,
    t.IsNt q ∧ ¬ t.Dom r.tgt q ∧ t.reattachNode q r.id = .ok (t', .ok v) ∧ ¬ t'.WF := by
  have hc : ¬ Examples.disc.Dom 2 5 := by
    intro h
    have := disc_wf.shape.dom_term ⟨_, rfl⟩ h
    simp at this
  obtain ⟨t', e', h1, _, _, _, _, _, _, _, _, h2⟩ := C14_reattach Examples.disc disc_wf (Examples.pe 1 3 2) 5
    (by decide) rfl ⟨_, rfl⟩ hc (.inr ⟨0, by decide, Examples.pe 0 3 0, by decide, rfl, rfl, rfl⟩)
  refine ⟨Examples.disc, disc_wf, Examples.pe 1 3 2, by decide, rfl, 5, t', _, ⟨_, rfl⟩, hc, h1, ?_⟩
  rw [h2, not_or]
  constructor
  · exact not_dom_of_span disc_wf (a := 5) (b := 3) (m := 0) (i := 0) rfl (by decide) ⟨_, rfl, rfl⟩
      (Dom.single ⟨Examples.pe 0 3 0, by decide, rfl, rfl, rfl⟩)
  · exact not_dom_of_span disc_wf (a := 3) (b := 5) (m := 1) (i := 1) rfl (by decide) ⟨_, rfl, rfl⟩
      (Dom.single ⟨⟨4, 5, 1, .primary (some "HD".toList)⟩, by decide, rfl, rfl, rfl⟩)

/-- C14: a node can be attached below its own descendant; the result is not a tree. -/
theorem C14_below_refuted : ∃ t : Tree, t.WF ∧ ∃ r ∈ t.graph.edges, r.w.isPrimary = true ∧ ∃ q t' v,
    t.reattachNode q r.id = .ok (t', .ok v) ∧ ¬ t'.WF := by
  refine ⟨Examples.nested, nested_wf, Examples.pe 3 5 4, by decide, rfl, 3, _, _, rfl, ?_⟩
  refine C14_reattach_below _ _ nested_wf (Examples.pe 3 5 4) 3 _ (by decide) rfl ?_ rfl
  exact Dom.single ⟨Examples.pe 1 4 3, by decide, rfl, rfl, rfl⟩

end Props
end Lumberjack
