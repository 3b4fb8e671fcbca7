import Verif.Proofs.History

/-!
# Histories of operations: C09, C13, C53, C58
-/

namespace Lumberjack
namespace Props

open Lumberjack.Tree

/-! ## C09 -/

/-- C09: the constructor gives a well-formed tree. -/
theorem C09_new (form pos : Str) : (Tree.new form pos).WF := by
  have hnode : ∀ n nd, (Tree.new form pos).graph.node? n = some nd →
      n = 0 ∧ nd = .term (Terminal.new form pos 0) := by
    intro n nd h
    cases n with
    | zero =>
      refine ⟨rfl, ?_⟩
      have : (Tree.new form pos).graph.node? 0 = some (.term (Terminal.new form pos 0)) := rfl
      rw [this] at h
      simpa using h.symm
    | succ n =>
      have := Graph.lt_of_node? h
      have hl : (Tree.new form pos).graph.nodes.length = 1 := rfl
      omega
  have hedges : (Tree.new form pos).graph.edges = [] := rfl
  have hno : ∀ a b, ¬ (Tree.new form pos).IsChild a b := by
    rintro a b ⟨r, hr, _⟩
    rw [hedges] at hr; simp at hr
  have hat : ∀ n i, (Tree.new form pos).TermAt n i ↔ n = 0 ∧ i = 0 := by
    intro n i
    constructor
    · rintro ⟨x, hx, hs⟩
      obtain ⟨h1, h2⟩ := hnode n _ hx
      simp only [Node.term.injEq] at h2
      subst h2
      exact ⟨h1, (ofIdx_inj hs).symm⟩
    · rintro ⟨rfl, rfl⟩
      exact ⟨_, rfl, rfl⟩
  refine ⟨?_, ⟨⟨_, rfl⟩, fun p => hno p _, ?_, ?_, fun n c _ => hno n c, ?_⟩, ⟨?_, ?_, ?_⟩, ?_, ?_⟩
  · exact Graph.ok_of_check rfl
  · intro r hr; rw [hedges] at hr; simp at hr
  · rintro n ⟨nd, hnd⟩
    rw [(hnode n nd hnd).1]; exact Dom.refl
  · rintro n ⟨x, hx⟩
    have := (hnode n _ hx).2
    simp at this
  · rintro n ⟨x, hx⟩
    exact ⟨0, Nat.one_pos, (hat n 0).2 ⟨(hnode n _ hx).1, rfl⟩⟩
  · intro i hi
    have hi : i < 1 := hi
    exact ⟨0, (hat 0 i).2 ⟨rfl, by omega⟩⟩
  · intro n m i h1 h2
    rw [((hat n i).1 h1).1, ((hat m i).1 h2).1]
  · intro n x hx
    have := (hnode n _ hx).2
    simp at this
  · rw [countOK_iff]
    symm
    show _ = 0
    rw [Finset.card_eq_zero, Finset.eq_empty_iff_forall_notMem]
    intro m hm
    obtain ⟨x, hx, _⟩ := mem_discSet.1 hm
    have := (hnode m _ hx).2
    simp at this

/-- C09: for every public operation that returns, whatever its arguments, the tree is well formed
afterwards if and only if the call was sound: the only calls that break a well-formed tree are unary
insertion at a discontinuous node, removal of a terminal that has siblings, and moving a node
underneath itself or between unrelated parents. -/
theorem C09_step (t t' : Tree) (W : t.WF) (op : Op) (v : Option Nat) (h : op.run t = .ok (t', v)) :
    t'.WF ↔ op.Sound t := (op_step W op h).2

/-- C09: every tree reached from a well-formed tree by a finite sequence of sound calls is well
formed. -/
theorem C09_history (t t' : Tree) (W : t.WF) (ops : List Op) (h : History t ops t') : t'.WF := by
  induction h with
  | refl => exact W
  | step op v _ hs hr ih => exact (C09_step _ _ ih op v hr).2 hs

/-- C09: the excluded calls do occur, and break the tree. -/
theorem C09_unsound_calls :
    (∃ (t t' : Tree) (n : Nat) (l : Str) (v : Option Nat), t.WF ∧ (Op.insertUnaryAbove n l).run t = .ok (t', v) ∧ ¬ t'.WF) ∧
    (∃ (t t' : Tree) (n : Nat) (l : Str) (v : Option Nat), t.WF ∧ (Op.insertUnaryBelow n l).run t = .ok (t', v) ∧ ¬ t'.WF) ∧
    (∃ (t t' : Tree) (n : Nat) (v : Option Nat), t.WF ∧ (Op.removeNode n).run t = .ok (t', v) ∧ ¬ t'.WF) ∧
    (∃ (t t' : Tree) (q e : Nat) (v : Option Nat), t.WF ∧ (Op.reattachNode q e).run t = .ok (t', v) ∧ ¬ t'.WF) := by
  refine ⟨⟨Examples.disc, _, 3, [], _, disc_wf, rfl, ?_⟩, ⟨Examples.disc, _, 3, [], _, disc_wf, rfl, ?_⟩,
    ⟨Examples.proj, _, 4, _, proj_wf, rfl, ?_⟩, ?_⟩
  · rw [C09_step Examples.disc _ disc_wf (.insertUnaryAbove 3 []) _ rfl]
    intro h; exact h (by decide)
  · rw [C09_step Examples.disc _ disc_wf (.insertUnaryBelow 3 []) _ rfl]
    intro h; exact h (by decide)
  · rw [C09_step Examples.proj _ proj_wf (.removeNode 4) _ rfl]
    intro h
    have := h ⟨_, rfl⟩ 2 3 ⟨Examples.pe 3 2 4, by decide, rfl, rfl, rfl⟩ ⟨Examples.pe 2 2 3, by decide, rfl, rfl, rfl⟩
    simp at this
  · obtain ⟨t, W, r, hr, hw, q, t', v, h1, h2⟩ := C14_below_refuted
    refine ⟨t, t', q, r.id, none, W, ?_, h2⟩
    show (do let (t', _) ← t.reattachNode q r.id; return (t', none)) = _
    rw [h1]; rfl

/-- A history that is not trivial: a tree with a gap, whose gap is then closed and whose first node
is relabelled. -/
example : ∃ t', History Examples.disc [.moveTerminal 2 1, .editNode 3 (.label "NP".toList)] t' ∧
    t' ≠ Examples.disc := by
  refine ⟨_, .step (ops := [.moveTerminal 2 1]) (.editNode 3 (.label "NP".toList)) none
    (.step (ops := []) (.moveTerminal 2 1) none .refl trivial rfl) trivial rfl, ?_⟩
  decide +kernel

/-! ## C13 -/

/-- C13: an error result of any of the fallible operations means that the tree was not changed. -/
theorem C13_err_unchanged (t t' : Tree) (W : t.WF) (e : Err) :
    (∀ n, t.removeNode n = .ok (t', .error e) → t' = t) ∧
    (∀ q i, t.reattachNode q i = .ok (t', .error e) → t' = t) ∧
    (∀ n l, t.insertUnaryBelow n l = .ok (t', .error e) → t' = t) ∧
    (∀ f p, t.pushTerminal f p = .ok (t', .error e) → t' = t) := by
  refine ⟨?_, ?_, ?_, ?_⟩
  · intro n h
    have hl : t.Live n := by
      by_contra hl
      rw [(C11_remove_total t W n).2 hl] at h; simp at h
    rcases live_iff.1 hl with ⟨x, hx⟩ | ⟨x, hx⟩
    · by_cases hs : ∀ p s, t.IsChild p n → t.IsChild p s → s = n
      · rw [C12_last_terminal t W n ⟨x, hx⟩ hs] at h
        simp only [Res.ok.injEq, Prod.mk.injEq] at h
        exact h.1.symm
      · push Not at hs
        obtain ⟨p, s, k1, k2, k3⟩ := hs
        obtain ⟨t3, k4, _⟩ := C12_remove_terminal t W n p s x hx k1 k2 k3
        rw [h] at k4; simp at k4
    · by_cases hr : n = t.root
      · subst hr
        obtain ⟨c, hc⟩ := W.shape.nt_child _ ⟨x, hx⟩
        by_cases hu : ∀ c', t.IsChild t.root c' ↔ c' = c
        · obtain ⟨t3, k1, _⟩ := C11_remove_root t W c x hx hu
          rw [h] at k1; simp at k1
        · obtain ⟨c', k1, k2⟩ : ∃ c', t.IsChild t.root c' ∧ c ≠ c' := by
            by_contra hno
            push Not at hno
            exact hu (fun c' => ⟨fun h => (hno c' h).symm, fun e => e ▸ hc⟩)
          rw [C11_remove_root_multiple t W c c' hc k1 k2] at h
          simp only [Res.ok.injEq, Prod.mk.injEq] at h
          exact h.1.symm
      · obtain ⟨p, hp⟩ := W.shape.exists_parent hl hr
        obtain ⟨t3, k1, _⟩ := C11_remove_nonterminal t W n p x hx hp
        rw [h] at k1; simp at k1
  · intro q i h
    unfold reattachNode at h
    obtain ⟨_, _, h⟩ := Res.bind_eq_ok.1 h
    obtain ⟨r, _, h⟩ := Res.bind_eq_ok.1 h
    by_cases hs : r.tgt = q
    · rw [if_pos hs] at h
      simp only [Res.pure_eq, Res.ok.injEq, Prod.mk.injEq] at h
      exact h.1.symm
    · rw [if_neg hs] at h
      cases hw : r.w with
      | primary l =>
        rw [hw] at h
        rcases reattachPrimary_any W.graph h with ⟨er, _, ht⟩ | ⟨r', e2, _, _, k, _⟩
        · exact ht
        · simp at k
      | secondary l =>
        rw [hw] at h
        obtain ⟨_, _, h⟩ := Res.bind_eq_ok.1 h
        simp at h
  · intro n l h
    have hl : t.Live n := by
      by_contra hl
      unfold insertUnaryBelow at h
      rw [node_panic hl] at h; simp at h
    rcases live_iff.1 hl with hn | ⟨x, hx⟩
    · rw [C17_insert_unary_below_terminal t n l hn] at h
      simp only [Res.ok.injEq, Prod.mk.injEq] at h
      exact h.1.symm
    · obtain ⟨t3, ins, k1, _⟩ := C17_insert_unary_below t W n x l hx
      rw [h] at k1; simp at k1
  · intro f p h
    rcases live_iff.1 W.shape.root_live with hr | hr
    · rw [C16_push_terminal_root t f p hr] at h
      simp only [Res.ok.injEq, Prod.mk.injEq] at h
      exact h.1.symm
    · obtain ⟨t3, new, k1, _⟩ := C16_push_terminal t W f p hr
      rw [h] at k1; simp at k1

/-- All four error results occur. -/
example : Examples.disc.removeNode 4 = .ok (Examples.disc, .error .rootMultiple) ∧
    Examples.disc.reattachNode 0 1 = .ok (Examples.disc, .error .attachToTerminal) ∧
    Examples.disc.insertUnaryBelow 0 [] = .ok (Examples.disc, .error .attachToTerminal) ∧
    (Tree.new [] []).pushTerminal [] [] = .ok (Tree.new [] [], .error .rootIsTerminal) := by
  decide +kernel

/-! ## C53 -/

/-- C53: whatever public operation returns, and whether or not its result is well formed: a node
other than the one removed or relabelled keeps its index and everything but its span; an index
returned for a new node was not in use before; no other index comes into use. -/
theorem C53_stable_indices (t t' : Tree) (W : t.WF) (op : Op) (v : Option Nat)
    (h : op.run t = .ok (t', v)) :
    (∀ n, t.Live n → op.target ≠ some n → t'.content n = t.content n) ∧
    (∀ n, v = some n → ¬ t.Live n ∧ t'.Live n) ∧
    (∀ n, t'.Live n → ¬ t.Live n → v = some n) :=
  let S := (op_step W op h).1
  ⟨S.keep, S.fresh, S.only⟩

example : ∃ t', (Op.insertUnaryAbove 1 []).run Examples.disc = .ok (t', some 7) := ⟨_, rfl⟩

/-! ## C58 -/

/-- C58: whatever public operation returns, and whether or not its result is well formed: a terminal
other than the one removed or relabelled is still there with the same form, tag, lemma and
features. -/
theorem C58_words_survive (t t' : Tree) (W : t.WF) (op : Op) (v : Option Nat)
    (h : op.run t = .ok (t', v)) (n : Nat) (x : Terminal) (hx : t.graph.node? n = some (.term x))
    (hn : op.target ≠ some n) :
    ∃ y, t'.graph.node? n = some (.term y) ∧ y.form = x.form ∧ y.pos = x.pos ∧ y.lem = x.lem ∧
      y.features = x.features := by
  have hc := (op_step W op h).1.keep n ⟨_, hx⟩ hn
  unfold content at hc
  rw [hx] at hc
  cases hy : t'.graph.node? n with
  | none => rw [hy] at hc; simp at hc
  | some nd =>
    rw [hy] at hc
    cases nd with
    | nt y => simp [Node.replaceSpan] at hc
    | term y =>
      simp only [Option.map_some, Node.replaceSpan, Option.some.injEq, Node.term.injEq] at hc
      refine ⟨y, rfl, ?_⟩
      cases x; cases y
      simp_all

example : ∃ t', (Op.moveTerminal 2 1).run Examples.disc = .ok (t', none) ∧
    (Op.moveTerminal 2 1).target ≠ some 0 := ⟨_, rfl, by simp [Op.target]⟩

/-- C58: over whole histories, a word keeps its content if no call of the history removes or
relabels it. -/
theorem C58_words_survive_history (t t' : Tree) (W : t.WF) (n : Nat) (x : Terminal)
    (hx : t.graph.node? n = some (.term x)) (ops : List Op) (h : History t ops t')
    (hn : ∀ op ∈ ops, op.target ≠ some n) :
    ∃ y, t'.graph.node? n = some (.term y) ∧ y.form = x.form ∧ y.pos = x.pos ∧ y.lem = x.lem ∧
      y.features = x.features := by
  induction h with
  | refl => exact ⟨x, hx, rfl, rfl, rfl, rfl⟩
  | @step ops t₁ t₂ op v h1 hs hr ih =>
    obtain ⟨y, hy, e1, e2, e3, e4⟩ := ih (fun o ho => hn o (List.mem_append_left _ ho))
    obtain ⟨z, hz, f1, f2, f3, f4⟩ :=
      C58_words_survive _ _ (C09_history _ _ W _ h1) op v hr n y hy (hn op (by simp))
    exact ⟨z, hz, f1.trans e1, f2.trans e2, f3.trans e3, f4.trans e4⟩

end Props
end Lumberjack
