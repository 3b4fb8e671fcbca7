import Verif.Proofs.Filter
import Verif.Props.Annotate

/-!
# Removing nodes by label (C24, C40)
-/

namespace Lumberjack
namespace Props

open Lumberjack.Tree

/-! ## C24 -/

/-- C24: `filter_nonterminals(f)`, for a predicate looking at the node only, never fails and takes
out exactly the nonterminals other than the root on which `f` is false: all other nodes, their
spans and dominance among them are unchanged. -/
theorem C24_filter_nonterminals (t : Tree) (W : t.WF) (f : Tree → Nat → Bool) (hf : NodeLocal f) :
    ∃ t', t.filterNonterminals f = .ok (t', .ok ()) ∧ t'.root = t.root ∧
      Removed t t' (fun n => t.IsNt n ∧ n ≠ t.root ∧ f t n = false) := by
  obtain ⟨t', h1, h2, _, h3⟩ := filterNonterminals_spec W hf
  exact ⟨t', h1, h2, h3⟩

/-- C24: in particular every terminal survives at its position. -/
theorem C24_terminals (t : Tree) (W : t.WF) (f : Tree → Nat → Bool) (hf : NodeLocal f) :
    ∃ t', t.filterNonterminals f = .ok (t', .ok ()) ∧
      ∀ n x, t'.graph.node? n = some (.term x) ↔ t.graph.node? n = some (.term x) := by
  obtain ⟨t', h1, _, h3⟩ := C24_filter_nonterminals t W f hf
  refine ⟨t', h1, fun n x => ?_⟩
  by_cases hR : t.IsNt n ∧ n ≠ t.root ∧ f t n = false
  · obtain ⟨⟨y, hy⟩, _⟩ := id hR
    constructor
    · intro h; exact absurd ⟨_, h⟩ (h3.gone n hR)
    · intro h; rw [hy] at h; simp at h
  · rw [h3.node n hR]

/-- C24: for any predicate at all, `filter_nonterminals(f)` takes out the nonterminals other than the root on which
`f` is false, each asked about in the tree `u n` from which the nodes taken out before have gone: those with smaller
indices. -/
theorem C24_any (t : Tree) (W : t.WF) (f : Tree → Nat → Bool) :
    ∃ (t' : Tree) (u : Nat → Tree) (R : Nat → Prop), t.filterNonterminals f = .ok (t', .ok ()) ∧ t'.root = t.root ∧
      Removed t t' R ∧ (∀ n, R n ↔ t.IsNt n ∧ n ≠ t.root ∧ f (u n) n = false) ∧
      ∀ n, t.IsNt n → n ≠ t.root → (u n).root = t.root ∧ Removed t (u n) (fun m => R m ∧ m < n) :=
  filterNonterminals_asked W f

/-- A predicate that looks at the children of a node. -/
def hasInner (t : Tree) (n : Nat) : Bool :=
  (t.children n).any fun c => (t.graph.node? c.1).any fun x => !x.isTerminal

/-- C24: so for predicates that look around it does not suffice to ask about the tree before the call. Here the
outer node has an inner one, but that is taken out first. -/
theorem C24_current : hasInner Examples.nested 4 = true ∧ ∃ t', Examples.nested.filterNonterminals hasInner =
    .ok (t', .ok ()) ∧ t'.graph.node? 4 = none :=
  ⟨by decide +kernel, _, rfl, rfl⟩

example := C24_any Examples.nested nested_wf hasInner

theorem isNP_local : NodeLocal isNP := by
  intro t t' n h
  unfold content at h
  unfold isNP
  cases h1 : t.graph.node? n with
  | none =>
    rw [h1] at h
    cases h2 : t'.graph.node? n with
    | none => rfl
    | some nd => rw [h2] at h; simp at h
  | some nd =>
    rw [h1] at h
    cases h2 : t'.graph.node? n with
    | none => rw [h2] at h; simp at h
    | some nd' =>
      rw [h2] at h
      cases nd <;> cases nd' <;> simp [Node.replaceSpan] at h ⊢
      rw [h.1]

example : NodeLocal isNP ∧ Examples.nested.IsNt 4 ∧ isNP Examples.nested 4 = false ∧
    isNP Examples.nested 3 = true ∧ ∃ t', Examples.nested.filterNonterminals isNP = .ok (t', .ok ()) ∧
      t'.graph.node? 4 = none ∧ t'.graph.node? 3 = Examples.nested.graph.node? 3 ∧
      (t'.children 5).map (·.1) = [3, 1, 2] :=
  ⟨isNP_local, ⟨_, rfl⟩, by decide, by decide, _, rfl, rfl, rfl, rfl⟩

/-! ## C40 -/

/-- C40: `remove_dummy_nodes()` never fails on a well-formed tree; it takes out only nonterminals
labelled `DUMMY`, and afterwards the only such node can be a root with at least two children, which
was the root before. -/
theorem C40_remove_dummy_nodes (t : Tree) (W : t.WF) :
    ∃ t' R, t.removeDummyNodes = .ok (t', .ok ()) ∧ Removed t t' R ∧ (∀ n, R n → IsDummy t n) ∧
      ∀ n, IsDummy t' n → n = t'.root ∧ n = t.root ∧
        ∃ c d, c ≠ d ∧ t'.IsChild n c ∧ t'.IsChild n d := by
  have hf : NodeLocal (fun t n => (t.graph.node? n).any (fun x => x.label ≠ dummy)) := by
    intro t t' n h
    unfold content at h
    cases h1 : t.graph.node? n with
    | none =>
      rw [h1] at h
      cases h2 : t'.graph.node? n with
      | none => simp only [h1, h2]
      | some nd => rw [h2] at h; simp at h
    | some nd =>
      rw [h1] at h
      cases h2 : t'.graph.node? n with
      | none => rw [h2] at h; simp at h
      | some nd' =>
        rw [h2] at h
        cases nd <;> cases nd' <;> simp [Node.replaceSpan] at h <;>
          simp only [h1, h2, Option.any, Node.label, h] <;> exact decide_eq_decide.2 Iff.rfl
  obtain ⟨t1, h1, h2, h3, h4⟩ := filterNonterminals_spec W hf
  have hR : ∀ n, (t.IsNt n ∧ n ≠ t.root ∧
      (t.graph.node? n).any (fun x => x.label ≠ dummy) = false) ↔ (IsDummy t n ∧ n ≠ t.root) := by
    intro n
    constructor
    · rintro ⟨⟨x, hx⟩, a, b⟩
      rw [hx] at b
      refine ⟨⟨x, hx, ?_⟩, a⟩
      by_contra hne
      have : x.label ≠ dummy := hne
      simp [Node.label, this] at b
    · rintro ⟨⟨x, hx, hl⟩, a⟩
      refine ⟨⟨x, hx⟩, a, ?_⟩
      rw [hx]
      simp [Node.label, hl, dummy]
  have H := h4.congr hR
  have W1 := H.wf
  have hd1 : ∀ n, IsDummy t1 n → n = t.root := by
    rintro n ⟨x, hx, hl⟩
    by_contra hne
    by_cases hRn : IsDummy t n ∧ n ≠ t.root
    · exact H.gone n hRn ⟨_, hx⟩
    · rw [H.node n hRn] at hx
      exact hRn ⟨⟨x, hx, hl⟩, hne⟩
  unfold removeDummyNodes
  rw [h1]
  simp only [Res.ok_bind]
  obtain ⟨rn, hrn⟩ := W1.shape.root_live
  have hroot : t1.node t1.root = .ok rn := by rw [node, hrn]; rfl
  simp only [hroot, Res.ok_bind]
  have hfin : (¬ ∃ c, ∀ c', t1.IsChild t1.root c' ↔ c' = c) →
      ∃ t' R, (.ok (t1, .ok ()) : Res (Tree × Except Err Unit)) = .ok (t', .ok ()) ∧ Removed t t' R ∧
        (∀ n, R n → IsDummy t n) ∧
      ∀ n, IsDummy t' n → n = t'.root ∧ n = t.root ∧
        ∃ c d, c ≠ d ∧ t'.IsChild n c ∧ t'.IsChild n d := by
    intro hno
    refine ⟨t1, _, rfl, H, fun n hn => hn.1, fun n hn => ?_⟩
    have hn0 := hd1 n hn
    refine ⟨hn0.trans h2.symm, hn0, ?_⟩
    obtain ⟨x, hx, _⟩ := hn
    obtain ⟨c, hc⟩ := W1.shape.nt_child n ⟨x, hx⟩
    by_contra hcon
    push Not at hcon
    refine hno ⟨c, fun c' => ⟨fun hc' => ?_, ?_⟩⟩
    · by_contra hne
      rw [h2, ← hn0] at hc'
      exact hcon c' c hne hc' hc
    · rintro rfl; rw [h2, ← hn0]; exact hc
  cases rn with
  | term x =>
    simp only [Node.nonterminal, Bool.false_eq_true, false_and, if_false]
    refine ⟨t1, _, rfl, H, fun n hn => hn.1, fun n hn => ?_⟩
    have hn0 := hd1 n hn
    obtain ⟨y, hy, _⟩ := hn
    rw [hn0, ← h2, hrn] at hy
    simp at hy
  | nt x =>
    simp only [Node.nonterminal, decide_eq_true_eq]
    by_cases hcond : x.label = dummy ∧ (t1.children t1.root).length = 1
    · rw [if_pos hcond]
      obtain ⟨cc, hcc⟩ := List.length_eq_one_iff.1 hcond.2
      have hmem : ∀ c', t1.IsChild t1.root c' ↔ c' = cc.1 := by
        intro c'
        rw [← mem_children_fst, hcc]; simp
      obtain ⟨t2, k1, k2, k3, _, _⟩ := removed_root W1 hrn ((hmem cc.1).2 rfl)
        (fun c' h => (hmem c').1 h)
      have hgone : ∀ m, (IsDummy t m ∧ m ≠ t.root) → ¬ t2.Live m := by
        rintro m hm ⟨nd, hnd⟩
        rw [k2.node m (by rw [h2]; exact hm.2)] at hnd
        exact H.gone m hm ⟨nd, hnd⟩
      refine ⟨t2, _, by rw [k1]; rfl, H.trans k2 hgone, ?_, ?_⟩
      · rintro n (hn | hn)
        · exact hn.1
        · refine ⟨x, ?_, hcond.1⟩
          rw [hn, ← H.node _ (fun h => h.2 h2), hrn]
      · rintro n ⟨y, hy, hl⟩
        have hne : n ≠ t1.root := by rintro rfl; exact k2.gone _ rfl ⟨_, hy⟩
        rw [k2.node n hne] at hy
        exact absurd ((hd1 n ⟨y, hy, hl⟩).trans h2.symm) hne
    · rw [if_neg hcond]
      by_cases hdm : x.label = dummy
      · refine hfin ?_
        rintro ⟨c, hc⟩
        refine hcond ⟨hdm, ?_⟩
        have hnd := children_nodup W1.graph W1.shape t1.root
        have : (t1.children t1.root).map (·.1) = [c] := by
          refine List.perm_singleton.1 ((List.perm_ext_iff_of_nodup hnd (by simp)).2 ?_)
          intro a; rw [mem_children_fst, hc]; simp
        have := congrArg List.length this
        simpa using this
      · refine ⟨t1, _, rfl, H, fun n hn => hn.1, fun n hn => ?_⟩
        have hn0 := hd1 n hn
        obtain ⟨y, hy, hl⟩ := hn
        rw [hn0, ← h2, hrn] at hy
        simp only [Option.some.injEq, Node.nt.injEq] at hy
        subst hy
        exact absurd hl hdm

/-- The tree `(DUMMY (DUMMY (D the) (N dog)))` is reduced to two terminals below one dummy root. -/
example : ∃ t t' : Tree, t.WF ∧ IsDummy t t.root ∧ t.removeDummyNodes = .ok (t', .ok ()) ∧
    t'.graph.node? 0 = some (.nt ⟨dummy, none, ⟨0, 2, none⟩⟩) ∧ t'.graph.node? 1 = none ∧
      (t'.children 0).map (·.1) = [2, 3] :=
  ⟨⟨⟨[Examples.nt "DUMMY" ⟨0, 2, none⟩, Examples.nt "DUMMY" ⟨0, 2, none⟩, Examples.tm "the" "D" 0,
      Examples.tm "dog" "N" 1], [], [Examples.pe 2 1 3, Examples.pe 1 1 2, Examples.pe 0 0 1], 3, []⟩,
      2, 0, 0⟩, _, wf_of_check (by decide +kernel), ⟨_, rfl, rfl⟩, rfl, rfl, rfl, by decide⟩

end Props
end Lumberjack
