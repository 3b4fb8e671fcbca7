import Verif.Proofs.Again
import Verif.Proofs.Check
import Verif.Props.Filter
import Verif.Props.Reattach
import Verif.Props.Runs
import Verif.Props.Chains
import Verif.Props.Annotate
import Verif.Props.Projectivize
import Verif.Spec.Iso

/-!
# Doing something twice is doing it once (C76)
-/

namespace Lumberjack
namespace Props

open Lumberjack.Tree

/-- C76: filtering a tree twice with the same predicate changes nothing the second time. -/
theorem C76_filter (t : Tree) (W : t.WF) (f : Tree → Nat → Bool) (hf : NodeLocal f) :
    ∃ t', t.filterNonterminals f = .ok (t', .ok ()) ∧ t'.filterNonterminals f = .ok (t', .ok ()) := by
  obtain ⟨t', h1, hr, H⟩ := C24_filter_nonterminals t W f hf
  refine ⟨t', h1, filterNonterminals_same fun n hn hne => ?_⟩
  by_contra hc
  by_cases hR : t.IsNt n ∧ n ≠ t.root ∧ f t n = false
  · exact H.gone n hR hn.live
  · have hnode := H.node n hR
    refine hR ⟨?_, by rwa [← hr], ?_⟩
    · obtain ⟨x, hx⟩ := hn
      exact ⟨x, by rw [← hnode, hx]⟩
    · rw [← hf t' t n (by unfold content; rw [hnode])]
      simpa using hc

/-- C76: filtering with one predicate and then with another is filtering with both at once. -/
theorem C76_filters (t : Tree) (W : t.WF) (f g : Tree → Nat → Bool) (hf : NodeLocal f) (hg : NodeLocal g) :
    ∃ t1 t2 u, t.filterNonterminals f = .ok (t1, .ok ()) ∧ t1.filterNonterminals g = .ok (t2, .ok ()) ∧
      t.filterNonterminals (fun t n => f t n && g t n) = .ok (u, .ok ()) ∧ Iso u t2 id := by
  obtain ⟨t1, t2, h1, h2, _, H⟩ := filter_both W hf hg
  obtain ⟨u, h3, _, H'⟩ := C24_filter_nonterminals t W (fun t n => f t n && g t n) (by
    intro t t' n h
    simp only [hf t t' n h, hg t t' n h])
  exact ⟨t1, t2, u, h1, h2, h3, (Iso.refl t).removed W W H' H fun _ _ => Iff.rfl⟩

/-- C76: the order of two filters does not matter. -/
theorem C76_filters_commute (t : Tree) (W : t.WF) (f g : Tree → Nat → Bool) (hf : NodeLocal f) (hg : NodeLocal g) :
    ∃ t1 t2 u1 u2, t.filterNonterminals f = .ok (t1, .ok ()) ∧ t1.filterNonterminals g = .ok (t2, .ok ()) ∧
      t.filterNonterminals g = .ok (u1, .ok ()) ∧ u1.filterNonterminals f = .ok (u2, .ok ()) ∧ Iso t2 u2 id := by
  obtain ⟨t1, t2, h1, h2, _, H⟩ := filter_both W hf hg
  obtain ⟨u1, u2, h3, h4, _, H'⟩ := filter_both W hg hf
  refine ⟨t1, t2, u1, u2, h1, h2, h3, h4, (Iso.refl t).removed W W H H' fun n _ => ?_⟩
  show (t.IsNt n ∧ n ≠ t.root ∧ (g t n && f t n) = false) ↔ (t.IsNt n ∧ n ≠ t.root ∧ (f t n && g t n) = false)
  rw [Bool.and_comm]

/-- C76: dummy nodes are removed once. -/
theorem C76_dummies (t : Tree) (W : t.WF) :
    ∃ t', t.removeDummyNodes = .ok (t', .ok ()) ∧ t'.removeDummyNodes = .ok (t', .ok ()) := by
  obtain ⟨t', R, h1, H, _, hd⟩ := C40_remove_dummy_nodes t W
  exact ⟨t', h1, removeDummyNodes_same H.wf fun n hn => ⟨(hd n hn).1, (hd n hn).2.2⟩⟩

/-- C76: words that hang below the attachment point are moved there again: the tree stays the same, but for the order in
which edges were added. -/
theorem C76_reattach (t : Tree) (W : t.WF) (a : Nat) (ha : t.IsNt a) (f : Tree → Nat → Bool) (hf : TermLocal f)
    (h2 : ∀ n, t.IsTerm n → f t n = true → (∀ m, t.IsTerm m → f t m = true → n ≤ m) →
      ∃ m, t.IsTerm m ∧ m ≠ n ∧ t.Dom a m) :
    ∃ t' t'', t.reattachTerminals a f = .ok t' ∧ t'.reattachTerminals a f = .ok t'' ∧ Iso t' t'' id := by
  obtain ⟨t', h1, H⟩ := C25_reattach_terminals t W a ha f hf h2
  have hterm : ∀ n, t'.IsTerm n ↔ t.IsTerm n := H.isTerm
  have hff : ∀ n, t.IsTerm n → f t' n = f t n := fun n ⟨x, hx⟩ => hf t' t n x (H.term n x hx) hx
  have hM : ∀ n, (t'.IsTerm n ∧ f t' n = true) ↔ (t.IsTerm n ∧ f t n = true) := by
    intro n
    rw [hterm]
    exact and_congr_right fun h => by rw [hff n h]
  have ha' : t'.Live a := (H.live a).2 ⟨ha.live, .inr (.inl .refl)⟩
  have hdom : ∀ m, t.IsTerm m → t.Dom a m → t'.Dom a m := by
    intro m hm hd
    by_cases hMm : t.IsTerm m ∧ f t m = true
    · exact .single ((H.child a m).2 (.inr ⟨rfl, hMm⟩))
    · have key : ∀ b, t.Dom a b → t.Dom b m → t'.Dom a b := by
        intro b hab
        induction hab with
        | refl => intro _; exact .refl
        | @tail b c _ hbc ih =>
          intro hcm
          refine (ih (.head hbc hcm)).tail ((H.child b c).2 (.inl ⟨hbc, ?_, ?_⟩))
          · exact (H.live c).2 ⟨(isChild_live W.graph hbc).2, .inr (.inr ⟨m, hm, hMm, hcm⟩)⟩
          · intro hMc
            rw [← W.shape.dom_term hMc.1 hcm] at hMc
            exact hMm hMc
      exact key m hd .refl
  obtain ⟨t'', h3, H'⟩ := C25_reattach_terminals t' H.wf a ((isNt_content (H.content a ha')).2 ha) f hf (by
    intro n hn hfn hmin
    have hn' := (hterm n).1 hn
    obtain ⟨m, m1, m2, m3⟩ := h2 n hn' (by rw [← hff n hn']; exact hfn) fun m hm hfm =>
      hmin m ((hterm m).2 hm) (by rw [hff m hm]; exact hfm)
    exact ⟨m, (hterm m).2 m1, m2, hdom m m1 m3⟩)
  exact ⟨t', t'', h1, h3, (Iso.refl t').gathered H.wf H.wf ha' H.again H' fun n _ => hM n⟩

/-- C76: nodes above runs of words are inserted once if the nodes inserted get no label themselves. -/
theorem C76_insert (t : Tree) (W : t.WF) (hroot : t.IsNt t.root) (f : Tree → Nat → Option Str) (hf : NodeFn f)
    (hs : ∀ p l, f t p = some l → Silent f l) :
    ∃ t', t.insertIntermediate f = .ok (t', .ok ()) ∧ t'.insertIntermediate f = .ok (t', .ok ()) := by
  obtain ⟨t', h1, J⟩ := C28_insert_intermediate t W hroot f hf fun p l h => .inl (hs p l h)
  obtain ⟨r, hr⟩ := hroot
  refine ⟨t', h1, insertIntermediate_same J.wf ⟨r, by rw [J.root, J.old _ ⟨_, hr⟩, hr]⟩ fun p c hpc hc => ?_⟩
  obtain ⟨hp', hc'⟩ := isChild_live J.wf.graph hpc
  have hcl : t.Live c := by
    by_contra hn
    obtain ⟨_, _, _, _, _, ⟨s, hs⟩, _⟩ := J.new c hc' hn
    exact not_isTerm_isNt hc ⟨_, hs⟩
  by_cases hp : t.Live p
  · cases hfp : f t' p with
    | none => rfl
    | some l =>
      rw [hf t' t p (J.old p hp)] at hfp
      obtain ⟨h, hn⟩ := (J.child p c hp hcl).1 hpc
      obtain ⟨x, hx⟩ := hc
      rw [J.old c hcl] at hx
      exact absurd ⟨⟨l, hfp⟩, h, ⟨x, hx⟩⟩ hn
  · obtain ⟨q, d, ⟨⟨l, hl⟩, _⟩, _, _, ⟨s, hn⟩, _⟩ := J.new p hp' hp
    rw [hl] at hn
    exact hs q l hl t' p s hn

/-- C76: a tree is projectivized once, whatever the order of the hash set at the second call. -/
theorem C76_projectivize (t : Tree) (W : t.WF) (pick pick' : Tree → Finset Nat → Option Nat) (hpick : IsOrder pick) :
    ∃ t' log, t.projectivize pick = .ok (t', log) ∧ t'.projectivize pick' = .ok (t', none) := by
  by_cases hgap : ∃ n, t.Live n ∧ ¬ t.Gapless n
  · obtain ⟨t', log, h1, h2, _, h4⟩ := C22_projectivize t W pick hpick hgap
    exact ⟨t', some log, h1, C22_projective_unchanged t' h2 pick' h4⟩
  · have h : ∀ n, t.Live n → t.Gapless n := fun n hn => by
      by_contra h
      exact hgap ⟨n, hn, h⟩
    exact ⟨t, none, C22_projective_unchanged t W pick h, C22_projective_unchanged t W pick' h⟩

/-- C76: unary chains are collapsed once, whatever the delimiter at the second call. -/
theorem C76_collapse (t : Tree) (W : t.WF) (delim delim' : Str) :
    ∃ t', t.collapseUnaryChains delim = .ok t' ∧ t'.collapseUnaryChains delim' = .ok t' := by
  obtain ⟨t', h1, W', h2, _⟩ := C26_collapse t W delim
  exact ⟨t', h1, collapseUnaryChains_same W' delim' h2⟩

/-- C76: restored chains are restored once: the second call only gives an empty set of features to nodes without one. -/
theorem C76_restore (t : Tree) (W : t.WF) (delim delim' : Str)
    (hs : ∀ n nd, t.graph.node? n = some nd → (nd.features.getD Features.empty).Sorted)
    (hv : ∀ n nd, t.graph.node? n = some nd →
      (nd.features.getD Features.empty).getVal Forest.chainKey ≠ some none) :
    ∃ t' t'', t.restoreUnaryChains delim = .ok (t', .ok ()) ∧ t'.restoreUnaryChains delim' = .ok (t'', .ok ()) ∧
      t''.graph.edges = t'.graph.edges ∧ t''.root = t'.root ∧ t''.nTerminals = t'.nTerminals ∧
      (∀ n, t'.graph.node? n = none → t''.graph.node? n = none) ∧
      ∀ n nd, t'.graph.node? n = some nd →
        t''.graph.node? n = some (nd.setFeatures (some (nd.features.getD Features.empty))) := by
  obtain ⟨f, hf⟩ := W.is_exists
  obtain ⟨t', h1, _, h2, _⟩ := C27_restore t W delim f hf hs hv
  obtain ⟨t'', h3, E⟩ := restoreUnaryChains_none (t := t') delim' h2
  exact ⟨t', t'', h1, h3, E.edges, E.root, E.nTerm, fun n hn => by rw [E.node, hn]; rfl, fun n nd hn => by rw [E.node, hn]; rfl⟩

/-- C76: words are annotated once: the same tags again change nothing, and give the same answer. -/
theorem C76_annotate_pos (t : Tree) (tags : List Str) :
    ∃ t' r, t.annotatePos tags = .ok (t', r) ∧ t'.annotatePos tags = .ok (t', r) := annotatePos_again t tags

/-- C76: as for the labels of parents, ... -/
theorem C76_parent_tag (t : Tree) (W : t.WF) (name : Str) (hr : t.IsNt t.root) :
    ∃ t', t.annotateParentTag name = .ok (t', .ok ()) ∧ t'.annotateParentTag name = .ok (t', .ok ()) :=
  annotateParentTag_again W name hr

/-- C76: ... the labels of closest ancestors ... -/
theorem C76_tag_set (t : Tree) (W : t.WF) (name : Str) (f : Tree → Nat → Bool) (hf : IgnoresTermFeatures f) :
    ∃ t', t.projectTagSet name f = .ok t' ∧ t'.projectTagSet name f = .ok t' := projectTagSet_again W name hf

/-- C76: ... and their numbers. -/
theorem C76_ids (t : Tree) (W : t.WF) (name : Str) (f : Tree → Nat → Bool) (hf : IgnoresTermFeatures f) :
    ∃ t', t.projectIds name f = .ok t' ∧ t'.projectIds name f = .ok t' := projectIds_again W name hf

/-- Nodes are inserted again if the nodes inserted get a label themselves. -/
theorem C76_insert_again : ∃ (t : Tree) (f : Tree → Nat → Option Str) (t' t'' : Tree), t.WF ∧ t.IsNt t.root ∧ NodeFn f ∧
    t.insertIntermediate f = .ok (t', .ok ()) ∧ t'.insertIntermediate f = .ok (t'', .ok ()) ∧
    t'.graph.nodeCount < t''.graph.nodeCount :=
  ⟨Examples.nested, fun _ _ => some "X".toList, _, _, nested_wf, ⟨_, rfl⟩, fun _ _ _ _ => rfl, rfl, rfl, by decide +kernel⟩

/-- `(ROOT (N a) (V b))` with a chain recorded at `a`. -/
def chained : Tree :=
  ⟨⟨[some (.term { Terminal.new "a".toList "N".toList 0 with features := some ⟨[("unary_chain".toList, some "NP".toList)]⟩ }),
      Examples.tm "b" "V" 1, Examples.nt "ROOT" ⟨0, 2, none⟩],
    [], [Examples.pe 1 2 1, Examples.pe 0 2 0], 2, []⟩, 2, 2, 0⟩

theorem chained_wf : chained.WF := wf_of_check (by decide +kernel)

/-- The second time an empty set of features appears. -/
theorem C76_restore_again : ∃ (t t' t'' : Tree), t.WF ∧ t.restoreUnaryChains "_".toList = .ok (t', .ok ()) ∧
    t'.restoreUnaryChains "_".toList = .ok (t'', .ok ()) ∧ t' ≠ t'' :=
  ⟨chained, _, _, chained_wf, rfl, rfl, by decide +kernel⟩

/-! The first call does something in each case. -/

/-- Filters. -/
example : Examples.nested.WF ∧ NodeLocal isNP ∧ NodeLocal (fun t n => !isNP t n) ∧
    (∃ t', Examples.nested.filterNonterminals isNP = .ok (t', .ok ()) ∧ t'.graph.nodeCount < Examples.nested.graph.nodeCount) ∧
    ∃ t', Examples.nested.filterNonterminals (fun t n => !isNP t n) = .ok (t', .ok ()) ∧
      t'.graph.nodeCount < Examples.nested.graph.nodeCount :=
  ⟨nested_wf, isNP_local, fun t t' n h => by simp only [isNP_local t t' n h], ⟨_, rfl, by decide +kernel⟩, _, rfl, by decide +kernel⟩

/-- Words are moved below `A`. -/
example : Examples.disc.WF ∧ Examples.disc.IsNt 3 ∧ TermLocal isNY ∧
    (∀ n, Examples.disc.IsTerm n → isNY Examples.disc n = true →
      (∀ m, Examples.disc.IsTerm m → isNY Examples.disc m = true → n ≤ m) →
      ∃ m, Examples.disc.IsTerm m ∧ m ≠ n ∧ Examples.disc.Dom 3 m) ∧
    ∃ t', Examples.disc.reattachTerminals 3 isNY = .ok t' ∧ t' ≠ Examples.disc :=
  ⟨disc_wf, ⟨_, rfl⟩, isNY_local, fun n hn _ _ => by
    by_cases e : n = 0
    · exact ⟨2, ⟨_, rfl⟩, by omega, .single (mem_children_fst.1 (by decide +kernel))⟩
    · exact ⟨0, ⟨_, rfl⟩, fun h => e h.symm, .single (mem_children_fst.1 (by decide +kernel))⟩, _, rfl, by decide +kernel⟩

/-- Nodes are inserted. -/
example : Examples.proj.WF ∧ Examples.proj.IsNt Examples.proj.root ∧ NodeFn markX ∧
    (∀ p l, markX Examples.proj p = some l → Silent markX l) ∧
    ∃ t', Examples.proj.insertIntermediate markX = .ok (t', .ok ()) ∧
      Examples.proj.graph.nodeCount < t'.graph.nodeCount :=
  ⟨proj_wf, ⟨_, rfl⟩, markX_fn, by
    intro p l h t n s hn
    have hl : l = "X".toList := by
      unfold markX at h
      split at h
      · split at h
        · cases h; rfl
        · cases h
      · cases h
    subst hl
    unfold markX
    rw [hn]
    exact if_neg (by simp only [NonTerminal.new]; decide), _, rfl, by decide +kernel⟩

/-- Gaps are closed, chains collapsed and restored. -/
example : Examples.disc.WF ∧ IsOrder minPick ∧ (∃ t' log, Examples.disc.projectivize minPick = .ok (t', log) ∧ t' ≠ Examples.disc) ∧
    Examples.chain.WF ∧ (∃ t', Examples.chain.collapseUnaryChains "_".toList = .ok t' ∧ t' ≠ Examples.chain) ∧
    (∀ n nd, chained.graph.node? n = some nd → (nd.features.getD Features.empty).Sorted) ∧
    (∀ n nd, chained.graph.node? n = some nd → (nd.features.getD Features.empty).getVal Forest.chainKey ≠ some none) ∧
    ∃ t', chained.restoreUnaryChains "_".toList = .ok (t', .ok ()) ∧ chained.graph.nodeCount < t'.graph.nodeCount := by
  have key : ∀ (P : Node → Prop), (∀ o ∈ chained.graph.nodes, ∀ nd, o = some nd → P nd) → ∀ n nd, chained.graph.node? n = some nd → P nd := by
    intro P h n nd hn
    unfold Graph.node? at hn
    cases hh : chained.graph.nodes[n]? with
    | none => rw [hh] at hn; cases hn
    | some o =>
      rw [hh] at hn
      exact h o (List.mem_of_getElem? hh) nd hn
  refine ⟨disc_wf, minPick_order, ⟨_, _, rfl, by decide +kernel⟩, chain_wf, ⟨_, rfl, by decide +kernel⟩, key _ ?_, key _ ?_, _, rfl,
    by decide +kernel⟩
  · intro o ho nd e
    subst e
    simp only [chained, Examples.tm, Examples.nt, List.mem_cons, Option.some.injEq, List.not_mem_nil, or_false] at ho
    rcases ho with rfl | rfl | rfl <;> simp [Features.Sorted, Node.features, Terminal.new, NonTerminal.new, Features.empty]
  · intro o ho nd e
    subst e
    simp only [chained, Examples.tm, Examples.nt, List.mem_cons, Option.some.injEq, List.not_mem_nil, or_false] at ho
    rcases ho with rfl | rfl | rfl <;> decide

/-- Words are annotated. -/
example : Examples.nested.WF ∧ IgnoresTermFeatures isNP ∧ Examples.nested.IsNt Examples.nested.root ∧
    (∃ t', Examples.nested.annotateParentTag "p".toList = .ok (t', .ok ()) ∧ t' ≠ Examples.nested) ∧
    (∃ t', Examples.nested.annotatePos ["Q".toList] = .ok (t', .error .notEnoughPos) ∧ t' ≠ Examples.nested) ∧
    (∃ t', Examples.nested.projectTagSet "p".toList isNP = .ok t' ∧ t' ≠ Examples.nested) ∧
    ∃ t', Examples.nested.projectIds "p".toList isNP = .ok t' ∧ t' ≠ Examples.nested :=
  ⟨nested_wf, isNP_ignores, ⟨_, rfl⟩, ⟨_, rfl, by decide +kernel⟩, ⟨_, rfl, by decide +kernel⟩, ⟨_, rfl, by decide +kernel⟩,
    _, rfl, by decide +kernel⟩

end Props
end Lumberjack
