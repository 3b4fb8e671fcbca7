import Verif.Proofs.ChainTrip
import Verif.Proofs.Check
import Verif.Spec.Examples

/-!
# Unary chains (C26, C27)
-/

namespace Lumberjack
namespace Props

open Lumberjack.Tree

/-! ## C26 -/

/-- C26: on a well-formed tree (projective or not) `collapse_unary_chains` gives a well-formed tree
without unary nodes.  Exactly the unary nodes are gone; what remains keeps index, label, form,
part-of-speech tag, lemma and span (everything but the features) and the dominance relation; the
sentence is the same. -/
theorem C26_collapse (t : Tree) (W : t.WF) (delim : Str) :
    ∃ t', t.collapseUnaryChains delim = .ok t' ∧ t'.WF ∧ (∀ n c, ¬ t'.OnlyChild n c) ∧
      (∀ n, t'.Live n ↔ t.Live n ∧ ¬ ∃ c, t.OnlyChild n c) ∧
      (∀ n nd, t'.graph.node? n = some nd →
        ∃ nd0 fs, t.graph.node? n = some nd0 ∧ nd = nd0.setFeatures fs) ∧
      (∀ a b, t'.Live a → t'.Live b → (t'.Dom a b ↔ t.Dom a b)) ∧
      (∀ n, t'.IsTerm n ↔ t.IsTerm n) ∧ t'.nTerminals = t.nTerminals := by
  obtain ⟨f, hf⟩ := W.is_exists
  obtain ⟨t', h1, I, hno⟩ := collapseUnaryChains_spec W delim hf
  refine ⟨t', h1, I.wf, hno, ?_, ?_, I.dom, I.term, I.nterm⟩
  · intro n
    constructor
    · rintro ⟨nd, hn⟩
      obtain ⟨nd0, g, h, _⟩ := I.kept n nd hn
      refine ⟨⟨nd0, h⟩, ?_⟩
      rintro ⟨c, hc⟩
      obtain ⟨d', hd'⟩ := I.forth n c ⟨nd, hn⟩ hc
      exact hno n d' hd'
    · rintro ⟨hl, hu⟩
      by_contra h
      exact hu (I.gone n hl h)
  · intro n nd hn
    obtain ⟨nd0, g, h, rfl⟩ := I.kept n nd hn
    refine ⟨nd0, g nd0.features, h, ?_⟩
    cases nd0 <;> rfl

/-- C26, what becomes of the tree: it is collapsed bottom-up, each unary node leaving its label in
the `unary_chain` feature of what is below it (`Forest.collapse`). -/
theorem C26_collapsed_tree (t : Tree) (W : t.WF) (delim : Str) (f : Forest) (hf : t.Is f) :
    ∃ t', t.collapseUnaryChains delim = .ok t' ∧ t'.Is (f.collapse delim) := by
  obtain ⟨t', h1, I, hno⟩ := collapseUnaryChains_spec W delim hf
  obtain ⟨f1, hf1, hc⟩ := I.is
  have hnu : f1.NoUnary := Rep.noUnary hno hf1
  refine ⟨t', h1, ?_⟩
  rw [← hc, hnu.collapse]
  exact hf1

/-- C26, the feature of a terminal below a tower of unary nodes with labels `l₁, ..., lₖ` from
bottom to top: `l₁ ++ delim ++ ... ++ delim ++ lₖ`. -/
theorem C26_chain_terminal (delim : Str) (us : List (Option Str × NonTerminal)) (hus : us ≠ [])
    (e : Option Str) (y : Terminal) (hy : (y.features.getD Features.empty).getVal Forest.chainKey = none) :
    ∃ fs, (Forest.tower us (.leaf e y .nil)).collapse delim = .leaf none { y with features := some fs } .nil ∧
      fs.getVal Forest.chainKey = some (some (join delim (us.map (·.2.label)))) ∧
      ∀ k, k ≠ Forest.chainKey → fs.getVal k = (y.features.getD Features.empty).getVal k := by
  have snoc : ∀ (us : List (Option Str × NonTerminal)) (u : Option Str × NonTerminal) (g : Forest),
      Forest.tower (us ++ [u]) g = .node u.1 u.2 (Forest.tower us g) .nil := by
    intro us
    induction us with
    | nil => intro u g; rfl
    | cons a us ih => intro u g; exact ih u _
  induction us using List.reverseRecOn with
  | nil => exact absurd rfl hus
  | append_singleton us u ih =>
    rw [snoc]
    by_cases h0 : us = []
    · subst h0
      refine ⟨_, rfl, ?_, ?_⟩
      · rw [hy]
        have := Features.lookup_insert Forest.chainKey Forest.chainKey (some u.2.label) (y.features.getD Features.empty).entries
        rw [if_pos rfl] at this
        exact this
      · intro k hk
        rw [hy]
        have := Features.lookup_insert Forest.chainKey k (some u.2.label) (y.features.getD Features.empty).entries
        rw [if_neg hk] at this
        exact this
    · obtain ⟨fs, h1, h2, h3⟩ := ih h0
      rw [Forest.collapse_node, h1]
      refine ⟨_, rfl, ?_, ?_⟩
      · simp only [Option.getD_some]
        rw [h2]
        have := Features.lookup_insert Forest.chainKey Forest.chainKey
          (some (join delim (us.map (·.2.label)) ++ delim ++ u.2.label)) fs.entries
        rw [if_pos rfl] at this
        rw [List.map_append, List.map_singleton, join_snoc _ (by simpa using h0)]
        exact this
      · intro k hk
        rw [← h3 k hk]
        simp only [Option.getD_some]
        rw [h2]
        have := Features.lookup_insert Forest.chainKey k
          (some (join delim (us.map (·.2.label)) ++ delim ++ u.2.label)) fs.entries
        rw [if_neg hk] at this
        exact this

/-- C26, the feature of a nonterminal that is not unary below a tower of unary nodes. -/
theorem C26_chain_nonterminal (delim : Str) (us : List (Option Str × NonTerminal)) (hus : us ≠ [])
    (e : Option Str) (y : NonTerminal) (k : Forest) (hk : k.width ≠ 1)
    (hy : (y.features.getD Features.empty).getVal Forest.chainKey = none) :
    ∃ fs, (Forest.tower us (.node e y k .nil)).collapse delim =
        .node none { y with features := some fs } (k.collapse delim) .nil ∧
      fs.getVal Forest.chainKey = some (some (join delim (us.map (·.2.label)))) ∧
      ∀ k, k ≠ Forest.chainKey → fs.getVal k = (y.features.getD Features.empty).getVal k := by
  have snoc : ∀ (us : List (Option Str × NonTerminal)) (u : Option Str × NonTerminal) (g : Forest),
      Forest.tower (us ++ [u]) g = .node u.1 u.2 (Forest.tower us g) .nil := by
    intro us
    induction us with
    | nil => intro u g; rfl
    | cons a us ih => intro u g; exact ih u _
  induction us using List.reverseRecOn with
  | nil => exact absurd rfl hus
  | append_singleton us u ih =>
    rw [snoc]
    by_cases h0 : us = []
    · subst h0
      rw [Forest.collapse_node, Forest.tower, Forest.collapse_node_many _ _ _ _ _ hk]
      refine ⟨_, rfl, ?_, ?_⟩
      · rw [hy]
        have := Features.lookup_insert Forest.chainKey Forest.chainKey (some u.2.label) (y.features.getD Features.empty).entries
        rw [if_pos rfl] at this
        exact this
      · intro k hk
        rw [hy]
        have := Features.lookup_insert Forest.chainKey k (some u.2.label) (y.features.getD Features.empty).entries
        rw [if_neg hk] at this
        exact this
    · obtain ⟨fs, h1, h2, h3⟩ := ih h0
      rw [Forest.collapse_node, h1]
      refine ⟨_, rfl, ?_, ?_⟩
      · simp only [Option.getD_some]
        rw [h2]
        have := Features.lookup_insert Forest.chainKey Forest.chainKey
          (some (join delim (us.map (·.2.label)) ++ delim ++ u.2.label)) fs.entries
        rw [if_pos rfl] at this
        rw [List.map_append, List.map_singleton, join_snoc _ (by simpa using h0)]
        exact this
      · intro k hk
        rw [← h3 k hk]
        simp only [Option.getD_some]
        rw [h2]
        have := Features.lookup_insert Forest.chainKey k
          (some (join delim (us.map (·.2.label)) ++ delim ++ u.2.label)) fs.entries
        rw [if_neg hk] at this
        exact this

theorem chain_wf : Examples.chain.WF := wf_of_check (by decide +kernel)

/-- `(ROOT (S (VP (NP (N a)) (V b))))` becomes `(VP (N a) (V b))`; the chains are `NP` and `S_ROOT`. -/
example : ∃ t', Examples.chain.collapseUnaryChains "_".toList = .ok t' ∧ t'.root = 3 ∧
    t'.graph.nodes = [
      some (.term { Terminal.new "a".toList "N".toList 0 with
        features := some ⟨[("unary_chain".toList, some "NP".toList)]⟩ }),
      some (.term (Terminal.new "b".toList "V".toList 1)), none,
      some (.nt { NonTerminal.new "VP".toList ⟨0, 2, none⟩ with
        features := some ⟨[("unary_chain".toList, some "S_ROOT".toList)]⟩ }), none, none] :=
  ⟨_, rfl, by decide +kernel, by decide +kernel⟩

/-! ## C27 -/

/-- C27: collapsing and restoring gives an equal tree, provided collapsing loses nothing
(`Collapsible`).  Equality is that of the crate; the ordered trees also agree in the word forms, and
in everything but the difference between no features and an empty set of features. -/
theorem C27_roundtrip (t : Tree) (W : t.WF) (delim : Str) (H : t.Collapsible delim) :
    ∃ t1 t2, t.collapseUnaryChains delim = .ok t1 ∧ t1.restoreUnaryChains delim = .ok (t2, .ok ()) ∧
      t.eq t2 = .ok true ∧ (t.isProjective = true → t2.WF) ∧
      ∃ f f2, t.Is f ∧ t2.Is f2 ∧ f2.norm = f.norm := by
  obtain ⟨t1, t2, h1, h2, _, h3, h4, h5⟩ := roundtrip W H
  exact ⟨t1, t2, h1, h2, h3, h4, h5⟩

/-- C27, restoring by itself: on a well-formed tree whose feature sets are ordered maps and whose
`unary_chain` features all have a value, `restore_unary_chains` succeeds, no node has the feature
afterwards, and the tree has the listed nodes inserted (`Forest.restore`). -/
theorem C27_restore (t : Tree) (W : t.WF) (delim : Str) (f : Forest) (hf : t.Is f)
    (hs : ∀ n nd, t.graph.node? n = some nd → (nd.features.getD Features.empty).Sorted)
    (hv : ∀ n nd, t.graph.node? n = some nd →
      (nd.features.getD Features.empty).getVal Forest.chainKey ≠ some none) :
    ∃ t', t.restoreUnaryChains delim = .ok (t', .ok ()) ∧ t'.nTerminals = t.nTerminals ∧
      (∀ n nd, t'.graph.node? n = some nd →
        (nd.features.getD Features.empty).getVal Forest.chainKey = none) ∧
      ∃ f', t'.Is f' ∧ f'.norm = (f.restore delim).norm := by
  obtain ⟨t', h1, _, _, h2, h3, h4⟩ := restoreUnaryChains_spec W.core delim hf hs hv
  exact ⟨t', h1, h2, h3, h4⟩

/-- A simple way to meet the provisos. -/
theorem collapsible_plain (t : Tree) (delim : Str) (hd : delim ≠ [])
    (hn : ∀ o ∈ t.graph.nodes, ∀ nd ∈ o, nd.features = none ∧ ∀ c ∈ delim, c ∉ nd.label)
    (he : ∀ r ∈ t.graph.edges, r.w = .primary none) : t.Collapsible delim := by
  have hn' : ∀ n nd, t.graph.node? n = some nd → nd.features = none ∧ ∀ c ∈ delim, c ∉ nd.label := by
    intro n nd h
    unfold Graph.node? at h
    rw [Option.join_eq_some_iff] at h
    exact hn _ (List.mem_of_getElem? h) nd rfl
  have hl : ∀ n, t.inLabel n = none := by
    intro n
    unfold inLabel edgeLabel
    cases h : t.graph.edges.find? (fun r => decide (r.tgt = n) && r.w.isPrimary) with
    | none => rfl
    | some r => simp [he r (List.mem_of_find?_eq_some h), Edge.label]
  refine ⟨hd, ?_, ?_, ?_, ?_, fun n c _ => ⟨hl n, hl c⟩⟩
  · intro n nd h; rw [(hn' n nd h).1]; exact List.Pairwise.nil
  · intro n nd h; rw [(hn' n nd h).1]; rfl
  · intro n c x _ h; exact (hn' n _ h).2
  · intro n c x _ h
    have : x.features = none := (hn' n _ h).1
    rw [this]; rfl

example : Examples.chain.Collapsible "_".toList :=
  collapsible_plain _ _ (by decide) (by decide +kernel) (by decide +kernel)

/-- The example has unary nodes. -/
example : Examples.chain.OnlyChild 5 4 := by
  refine ⟨⟨Examples.pe 4 5 4, by decide, rfl, rfl, rfl⟩, ?_⟩
  rintro c ⟨r, hr, h1, h2, -⟩
  simp only [Examples.chain, List.mem_cons, List.not_mem_nil, or_false] at hr
  rcases hr with rfl | rfl | rfl | rfl | rfl <;> simp_all [Examples.pe]

/-- The provisos are needed: with the label `NP` but delimiter `P` the label comes back as two nodes,
`N` and one with an empty label. -/
theorem C27_delimiter_in_label : ∃ t1 t2, Examples.chain.collapseUnaryChains "P".toList = .ok t1 ∧
    t1.restoreUnaryChains "P".toList = .ok (t2, .ok ()) ∧ Examples.chain.eq t2 = .ok false :=
  ⟨_, _, rfl, rfl, by decide +kernel⟩

/-- An edge label below a unary node is lost (`Examples.disc` has `HD` below `B`). -/
theorem C27_edge_label_lost : ∃ t1 t2, Examples.disc.collapseUnaryChains "_".toList = .ok t1 ∧
    t1.restoreUnaryChains "_".toList = .ok (t2, .ok ()) ∧ Examples.disc.eq t2 = .ok false :=
  ⟨_, _, rfl, rfl, by decide +kernel⟩

/-- It is not enough that labels do not contain the delimiter as a substring: with delimiter `aa`
and labels `xa` and `y` (none of which contains `aa`) the chain `xa` ++ `aa` ++ `y` splits as
`x`, `ay`. -/
theorem C27_delimiter_overlap : splitStr "aa".toList (join "aa".toList ["xa".toList, "y".toList]) =
    ["x".toList, "ay".toList] := by decide

end Props
end Lumberjack
