import Verif.Proofs.ConllxTrip
import Verif.Proofs.Check
import Verif.Spec.Examples

/-!
# Tagged sentences (C39, C52)
-/

namespace Lumberjack
namespace Props

open Lumberjack.Tree Conllx

/-! ## C39 -/

/-- C39: a well-formed projective tree without features, lemmas and edge labels whose labels have no reserved
characters survives collapsing, annotating with absolute ancestors, converting to CONLLX and reading back:
every step succeeds and the tree read is well-formed and equal to the original, word forms included. -/
theorem C39_absolute (t : Tree) (W : t.WF) (hp : t.isProjective = true) (H : t.Taggable) :
    ∃ t1 t2 toks t', t.collapseUnaryChains ['_'] = .ok t1 ∧ t1.annotateAbsolute = .ok (t2, .ok ()) ∧
      toConllx t2 = .ok toks ∧ tryFromAbsolute toks = .ok (.ok t') ∧ t'.WF ∧ t'.isProjective = true ∧
      t.eq t' = .ok true ∧ ∃ f f', t.Is f ∧ t'.Is f' ∧ f'.norm = f.norm := by
  obtain ⟨t1, f, h1, hf, W1, hp1, hf1, hnu, hT, hlen, hr, _, _⟩ := collapse_tagged W hp H
  obtain ⟨e, t2, a1, a2, a3, W2, a4⟩ := C38_annotate_absolute t1 W1 hp1
  rw [encodeAbsolute_eq W1 hp1 hf1] at a1
  simp only [Res.ok.injEq, Except.ok.injEq] at a1
  subst a1
  obtain ⟨hs, hn⟩ := W1.is_seq hp1 hf1
  have hts := TermEdit.terminals a4 (fun _ => rfl) (terminals_leaves W1 hp1 hf1)
  have htok := toConllx_eq W2 hts
  rw [List.map_map] at htok
  have hread := readTokens_ok (k := 0) (P := fun x => tokenOf (withFeature "abs_ancestor".toList
      (absText (((f.collapse ['_']).encoding 0 [] none)[x.span.start]?.getD (none, none))) x))
    (fun _ => ⟨rfl, rfl⟩)
    (entries_forall (by decide) (by decide) (by decide) hs hT Forest.length_encoding (none, none)
      (fun p hpm => (entries_ok W1 hp1 hf1 hT (by rw [hlen]; exact H.size) p hpm).1.abs))
    (fun i x hx => by rw [hs.leaf_span hx]; rfl)
  have hskip : f.All (fun nd => nd.span.skips = none) := Rep.all hf (projective_skips W hp)
  have hw : (f.collapse ['_']).width = 1 := by rw [Rep.width hf1]; rfl
  obtain ⟨t', f', k1, k2, k3, k4, k5, k6⟩ := finishDecode_spec hs hw hnu hT hr hskip
  refine ⟨t1, t2, _, t', h1, a3, htok, ?_, k2, k3, ?_, f, f', hf, k5, k6⟩
  · unfold tryFromAbsolute
    rw [← k1]
    simp only [Function.comp_def]
    rw [hread]
  · obtain ⟨b, hb, hb'⟩ := eq_spec W k2 hf k5
    rw [hb, hb'.2 (.inr (Forest.same_of_norm k6.symm))]

/-- C39, with relative ancestors; here no label may be `NONE`. -/
theorem C39_relative (t : Tree) (W : t.WF) (hp : t.isProjective = true) (H : t.Taggable)
    (hN : ∀ n x, t.graph.node? n = some (.nt x) → x.label ≠ "NONE".toList) :
    ∃ t1 t2 toks t', t.collapseUnaryChains ['_'] = .ok t1 ∧ t1.annotateRelative = .ok (t2, .ok ()) ∧
      toConllx t2 = .ok toks ∧ Conllx.tryFromRelative toks = .ok (.ok t') ∧ t'.WF ∧ t'.isProjective = true ∧
      t.eq t' = .ok true ∧ ∃ f f', t.Is f ∧ t'.Is f' ∧ f'.norm = f.norm := by
  obtain ⟨t1, f, h1, hf, W1, hp1, hf1, hnu, hT, hlen, hr, _, hlab⟩ := collapse_tagged W hp H
  obtain ⟨e, t2, a1, a2, a3, W2, a4⟩ := C38_annotate_relative t1 W1 hp1
  rw [C36_encode_relative, encodeAbsolute_eq W1 hp1 hf1] at a1
  simp only [Res.ok_bind, Res.pure_eq, Except.map, Res.ok.injEq, Except.ok.injEq] at a1
  subst a1
  obtain ⟨hs, hn⟩ := W1.is_seq hp1 hf1
  have hts := TermEdit.terminals a4 (fun _ => rfl) (terminals_leaves W1 hp1 hf1)
  have htok := toConllx_eq W2 hts
  rw [List.map_map] at htok
  have hN1 : ∀ n x, t1.graph.node? n = some (.nt x) → x.label ≠ noneMarker := by
    intro n x hx
    obtain ⟨m, y, hy, he⟩ := hlab n x hx
    rw [he]; exact hN m y hy
  have hent := entries_ok W1 hp1 hf1 hT (by rw [hlen]; exact H.size)
  have hread := readTokens_ok (k := 0) (P := fun x => tokenOf (withFeature "rel_ancestor".toList
      (relText ((relFromAbs ((f.collapse ['_']).encoding 0 [] none))[x.span.start]?.getD (none, none))) x))
    (fun _ => ⟨rfl, rfl⟩)
    (entries_forall (by decide) (by decide) (by decide) hs hT
      (by rw [relFromAbs_length, Forest.length_encoding]) (none, none)
      (fun p hpm => (relEntries_ok _ 0 (by omega) (by omega) (fun q hq => ⟨(hent q hq).1, (hent q hq).2 hN1⟩) p hpm).rel))
    (fun i x hx => by rw [hs.leaf_span hx]; rfl)
  have hskip : f.All (fun nd => nd.span.skips = none) := Rep.all hf (projective_skips W hp)
  have hw : (f.collapse ['_']).width = 1 := by rw [Rep.width hf1]; rfl
  obtain ⟨t', f', k1, k2, k3, k4, k5, k6⟩ := finishDecode_spec hs hw hnu hT hr hskip
  refine ⟨t1, t2, _, t', h1, a3, htok, ?_, k2, k3, ?_, f, f', hf, k5, k6⟩
  · unfold Conllx.tryFromRelative
    rw [← k1]
    simp only [Function.comp_def]
    rw [hread]
    simp only
    rw [C34_abs_rel_abs _ (encoding_positive (.inr (by omega)) (by simp))]
    rfl
  · obtain ⟨b, hb, hb'⟩ := eq_spec W k2 hf k5
    rw [hb, hb'.2 (.inr (Forest.same_of_norm k6.symm))]

/-- A simple way to meet the provisos. -/
theorem taggable_plain (t : Tree)
    (hn : ∀ o ∈ t.graph.nodes, ∀ nd ∈ o, nd.features = none ∧
      (nd.isTerminal = true → nd.terminal.bind Terminal.lem = none) ∧
      (nd.isTerminal = false → nd.label ≠ [] ∧ ∀ c ∈ ['_', '+', '~', '|', ':'], c ∉ nd.label))
    (he : ∀ r ∈ t.graph.edges, r.w = .primary none) (hs : t.graph.nodes.length < 2 ^ 63) : t.Taggable := by
  have hn' : ∀ n nd, t.graph.node? n = some nd → nd.features = none ∧
      (nd.isTerminal = true → nd.terminal.bind Terminal.lem = none) ∧
      (nd.isTerminal = false → nd.label ≠ [] ∧ ∀ c ∈ ['_', '+', '~', '|', ':'], c ∉ nd.label) := by
    intro n nd h
    unfold Graph.node? at h
    rw [Option.join_eq_some_iff] at h
    exact hn _ (List.mem_of_getElem? h) nd rfl
  refine ⟨?_, ?_, ?_, ?_, hs⟩
  · intro n nd h; rw [(hn' n nd h).1]; rfl
  · intro n x h; exact (hn' n _ h).2.1 rfl
  · intro n x h; exact (hn' n _ h).2.2 rfl
  · intro r hr _; rw [he r hr]; rfl

example := C39_absolute Examples.chain (wf_of_check (by decide)) (by decide)
  (taggable_plain _ (by decide +kernel) (by decide +kernel) (by decide))
example := C39_relative Examples.nested (wf_of_check (by decide)) (by decide)
  (taggable_plain _ (by decide +kernel) (by decide +kernel) (by decide)) (by
    intro n x hx
    have hlt : n < 6 := Graph.lt_of_node? hx
    have : n = 0 ∨ n = 1 ∨ n = 2 ∨ n = 3 ∨ n = 4 ∨ n = 5 := by omega
    rcases this with rfl | rfl | rfl | rfl | rfl | rfl <;>
      simp [Examples.nested, Graph.node?, Examples.nt, Examples.tm] at hx <;> subst hx <;> decide)

/-- Collapse, annotate, write and read with absolute ancestors, then compare. -/
def viaAbsolute (t : Tree) : Res (Except Err Bool) := do
  let t1 ← t.collapseUnaryChains ['_']
  let (t2, _) ← t1.annotateAbsolute
  let toks ← toConllx t2
  let r ← tryFromAbsolute toks
  match r with
  | .ok t' => return .ok (← t.eq t')
  | .error e => return .error e

/-- The same with relative ancestors. -/
def viaRelative (t : Tree) : Res (Except Err Bool) := do
  let t1 ← t.collapseUnaryChains ['_']
  let (t2, _) ← t1.annotateRelative
  let toks ← toConllx t2
  let r ← Conllx.tryFromRelative toks
  match r with
  | .ok t' => return .ok (← t.eq t')
  | .error e => return .error e

/-- `(LABEL (N a) (V b))`, with the given first terminal. -/
def flat (label : String) (a : Terminal) : Tree :=
  ⟨⟨[some (.term a), Examples.tm "b" "V" 1, Examples.nt label ⟨0, 2, none⟩], [], [Examples.pe 1 2 1, Examples.pe 0 2 0], 2, []⟩,
    2, 2, 0⟩

/-- A terminal. -/
def plainA : Terminal := Terminal.new "a".toList "N".toList 0

example : (flat "S" plainA).WF := wf_of_check (by decide)
example : viaAbsolute (flat "S" plainA) = .ok (.ok true) ∧ viaRelative (flat "S" plainA) = .ok (.ok true) :=
  ⟨by decide +kernel, by decide +kernel⟩

/-- C39: each reserved character does damage: the tree comes back changed or cannot be read ... -/
theorem C39_reserved : viaAbsolute (flat "A_B" plainA) = .ok (.ok false) ∧
    viaAbsolute (flat "A+B" plainA) = .ok (.error (.parse 0)) ∧
    viaAbsolute (flat "A~B" plainA) = .ok (.error (.parse 1)) ∧
    viaAbsolute (flat "A|B" plainA) = .ok (.error (.parse 1)) ∧
    viaAbsolute (flat "A:B" plainA) = .ok (.error (.parse 1)) ∧
    viaRelative (flat "" plainA) = .ok (.error (.parse 2)) ∧
    viaRelative (flat "NONE" plainA) = .ok (.ok false) :=
  ⟨by decide +kernel, by decide +kernel, by decide +kernel, by decide +kernel, by decide +kernel,
    by decide +kernel, by decide +kernel⟩

/-- ... and the reader drops the lemma and the features of terminals. -/
theorem C39_dropped :
    viaAbsolute (flat "S" { plainA with lem := some "l".toList }) = .ok (.ok false) ∧
    viaAbsolute (flat "S" { plainA with features := some ⟨[("k".toList, none)]⟩ }) = .ok (.ok false) :=
  ⟨by decide +kernel, by decide +kernel⟩

/-- C39: the reader rejects a sentence with an unannotated token. -/
theorem C39_unannotated (pre post : List Token) (tok : Token) (h : ∀ s, ancestorStr "abs_ancestor".toList tok ≠ .ok s) :
    ∃ e, tryFromAbsolute (pre ++ tok :: post) = .ok (.error e) := by
  have key : ∀ (pre : List Token) k, ∃ e, readTokens "abs_ancestor".toList AbsAncestor.parse (pre ++ tok :: post) k = .error e := by
    intro pre
    induction pre with
    | nil =>
      intro k
      rw [List.nil_append, readTokens]
      cases ha : ancestorStr "abs_ancestor".toList tok with
      | error e => exact ⟨e, rfl⟩
      | ok s => exact absurd ha (h s)
    | cons q pre ih =>
      intro k
      rw [List.cons_append, readTokens]
      cases ancestorStr "abs_ancestor".toList q with
      | error e => exact ⟨e, rfl⟩
      | ok s =>
        simp only
        cases splitAncestor AbsAncestor.parse s with
        | error e => exact ⟨e, rfl⟩
        | ok en =>
          obtain ⟨e, he⟩ := ih (k + 1)
          simp only [he]
          exact ⟨e, rfl⟩
  obtain ⟨e, he⟩ := key pre 0
  exact ⟨e, by unfold tryFromAbsolute; rw [he]⟩

example := C39_unannotated [] [] ⟨"a".toList, none, none, none⟩ (fun s h => by cases h)

/-! ## C52 -/

/-- C52: `to_conllx` yields one token per terminal in sentence order with its form, lemma, tag and features, and
so does the consuming conversion. -/
theorem C52_tokens (t : Tree) (W : t.WF) (ts : List Terminal) (h : t.Terminals ts) :
    toConllx t = .ok (ts.map tokenOf) ∧ intoConllx t = .ok (ts.map tokenOf) :=
  ⟨toConllx_eq W h, intoConllx_eq W h⟩

/-- C52: every well-formed tree has such a list of terminals. -/
theorem C52_terminals (t : Tree) (W : t.WF) : ∃! ts, t.Terminals ts := by
  have hlen := sorted_terminals_length W.sentence
  let ts := (t.sortIndices t.terminals).filterMap (fun n => (t.graph.node? n).bind Node.terminal)
  have hF : List.Forall₂ (fun n x => t.graph.node? n = some (.term x)) (t.sortIndices t.terminals) ts := by
    have : ∀ l : List Nat, (∀ n ∈ l, t.IsTerm n) →
        List.Forall₂ (fun n x => t.graph.node? n = some (.term x)) l
          (l.filterMap (fun n => (t.graph.node? n).bind Node.terminal)) := by
      intro l
      induction l with
      | nil => intro _; exact .nil
      | cons n l ih =>
        intro hl
        obtain ⟨x, hx⟩ := hl n (by simp)
        rw [List.filterMap_cons]
        simp only [hx, Option.bind_some, Node.terminal]
        exact .cons hx (ih (fun m hm => hl m (by simp [hm])))
    exact this _ (fun n hn => mem_terminals.1 ((sortIndices_perm _).mem_iff.1 hn))
  have hT : t.Terminals ts := by
    refine ⟨hF.length_eq.symm.trans hlen, fun n x i hx hi => ?_⟩
    have h1 := sorted_terminals_get W.sentence hi
    obtain ⟨hlt, h1⟩ := List.getElem?_eq_some_iff.1 h1
    obtain ⟨h2, h3⟩ := List.forall₂_iff_get.1 hF
    have := h3 i hlt (by omega)
    simp only [List.get_eq_getElem, h1, hx] at this
    rw [List.getElem?_eq_getElem (by omega)]
    simp only [Option.some.injEq, Node.term.injEq] at this
    rw [this]
  exact ⟨ts, hT, fun ts' h' => h'.unique W hT⟩

example := C52_tokens Examples.disc (wf_of_check (by decide))
example : ∃ toks, toConllx Examples.disc = .ok toks ∧ toks.map Token.form = ["a".toList, "b".toList, "c".toList, "d".toList] :=
  ⟨_, rfl, by decide⟩

end Props
end Lumberjack
