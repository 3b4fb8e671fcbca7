import Verif.Proofs.DecodeTrip
import Verif.Proofs.Check
import Verif.Spec.Examples
import Verif.Props.Encoding

/-!
# Decoding tag sequences (C32, C33, C35)
-/

namespace Lumberjack
namespace Props

open Lumberjack.Tree

/-! ## C32 -/

/-- C32: decoding the absolute encoding of a projective tree without unary branches (unlabelled edges, no
features on nonterminals but `unary_chain`, labels without `_`) with its terminals gives a well-formed
tree equal to it, which even agrees in word forms. -/
theorem C32_roundtrip (t : Tree) (W : t.WF) (hp : t.isProjective = true) (H : t.Encodable)
    (ts : List Terminal) (hts : t.Terminals ts) :
    ∃ e t', t.encodeAbsolute = .ok (.ok e) ∧ decode e ts = .ok t' ∧ t'.WF ∧ t'.isProjective = true ∧
      t.eq t' = .ok true ∧ t'.Terminals ts ∧ ∃ f f', t.Is f ∧ t'.Is f' ∧ f'.norm = f.norm := by
  obtain ⟨f, hf⟩ := W.is_exists
  have h0 := hts.unique W (terminals_leaves W hp hf)
  subst h0
  obtain ⟨t', h1, h2, h3, h4, h5⟩ := decode_encode W hp H hf
  refine ⟨_, t', encodeAbsolute_eq W hp hf, h1, h2, h3, ?_, ?_, f, _, hf, h4, h5⟩
  · obtain ⟨b, hb, hb'⟩ := eq_spec W h2 hf h4
    rw [hb, hb'.2 (.inr (Forest.same_of_norm h5.symm))]
  · have := terminals_leaves h2 h3 h4
    rw [Forest.leaves_respan, Forest.leaves_redecode (fun x hx => by
      obtain ⟨m, hm⟩ := mem_leaf hf x hx; exact H.sorted m x hm)] at this
    exact this

/-- A simple way to meet the provisos. -/
theorem encodable_plain (t : Tree)
    (hn : ∀ o ∈ t.graph.nodes, ∀ nd ∈ o, nd.features = none ∧ '_' ∉ nd.label)
    (he : ∀ r ∈ t.graph.edges, r.w = .primary none)
    (hu : ∀ r ∈ t.graph.edges, ∃ s ∈ t.graph.edges, s.src = r.src ∧ s.tgt ≠ r.tgt) : t.Encodable := by
  have hn' : ∀ n nd, t.graph.node? n = some nd → nd.features = none ∧ '_' ∉ nd.label := by
    intro n nd h
    unfold Graph.node? at h
    rw [Option.join_eq_some_iff] at h
    exact hn _ (List.mem_of_getElem? h) nd rfl
  refine ⟨?_, ?_, ?_, ?_, ?_⟩
  · rintro n c ⟨⟨r, hr, h1, h2, -⟩, hall⟩
    obtain ⟨s, hs, h3, h4⟩ := hu r hr
    exact h4 ((hall s.tgt ⟨s, hs, h3.trans h1, rfl, by rw [he s hs]; rfl⟩).trans h2.symm)
  · intro r hr _; rw [he r hr]; rfl
  · intro n x h
    have : x.features = none := (hn' n _ h).1
    rw [this]; exact .inl rfl
  · intro n x h; exact (hn' n _ h).2
  · intro n x h
    have : x.features = none := (hn' n _ h).1
    rw [this]; exact List.Pairwise.nil

theorem proj_terminals : Examples.proj.Terminals [Terminal.new "the".toList "D".toList 0,
    Terminal.new "dog".toList "N".toList 1, Terminal.new "barks".toList "V".toList 2] := by
  refine ⟨rfl, ?_⟩
  rintro n x i hx ⟨y, hy, hs⟩
  rw [hx] at hy
  simp only [Option.some.injEq, Node.term.injEq] at hy
  subst hy
  have hlt : n < 5 := Graph.lt_of_node? hx
  have : n = 0 ∨ n = 1 ∨ n = 2 ∨ n = 3 ∨ n = 4 := by omega
  rcases this with rfl | rfl | rfl | rfl | rfl <;>
    simp [Examples.proj, Graph.node?, Examples.nt, Examples.tm] at hx <;> subst hx <;>
    simp [Terminal.new, Span.ofIdx] at hs <;> obtain ⟨rfl, -⟩ := hs <;> rfl

example := C32_roundtrip Examples.proj (wf_of_check (by decide)) (by decide)
  (encodable_plain _ (by decide +kernel) (by decide +kernel) (by decide +kernel)) _ proj_terminals

/-- The provisos are needed: without collapsing first, unary nodes are lost ... -/
theorem C32_unary_lost : ∃ e t', Examples.chain.encodeAbsolute = .ok (.ok e) ∧
    decode e [Terminal.new "a".toList "N".toList 0, Terminal.new "b".toList "V".toList 1] = .ok t' ∧
    Examples.chain.eq t' = .ok false := ⟨_, _, rfl, rfl, by decide +kernel⟩

/-- ... and a label with `_` is taken for a chain. -/
theorem C32_delimiter_in_label :
    let t : Tree := ⟨⟨[Examples.nt "A_B" ⟨0, 2, none⟩, Examples.tm "a" "N" 0, Examples.tm "b" "V" 1], [],
      [Examples.pe 1 0 2, Examples.pe 0 0 1], 2, []⟩, 2, 0, 0⟩
    t.WF ∧ ∃ e t', t.encodeAbsolute = .ok (.ok e) ∧
      decode e [Terminal.new "a".toList "N".toList 0, Terminal.new "b".toList "V".toList 1] = .ok t' ∧
      t.eq t' = .ok false := ⟨wf_of_check (by decide +kernel), _, _, rfl, rfl, by decide +kernel⟩

/-! ## C33 -/

/-- C33: `decode` is total on encodings as long as the non-empty terminal list whose counts are at least
one, if the terminals are at the positions 0, 1, ...: the result is a well-formed projective tree over
the given terminals in order, each with the chain of its entry.  The tree is the one the sequence stands
for according to `Decoding.forest`. -/
theorem C33_decode (e : AbsEncoding) (ts : List Terminal) (hl : e.length = ts.length) (hne : ts ≠ [])
    (hp : AbsPositive e) (hs : ∀ i x, ts[i]? = some x → x.span = Span.ofIdx i) :
    ∃ t, decode e ts = .ok t ∧ t.WF ∧ t.isProjective = true ∧
      t.Terminals ((e.zip ts).map fun p => Decoding.chained p.1.2 p.2) ∧
      t.Is ((Decoding.forest e ts).respan 0) := by
  obtain ⟨t, h1, h2, h3, h4⟩ := Decoding.decode_spec hl hne hp (by
    refine List.ext_getElem? (fun i => ?_)
    rw [List.getElem?_map, List.getElem?_map]
    cases hx : ts[i]? with
    | none =>
      rw [List.getElem?_eq_none_iff] at hx
      rw [List.getElem?_eq_none (by simpa using hx)]; rfl
    | some x =>
      have hi := (List.getElem?_eq_some_iff.1 hx).1
      rw [List.getElem?_range hi]
      simp [hs i x hx])
  refine ⟨t, h1, h2, h3, ?_, h4⟩
  have := terminals_leaves h2 h3 h4
  rw [Forest.leaves_respan, (Decoding.forest_inv hl hne hp).2.2.1] at this
  exact this

/-- A tree with a new node, one that is finished and one labelled twice. -/
example := C33_decode [(some ⟨2, "NP".toList⟩, none), (some ⟨1, "S".toList⟩, some "X".toList), (some ⟨4, "VP".toList⟩, none),
    (none, none)]
  [Terminal.new "a".toList "N".toList 0, Terminal.new "b".toList "V".toList 1, Terminal.new "c".toList "V".toList 2,
    Terminal.new "d".toList "V".toList 3] rfl (by simp)
  (by unfold AbsPositive; decide) (by
    intro i x h
    rcases i with _ | _ | _ | _ | i <;> simp at h <;> subst h <;> rfl)

/-- C33: surplus entries are ignored. -/
theorem C33_surplus (e : AbsEncoding) (ts : List Terminal) : decode e ts = decode (e.take ts.length) ts := by
  have : ∀ (e : AbsEncoding) (ts : List Terminal), e.zip ts = (List.take ts.length e).zip ts := by
    intro e
    induction e with
    | nil => intro ts; simp
    | cons a e ih =>
      intro ts
      cases ts with
      | nil => simp
      | cons x ts => simp [ih ts]
  unfold decode
  rw [this e ts]

/-- C33: a count of zero panics ... -/
theorem C33_zero_count (e : AbsEncoding) (ts : List Terminal) (hl : e.length = ts.length)
    (h : ¬ AbsPositive e) : decode e ts = .panic := by
  refine Decoding.decode_zero hl ?_
  unfold AbsPositive at h
  push Not at h
  obtain ⟨p, hp, a, ha, h0⟩ := h
  exact ⟨p, hp, a, ha, by omega⟩

/-- ... and so do an empty encoding and an empty sentence. -/
theorem C33_empty (e : AbsEncoding) (ts : List Terminal) (h : e = [] ∨ ts = []) : decode e ts = .panic :=
  Decoding.decode_nil e ts h

/-- An encoding that is too short gives a tree that is not well formed: it claims more terminals than it
has. -/
theorem C33_short : ∃ t, decode [(some ⟨1, "S".toList⟩, none)]
    [Terminal.new "a".toList "N".toList 0, Terminal.new "b".toList "V".toList 1] = .ok t ∧ ¬ t.WF := by
  refine ⟨⟨⟨[Examples.nt "S" ⟨0, 1, none⟩, Examples.tm "a" "N" 0], [], [Examples.pe 0 0 1], 1, []⟩, 2, 0, 0⟩,
    by decide +kernel, fun W => ?_⟩
  obtain ⟨n, x, hx, hs⟩ := W.sentence.occupied 1 (by decide)
  have hlt : n < 2 := Graph.lt_of_node? hx
  have : n = 0 ∨ n = 1 := by omega
  rcases this with rfl | rfl
  · simp [Graph.node?, Examples.nt] at hx
  · simp [Graph.node?, Examples.nt, Examples.tm] at hx
    subst hx
    simp [Terminal.new, Span.ofIdx] at hs

/-! ## C35, decoding -/

/-- C35: whatever relative encoding a tagger predicts, the repaired conversion can be decoded. -/
theorem C35_decodable (e : RelEncoding) (ts : List Terminal) (hl : e.length = ts.length) (hne : ts ≠ [])
    (hs : ∀ i x, ts[i]? = some x → x.span = Span.ofIdx i) :
    ∃ t, decode (tryFromRelative e).unwrapOrFix ts = .ok t ∧ t.WF ∧ t.isProjective = true ∧
      t.Terminals (((tryFromRelative e).unwrapOrFix.zip ts).map fun p => Decoding.chained p.1.2 p.2) := by
  obtain ⟨h1, h2, h3⟩ := C35_unwrap_or_fix e
  obtain ⟨t, q1, q2, q3, q4, -⟩ := C33_decode _ ts (h1.trans hl) hne h3 hs
  exact ⟨t, q1, q2, q3, q4⟩

end Props
end Lumberjack
