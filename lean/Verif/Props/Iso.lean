import Verif.Proofs.Iso
import Verif.Props.Cross
import Verif.Props.Equality
import Verif.Proofs.Check

/-!
# What is written depends on the tree alone (C74)
-/

namespace Lumberjack
namespace Props

open Lumberjack.Tree Lumberjack.Convert

/-- C74: two well-formed trees without secondary edges that have the same words and nodes with the same content and the
same edge labels in the same places differ at most in the numbering of nodes and edges. -/
theorem C74_same_tree (t u : Tree) (W : t.WF) (W' : u.WF) (hs : t.NoSecondary) (hs' : u.NoSecondary) (f : Forest)
    (h : t.Is f) (h' : u.Is f) : ∃ φ, Iso t u φ :=
  iso_of_is W W' h h' hs hs'

/-- C74: trees that differ only in the numbering are the same tree: they compare equal, stand for the same nested
constituents and have the same words, and both have gaps or none has. -/
theorem C74_same_queries (t u : Tree) (φ : Nat → Nat) (I : Iso t u φ) (W : t.WF) (W' : u.WF) :
    t.eq u = .ok true ∧ (∀ f, u.Is f ↔ t.Is f) ∧ (∀ ts, u.Terminals ts ↔ t.Terminals ts) ∧
      u.isProjective = t.isProjective ∧ u.nTerminals = t.nTerminals := by
  obtain ⟨f, hf⟩ := W.is_exists
  have hf' := I.is W W' hf
  refine ⟨?_, ?_, ?_, I.projective W W', I.nTerminals W W'⟩
  · obtain ⟨b, h1, h2⟩ := C21_equality t u W W' f f hf hf'
    have hb : b = true := h2.2 (.inr (Forest.Same.refl f))
    rw [h1, hb]
  · exact fun g => ⟨fun h => by rwa [Rep.unique h hf'], fun h => I.is W W' h⟩
  · intro ts
    refine ⟨fun h => ?_, fun h => I.terminals W W' h⟩
    obtain ⟨ts', h', _⟩ := C52_terminals t W
    rwa [Terminals.unique W' h (I.terminals W W' h')]

/-- C74: what is written for a tree, in whatever output format, does not depend on the numbering of its nodes and
edges, nor on what is left over from earlier changes.  For the NEGRA format the root must be a nonterminal, secondary
edges must start at nonterminals, and no node may have two. -/
theorem C74_written (t u : Tree) (φ : Nat → Nat) (I : Iso t u φ) (W : t.WF) (W' : u.WF) (out : OutFormat)
    (h : out = .negra → t.IsNt t.root ∧ t.OneSecondary ∧ t.SecondaryNt)
    (pick pick' : Tree → Finset Nat → Option Nat) (c : Nat) :
    convertTree pick (plain out) none c t = convertTree pick' (plain out) none c u :=
  (iso_convert I W W' out h pick' pick' c).symm ▸ rfl

/-- C74: two runs without further options that read, from whatever formats, trees that differ only in the numbering,
write the same and end the same. -/
theorem C74_runs (f f' : InFormat) (multiline multiline' : Bool) (pick pick' : Tree → Finset Nat → Option Nat)
    (out : OutFormat) (src src' : Source) (ts us : List Tree) (hs : Stream f multiline src (ts.map .ok) true)
    (hs' : Stream f' multiline' src' (us.map .ok) true)
    (h : List.Forall₂ (fun t u => t.WF ∧ u.WF ∧ (out = .negra → t.IsNt t.root ∧ t.OneSecondary ∧ t.SecondaryNt) ∧
      ∃ φ, Iso t u φ) ts us) :
    main f multiline pick (plain out) src none = main f' multiline' pick' (plain out) src' none := by
  obtain ⟨items, b, k1, k2, _⟩ := stream_exists f multiline src.size src (Nat.le_refl _)
  obtain ⟨rfl, rfl⟩ := hs.unique k1
  obtain ⟨items', b', k1', k2', _⟩ := stream_exists f' multiline' src'.size src' (Nat.le_refl _)
  obtain ⟨rfl, rfl⟩ := hs'.unique k1'
  rw [List.length_map] at k2 k2'
  exact iso_loop h hs hs' (Nat.lt_succ_of_le k2) (Nat.lt_succ_of_le k2')

/-! ## The hypotheses are met -/

/-- The renumbering given by a list. -/
def renumber (m : List Nat) (n : Nat) : Nat := m[n]?.getD 0

/-- A check that trees differ only in the numbering. -/
def isoB (t u : Tree) (m : List Nat) : Bool :=
  let live := (List.range t.graph.nodes.length).filter t.graph.contains
  decide (u.root = renumber m t.root) &&
  live.all (fun a => live.all fun b => decide (renumber m a = renumber m b → a = b)) &&
  ((List.range u.graph.nodes.length).filter u.graph.contains).all (fun a => live.any fun b => decide (renumber m b = a)) &&
  live.all (fun n => decide (u.graph.node? (renumber m n) = t.graph.node? n)) &&
  t.graph.edges.all (fun e => t.graph.contains e.src && t.graph.contains e.tgt &&
    u.graph.edges.any fun e' => decide (e'.src = renumber m e.src ∧ e'.tgt = renumber m e.tgt ∧ e'.w = e.w)) &&
  u.graph.edges.all (fun e' => t.graph.edges.any fun e =>
    decide (e'.src = renumber m e.src ∧ e'.tgt = renumber m e.tgt ∧ e'.w = e.w))

theorem mem_live (t : Tree) (n : Nat) : n ∈ (List.range t.graph.nodes.length).filter t.graph.contains ↔ t.Live n := by
  rw [List.mem_filter, List.mem_range]
  constructor
  · rintro ⟨_, h⟩
    exact Option.isSome_iff_exists.1 h
  · rintro ⟨x, h⟩
    refine ⟨?_, by rw [Graph.contains, h]; rfl⟩
    unfold Graph.node? at h
    by_contra hl
    rw [List.getElem?_eq_none (by omega)] at h
    cases h

theorem isoB_sound {t u : Tree} {m : List Nat} (h : isoB t u m = true) : Iso t u (renumber m) := by
  simp only [isoB, Bool.and_eq_true, List.all_eq_true, List.any_eq_true, decide_eq_true_eq, mem_live] at h
  obtain ⟨⟨⟨⟨⟨h1, h2⟩, h3⟩, h4⟩, h5⟩, h6⟩ := h
  have hl : ∀ n, t.graph.contains n = true → t.Live n := fun n h => Option.isSome_iff_exists.1 h
  refine ⟨h1, fun n k hn hk => h2 n hn k hk, fun n hn => h3 n hn, h4, fun p n w hp hn => ⟨?_, ?_⟩⟩
  · rintro ⟨e, he, rfl, rfl, rfl⟩
    obtain ⟨_, e', he', k1, k2, k3⟩ := h5 e he
    exact ⟨e', he', k1, k2, k3⟩
  · rintro ⟨e', he', k1, k2, rfl⟩
    obtain ⟨e, he, m1, m2, m3⟩ := h6 e' he'
    obtain ⟨⟨g1, g2⟩, _⟩ := h5 e he
    exact ⟨e, he, h2 _ (hl _ g1) _ hp (m1.symm.trans k1), h2 _ (hl _ g2) _ hn (m2.symm.trans k2), m3.symm⟩

/-- The tree `Examples.proj` as it is after a history: other indices, an unused slot, edges in another order. -/
def projAgain : Tree :=
  ⟨⟨[Examples.tm "the" "D" 0, none, Examples.tm "dog" "N" 1, Examples.tm "barks" "V" 2,
      Examples.nt "NP" ⟨0, 2, none⟩, Examples.nt "ROOT" ⟨0, 3, none⟩],
    [1], [Examples.pe 3 5 3, Examples.pe 1 5 4, Examples.pe 2 4 2, Examples.pe 4 4 0], 5, [0]⟩, 3, 5, 0⟩

theorem projAgain_wf : projAgain.WF := wf_of_check (by decide +kernel)

example : Iso Examples.proj projAgain (renumber [5, 3, 4, 2, 0]) := isoB_sound (by decide +kernel)

/-- The two are written the same in every format. -/
example (out : OutFormat) (c : Nat) :
    convertTree minPick (plain out) none c Examples.proj = convertTree minPick (plain out) none c projAgain := by
  refine C74_written _ _ _ (isoB_sound (m := [5, 3, 4, 2, 0]) (by decide +kernel)) proj_wf projAgain_wf out ?_ _ _ c
  intro _
  have hp : ∀ e ∈ Examples.proj.graph.edges, e.w.isPrimary = true := by decide +kernel
  refine ⟨⟨_, rfl⟩, ?_, ?_⟩
  · intro e he e' _ h
    rw [hp e he] at h; cases h
  · intro e he h
    rw [hp e he] at h; cases h

/-- A tree without secondary edges, with its nested constituents. -/
example : ∃ f φ, Examples.proj.Is f ∧ projAgain.Is f ∧ Iso Examples.proj projAgain φ := by
  obtain ⟨f, hf⟩ := proj_wf.is_exists
  have I : Iso Examples.proj projAgain (renumber [5, 3, 4, 2, 0]) := isoB_sound (by decide +kernel)
  have hf' := (C74_same_queries _ _ _ I proj_wf projAgain_wf).2.1 f |>.2 hf
  have n1 : Examples.proj.NoSecondary := by unfold NoSecondary; decide +kernel
  have n2 : projAgain.NoSecondary := by unfold NoSecondary; decide +kernel
  obtain ⟨φ, h⟩ := C74_same_tree _ _ proj_wf projAgain_wf n1 n2 f hf hf'
  exact ⟨f, φ, hf, hf', h⟩

/-- `Examples.nested` with the given secondary edges. -/
def withSecondary (es : List EdgeRec) : Tree :=
  { Examples.nested with graph := { Examples.nested.graph with
      edges := es ++ Examples.nested.graph.edges, edgeSlots := 7 } }

/-- C74: with two secondary parents the NEGRA format holds the one that was added last, so the history shows. -/
theorem C74_two_secondary : ∃ t u : Tree, t.WF ∧ u.WF ∧ Iso t u (renumber [0, 1, 2, 3, 4, 5]) ∧ t.IsNt t.root ∧ t.SecondaryNt ∧
    convertTree minPick (plain .negra) none 0 t ≠ convertTree minPick (plain .negra) none 0 u := by
  refine ⟨withSecondary [⟨6, 3, 2, .secondary (some ['x'])⟩, ⟨5, 4, 2, .secondary (some ['y'])⟩],
    withSecondary [⟨6, 4, 2, .secondary (some ['y'])⟩, ⟨5, 3, 2, .secondary (some ['x'])⟩],
    wf_of_check (by decide +kernel), wf_of_check (by decide +kernel), isoB_sound (by decide +kernel), ⟨_, rfl⟩, ?_,
    by decide +kernel⟩
  intro r hr hw
  simp only [withSecondary, List.cons_append, List.nil_append, List.mem_cons] at hr
  rcases hr with rfl | rfl | hr
  · exact ⟨_, rfl⟩
  · exact ⟨_, rfl⟩
  · have hp : ∀ e ∈ Examples.nested.graph.edges, e.w.isPrimary = true := by decide +kernel
    rw [hp r hr] at hw; cases hw

/-- A sentence on one line in one format, and on two lines in another. -/
def oneLine : List Str := ["(S (A (B a) (B b)))".toList]
def twoLines : List Str := ["(S (A (B a)", " (B b)))"].map String.toList

/-- What is read from the two files is the same tree. -/
def sameItems (r r' : Res (List (Except Err Tree))) (m : List Nat) : Bool :=
  match r, r' with
  | .ok [.ok t], .ok [.ok u] => isoB t u m && Negra.exportB t && Negra.exportB u && t.graph.edges.all fun e => e.w.isPrimary
  | _, _ => false

theorem sameItems_spec {r r' : Res (List (Except Err Tree))} {m : List Nat} (h : sameItems r r' m = true) :
    ∃ t u : Tree, r = .ok [.ok t] ∧ r' = .ok [.ok u] ∧ Iso t u (renumber m) ∧ Negra.Exportable t ∧ Negra.Exportable u ∧
      t.NoSecondary := by
  unfold sameItems at h
  split at h
  · rename_i t u
    simp only [Bool.and_eq_true, List.all_eq_true] at h
    exact ⟨t, u, rfl, rfl, isoB_sound h.1.1.1, Negra.export_of_check h.1.1.2, Negra.export_of_check h.1.2, h.2⟩
  · cases h

example (out : OutFormat) : main .simple false minPick (plain out) ⟨oneLine, []⟩ none =
    main .ptb true minPick (plain out) ⟨twoLines, []⟩ none := by
  obtain ⟨t, u, h1, h2, h3, h4, h5, h6⟩ := sameItems_spec (r := Ptb.readAll .simple .single 2 oneLine)
    (r' := Ptb.readAll .ptb .multi 3 twoLines) (m := [0, 1, 2, 3]) (by decide +kernel)
  have hs := (ptb_stream .simple .simple false (next_bracket .simple false) 2 oneLine [] _ h1).1
  have hs' := (ptb_stream .ptb .ptb true (next_bracket .ptb true) 3 twoLines [] _ h2).1
  refine C74_runs _ _ _ _ _ _ out _ _ [t] [u] hs hs' (.cons ⟨h4.wf, h5.wf, fun _ => ⟨h4.root, ?_, ?_⟩, _, h3⟩ .nil)
  · intro e he e' _ h
    rw [h6 e he] at h; cases h
  · intro e he h
    rw [h6 e he] at h; cases h

end Props
end Lumberjack
