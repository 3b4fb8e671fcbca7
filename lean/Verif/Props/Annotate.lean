import Verif.Proofs.Annotate
import Verif.Props.TreeQuery

/-!
# Annotating terminals (C29, C30)
-/

namespace Lumberjack
namespace Props

open Lumberjack.Tree

/-! ## C29 -/

/-- C29: `annotate_pos(tags)` returns `Ok` exactly if there are as many tags as terminals, and
otherwise says which there are too few of.  The terminal with the `k`-th smallest node index gets
the `k`-th tag, if there is one; nothing but tags of terminals changes, also on `Err`. -/
theorem C29_annotate_pos (t : Tree) (W : t.WF) (tags : List Str) :
    ∃ t' r, t.annotatePos tags = .ok (t', r) ∧
      (r = .ok () ↔ tags.length = t.nTerminals) ∧
      (r = .error .tooManyPos ↔ t.nTerminals < tags.length) ∧
      (r = .error .notEnoughPos ↔ tags.length < t.nTerminals) ∧
      ∃ pos : Nat → Terminal → Str, TermEdit t t' (fun n x => { x with pos := pos n x }) ∧
        ∀ l : List Nat, l.Pairwise (· < ·) → (∀ n, n ∈ l ↔ t.IsTerm n) →
          ∀ (k n : Nat), l[k]? = some n → ∀ x, pos n x = tags[k]?.getD x.pos := by
  obtain ⟨t', h1, h2⟩ := annotatePos_spec t tags
  have hlen : t.terminals.length = t.nTerminals := by
    rw [← (sortIndices_perm (t := t) t.terminals).length_eq, sorted_terminals_length W.sentence]
  rw [hlen] at h1
  refine ⟨t', _, h1, ?_, ?_, ?_, fun n x => (posEdit t.terminals tags n x).pos, ?_, ?_⟩
  · split
    · simp; omega
    · split <;> simp <;> omega
  · split
    · simpa
    · split <;> simp <;> omega
  · split
    · simp; omega
    · split <;> simp <;> omega
  · have : (fun n x => { x with pos := (posEdit t.terminals tags n x).pos }) =
        posEdit t.terminals tags := by
      funext n x
      unfold posEdit
      split
      · split <;> rfl
      · rfl
    rw [this]; exact h2
  · intro l hl hm k n hk x
    have hsort : t.terminals.Pairwise (· < ·) := by
      unfold terminals Graph.nodeIndices
      exact (List.pairwise_lt_range.filter _).filter _
    have : t.terminals = l := by
      refine List.Perm.eq_of_pairwise (le := (· < ·)) (fun a b _ _ h1 h2 => by omega) hsort hl ?_
      rw [List.perm_ext_iff_of_nodup terminals_nodup (hl.imp (fun h => Nat.ne_of_lt h))]
      intro a; rw [mem_terminals, hm]
    rw [this]
    have hkl : k < l.length := (List.getElem?_eq_some_iff.1 hk).1
    have hnl : n ∈ l := List.mem_of_getElem? hk
    have hidx : l.idxOf n = k := by
      rw [← (List.getElem?_eq_some_iff.1 hk).2]
      exact List.Nodup.idxOf_getElem (hl.imp (fun h => Nat.ne_of_lt h)) _ _
    simp only [posEdit, if_pos hnl, hidx]
    cases tags[k]? <;> rfl

/-- C29: if node indices of terminals increase with their positions (as in every tree read from
text), the terminal at sentence position `i` gets the `i`-th tag. -/
theorem C29_by_position (t : Tree) (W : t.WF) (tags : List Str) (hl : tags.length = t.nTerminals)
    (ho : ∀ n m i j, t.TermAt n i → t.TermAt m j → (n < m ↔ i < j)) :
    ∃ t', t.annotatePos tags = .ok (t', .ok ()) ∧ t'.WF ∧
      ∀ n i x, t.TermAt n i → t.graph.node? n = some (.term x) →
        ∃ p, tags[i]? = some p ∧ t'.graph.node? n = some (.term { x with pos := p }) := by
  obtain ⟨t', r, h1, h2, _, _, pos, h3, h4⟩ := C29_annotate_pos t W tags
  rw [h2.2 hl] at h1
  refine ⟨t', h1, h3.wf (fun _ _ => rfl) W, ?_⟩
  intro n i x hn hx
  obtain ⟨y, hy, _⟩ := id hn
  have hlt : i < t.nTerminals := by
    obtain ⟨j, hj, hj2⟩ := W.sentence.pos n ⟨y, hy⟩
    rw [← hn.startOf, hj2.startOf]; exact hj
  obtain ⟨p, hp⟩ : ∃ p, tags[i]? = some p := ⟨_, List.getElem?_eq_getElem (by omega)⟩
  refine ⟨p, hp, ?_⟩
  rw [h3.term n x hx, h4 (t.sortIndices t.terminals) ?_ ?_ i n (sorted_terminals_get W.sentence hn) x,
    hp]
  · rfl
  · have hpos := sorted_terminals_positions W.sentence
    have hstr : ((t.sortIndices t.terminals).map t.startOf).Pairwise (· < ·) := by
      rw [hpos]; exact List.pairwise_lt_range
    rw [List.pairwise_map] at hstr
    refine hstr.imp_of_mem ?_
    intro a b ha hb hab
    have ha' := W.sentence.termAt (mem_terminals.1 ((sortIndices_perm _).mem_iff.1 ha))
    have hb' := W.sentence.termAt (mem_terminals.1 ((sortIndices_perm _).mem_iff.1 hb))
    exact (ho a b _ _ ha' hb').2 hab
  · intro m
    rw [(sortIndices_perm _).mem_iff, mem_terminals]

example : ∀ n m i j, Examples.nested.TermAt n i → Examples.nested.TermAt m j → (n < m ↔ i < j) := by
  have key : ∀ n < 6, ∀ x, Examples.nested.graph.node? n = some (.term x) → x.span.start = n := by
    intro n hn x hx
    have h : ∀ n < 6, ∀ x ∈ (Examples.nested.graph.node? n).bind Node.terminal,
      x.span.start = n := by decide
    exact h n hn x (by rw [hx]; rfl)
  have : ∀ n i, Examples.nested.TermAt n i → n = i := by
    rintro n i ⟨x, hx, hs⟩
    have hn : n < 6 := by
      by_contra h
      have : Examples.nested.graph.node? n = none := by
        simp only [Graph.node?, Examples.nested]
        rw [List.getElem?_eq_none (by simp; omega)]
        rfl
      rw [this] at hx
      simp at hx
    rw [← key n hn x hx, hs]; rfl
  intro n m i j h1 h2
  rw [this n i h1, this m j h2]

/-- Without that hypothesis tags go to the wrong words: in `proj`, whose node indices are not in
sentence order, the tag for "the" ends up on "barks". -/
theorem C29_order_refuted : ∃ t : Tree, t.WF ∧ ∃ tags t', tags.length = t.nTerminals ∧
    t.annotatePos tags = .ok (t', .ok ()) ∧ ∃ n x, t'.TermAt n 0 ∧
      t'.graph.node? n = some (.term x) ∧ tags[0]? ≠ some x.pos := by
  refine ⟨Examples.proj, proj_wf, ["D".toList, "N".toList, "V".toList], _, rfl, rfl, 4, _, ⟨_, rfl, rfl⟩,
    rfl, by decide⟩

/-- On `Err` the tree is changed already. -/
theorem C29_err_mutates : ∃ t : Tree, t.WF ∧ ∃ tags t' e, t.annotatePos tags = .ok (t', .error e) ∧
    t' ≠ t :=
  ⟨Examples.nested, nested_wf, ["Q".toList], _, _, rfl, by decide⟩

/-! ## C30 -/

/-- The predicate used in the examples: the node is labelled `NP`. -/
def isNP (t : Tree) (n : Nat) : Bool :=
  match t.graph.node? n with
  | some (.nt x) => x.label = "NP".toList
  | _ => false

theorem isNP_ignores : IgnoresTermFeatures isNP := by
  rintro t t' ⟨fs, h⟩ n
  unfold isNP
  cases hn : t.graph.node? n with
  | none => rw [h.none n hn]
  | some nd =>
    cases nd with
    | nt x => rw [h.nt n x hn]
    | term x => rw [h.term n x hn]

/-- C30: `annotate_parent_tag(name)` sets feature `name` of every terminal to the label of its
parent and changes nothing else; it is `Err`, with nothing changed, exactly if the root is a
terminal. -/
theorem C30_parent_tag (t : Tree) (W : t.WF) (name : Str) :
    (t.IsNt t.root → ∃ (t' : Tree) (val : Nat → Str), t.annotateParentTag name = .ok (t', .ok ()) ∧
      TermEdit t t' (fun n => withFeature name (val n)) ∧
      ∀ n p x, t.IsTerm n → t.IsChild p n → t.graph.node? p = some (.nt x) → val n = x.label) ∧
    (t.IsTerm t.root → t.annotateParentTag name = .ok (t, .error .terminalNoParent)) := by
  constructor
  · intro hr
    obtain ⟨t', h1, h2⟩ := annotateParentTag_spec W name hr
    have hcons : ∀ n, t.IsTerm n → ∃ p l, t.ancList n = p :: l ∧ t.IsChild p n := by
      rintro n ⟨x, hx⟩
      have hal := ancList_anc W.shape (n := n) ⟨_, hx⟩
      cases hl : t.ancList n with
      | nil =>
        rw [hl] at hal
        have hnr : n ≠ t.root := by
          rintro rfl
          obtain ⟨y, hy⟩ := hr
          rw [hy] at hx; simp at hx
        obtain ⟨p, hp⟩ := W.shape.exists_parent (n := n) ⟨_, hx⟩ hnr
        exact absurd hp (hal p)
      | cons p l => rw [hl] at hal; exact ⟨p, l, rfl, hal.1⟩
    refine ⟨t', fun n => (((t.ancList n).head?).map t.labelAt).getD [], h1,
      ⟨h2.graph, h2.root, h2.nTerm, h2.disc, h2.len, h2.none, h2.nt, ?_⟩, ?_⟩
    · intro n x hx
      rw [h2.term n x hx]
      obtain ⟨p, l, hl, _⟩ := hcons n ⟨x, hx⟩
      simp [hl]
    · intro n p x hn hp hx
      obtain ⟨q, l, hl, hq⟩ := hcons n hn
      have := W.shape.isChild_unique hp hq
      subst this
      simp [hl, labelAt, hx, Node.label]
  · rintro ⟨x, hx⟩
    have honly : ∀ n, t.IsTerm n ↔ n = t.root := by
      intro n
      constructor
      · rintro ⟨y, hy⟩
        exact W.shape.dom_term ⟨x, hx⟩ (W.shape.reach n ⟨_, hy⟩)
      · rintro rfl; exact ⟨x, hx⟩
    have hts : t.terminals = [t.root] := by
      refine List.perm_singleton.1 ((List.perm_ext_iff_of_nodup terminals_nodup (by simp)).2 ?_)
      intro a; rw [mem_terminals, honly]; simp
    unfold annotateParentTag
    rw [hts]
    have hp : t.parent t.root = none := parent_none.2 W.shape.root_top
    simp only [forE, hp, Tree.node, hx, Res.ofOption_some, Res.ok_bind, Res.pure_eq]

example : Examples.proj.IsNt Examples.proj.root ∧ ∃ t', Examples.proj.annotateParentTag "p".toList =
    .ok (t', .ok ()) ∧ (t'.graph.node? 4).bind Node.features = some ⟨[("p".toList, some "NP".toList)]⟩ :=
  ⟨⟨_, rfl⟩, _, rfl, rfl⟩

/-- C30: `project_tag_set(name, f)` sets feature `name` of every terminal that has an ancestor
matching `f` to the label of the closest one, and changes nothing else. -/
theorem C30_project_tag_set (t : Tree) (W : t.WF) (name : Str) (f : Tree → Nat → Bool)
    (hf : IgnoresTermFeatures f) :
    ∃ (t' : Tree) (val : Nat → Option Str), t.projectTagSet name f = .ok t' ∧
      TermEdit t t' (fun n x => match val n with
        | some v => withFeature name v x
        | none => x) ∧
      ∀ n, t.IsTerm n →
        (∀ a x, t.Closest f n a → t.graph.node? a = some (.nt x) → val n = some x.label) ∧
        ((¬ ∃ a, t.Closest f n a) → val n = none) := by
  obtain ⟨t', h1, h2⟩ := projectTagSet_spec W name hf
  refine ⟨t', fun n => ((t.ancList n).find? (f t)).map t.labelAt, h1, h2, ?_⟩
  rintro n ⟨y, hy⟩
  have hal := ancList_anc W.shape (n := n) ⟨_, hy⟩
  constructor
  · intro a x ha hx
    simp only [(closest_find W hal).2 ha]
    simp [labelAt, hx, Node.label]
  · intro h
    simp only [(closest_none W hal).2 h]
    rfl

example : Examples.proj.Closest isNP 4 2 ∧ ∃ t', Examples.proj.projectTagSet "p".toList isNP =
    .ok t' ∧ (t'.graph.node? 4).bind Node.features = some ⟨[("p".toList, some "NP".toList)]⟩ ∧
    (t'.graph.node? 1).bind Node.features = none :=
  ⟨(closest_find proj_wf (l := [2, 0]) (by
      refine ⟨⟨Examples.pe 3 2 4, by decide, rfl, rfl, rfl⟩,
        ⟨Examples.pe 1 0 2, by decide, rfl, rfl, rfl⟩, ?_⟩
      exact proj_wf.shape.root_top)).1 (by decide), _, rfl, rfl, rfl⟩

/-- C30: `project_ids(name, f)` numbers the closest matching ancestors of terminals consecutively
from 0 (`ids` lists them in the order of their numbers) in the order in which they come first, going through the
terminals by index, and sets feature `name` of every terminal
that has one to its number, changing nothing else; so two terminals get the same identifier exactly
if they have the same closest matching ancestor. -/
theorem C30_project_ids (t : Tree) (W : t.WF) (name : Str) (f : Tree → Nat → Bool)
    (hf : IgnoresTermFeatures f) :
    ∃ (t' : Tree) (val : Nat → Option Str) (ids : List Nat), t.projectIds name f = .ok t' ∧
      ids.Nodup ∧ (∀ a, a ∈ ids ↔ ∃ n, t.IsTerm n ∧ t.Closest f n a) ∧
      (∀ (k k' a a' : Nat), ids[k]? = some a → ids[k']? = some a' → k < k' →
        ∃ n, t.IsTerm n ∧ t.Closest f n a ∧ ∀ m, t.IsTerm m → t.Closest f m a' → n < m) ∧
      TermEdit t t' (fun n x => match val n with
        | some v => withFeature name v x
        | none => x) ∧
      (∀ n, t.IsTerm n →
        (∀ a, t.Closest f n a → ∃ k, ids[k]? = some a ∧ val n = some (Nat.toDigits 10 k)) ∧
        ((¬ ∃ a, t.Closest f n a) → val n = none)) ∧
      (∀ n m a b, t.IsTerm n → t.IsTerm m → t.Closest f n a → t.Closest f m b →
        (val n = val m ↔ a = b)) := by
  obtain ⟨t', keys, h1, hnd, hkeys, hord, h2⟩ := projectIds_spec W name hf
  have hanc : ∀ n, t.IsTerm n → t.Anc n (t.ancList n) := by
    rintro n ⟨y, hy⟩; exact ancList_anc W.shape ⟨_, hy⟩
  have hmem : ∀ a, a ∈ keys ↔ ∃ n, t.IsTerm n ∧ t.Closest f n a := by
    intro a
    rw [hkeys]
    constructor
    · rintro ⟨n, h1, h2⟩; exact ⟨n, h1, (closest_find W (hanc n h1)).1 h2⟩
    · rintro ⟨n, h1, h2⟩; exact ⟨n, h1, (closest_find W (hanc n h1)).2 h2⟩
  have hval : ∀ n, t.IsTerm n → ∀ a, t.Closest f n a →
      idVal t f keys n = some (natToStr (keys.idxOf a)) := by
    intro n hn a ha
    unfold idVal
    rw [(closest_find W (hanc n hn)).2 ha]
    rfl
  refine ⟨t', idVal t f keys, keys, h1, hnd, hmem, ?_, h2, ?_, ?_⟩
  · intro k k' a a' hk hk' hlt
    obtain ⟨n, n1, n2, n3⟩ := hord k k' a a' hk hk' hlt
    exact ⟨n, n1, (closest_find W (hanc n n1)).1 n2, fun m m1 m2 => n3 m m1 ((closest_find W (hanc m m1)).2 m2)⟩
  · intro n hn
    refine ⟨fun a ha => ⟨keys.idxOf a, ?_, hval n hn a ha⟩, fun h => ?_⟩
    · have := (hmem a).2 ⟨n, hn, ha⟩
      rw [List.getElem?_eq_getElem (List.idxOf_lt_length_of_mem this), List.getElem_idxOf]
    · unfold idVal
      rw [(closest_none W (hanc n hn)).2 h]
      rfl
  · intro n m a b hn hm ha hb
    rw [hval n hn a ha, hval m hm b hb]
    constructor
    · intro h
      simp only [Option.some.injEq] at h
      have h' := natToStr_inj h
      have hA := (hmem a).2 ⟨n, hn, ha⟩
      exact (List.idxOf_inj hA).1 h'
    · rintro rfl; rfl

example : ∃ t', Examples.proj.projectIds "p".toList (fun t n => isNP t n || n == 0) =
    .ok t' ∧ (t'.graph.node? 4).bind Node.features = some ⟨[("p".toList, some "1".toList)]⟩ ∧
    (t'.graph.node? 3).bind Node.features = some ⟨[("p".toList, some "1".toList)]⟩ ∧
    (t'.graph.node? 1).bind Node.features = some ⟨[("p".toList, some "0".toList)]⟩ :=
  ⟨_, rfl, by decide, by decide, by decide⟩

/-- C30: `project_nt_indices(f)` has one entry per sentence position: the closest ancestor matching
`f` of the terminal at that position, or the root if there is none. -/
theorem C30_project_nt_indices (t : Tree) (W : t.WF) (f : Tree → Nat → Bool) :
    ∃ l, t.projectNtIndices f = .ok l ∧ l.length = t.nTerminals ∧
      ∀ n i, t.TermAt n i →
        (∀ a, t.Closest f n a → l[i]? = some a) ∧
        ((¬ ∃ a, t.Closest f n a) → l[i]? = some t.root) := by
  obtain ⟨l, h1, h2, h3⟩ := projectNtIndices_spec W f
  refine ⟨l, h1, h2, fun n i hi => ?_⟩
  have hal : t.Anc n (t.ancList n) := by
    obtain ⟨y, hy, _⟩ := hi; exact ancList_anc W.shape ⟨_, hy⟩
  refine ⟨fun a ha => ?_, fun h => ?_⟩
  · rw [h3 n i hi, (closest_find W hal).2 ha]; rfl
  · rw [h3 n i hi, (closest_none W hal).2 h]; rfl

example : Examples.proj.projectNtIndices isNP = .ok [2, 2, 0] := by decide

/-- C30: `map_climber_path` calls a closure that leaves the edges alone for each terminal, in the order of node
indices, with the nodes above it, from the parent upwards, until it returns `true`. What the closure changed
is kept; it sees the changes made before. -/
theorem C30_map_climber_path (t : Tree) (W : t.WF) {σ : Type} (f : σ → Tree → Nat → Nat → Res (σ × Tree × Bool))
    (hf : KeepsEdges f) (s : σ) :
    ∃ ps : List (Nat × List Nat), (ps.map (·.1)).Pairwise (· < ·) ∧ (∀ n, n ∈ ps.map (·.1) ↔ t.IsTerm n) ∧
      (∀ n l, (n, l) ∈ ps → t.PathUp n l) ∧ mapClimberPath t.climbFuel f s t = visitPaths f ps (s, t) := by
  have hlive : ∀ n ∈ t.terminals, t.Live n := fun n hn => (mem_terminals.1 hn).live
  refine ⟨t.terminals.map fun n => (n, t.ancList n), ?_, ?_, ?_, mapClimberPath_visits W.graph W.shape hf s hlive⟩
  · simpa [List.map_map, Function.comp_def] using terminals_sorted (t := t)
  · intro n
    simp only [List.map_map, Function.comp_def, List.map_id']
    exact mem_terminals
  · intro n l hm
    obtain ⟨m, hm', he⟩ := List.mem_map.1 hm
    simp only [Prod.mk.injEq] at he
    obtain ⟨rfl, rfl⟩ := he
    clear hm
    rename' hm' => hm
    obtain ⟨l', h1, -, -, h2, h3⟩ := C20_climber t W m (hlive m hm)
    rw [climb_eq W.graph W.shape (hlive m hm) (ancList_anc W.shape (hlive m hm))] at h1
    simp only [Res.ok.injEq] at h1
    rw [h1]
    exact ⟨h2, h3⟩

/-- A closure as in the documentation: the label of the closest ancestor starting with `N` or `V`, under two names;
it counts its calls. -/
def markAB (k : Nat) (t : Tree) (p n : Nat) : Res (Nat × Tree × Bool) := do
  let nd ← t.node p
  if nd.label.head? = some 'N' then do
    let t' ← t.insertFeature n "a".toList nd.label
    return (k + 1, t', true)
  else if nd.label.head? = some 'V' then do
    let t' ← t.insertFeature n "b".toList nd.label
    return (k + 1, t', true)
  else return (k + 1, t, false)

theorem insertFeature_edges {t t' : Tree} {n : Nat} {name v : Str} (h : t.insertFeature n name v = .ok t') :
    t'.graph.edges = t.graph.edges := by
  unfold Tree.insertFeature at h
  obtain ⟨nd, -, h⟩ := Res.bind_eq_ok.1 h
  simp only [Res.pure_eq, Res.ok.injEq] at h
  rw [← h]; rfl

theorem markAB_keeps : KeepsEdges markAB := by
  intro s t p n s' t' b h
  unfold markAB at h
  obtain ⟨nd, -, h⟩ := Res.bind_eq_ok.1 h
  split at h
  · obtain ⟨t1, h1, h⟩ := Res.bind_eq_ok.1 h
    simp only [Res.pure_eq, Res.ok.injEq, Prod.mk.injEq] at h
    rw [← h.2.1]; exact insertFeature_edges h1
  · split at h
    · obtain ⟨t1, h1, h⟩ := Res.bind_eq_ok.1 h
      simp only [Res.pure_eq, Res.ok.injEq, Prod.mk.injEq] at h
      rw [← h.2.1]; exact insertFeature_edges h1
    · simp only [Res.pure_eq, Res.ok.injEq, Prod.mk.injEq] at h
      rw [← h.2.1]

example := C30_map_climber_path Examples.proj proj_wf markAB markAB_keeps 0

end Props
end Lumberjack
