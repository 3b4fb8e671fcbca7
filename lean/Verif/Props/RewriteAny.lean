import Verif.Proofs.RewriteAnyPipeline
import Verif.Props.RewriteGather

/-!
# Editing trees with gaps as rewriting (C95)

The theorems of `Props/Rewrite.lean` and `Props/RewriteGather.lean` without the proviso that the tree has no gaps.
-/

namespace Lumberjack
namespace Props

open Lumberjack.Tree Lumberjack.Convert

/-- C95: `filter_nonterminals(f)` on any tree. `P` is where `f` is false. -/
theorem C95_filter (t : Tree) (W : t.WF) (F : Forest) (hF : t.Is F) (f : Tree → Nat → Bool)
    (hf : NodeLocal f) (P : NonTerminal → Bool) (hP : ∀ n x, t.graph.node? n = some (.nt x) → P x = !f t n) :
    ∃ t', t.filterNonterminals f = .ok (t', .ok ()) ∧ t'.WF ∧ t'.Is (F.filtered P).inOrder := by
  obtain ⟨t', h1, h2, h3⟩ := C24_filter_nonterminals t W f hf
  refine ⟨t', h1, h3.wf, Removed.is_sorted h3 W h2 (fun n => ?_) hF⟩
  constructor
  · rintro ⟨⟨x, hx⟩, h4, h5⟩
    exact ⟨h4, x, hx, by rw [hP n x hx, h5]; rfl⟩
  · rintro ⟨h4, x, hx, h5⟩
    rw [hP n x hx, Bool.not_eq_true'] at h5
    exact ⟨⟨x, hx⟩, h4, h5⟩

/-- C95: `remove_dummy_nodes()` on any tree. -/
theorem C95_dummies (t : Tree) (W : t.WF) (F : Forest) (hF : t.Is F) :
    ∃ t', t.removeDummyNodes = .ok (t', .ok ()) ∧ t'.WF ∧ t'.Is F.undummied.inOrder := by
  obtain ⟨t', R, h1, h2, h3, h4⟩ := C40_remove_dummy_nodes t W
  exact ⟨t', h1, h2.wf, dummies_sorted W ⟨R, h2, h3, h4⟩ hF⟩

/-- C95: `insert_intermediate(f)` on any tree, for a function that gives the label `l` to the nodes with `P` and no label to
the others. -/
theorem C95_insert (t : Tree) (W : t.WF) (hroot : t.IsNt t.root) (F : Forest) (hF : t.Is F)
    (f : Tree → Nat → Option Str) (hf : NodeFn f) (P : NonTerminal → Bool) (l : Str)
    (hP : ∀ n x, t.graph.node? n = some (.nt x) → f t n = if P x then some l else none)
    (hH : Silent f l ∨ ∀ p, t.FirstLeast p) :
    ∃ t', t.insertIntermediate f = .ok (t', .ok ()) ∧ t'.WF ∧ t'.Is (F.groupedRuns P l) := by
  have key : ∀ p l', f t p = some l' → Silent f l' ∨ t.FirstLeast p := by
    intro p l' hl
    rcases hH with hS | hH
    · -- other labels are not given to nodes
      cases hn : t.graph.node? p with
      | none =>
        refine .inr fun c i hc _ _ d hd _ => ?_
        obtain ⟨x, hx⟩ := W.shape.parent_isNt W.graph hc
        rw [hn] at hx; cases hx
      | some nd =>
        cases nd with
        | term x =>
          refine .inr fun c i hc _ _ d hd _ => ?_
          obtain ⟨x, hx⟩ := W.shape.parent_isNt W.graph hc
          rw [hn] at hx; cases hx
        | nt x =>
          rw [hP p x hn] at hl
          split at hl
          · cases hl; exact .inl hS
          · cases hl
    · exact .inr (hH p)
  obtain ⟨t', h1, I⟩ := C28_insert_intermediate t W hroot f hf key
  have I' : Inserted t (t.Moved P) (fun _ => l) t' := by
    refine (I.relabel (lab' := fun _ => l) ?_).congr ?_
    · rintro p c ⟨⟨l', hl'⟩, hc, _⟩
      obtain ⟨x, hx⟩ := W.shape.parent_isNt W.graph hc
      rw [hP p x hx] at hl' ⊢
      split at hl'
      · rename_i h; rw [if_pos h]; rfl
      · cases hl'
    · intro p c
      refine and_congr_left fun ⟨hc, _⟩ => ?_
      obtain ⟨x, hx⟩ := W.shape.parent_isNt W.graph hc
      rw [hP p x hx, hx]
      by_cases h : P x = true
      · simp [h]
      · simp [h]
  exact ⟨t', h1, I.wf, Inserted.is_runs I' W hF⟩

/-- C95: `project_ids(name, f)` on any tree, for a function that chooses the root and the other nodes with `P`. -/
theorem C95_ids (t : Tree) (W : t.WF) (hroot : t.IsNt t.root) (ho : t.InOrder) (F : Forest)
    (hF : t.Is F) (name : Str) (f : Tree → Nat → Bool) (hf : IgnoresTermFeatures f) (hf0 : f t t.root = true)
    (P : NonTerminal → Bool) (hP : ∀ n x, n ≠ t.root → t.graph.node? n = some (.nt x) → f t n = P x) :
    ∃ t', t.projectIds name f = .ok t' ∧ t'.WF ∧ t'.Is (F.numberedBy name P) := by
  obtain ⟨t', num, h1, E, h2, h3⟩ := ids_numbered W hroot ho name hf hf0
  exact ⟨t', h1, E.wf (fun _ _ => rfl) W, numberedBy_is W hroot hf0 hP E h2 h3 hF⟩

/-- C95: `reattach_terminals` with the root as attachment point, on any tree, for a predicate that only looks at the
terminal. -/
theorem C95_gather (t : Tree) (W : t.WF) (h2 : 2 ≤ t.nTerminals) (F : Forest) (hF : t.Is F)
    (f : Tree → Nat → Bool) (hf : TermLocal f) (P : Terminal → Bool) (hP : ∀ n x, t.graph.node? n = some (.term x) → P x = f t n) :
    ∃ t', t.reattachTerminals t.root f = .ok t' ∧ t'.WF ∧ t'.Is (F.gatheredBy P) := by
  obtain ⟨t', h1, H⟩ := C25_to_root t W h2 f hf
  refine ⟨t', h1, H.wf, H.is_sorted W ?_ (fun n => ?_) hF⟩
  · rcases live_iff.1 W.shape.root_live with h | h
    · exfalso
      obtain ⟨m, hm, hne⟩ := two_terms W.sentence (T := t.root) h2
      exact hne (W.shape.dom_term h (W.shape.reach m hm.live))
    · exact h
  · constructor
    · rintro ⟨⟨x, hx⟩, h⟩
      exact ⟨x, hx, by rw [hP n x hx, h]⟩
    · rintro ⟨x, hx, h⟩
      exact ⟨⟨x, hx⟩, by rw [← hP n x hx, h]⟩

/-- C95: all steps of the tool together, for any tree, if `--projectivize` is not given or there are no gaps. -/
theorem C95_pipeline (o : Options) (tags : Option (List Str)) (t t' : Tree) (S : Suits o t) (hN : o.projectivize = true → NoGaps t)
    (h : Pipeline o tags t t') (F : Forest) (hF : t.Is F) : t'.WF ∧ t'.Is (F.editedBy o tags) :=
  ⟨(pipeline_good S h).1.fit.wf, pipeline_rewrites S hN h hF⟩

/-- C95: the same with `--projectivize`: removal of dummies on demand, filling the gaps of one node after the other as told in
C91, and then the other steps as rewriting. -/
theorem C95_lowered (o : Options) (tags : Option (List Str)) (t t' : Tree) (S : Suits o t) (hp : o.projectivize = true)
    (h : Pipeline o tags t t') :
    ∃ t1 t2 l F, Switch o.removeDummies DummiesRemoved t t1 ∧ PostOrder t1 [t1.root] l ∧ FilledAll l t1 t2 ∧ t2.Is F ∧
      t'.WF ∧ t'.Is (F.editedBy (laterSteps o) tags) := by
  have hW := (pipeline_good S h).1.fit.wf
  obtain ⟨t1, t2, t3, t4, t5, t6, t7, b1, b2, b3, b4, b5, b6, b7, b8⟩ := h
  let o0 : Options := { o with reattachLabel := none, idSet := none, filterSet := none, insertionSet := none, parentFeature := none }
  have S0 : Suits o0 t := ⟨S.fit, by rcases S.words with h | h; exacts [.inl h, .inr ⟨h.1, rfl⟩]⟩
  have P0 : Pipeline o0 none t t2 := ⟨t1, t2, t2, t2, t2, t2, t2, b1, b2, rfl, rfl, rfl, rfl, rfl, rfl⟩
  obtain ⟨G0, p0⟩ := pipeline_good (tags := none) S0 P0
  have S2 : Suits (laterSteps o) t2 := ⟨G0.fit, by
    rcases S.words with h | h
    · exact .inl (by rw [G0.words.1]; exact h)
    · exact .inr ⟨rfl, h.2⟩⟩
  have P2 : Pipeline (laterSteps o) tags t2 t' :=
    ⟨t2, t2, t3, t4, t5, t6, t7, ⟨by simp [laterSteps], fun _ => rfl⟩, ⟨by simp [laterSteps], fun _ => rfl⟩, b3, b4, b5, b6, b7, b8⟩
  obtain ⟨a1, a2, l, F, c1, c2, c3, c4, c5, c6⟩ := C90_lowered o0 none t t2 S0 rfl hp P0
  exact ⟨a1, a2, l, F, c1, c2, c3, c4, hW, pipeline_any S2 rfl P2 c6⟩

/-- C95: from any format to those other than NEGRA, without `--projectivize` or without gaps, for each tree that is written. -/
theorem C95_written (pick : Tree → Finset Nat → Option Nat) (hpick : IsOrder pick) (f : InFormat) (multiline : Bool)
    (o : Options) (hout : o.out ≠ .negra) (src : Source) (pos : Option (List PosItem))
    (items : List (Except Err Tree)) (b : Bool) (hS : Stream f multiline src items b) (hO : f = .negra → Orderly src.lines)
    (hE : ∀ t, .ok t ∈ items → Enough o t) (hN : o.projectivize = true → ∀ t, .ok t ∈ items → NoGaps t)
    (i : Nat) (w : Written) (hw : (main f multiline pick o src pos).1[i]? = some w) :
    ∃ t F tags, items[i]? = some (.ok t) ∧ t.Is F ∧ TagsAt pos i tags ∧ (F.editedBy o tags).outputBy o.out = some w := by
  obtain ⟨items', b', h', _, hR⟩ := stream_exists f multiline src.size src (Nat.le_refl _)
  obtain ⟨rfl, rfl⟩ := hS.unique h'
  obtain ⟨t, t', tags, c, c', g1, g2, g3, g4, g5, W, W', _⟩ := (C57_written pick hpick _ multiline o src _ _ _ hS hO hE).2 i w hw
  obtain ⟨F, hF⟩ := W.is_exists
  have hm := List.mem_of_getElem? g1
  exact ⟨t, F, tags, g1, hF, g2, output_any hout W' g5 (pipeline_rewrites ((hR hO t hm).suits (hE t hm)) (fun h => hN h t hm) g4 hF)⟩

/-- C95: the same for a whole file, if the format holds gaps or none are left: this is all that is written. -/
theorem C95_trees (pick : Tree → Finset Nat → Option Nat) (hpick : IsOrder pick) (f : InFormat) (multiline : Bool)
    (o : Options) (hout : o.out ≠ .negra) (src : Source) (ts : List Tree)
    (hS : Stream f multiline src (ts.map .ok) true) (hO : f = .negra → Orderly src.lines) (hE : ∀ t ∈ ts, Enough o t)
    (hN : o.projectivize = true → ∀ t ∈ ts, NoGaps t) (Fs : List Forest) (hF : List.Forall₂ (fun t F => t.Is F) ts Fs) (pos : Option (List (List Str)))
    (hpos : ∀ ps, pos = some ps → ∀ (i : Nat) (t : Tree), ts[i]? = some t → ∃ l, ps[i]? = some l ∧ l.length = t.nTerminals)
    (hG : o.out = .conllx ∨ ∀ (i : Nat) (F : Forest), Fs[i]? = some F → (F.editedBy o (pos.bind (·[i]?))).Solid) :
    ∃ ws, main f multiline pick o src (pos.map (·.map .ok)) = (ws, .finished) ∧
      ws.map some = Fs.mapIdx fun i F => (F.editedBy o (pos.bind (·[i]?))).outputBy o.out := by
  obtain ⟨items', b', h', _, hR⟩ := stream_exists f multiline src.size src (Nat.le_refl _)
  obtain ⟨rfl, rfl⟩ := hS.unique h'
  have hE' : ∀ t, .ok t ∈ ts.map (Except.ok (ε := Err)) → Enough o t := fun t ht => hE t (by simpa using ht)
  rw [List.forall₂_iff_get] at hF
  have same : ∀ {i tags}, TagsAt (pos.map (·.map .ok)) i tags → tags = pos.bind (·[i]?) := by
    intro i tags g2
    cases pos with
    | none =>
      rcases g2 with ⟨_, h⟩ | ⟨ps, l, h, _⟩
      · exact h
      · cases h
    | some ls =>
      rcases g2 with ⟨h, _⟩ | ⟨ps, l, h, h', rfl⟩
      · cases h
      · cases h
        rw [List.getElem?_map, Option.map_eq_some_iff] at h'
        obtain ⟨l', e1, e2⟩ := h'
        cases e2
        exact e1.symm
  -- each tree
  have each : ∀ (i : Nat) t tags t', (ts.map (Except.ok (ε := Err)))[i]? = some (.ok t) → TagsAt (pos.map (·.map .ok)) i tags →
      Pipeline o tags t t' → ∃ F, Fs[i]? = some F ∧ t'.WF ∧ t'.Is (F.editedBy o (pos.bind (·[i]?))) := by
    intro i t tags t' ht hT hP
    have hS := (hR hO t (List.mem_of_getElem? ht)).suits (hE' t (List.mem_of_getElem? ht))
    rw [List.getElem?_map, Option.map_eq_some_iff] at ht
    obtain ⟨u, ht, e⟩ := ht
    cases e
    obtain ⟨hi, e⟩ := List.getElem?_eq_some_iff.1 ht
    have hi' : i < Fs.length := by rw [← hF.1]; exact hi
    have k := hF.2 i hi hi'
    simp only [List.get_eq_getElem, e] at k
    obtain rfl := same hT
    exact ⟨Fs[i], List.getElem?_eq_getElem hi', C95_pipeline o _ t t' hS (fun h => hN h t (e ▸ List.getElem_mem hi)) hP _ k⟩
  obtain ⟨h1, h2⟩ := (C57_run pick hpick f multiline o src (pos.map (·.map .ok)) _ _ hS hO hE').complete_any
    (fun ps hps i t ht => by
      cases pos with
      | none => cases hps
      | some ls =>
        cases hps
        rw [List.getElem?_map, Option.map_eq_some_iff] at ht
        obtain ⟨t', ht, e⟩ := ht
        cases e
        obtain ⟨l, hl, hl'⟩ := hpos ls rfl i t ht
        exact ⟨l, by rw [List.getElem?_map, hl]; rfl, hl'⟩)
    rfl (fun x hx => by obtain ⟨t, _, rfl⟩ := List.mem_map.1 hx; exact ⟨t, rfl⟩)
    (fun i t tags t' ht hT hP => by
      rcases hG with h | hG
      · exact .inl (.inl h)
      · obtain ⟨F, k1, k2, k3⟩ := each i t tags t' ht hT hP
        exact .inr ((noGaps_iff k2).1 (k2.solid k3 (hG i F k1))))
  refine ⟨_, Prod.ext rfl h1, List.ext_getElem? fun i => ?_⟩
  rw [List.getElem?_map, List.getElem?_mapIdx]
  cases hw : (main f multiline pick o src (pos.map (·.map .ok))).1[i]? with
  | none =>
    rw [List.getElem?_eq_none_iff, h2, List.length_map] at hw
    rw [List.getElem?_eq_none (by rw [← hF.1]; exact hw)]
    rfl
  | some w =>
    obtain ⟨t, t', tags, c, c', g1, g2, g3, g4, g5, W, W', _⟩ := (C57_written pick hpick _ multiline o src _ _ true hS hO hE').2 i w hw
    obtain ⟨F, k1, _, k3⟩ := each i t tags t' g1 g2 g4
    rw [k1]
    simp only [Option.map_some, Option.some.injEq]
    exact (output_any hout W' g5 k3).symm

/-- `Examples.disc`: `(ROOT (A a c) (B b) d)`. -/
def gapForest : Forest :=
  let w (s p : String) (i : Nat) : Terminal := .new s.toList p.toList i
  let n (l : String) (s : Span) : NonTerminal := .new l.toList s
  .node none (n "ROOT" ⟨0, 4, none⟩)
    (.node none (n "A" ⟨0, 3, some {1}⟩) (.leaf none (w "a" "X" 0) (.leaf none (w "c" "Z" 2) .nil))
      (.node none (n "B" ⟨1, 2, none⟩) (.leaf (some "HD".toList) (w "b" "Y" 1) .nil) (.leaf none (w "d" "W" 3) .nil))) .nil

/-- Without `A` its words go to where they start, with the words of `A` bundled there are two new nodes, and moving `c` fills the
gap. -/
example : (gapForest.filtered fun x => x.label = ['A']).inOrder.line .simple = "(ROOT (X a) (B (Y b)) (Z c) (W d))\n".toList ∧
    (gapForest.groupedRuns (fun x => x.label = ['A']) ['U']).line .simple =
      "(ROOT (A (U (X a)) (U (Z c))) (B (Y b)) (W d))\n".toList ∧
    (gapForest.gatheredBy fun x => x.pos = ['Z']).line .simple = "(ROOT (A (X a)) (B (Y b)) (Z c) (W d))\n".toList := by
  decide +kernel

theorem disc_is : Examples.disc.Is gapForest := by
  have hc : ∀ a c, Examples.disc.IsChild a c ↔
      a = 4 ∧ c = 6 ∨ a = 5 ∧ c = 1 ∨ a = 4 ∧ c = 5 ∨ a = 4 ∧ c = 3 ∨ a = 3 ∧ c = 2 ∨ a = 3 ∧ c = 0 := by
    intro a c
    simp only [Tree.IsChild, Graph.IsChild, Examples.disc, Examples.pe, Edge.isPrimary, List.mem_cons, List.not_mem_nil, or_false,
      exists_eq_or_imp, exists_eq_left, and_true]
    omega
  have kids : ∀ a ks, (∀ c, c ∈ ks ↔ Examples.disc.IsChild a c) →
      (ks.Pairwise fun a b => Examples.disc.startOf a < Examples.disc.startOf b) → Examples.disc.Kids a ks := fun _ _ h h' => ⟨h, h'⟩
  refine ⟨4, [], [3, 5, 6], rfl, rfl, rfl, kids _ _ (fun c => ?_) (by decide), ?_, rfl⟩
  · simp [hc]; omega
  refine ⟨3, [5, 6], [0, 2], rfl, rfl, rfl, kids _ _ (fun c => ?_) (by decide), ?_, ?_⟩
  · simp [hc]; omega
  · exact ⟨0, [2], rfl, rfl, rfl, 2, [], rfl, rfl, rfl, rfl⟩
  refine ⟨5, [6], [1], rfl, rfl, rfl, kids _ _ (fun c => ?_) (by decide), ?_, ?_⟩
  · simp [hc]
  · exact ⟨1, [], rfl, rfl, rfl, rfl⟩
  · exact ⟨6, [], rfl, rfl, rfl, rfl⟩

/-- Nodes other than `A`. -/
def notA (t : Tree) (n : Nat) : Bool := (t.graph.node? n).all fun nd => nd.label ≠ ['A']

/-- The root and the nodes labelled `A`. -/
def rootOrA (t : Tree) (n : Nat) : Bool := !notA t n || n == t.root

/-- Words tagged `Z`. -/
def isZ (t : Tree) (n : Nat) : Bool := (t.graph.node? n).any fun nd => nd.label = ['Z']

theorem notA_local : NodeLocal notA := by
  intro t t' n h
  have key : ∀ u : Tree, notA u n = (u.content n).all fun nd => nd.label ≠ ['A'] := by
    intro u
    unfold notA Tree.content
    cases u.graph.node? n with
    | none => rfl
    | some nd => cases nd <;> rfl
  rw [key, key, h]

example : ∃ t', Examples.disc.filterNonterminals notA = .ok (t', .ok ()) ∧ t'.WF ∧
    t'.Is (gapForest.filtered fun x => x.label = ['A']).inOrder :=
  C95_filter _ disc_wf _ disc_is notA notA_local _ fun n x h => by
    by_cases e : x.label = ['A'] <;> simp [notA, h, Node.label, e]

example : ∃ t', Examples.disc.removeDummyNodes = .ok (t', .ok ()) ∧ t'.WF ∧ t'.Is gapForest.undummied.inOrder :=
  C95_dummies _ disc_wf _ disc_is

example : ∃ t', Examples.disc.insertIntermediate markX = .ok (t', .ok ()) ∧ t'.WF ∧
    t'.Is (gapForest.groupedRuns (fun x => x.label = "ROOT".toList ∨ x.label = "A".toList) "X".toList) :=
  C95_insert _ disc_wf ⟨_, rfl⟩ _ disc_is markX markX_fn _ _ (fun n x h => by simp [markX, h]) (.inl markX_silent)

example : ∃ t', Examples.disc.projectIds "i".toList rootOrA = .ok t' ∧ t'.WF ∧
    t'.Is (gapForest.numberedBy "i".toList fun x => x.label = ['A']) := by
  refine C95_ids _ disc_wf ⟨_, rfl⟩ (disc_suits (plain .ptb)).fit.order _ disc_is _ rootOrA ?_ (by decide) _
    fun n x hn hx => ?_
  · rintro t t' ⟨fs, E⟩ n
    unfold rootOrA notA
    rw [E.root]
    cases h : t.graph.node? n with
    | none => rw [E.none n h]
    | some nd =>
      cases nd with
      | nt x => rw [E.nt n x h]
      | term x => rw [E.term n x h]; rfl
  · have hn' : (n == Examples.disc.root) = false := by simpa using hn
    by_cases e : x.label = ['A'] <;> simp [rootOrA, notA, hx, hn', Node.label, e]

example : ∃ t', Examples.disc.reattachTerminals Examples.disc.root isZ = .ok t' ∧ t'.WF ∧
    t'.Is (gapForest.gatheredBy fun x => x.pos = ['Z']) := by
  refine C95_gather _ disc_wf (by decide) _ disc_is isZ (fun t t' n x h h' => by simp [isZ, h, h']) _ fun n x h => ?_
  simp only [isZ, h, Node.label, Option.any_some]
  congr

/-- Words are moved, `B` is removed, and the words of other nodes are bundled. -/
def gapOptions : Options :=
  { plain .conllx with reattachLabel := some ['W'], idSet := some (.positive [['A']]), idFeatureName := "id".toList,
                       filterSet := some (.negative [['B']]), insertionSet := some (.negative [['A']]), insertionLabel := ['U'],
                       parentFeature := some "parent".toList }

example : ∃ t', Pipeline gapOptions none Examples.disc t' ∧ t'.WF ∧ t'.Is (gapForest.editedBy gapOptions none) := by
  obtain ⟨t', k, _⟩ := process_spec minPick_order gapOptions none (disc_suits _) (by simp)
  exact ⟨t', k, C95_pipeline _ none _ t' (disc_suits _) (fun h => absurd h (by decide)) k _ disc_is⟩

example : (gapForest.editedBy gapOptions none).line .simple = "(ROOT (A (U (X a)) (U (Z c))) (Y b) (W d))\n".toList := by
  decide +kernel

example : ∃ t' F, Pipeline { gapOptions with projectivize := true } none Examples.disc t' ∧
    t'.Is (Forest.editedBy (laterSteps { gapOptions with projectivize := true }) none F) := by
  obtain ⟨t', k, _⟩ := process_spec minPick_order { gapOptions with projectivize := true } none (disc_suits _) (by simp)
  obtain ⟨_, _, _, F, _, _, _, _, _, h⟩ := C95_lowered _ none _ t' (disc_suits _) rfl k
  exact ⟨t', F, k, h⟩

/-- A file with a gap, written as CoNLL-X. -/
example : ∃ (t : Tree) (F : Forest) (ws : List Written), t.isProjective = false ∧ t.Is F ∧
    main .negra false minPick gapOptions gapFile none = (ws, .finished) ∧
    ws.map some = [(F.editedBy gapOptions none).outputBy .conllx] := by
  obtain ⟨t, h1, h2⟩ := onlyItem_spec (f := .negra) (multiline := false) (src := gapFile)
    (test := fun t => decide (2 ≤ t.nTerminals) && !t.isProjective) (by decide +kernel)
  simp only [Bool.and_eq_true, decide_eq_true_eq, Bool.not_eq_true'] at h2
  obtain ⟨items', b', h', _, hR⟩ := stream_exists .negra false gapFile.size gapFile (Nat.le_refl _)
  obtain ⟨rfl, rfl⟩ := h1.unique h'
  obtain ⟨F, hF⟩ := (hR (fun _ => gapFile_orderly) t (by simp)).wf.is_exists
  obtain ⟨ws, k1, k2⟩ := C95_trees minPick minPick_order .negra false gapOptions (by decide) gapFile [t] h1
    (fun _ => gapFile_orderly) (by simp; exact .inl h2.1) (fun h => absurd h (by decide)) [F] (.cons hF .nil) none (by simp) (.inl rfl)
  exact ⟨t, F, ws, h2.2, hF, k1, k2⟩

end Props
end Lumberjack
