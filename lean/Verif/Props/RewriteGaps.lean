import Verif.Props.Filled
import Verif.Props.Rewrite
import Verif.Proofs.Secondary

/-!
# Editing as rewriting of ordered trees, for trees with gaps (C90)
-/

namespace Lumberjack
namespace Props

open Lumberjack.Tree Lumberjack.Convert

/-- The options without the steps up to `--projectivize`. -/
def laterSteps (o : Options) : Options := { o with removeDummies := false, projectivize := false, secEdges := false }

/-- C90: with `--projectivize` the steps of the tool on a tree with gaps are: removal of dummies on demand, filling the gaps
of one node after the other as told in C91, and the rewriting of the ordered tree this gives. -/
theorem C90_lowered (o : Options) (tags : Option (List Str)) (t t' : Tree) (S : Suits o t) (ho : o.reattachLabel = none)
    (hp : o.projectivize = true) (h : Pipeline o tags t t') :
    ∃ t1 t2 l F, Switch o.removeDummies DummiesRemoved t t1 ∧ PostOrder t1 [t1.root] l ∧ FilledAll l t1 t2 ∧ t2.Is F ∧
      NoGaps t' ∧ t'.Is (F.edited (laterSteps o) tags) := by
  obtain ⟨t1, t2, t3, t4, t5, t6, t7, b1, b2, b3, b4, b5, b6, b7, b8⟩ := h
  let o0 : Options := { o with reattachLabel := none, idSet := none, filterSet := none, insertionSet := none, parentFeature := none }
  let o1 : Options := { o0 with projectivize := false }
  have S0 : Suits o0 t := ⟨S.fit, by rcases S.words with h | h; exacts [.inl h, .inr ⟨h.1, rfl⟩]⟩
  have S1 : Suits o1 t := ⟨S.fit, by rcases S.words with h | h; exacts [.inl h, .inr ⟨h.1, rfl⟩]⟩
  obtain ⟨G0, p0⟩ := pipeline_good (tags := none) S0 ⟨t1, t2, t2, t2, t2, t2, t2, b1, b2, rfl, rfl, rfl, rfl, rfl, rfl⟩
  obtain ⟨G1, _⟩ := pipeline_good (tags := none) (t' := t1) S1
    ⟨t1, t1, t1, t1, t1, t1, t1, b1, ⟨by simp [o1], fun _ => rfl⟩, rfl, rfl, rfl, rfl, rfl, rfl⟩
  have W1 := G1.fit.wf
  have hN : NoGaps t2 := (noGaps_iff G0.fit.wf).1 (p0 hp rfl)
  have S2 : Suits (laterSteps o) t2 := ⟨G0.fit, .inr ⟨rfl, ho⟩⟩
  have P2 : Pipeline (laterSteps o) tags t2 t' :=
    ⟨t2, t2, t3, t4, t5, t6, t7, ⟨by simp [laterSteps], fun _ => rfl⟩, ⟨by simp [laterSteps], fun _ => rfl⟩, b3, b4, b5, b6, b7, b8⟩
  have done : ∀ F, t2.Is F → NoGaps t' ∧ t'.Is (F.edited (laterSteps o) tags) := fun F hF =>
    C90_pipeline (laterSteps o) tags t2 t' S2 hN ho P2 F hF
  rcases b2.1 hp with ⟨hg, rfl⟩ | ⟨_, log, u, ⟨l, hl, hf⟩, M, W, hg, h1, h2⟩
  · obtain ⟨F, hF⟩ := G0.fit.wf.is_exists
    obtain ⟨l, k1, _, k3⟩ := postOrder_root W1
    exact ⟨t2, t2, l, F, b1, k1, FilledAll.gapless W1 l fun q hq => ⟨(k3 q).1 hq, hg q ((k3 q).1 hq)⟩, hF, done F hF⟩
  · obtain ⟨F, hF⟩ := W.is_exists
    refine ⟨t1, u, l, F, b1, hl, hf, hF, done F ?_⟩
    cases hs : o.secEdges with
    | false => rw [h2 hs]; exact hF
    | true =>
      have R := h1 hs
      exact bare_is' t2 F ((recorded_same R).bare.is W.bare R.wf.bare (bare_is u F hF))

/-- C90: from any format to those other than NEGRA, for a whole file read as trees with or without gaps: this is all that is
written with `--projectivize`. -/
theorem C90_gaps (pick : Tree → Finset Nat → Option Nat) (hpick : IsOrder pick) (f : InFormat) (multiline : Bool)
    (o : Options) (hout : o.out ≠ .negra) (ho : o.reattachLabel = none) (hp : o.projectivize = true) (src : Source)
    (ts : List Tree) (hS : Stream f multiline src (ts.map .ok) true) (hO : f = .negra → Orderly src.lines)
    (hE : ∀ t ∈ ts, Enough o t) (pos : Option (List (List Str)))
    (hpos : ∀ ps, pos = some ps → ∀ (i : Nat) (t : Tree), ts[i]? = some t → ∃ l, ps[i]? = some l ∧ l.length = t.nTerminals) :
    ∃ ws, main f multiline pick o src (pos.map (·.map .ok)) = (ws, .finished) ∧ ws.length = ts.length ∧
      ∀ (i : Nat) t w, ts[i]? = some t → ws[i]? = some w →
        ∃ t1 t2 l F, Switch o.removeDummies DummiesRemoved t t1 ∧ PostOrder t1 [t1.root] l ∧ FilledAll l t1 t2 ∧ t2.Is F ∧
          (F.edited (laterSteps o) (pos.bind (·[i]?))).output o.out = some w := by
  obtain ⟨items', b', h', _, hR⟩ := stream_exists f multiline src.size src (Nat.le_refl _)
  obtain ⟨rfl, rfl⟩ := hS.unique h'
  have hE' : ∀ t, .ok t ∈ ts.map (Except.ok (ε := Err)) → Enough o t := fun t ht => hE t (by simpa using ht)
  obtain ⟨h1, h2⟩ := C57_complete pick hpick f multiline o src (pos.map (·.map .ok)) _ hS hO hE'
    (fun x hx => by obtain ⟨t, _, rfl⟩ := List.mem_map.1 hx; exact ⟨t, rfl⟩)
    (fun ps hps i t ht => by
      cases pos with
      | none => cases hps
      | some ls =>
        cases hps
        rw [List.getElem?_map, Option.map_eq_some_iff] at ht
        obtain ⟨t', ht, e⟩ := ht
        cases e
        obtain ⟨l, hl, hl'⟩ := hpos ls rfl i t ht
        exact ⟨l, by rw [List.getElem?_map, hl]; rfl, hl'⟩)
    (.inr ⟨ho, .inl hp⟩)
  refine ⟨_, Prod.ext rfl h1, by simpa using h2, fun i t w ht hw => ?_⟩
  obtain ⟨u, t', tags, c, c', g1, g2, g3, g4, g5, W, W', _⟩ := (C57_written pick hpick _ multiline o src _ _ true hS hO hE').2 i w hw
  rw [List.getElem?_map, ht] at g1
  cases g1
  obtain ⟨t1, t2, l, F, k1, k2, k3, k4, k5, k6⟩ := C90_lowered o tags t t'
    ((hR hO t (by simpa using List.mem_of_getElem? ht)).suits (hE t (List.mem_of_getElem? ht))) ho hp g4
  refine ⟨t1, t2, l, F, k1, k2, k3, k4, ?_⟩
  have : tags = pos.bind (·[i]?) := by
    cases pos with
    | none =>
      rcases g2 with ⟨_, h⟩ | ⟨ps, l, h, _⟩
      · exact h
      · cases h
    | some ls =>
      rcases g2 with ⟨h, _⟩ | ⟨ps, l, h, h', rfl⟩
      · cases h
      · cases h
        rw [List.getElem?_map, Option.map_eq_some_iff] at h'
        obtain ⟨l', e1, e2⟩ := h'
        cases e2
        exact e1.symm
  rw [← this]
  exact output_is hout W' k5 g5 k6

-- a file with a tree with a gap
example : ∃ t ws, Stream .negra false gapFile [.ok t] true ∧ t.isProjective = false ∧
    main .negra false minPick { plain .ptb with projectivize := true, removeDummies := true } gapFile none = (ws, .finished) ∧
    ws.length = 1 ∧ ∀ w ∈ ws, ∃ t1 t2 l F, DummiesRemoved t t1 ∧ PostOrder t1 [t1.root] l ∧ FilledAll l t1 t2 ∧ t2.Is F ∧
      (F.edited (plain .ptb) none).output .ptb = some w := by
  obtain ⟨t, h1, h2⟩ := onlyItem_spec (f := .negra) (multiline := false) (src := gapFile)
    (test := fun t => decide (t.nTerminals = 3) && !t.isProjective) (by decide +kernel)
  simp only [Bool.and_eq_true, decide_eq_true_eq, Bool.not_eq_true'] at h2
  obtain ⟨ws, k1, k2, k3⟩ := C90_gaps minPick minPick_order .negra false
    { plain .ptb with projectivize := true, removeDummies := true } (by decide) rfl rfl gapFile [t] h1
    (fun _ => gapFile_orderly) (by simp; exact .inl (by omega)) none (by simp)
  refine ⟨t, ws, h1, h2.2, k1, k2, fun w hw => ?_⟩
  obtain ⟨i, hi, rfl⟩ := List.mem_iff_getElem.1 hw
  obtain rfl : i = 0 := by simp at k2; omega
  obtain ⟨t1, t2, l, F, e1, e2, e3, e4, e5⟩ := k3 0 t _ rfl (List.getElem?_eq_getElem hi)
  exact ⟨t1, t2, l, F, e1.1 rfl, e2, e3, e4, e5⟩

end Props
end Lumberjack
