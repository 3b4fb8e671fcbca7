import Verif.Proofs.RewriteGather
import Verif.Props.Reattach
import Verif.Props.Rewrite
import Verif.Props.RewriteGaps

/-!
# Editing as rewriting of ordered trees, with words moved to the root (C90)
-/

namespace Lumberjack
namespace Props

open Lumberjack.Tree Lumberjack.Convert
open Bracketed (Reads)

/-- C90: `reattach_terminals` with the root as attachment point, on a tree without gaps, for a predicate that only looks at
the terminal. The result may have gaps. -/
theorem C90_gather (t : Tree) (W : t.WF) (hp : t.isProjective = true) (h2 : 2 ≤ t.nTerminals) (F : Forest) (hF : t.Is F)
    (f : Tree → Nat → Bool) (hf : TermLocal f) (P : Terminal → Bool) (hP : ∀ n x, t.graph.node? n = some (.term x) → P x = f t n) :
    ∃ t', t.reattachTerminals t.root f = .ok t' ∧ t'.WF ∧ t'.Is (F.gathered P) := by
  obtain ⟨t', h1, H⟩ := C25_to_root t W h2 f hf
  refine ⟨t', h1, H.wf, H.is W hp ?_ (fun n => ?_) hF⟩
  · rcases live_iff.1 W.shape.root_live with h | h
    · exfalso
      obtain ⟨m, hm, hne⟩ := two_terms W.sentence (T := t.root) h2
      exact hne (W.shape.dom_term h (W.shape.reach m hm.live))
    · exact h
  · constructor
    · rintro ⟨⟨x, hx⟩, h⟩
      exact ⟨x, hx, by rw [hP n x hx, h]⟩
    · rintro ⟨x, hx, h⟩
      exact ⟨⟨x, hx⟩, by rw [← hP n x hx, h]⟩

/-- C90: all steps of the tool together, for a tree without gaps: after `--reattach` the tree is `F.moved o tags`, and if this
has no gaps the further steps rewrite it. -/
theorem C90_reattach (o : Options) (tags : Option (List Str)) (t t' : Tree) (S : Suits o t) (hN : NoGaps t)
    (h : Pipeline o tags t t') (F : Forest) (hF : t.Is F) :
    (∃ u, u.WF ∧ u.Is (F.moved o tags) ∧ Pipeline (afterReattach o) none u t') ∧
      ((F.moved o tags).Solid → NoGaps t' ∧ t'.Is ((F.moved o tags).edited (afterReattach o) none)) := by
  obtain ⟨u, h1, h2, h3⟩ := pipeline_moved S hN h hF
  exact ⟨⟨u, h1.wf, h2, h3⟩, pipeline_reattach S hN h hF⟩

/-- C90: from any format to those other than NEGRA, for a whole file that is read as trees without gaps, with or without
`--reattach`, if moving the words leaves no gaps: this is all that is written. -/
theorem C90_moved (pick : Tree → Finset Nat → Option Nat) (hpick : IsOrder pick) (f : InFormat) (multiline : Bool)
    (o : Options) (hout : o.out ≠ .negra) (src : Source) (ts : List Tree)
    (hS : Stream f multiline src (ts.map .ok) true) (hO : f = .negra → Orderly src.lines) (hE : ∀ t ∈ ts, Enough o t)
    (Fs : List Forest) (hF : List.Forall₂ (fun t F => NoGaps t ∧ t.Is F) ts Fs) (pos : Option (List (List Str)))
    (hpos : ∀ ps, pos = some ps → ∀ (i : Nat) (t : Tree), ts[i]? = some t → ∃ l, ps[i]? = some l ∧ l.length = t.nTerminals)
    (hG : ∀ (i : Nat) (F : Forest), Fs[i]? = some F → (F.moved o (pos.bind (·[i]?))).Solid) :
    ∃ ws, main f multiline pick o src (pos.map (·.map .ok)) = (ws, .finished) ∧
      ws.map some = Fs.mapIdx fun i F =>
        ((F.moved o (pos.bind (·[i]?))).edited (afterReattach o) none).output o.out := by
  obtain ⟨items', b', h', _, hR⟩ := stream_exists f multiline src.size src (Nat.le_refl _)
  obtain ⟨rfl, rfl⟩ := hS.unique h'
  have hE' : ∀ t, .ok t ∈ ts.map (Except.ok (ε := Err)) → Enough o t := fun t ht => hE t (by simpa using ht)
  rw [List.forall₂_iff_get] at hF
  have same : ∀ {i tags}, TagsAt (pos.map (·.map .ok)) i tags → tags = pos.bind (·[i]?) := by
    intro i tags g2
    cases pos with
    | none =>
      rcases g2 with ⟨_, h⟩ | ⟨ps, l, h, _⟩
      · exact h
      · cases h
    | some ls =>
      rcases g2 with ⟨h, _⟩ | ⟨ps, l, h, h', rfl⟩
      · cases h
      · cases h
        rw [List.getElem?_map, Option.map_eq_some_iff] at h'
        obtain ⟨l', e1, e2⟩ := h'
        cases e2
        exact e1.symm
  -- each tree
  have each : ∀ (i : Nat) t tags t', (ts.map (Except.ok (ε := Err)))[i]? = some (.ok t) → TagsAt (pos.map (·.map .ok)) i tags →
      Pipeline o tags t t' → ∃ F, Fs[i]? = some F ∧ NoGaps t' ∧ t'.Is ((F.moved o (pos.bind (·[i]?))).edited (afterReattach o) none) := by
    intro i t tags t' ht hT hP
    have hS := (hR hO t (List.mem_of_getElem? ht)).suits (hE' t (List.mem_of_getElem? ht))
    rw [List.getElem?_map, Option.map_eq_some_iff] at ht
    obtain ⟨u, ht, e⟩ := ht
    cases e
    obtain ⟨hi, e⟩ := List.getElem?_eq_some_iff.1 ht
    have hi' : i < Fs.length := by rw [← hF.1]; exact hi
    obtain ⟨k1, k2⟩ := hF.2 i hi hi'
    simp only [List.get_eq_getElem, e] at k1 k2
    obtain rfl := same hT
    have hFi : Fs[i]? = some Fs[i] := List.getElem?_eq_getElem hi'
    exact ⟨Fs[i], hFi, pipeline_reattach hS k1 hP k2 (hG i _ hFi)⟩
  obtain ⟨h1, h2⟩ := (C57_run pick hpick f multiline o src (pos.map (·.map .ok)) _ _ hS hO hE').complete_of
    (fun ps hps i t ht => by
      cases pos with
      | none => cases hps
      | some ls =>
        cases hps
        rw [List.getElem?_map, Option.map_eq_some_iff] at ht
        obtain ⟨t', ht, e⟩ := ht
        cases e
        obtain ⟨l, hl, hl'⟩ := hpos ls rfl i t ht
        exact ⟨l, by rw [List.getElem?_map, hl]; rfl, hl'⟩)
    rfl (fun x hx => by obtain ⟨t, _, rfl⟩ := List.mem_map.1 hx; exact ⟨t, rfl⟩)
    (fun i t tags t' ht hT hP => (each i t tags t' ht hT hP).elim fun _ h => h.2.1)
  refine ⟨_, Prod.ext rfl h1, List.ext_getElem? fun i => ?_⟩
  rw [List.getElem?_map, List.getElem?_mapIdx]
  cases hw : (main f multiline pick o src (pos.map (·.map .ok))).1[i]? with
  | none =>
    rw [List.getElem?_eq_none_iff, h2, List.length_map] at hw
    rw [List.getElem?_eq_none (by rw [← hF.1]; exact hw)]
    rfl
  | some w =>
    obtain ⟨t, t', tags, c, c', g1, g2, g3, g4, g5, W, W', _⟩ := (C57_written pick hpick _ multiline o src _ _ true hS hO hE').2 i w hw
    obtain ⟨F, k1, k2, k3⟩ := each i t tags t' g1 g2 g4
    rw [k1]
    simp only [Option.map_some, Option.some.injEq]
    exact (output_is hout W' k2 g5 k3).symm

/-- C90: the same with `--projectivize` for a tree with gaps: removal of dummies on demand, filling the gaps of one node after
the other as told in C91, and then as in `C90_reattach`. -/
theorem C90_lowered_reattach (o : Options) (tags : Option (List Str)) (t t' : Tree) (S : Suits o t) (hp : o.projectivize = true)
    (h : Pipeline o tags t t') :
    ∃ t1 t2 l F, Switch o.removeDummies DummiesRemoved t t1 ∧ PostOrder t1 [t1.root] l ∧ FilledAll l t1 t2 ∧ t2.Is F ∧
      (∃ u, u.WF ∧ u.Is (F.moved (laterSteps o) tags) ∧ Pipeline (afterReattach o) none u t') ∧
      ((F.moved (laterSteps o) tags).Solid →
        NoGaps t' ∧ t'.Is ((F.moved (laterSteps o) tags).edited (afterReattach o) none)) := by
  obtain ⟨t1, t2, t3, t4, t5, t6, t7, b1, b2, b3, b4, b5, b6, b7, b8⟩ := h
  let o0 : Options := { o with reattachLabel := none, idSet := none, filterSet := none, insertionSet := none, parentFeature := none }
  have S0 : Suits o0 t := ⟨S.fit, by rcases S.words with h | h; exacts [.inl h, .inr ⟨h.1, rfl⟩]⟩
  have P0 : Pipeline o0 none t t2 := ⟨t1, t2, t2, t2, t2, t2, t2, b1, b2, rfl, rfl, rfl, rfl, rfl, rfl⟩
  obtain ⟨G0, p0⟩ := pipeline_good (tags := none) S0 P0
  have hN : NoGaps t2 := (noGaps_iff G0.fit.wf).1 (p0 hp rfl)
  have S2 : Suits (laterSteps o) t2 := ⟨G0.fit, by
    rcases S.words with h | h
    · exact .inl (by rw [G0.words.1]; exact h)
    · exact .inr ⟨rfl, h.2⟩⟩
  have P2 : Pipeline (laterSteps o) tags t2 t' :=
    ⟨t2, t2, t3, t4, t5, t6, t7, ⟨by simp [laterSteps], fun _ => rfl⟩, ⟨by simp [laterSteps], fun _ => rfl⟩, b3, b4, b5, b6, b7, b8⟩
  obtain ⟨a1, a2, l, F, c1, c2, c3, c4, c5, c6⟩ := C90_lowered o0 none t t2 S0 rfl hp P0
  have hF : t2.Is F := c6
  obtain ⟨⟨u, d1, d2, d3⟩, d4⟩ := C90_reattach (laterSteps o) tags t2 t' S2 hN P2 F hF
  refine ⟨a1, a2, l, F, c1, c2, c3, c4, ⟨u, d1, d2, ?_⟩, d4⟩
  obtain ⟨u1, u2, u3, u4, u5, u6, u7, e1, e2, e3, e4, e5, e6, e7, e8⟩ := d3
  exact ⟨u1, u2, u3, u4, u5, u6, u7, e1, ⟨by simp [afterReattach], e2.2⟩, e3, e4, e5, e6, e7, e8⟩

/-- C90: from bracketed text, for a whole file. -/
theorem C90_moved_text (pick : Tree → Finset Nat → Option Nat) (hpick : IsOrder pick) (f : Ptb.Format) (multiline : Bool)
    (o : Options) (hout : o.out ≠ .negra) (src : Source)
    (texts : List Str) (hT : BracketTexts multiline src.lines texts) (hE : ∀ s ∈ texts, EnoughText o s)
    (bs : List Brackets) (hb : List.Forall₂ (fun s b => b.Single ∧ Reads s b) texts bs)
    (pos : Option (List (List Str)))
    (hpos : ∀ ps, pos = some ps → ∀ (i : Nat) (b : Brackets), bs[i]? = some b → ∃ l, ps[i]? = some l ∧ l.length = b.len)
    (hG : ∀ (i : Nat) (b : Brackets), bs[i]? = some b → (((b.forest f 0).setTop none).moved o (pos.bind (·[i]?))).Solid) :
    ∃ ws, main (bracketInput f) multiline pick o src (pos.map (·.map .ok)) = (ws, .finished) ∧
      ws.map some = bs.mapIdx fun i b =>
        ((((b.forest f 0).setTop none).moved o (pos.bind (·[i]?))).edited (afterReattach o) none).output o.out := by
  obtain ⟨items, hS, hF, hE', hO⟩ := bracket_items f hT hE
  have key : ∃ ts : List Tree, items = ts.map .ok ∧
      List.Forall₂ (fun t (b : Brackets) => NoGaps t ∧ t.Is ((b.forest f 0).setTop none) ∧ t.nTerminals = b.len) ts bs := by
    clear hpos hG hE hE' hS hT
    induction hb generalizing items with
    | nil => cases hF; exact ⟨[], rfl, .nil⟩
    | @cons s b ss bs h _ ih =>
      cases hF with
      | @cons _ r _ items h1 hF =>
        obtain ⟨ts, rfl, h3⟩ := ih items hF
        obtain ⟨t, k1, k2, k3, k4⟩ := Ptb.stringToTree_ok (f := f) h.2 h.1
        rw [k1] at h1
        refine ⟨t :: ts, by rw [← Res.ok.inj h1]; rfl, .cons ⟨(noGaps_iff k2).1 k3, k4, ?_⟩ h3⟩
        rw [← (k2.is_seq k3 k4).2, Ptb.setTop_leaves, (Ptb.forest_leaves).2]
  obtain ⟨ts, rfl, hF'⟩ := key
  have hF2 := hF'
  rw [List.forall₂_iff_get] at hF2
  obtain ⟨ws, h1, h2⟩ := C90_moved pick hpick (bracketInput f) multiline o hout src ts hS hO
    (fun t ht => hE' t (by simpa using ht)) (bs.map fun b => (b.forest f 0).setTop none)
    (by rw [List.forall₂_map_right_iff]; exact hF'.imp fun t b h => ⟨h.1, h.2.1⟩) pos
    (fun ps hps i t ht => by
      obtain ⟨hi, rfl⟩ := List.getElem?_eq_some_iff.1 ht
      have hi' : i < bs.length := by rw [← hF2.1]; exact hi
      obtain ⟨_, _, k⟩ := hF2.2 i hi hi'
      simp only [List.get_eq_getElem] at k
      obtain ⟨l, e1, e2⟩ := hpos ps hps i bs[i] (List.getElem?_eq_getElem hi')
      exact ⟨l, e1, by rw [e2, k]⟩)
    (fun i F hFi => by
      rw [List.getElem?_map, Option.map_eq_some_iff] at hFi
      obtain ⟨b, e1, rfl⟩ := hFi
      exact hG i b e1)
  refine ⟨ws, h1, h2.trans (List.ext_getElem? fun i => ?_)⟩
  simp only [List.getElem?_mapIdx, List.getElem?_map, Option.map_map]
  rfl

/-- Words tagged `N`. -/
def isNoun (t : Tree) (n : Nat) : Bool := (t.graph.node? n).any fun nd => nd.label = "N".toList

theorem isNoun_local : TermLocal isNoun := by
  intro t t' n x h h'
  simp [isNoun, h, h']

example : ∃ F, Examples.nested.Is F ∧ ∃ t', Examples.nested.reattachTerminals Examples.nested.root isNoun = .ok t' ∧ t'.WF ∧
    t'.Is (F.gathered fun x => x.pos = "N".toList) := by
  obtain ⟨F, hF⟩ := nested_wf.is_exists
  refine ⟨F, hF, C90_gather _ nested_wf (by decide) (by decide) F hF isNoun isNoun_local _ fun n x h => ?_⟩
  simp only [isNoun, h, Node.label, Option.any_some]
  congr

example : ∃ F t', Examples.nested.Is F ∧ Pipeline { rewriteOptions with reattachLabel := some ['N'] } none Examples.nested t' ∧
    ∃ u, u.WF ∧ u.Is (F.moved { rewriteOptions with reattachLabel := some ['N'] } none) ∧
      Pipeline (afterReattach { rewriteOptions with reattachLabel := some ['N'] }) none u t' := by
  obtain ⟨F, hF⟩ := nested_wf.is_exists
  obtain ⟨t', k, _⟩ := process_spec minPick_order { rewriteOptions with reattachLabel := some ['N'] } none (nested_suits _) (by simp)
  exact ⟨F, t', hF, k, (C90_reattach _ none _ t' (nested_suits _) ((noGaps_iff nested_wf).1 (by decide)) k F hF).1⟩

/-- A tree with a gap that suits the tool. -/
theorem disc_suits (o : Options) : Suits o Examples.disc := (fitB_sound (by decide +kernel) o).1

example : Examples.disc.isProjective = false ∧ ∃ (t' t2 : Tree) (F : Forest),
    Pipeline { plain .ptb with projectivize := true, reattachLabel := some ['N'] } none Examples.disc t' ∧
    t2.Is F ∧ ∃ u, u.WF ∧ u.Is (F.moved { plain .ptb with reattachLabel := some ['N'] } none) ∧
      Pipeline (plain .ptb) none u t' := by
  obtain ⟨t', k, _⟩ := process_spec minPick_order { plain .ptb with projectivize := true, reattachLabel := some ['N'] } none
    (disc_suits _) (by simp)
  obtain ⟨_, t2, _, F, _, _, _, h1, h2, _⟩ := C90_lowered_reattach _ none _ t' (disc_suits _) rfl k
  exact ⟨by decide +kernel, t', t2, F, k, h1, h2⟩

/-- Moving a word out of the middle of a phrase leaves a gap, moving one from its end does not; a node with nothing left is
gone. -/
def gatherBrackets : List Brackets :=
  [.node ['S'] (.node "NP".toList (.leaf ['D'] ['a'] (.leaf ['N'] ['b'] (.node ['P'] (.leaf "$,".toList [','] .nil) .nil)))
    (.leaf ['V'] ['c'] (.leaf "$.".toList ['.'] .nil))) .nil]

/-- The line of text. -/
def gatherFile : Source := ⟨["(S (NP (D a) (N b) (P ($, ,))) (V c) ($. .))".toList], []⟩

/-- Punctuation is moved to the root, then the words below `NP` are bundled. -/
def gatherOptions : Options :=
  { plain .ptb with reattachLabel := some ['$'], insertionSet := some (.negative ["NP".toList]), insertionLabel := "UNK".toList }

theorem gatherFile_reads : List.Forall₂ (fun s b => b.Single ∧ Reads s b) (gatherFile.lines.filter fun l => l.head? ≠ some '%')
    gatherBrackets := by
  have w : ∀ s : List Str, (s.all fun s => s ≠ [] && s.all fun c => c ≠ ' ' ∧ c ≠ '\n' ∧ c ≠ '\r' ∧ c ≠ '(' ∧ c ≠ ')') = true →
      ∀ x ∈ s, Bracketed.Word x := by
    intro s h x hx
    have := List.all_eq_true.1 h x hx
    simp only [Bool.and_eq_true, decide_eq_true_eq, List.all_eq_true] at this
    exact this
  have W := w ["S".toList, "NP".toList, "D".toList, "a".toList, "P".toList, "$,".toList, ",".toList, "b".toList, "N".toList, "c".toList,
    "V".toList, "$.".toList, ".".toList] (by decide +kernel)
  have e : (gatherFile.lines.filter fun l => l.head? ≠ some '%') = gatherFile.lines := by decide +kernel
  rw [e]
  refine .cons ⟨rfl, Ptb.reads_text_one (f := .simple) ?_ (by decide +kernel)⟩ .nil
  exact ⟨W _ (by decide), by decide, ⟨W _ (by decide), by decide, ⟨W _ (by decide), W _ (by decide), W _ (by decide), W _ (by decide),
    W _ (by decide), by decide, ⟨W _ (by decide), W _ (by decide), trivial⟩, trivial⟩, W _ (by decide), W _ (by decide),
    W _ (by decide), W _ (by decide), trivial⟩, trivial⟩

example : ∃ ws, main .simple false minPick gatherOptions gatherFile none = (ws, .finished) ∧
    ws.map some = gatherBrackets.mapIdx fun _ b =>
      ((((b.forest .simple 0).setTop none).moved gatherOptions none).edited (afterReattach gatherOptions) none).output .ptb :=
  C90_moved_text minPick minPick_order .simple false gatherOptions (by decide) gatherFile _ (.inl ⟨rfl, rfl⟩)
    (by intro s hs; left; revert hs; revert s; decide +kernel) _ gatherFile_reads none (by simp) (by
      intro i b hb
      rcases i with _ | i
      · cases hb
        exact ⟨rfl, ⟨rfl, trivial, trivial⟩, trivial⟩
      · cases hb)

example : (gatherBrackets.map fun b =>
      ((((b.forest .simple 0).setTop none).moved gatherOptions none).edited (afterReattach gatherOptions) none).line .ptb) =
    ["(S (NP (UNK (D a) (N b))) ($, ,) (V c) ($. .))\n".toList] := by decide +kernel

/-- With `N` as the prefix a gap is left. -/
example : ∀ b ∈ gatherBrackets,
    ¬ (((b.forest .simple 0).setTop none).moved { gatherOptions with reattachLabel := some ['N'] } none).Solid := by
  intro b hb
  rw [gatherBrackets, List.mem_singleton] at hb
  subst hb
  intro h
  exact absurd h.2.1.1 (by decide +kernel)

end Props
end Lumberjack
