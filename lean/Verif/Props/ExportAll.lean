import Verif.Proofs.ExportAll
import Verif.Proofs.Through
import Verif.Props.RewriteAny
import Verif.Props.RewriteGaps

/-!
# The whole NEGRA output of the conversion tool (C95)
-/

namespace Lumberjack
namespace Props

open Lumberjack.Tree Lumberjack.Convert
open Bracketed (Reads)

/-- C95: from any format to NEGRA, without `--projectivize` unless no tree has gaps, for trees without secondary edges: what is written, however the run
ends, are the texts of the trees rewritten. -/
theorem C95_exported (pick : Tree → Finset Nat → Option Nat) (hpick : IsOrder pick) (f : InFormat) (multiline : Bool)
    (o : Options) (hout : o.out = .negra) (src : Source) (pos : Option (List PosItem))
    (items : List (Except Err Tree)) (b : Bool) (hS : Stream f multiline src items b) (hO : f = .negra → Orderly src.lines)
    (hE : ∀ t, .ok t ∈ items → Enough o t) (hp : ∀ t, .ok t ∈ items → ∀ r ∈ t.graph.edges, r.w.isPrimary = true)
    (hN : o.projectivize = true → ∀ t, .ok t ∈ items → NoGaps t) :
    ∃ Fs : List Forest, (main f multiline pick o src pos).1 = Forest.exportTexts 0 Fs ∧
      ∀ (i : Nat) F', Fs[i]? = some F' → ∃ t F tags, items[i]? = some (.ok t) ∧ t.Is F ∧ TagsAt pos i tags ∧
        (∀ l, tags = some l → l.length = t.nTerminals) ∧ F' = F.editedBy o tags := by
  obtain ⟨items', b', h', _, hR⟩ := stream_exists f multiline src.size src (Nat.le_refl _)
  obtain ⟨rfl, rfl⟩ := hS.unique h'
  exact (C57_run pick hpick f multiline o src pos _ _ hS hO hE).exports hout
    fun t ht => ⟨(hR hO t ht).suits (hE t ht), hp t ht, fun h => hN h t ht⟩

/-- C95: the same for a whole file that can be read. -/
theorem C95_export_file (pick : Tree → Finset Nat → Option Nat) (hpick : IsOrder pick) (f : InFormat) (multiline : Bool)
    (o : Options) (hout : o.out = .negra) (src : Source) (ts : List Tree)
    (hS : Stream f multiline src (ts.map .ok) true) (hO : f = .negra → Orderly src.lines) (hE : ∀ t ∈ ts, Enough o t)
    (hp : ∀ t ∈ ts, ∀ r ∈ t.graph.edges, r.w.isPrimary = true) (hN : o.projectivize = true → ∀ t ∈ ts, NoGaps t)
    (Fs : List Forest) (hF : List.Forall₂ (fun t F => t.Is F) ts Fs) (pos : Option (List (List Str)))
    (hpos : ∀ ps, pos = some ps → ∀ (i : Nat) (t : Tree), ts[i]? = some t → ∃ l, ps[i]? = some l ∧ l.length = t.nTerminals) :
    main f multiline pick o src (pos.map (·.map .ok)) =
      (Forest.exportTexts 0 (Fs.mapIdx fun i F => F.editedBy o (pos.bind (·[i]?))), .finished) := by
  have hE' : ∀ t, .ok t ∈ ts.map (Except.ok (ε := Err)) → Enough o t := fun t ht => hE t (by simpa using ht)
  obtain ⟨items', b', h', _, hR⟩ := stream_exists f multiline src.size src (Nat.le_refl _)
  obtain ⟨rfl, rfl⟩ := hS.unique h'
  obtain ⟨Gs, g1, g2⟩ := C95_exported pick hpick f multiline o hout src (pos.map (·.map .ok)) _ _ hS hO hE'
    (fun t ht => hp t (by simpa using ht)) (fun h t ht => hN h t (by simpa using ht))
  obtain ⟨h1, h2⟩ := (C57_run pick hpick f multiline o src (pos.map (·.map .ok)) _ _ hS hO hE').complete_any
    (fun ps hps i t ht => by
      cases pos with
      | none => cases hps
      | some ls =>
        cases hps
        rw [List.getElem?_map, Option.map_eq_some_iff] at ht
        obtain ⟨t', ht, e⟩ := ht
        cases e
        obtain ⟨l, hl, hl'⟩ := hpos ls rfl i t ht
        exact ⟨l, by rw [List.getElem?_map, hl]; rfl, hl'⟩)
    rfl (fun x hx => by obtain ⟨t, _, rfl⟩ := List.mem_map.1 hx; exact ⟨t, rfl⟩) (fun _ _ _ _ _ _ _ => .inl (.inr hout))
  rw [List.forall₂_iff_get] at hF
  have hlen : Gs.length = Fs.length := by
    rw [g1, exportTexts_length, List.length_map] at h2
    rw [h2, hF.1]
  have hGs : Gs = Fs.mapIdx fun i F => F.editedBy o (pos.bind (·[i]?)) := by
    refine List.ext_getElem (by rw [hlen, List.length_mapIdx]) fun i hi hi' => ?_
    obtain ⟨t, F, tags, k1, k2, k3, _, k4⟩ := g2 i _ (List.getElem?_eq_getElem hi)
    rw [List.getElem?_map, Option.map_eq_some_iff] at k1
    obtain ⟨u, ht, e⟩ := k1
    cases e
    obtain ⟨hi1, e⟩ := List.getElem?_eq_some_iff.1 ht
    have hi2 : i < Fs.length := by rw [← hF.1]; exact hi1
    have k := hF.2 i hi1 hi2
    simp only [List.get_eq_getElem, e] at k
    rw [k4, List.getElem_mapIdx, Rep.unique k2 k]
    congr 1
    cases pos with
    | none =>
      rcases k3 with ⟨_, h⟩ | ⟨ps, l, h, _⟩
      · exact h
      · cases h
    | some ls =>
      rcases k3 with ⟨h, _⟩ | ⟨ps, l, h, h', rfl⟩
      · cases h
      · cases h
        rw [List.getElem?_map, Option.map_eq_some_iff] at h'
        obtain ⟨l', e1, e2⟩ := h'
        cases e2
        exact e1.symm
  exact Prod.ext (by rw [g1, hGs]) h1

/-- C95: from bracketed text to NEGRA, with all options: the trees are given by the text. -/
theorem C95_export_text (pick : Tree → Finset Nat → Option Nat) (hpick : IsOrder pick) (f : Ptb.Format) (multiline : Bool)
    (o : Options) (hout : o.out = .negra) (src : Source)
    (texts : List Str) (hT : BracketTexts multiline src.lines texts) (hE : ∀ s ∈ texts, EnoughText o s)
    (bs : List Brackets) (hb : List.Forall₂ (fun s b => b.Single ∧ Reads s b) texts bs)
    (pos : Option (List (List Str)))
    (hpos : ∀ ps, pos = some ps → ∀ (i : Nat) (b : Brackets), bs[i]? = some b → ∃ l, ps[i]? = some l ∧ l.length = b.len) :
    main (bracketInput f) multiline pick o src (pos.map (·.map .ok)) =
      (Forest.exportTexts 0 (bs.mapIdx fun i b => ((b.forest f 0).setTop none).editedBy o (pos.bind (·[i]?))), .finished) := by
  obtain ⟨items, hS, hF, hE', hO⟩ := bracket_items f hT hE
  obtain ⟨ts, rfl, hK⟩ : ∃ ts : List Tree, items = ts.map .ok ∧ List.Forall₂ (fun t b =>
      t.WF ∧ t.isProjective = true ∧ t.Is ((b.forest f 0).setTop none) ∧ ∀ r ∈ t.graph.edges, r.w.isPrimary = true) ts bs := by
    clear hS hE' hE hpos hT
    induction hF generalizing bs with
    | nil => cases hb; exact ⟨[], rfl, .nil⟩
    | cons h1 _ ih =>
      cases hb with
      | cons h2 h3 =>
        obtain ⟨ts, rfl, k⟩ := ih _ h3
        obtain ⟨t, k1, k2, k3, k4⟩ := Ptb.stringToTree_ok (f := f) h2.2 h2.1
        rw [k1] at h1
        cases h1
        exact ⟨t :: ts, rfl, .cons ⟨k2, k3, k4, Ptb.stringToTree_primary k1⟩ k⟩
  have hmem : ∀ t ∈ ts, t.WF ∧ t.isProjective = true ∧ ∀ r ∈ t.graph.edges, r.w.isPrimary = true := by
    intro t ht
    obtain ⟨i, hi, rfl⟩ := List.mem_iff_getElem.1 ht
    rw [List.forall₂_iff_get] at hK
    obtain ⟨k1, k2, _, k3⟩ := hK.2 i hi (by rw [← hK.1]; exact hi)
    exact ⟨k1, k2, k3⟩
  have key := C95_export_file pick hpick (bracketInput f) multiline o hout src ts hS hO (fun t ht => hE' t (by simpa using ht))
    (fun t ht => (hmem t ht).2.2) (fun _ t ht => (noGaps_iff (hmem t ht).1).1 (hmem t ht).2.1)
    (bs.map fun b => (b.forest f 0).setTop none) (by
      rw [List.forall₂_map_right_iff]
      exact hK.imp fun _ _ h => h.2.2.1) pos (fun ps hps i t ht => by
      obtain ⟨hi, rfl⟩ := List.getElem?_eq_some_iff.1 ht
      rw [List.forall₂_iff_get] at hK
      have hi' : i < bs.length := by rw [← hK.1]; exact hi
      obtain ⟨k1, k2, k3, _⟩ := hK.2 i hi hi'
      simp only [List.get_eq_getElem] at k1 k2 k3
      obtain ⟨l, e2, e3⟩ := hpos ps hps i bs[i] (by simp [hi'])
      exact ⟨l, e2, by rw [e3, ← (k1.is_seq k2 k3).2, Ptb.setTop_leaves, (Ptb.forest_leaves).2]⟩)
  rw [key]
  congr 2
  refine List.ext_getElem? fun i => ?_
  simp only [List.getElem?_mapIdx, List.getElem?_map, Option.map_map]
  rfl

/-- C95: from any format to NEGRA with `--projectivize` but without `--sec_edges`, for trees with or without gaps that have no
secondary edges: the gaps are filled as told in C91, and then the trees are rewritten. -/
theorem C95_export_lowered (pick : Tree → Finset Nat → Option Nat) (hpick : IsOrder pick) (f : InFormat) (multiline : Bool)
    (o : Options) (hout : o.out = .negra) (hproj : o.projectivize = true) (hsec : o.secEdges = false) (src : Source)
    (ts : List Tree) (hS : Stream f multiline src (ts.map .ok) true) (hO : f = .negra → Orderly src.lines)
    (hE : ∀ t ∈ ts, Enough o t) (hp : ∀ t ∈ ts, ∀ r ∈ t.graph.edges, r.w.isPrimary = true) (pos : Option (List (List Str)))
    (hpos : ∀ ps, pos = some ps → ∀ (i : Nat) (t : Tree), ts[i]? = some t → ∃ l, ps[i]? = some l ∧ l.length = t.nTerminals) :
    ∃ Fs : List Forest, main f multiline pick o src (pos.map (·.map .ok)) = (Forest.exportTexts 0 Fs, .finished) ∧
      Fs.length = ts.length ∧ ∀ (i : Nat) t F', ts[i]? = some t → Fs[i]? = some F' →
        ∃ t1 t2 l F, Switch o.removeDummies DummiesRemoved t t1 ∧ PostOrder t1 [t1.root] l ∧ FilledAll l t1 t2 ∧ t2.Is F ∧
          F' = F.editedBy (laterSteps o) (pos.bind (·[i]?)) := by
  have hE' : ∀ t, .ok t ∈ ts.map (Except.ok (ε := Err)) → Enough o t := fun t ht => hE t (by simpa using ht)
  obtain ⟨items', b', h', _, hR⟩ := stream_exists f multiline src.size src (Nat.le_refl _)
  obtain ⟨rfl, rfl⟩ := hS.unique h'
  have hrun := C57_run pick hpick f multiline o src (pos.map (·.map .ok)) _ _ hS hO hE'
  obtain ⟨h1, h2⟩ := hrun.complete_any
    (fun ps hps i t ht => by
      cases pos with
      | none => cases hps
      | some ls =>
        cases hps
        rw [List.getElem?_map, Option.map_eq_some_iff] at ht
        obtain ⟨t', ht, e⟩ := ht
        cases e
        obtain ⟨l, hl, hl'⟩ := hpos ls rfl i t ht
        exact ⟨l, by rw [List.getElem?_map, hl]; rfl, hl'⟩)
    rfl (fun x hx => by obtain ⟨t, _, rfl⟩ := List.mem_map.1 hx; exact ⟨t, rfl⟩) (fun _ _ _ _ _ _ _ => .inl (.inr hout))
  obtain ⟨Fs, g1, g2⟩ := hrun.exports_of hout (fun t tags F' => ∃ t1 t2 l F, Switch o.removeDummies DummiesRemoved t t1 ∧
      PostOrder t1 [t1.root] l ∧ FilledAll l t1 t2 ∧ t2.Is F ∧ F' = F.editedBy (laterSteps o) tags) (by
    intro t tags t' ht h3
    have S := (hR hO t ht).suits (hE' t ht)
    have G := (pipeline_good S h3).1.fit
    obtain ⟨t1, t2, l, F, k1, k2, k3, k4, _, k5⟩ := C95_lowered o tags t t' S hproj h3
    refine ⟨G.wf, G.rootNt, fun r hr => ?_, _, k5, t1, t2, l, F, k1, k2, k3, k4, rfl⟩
    by_contra hn
    exact hn (hp t (by simpa using ht) r ((pipeline_rest S.fit.wf h3).secondary (fun _ h => by rw [hsec] at h; cases h) r hr
      (by simpa using hn))))
  refine ⟨Fs, Prod.ext g1 h1, by rw [g1, exportTexts_length, List.length_map] at h2; exact h2, fun i t F' ht hF' => ?_⟩
  obtain ⟨u, tags, k1, k2, _, t1, t2, l, F, k4, k5, k6, k7, k8⟩ := g2 i _ hF'
  rw [List.getElem?_map, ht] at k1
  cases k1
  have htags : tags = pos.bind (·[i]?) := by
    cases pos with
    | none =>
      rcases k2 with ⟨_, h⟩ | ⟨ps, l, h, _⟩
      · exact h
      · cases h
    | some ls =>
      rcases k2 with ⟨h, _⟩ | ⟨ps, l, h, h', rfl⟩
      · cases h
      · cases h
        rw [List.getElem?_map, Option.map_eq_some_iff] at h'
        obtain ⟨l', e1, e2⟩ := h'
        cases e2
        exact e1.symm
  exact ⟨t1, t2, l, F, k4, k5, k6, k7, by rw [k8, htags]⟩

/-- A file with a gap, edited and written as NEGRA. -/
example : ∃ (t : Tree) (F : Forest), t.isProjective = false ∧ t.Is F ∧
    main .negra false minPick { gapOptions with out := .negra } gapFile none =
      (Forest.exportTexts 0 [F.editedBy { gapOptions with out := .negra } none], .finished) := by
  obtain ⟨t, h1, h2⟩ := onlyItem_spec (f := .negra) (multiline := false) (src := gapFile)
    (test := fun t => decide (2 ≤ t.nTerminals) && !t.isProjective && t.graph.edges.all (·.w.isPrimary)) (by decide +kernel)
  simp only [Bool.and_eq_true, decide_eq_true_eq, Bool.not_eq_true', List.all_eq_true] at h2
  obtain ⟨items', b', h', _, hR⟩ := stream_exists .negra false gapFile.size gapFile (Nat.le_refl _)
  obtain ⟨rfl, rfl⟩ := h1.unique h'
  obtain ⟨F, hF⟩ := (hR (fun _ => gapFile_orderly) t (by simp)).wf.is_exists
  have := C95_export_file minPick minPick_order .negra false { gapOptions with out := .negra } rfl gapFile [t] h1
    (fun _ => gapFile_orderly) (by simp; exact .inl h2.1.1) (by simpa using h2.2)
    (fun h => nomatch h) [F] (.cons hF .nil) none (by simp)
  exact ⟨t, F, h2.1.2, hF, this⟩

/-- The same file with its gap filled. -/
example : ∃ (t : Tree) (Fs : List Forest), t.isProjective = false ∧
    main .negra false minPick { plain .negra with projectivize := true } gapFile none = (Forest.exportTexts 0 Fs, .finished) ∧
    Fs.length = 1 ∧ ∀ F' ∈ Fs, ∃ t2 l, PostOrder t [t.root] l ∧ FilledAll l t t2 ∧ t2.Is F' := by
  obtain ⟨t, h1, h2⟩ := onlyItem_spec (f := .negra) (multiline := false) (src := gapFile)
    (test := fun t => decide (2 ≤ t.nTerminals) && !t.isProjective && t.graph.edges.all (·.w.isPrimary)) (by decide +kernel)
  simp only [Bool.and_eq_true, decide_eq_true_eq, Bool.not_eq_true', List.all_eq_true] at h2
  obtain ⟨Fs, k1, k2, k3⟩ := C95_export_lowered minPick minPick_order .negra false { plain .negra with projectivize := true } rfl rfl
    rfl gapFile [t] h1 (fun _ => gapFile_orderly) (by simp; exact .inl h2.1.1) (by simpa using h2.2) none (by simp)
  refine ⟨t, Fs, h2.1.2, k1, k2, fun F' hF' => ?_⟩
  obtain ⟨i, hi, rfl⟩ := List.mem_iff_getElem.1 hF'
  obtain rfl : i = 0 := by rw [k2] at hi; simpa using hi
  obtain ⟨t1, t2, l, F, e1, e2, e3, e4, e5⟩ := k3 0 t _ rfl (List.getElem?_eq_getElem hi)
  obtain rfl : t1 = t := e1.2 rfl
  exact ⟨t2, l, e2, e3, e5 ▸ e4⟩

/-- Two bracketed lines with new tags, with all steps of `rewriteOptions` and `--projectivize`. -/
example : main .simple false minPick { rewriteOptions with out := .negra, projectivize := true } rewriteFile
    (some (rewriteTags.map .ok)) =
    (Forest.exportTexts 0 (rewriteBrackets.mapIdx fun i b => ((b.forest .simple 0).setTop none).editedBy
      { rewriteOptions with out := .negra, projectivize := true } rewriteTags[i]?), .finished) :=
  C95_export_text minPick minPick_order .simple false { rewriteOptions with out := .negra, projectivize := true } rfl rewriteFile _
    (.inl ⟨rfl, rfl⟩) (by intro s hs; left; revert hs; revert s; decide +kernel) _ rewriteFile_reads (some rewriteTags) (by
      rintro _ ⟨⟩ i b hb
      rcases i with _ | _ | i
      · cases hb; exact ⟨_, rfl, rfl⟩
      · cases hb; exact ⟨_, rfl, rfl⟩
      · cases hb)

/-- Two trees without sentence ids, numbered from 0. -/
example : Forest.exportTexts 0 [gapForest, (gapForest.filtered fun x => x.label = ['A']).inOrder] =
    [.text (Negra.unlines (List.map String.toList
      ["#BOS 0",
       "a                               --                              X               --                      --              500",
       "b                               --                              Y               --                      HD              501",
       "c                               --                              Z               --                      --              500",
       "d                               --                              W               --                      --              0",
       "#500                            --                              A               --                      --              0",
       "#501                            --                              B               --                      --              0",
       "#EOS 0", ""])),
     .text (Negra.unlines (List.map String.toList
      ["#BOS 1",
       "a                               --                              X               --                      --              0",
       "b                               --                              Y               --                      HD              500",
       "c                               --                              Z               --                      --              0",
       "d                               --                              W               --                      --              0",
       "#500                            --                              B               --                      --              0",
       "#EOS 1", ""]))] := by
  decide +kernel

end Props
end Lumberjack
