import Verif.Proofs.RewriteTags
import Verif.Props.IsoOptions
import Verif.Props.TextWords

/-!
# Editing as rewriting of ordered trees (C90)
-/

namespace Lumberjack
namespace Props

open Lumberjack.Tree Lumberjack.Convert
open Bracketed (Reads sepOf)

theorem insert_grouped {t : Tree} (W : t.WF) (hp : t.isProjective = true) (hroot : t.IsNt t.root) {F : Forest} (hF : t.Is F)
    {f : Tree → Nat → Option Str} (hf : NodeFn f) {P : NonTerminal → Bool} {l : Str}
    (hP : ∀ n x, t.graph.node? n = some (.nt x) → f t n = if P x then some l else none)
    (hH : ∀ p l', f t p = some l' → Silent f l' ∨ t.FirstLeast p) :
    ∃ t', t.insertIntermediate f = .ok (t', .ok ()) ∧ t'.WF ∧ t'.isProjective = true ∧ t'.Is (F.grouped P l) := by
  obtain ⟨t', h1, I⟩ := C28_insert_intermediate t W hroot f hf hH
  have I' : Inserted t (t.Moved P) (fun _ => l) t' := by
    refine (I.relabel (lab' := fun _ => l) ?_).congr ?_
    · rintro p c ⟨⟨l', hl'⟩, hc, _⟩
      obtain ⟨x, hx⟩ := W.shape.parent_isNt W.graph hc
      rw [hP p x hx] at hl' ⊢
      split at hl'
      · rename_i h; rw [if_pos h]; rfl
      · cases hl'
    · intro p c
      refine and_congr_left fun ⟨hc, _⟩ => ?_
      obtain ⟨x, hx⟩ := W.shape.parent_isNt W.graph hc
      rw [hP p x hx, hx]
      by_cases h : P x = true
      · simp [h]
      · simp [h]
  exact ⟨t', h1, I.wf, I.projective W hp, Inserted.is_grouped I' W hp hF⟩

theorem bracket_items (f : Ptb.Format) {multiline : Bool} {o : Options} {src : Source} {texts : List Str}
    (hT : BracketTexts multiline src.lines texts) (hE : ∀ s ∈ texts, EnoughText o s) :
    ∃ items, Stream (bracketInput f) multiline src items true ∧
      List.Forall₂ (fun s r => Ptb.stringToTree f s = .ok r) texts items ∧ (∀ t, .ok t ∈ items → Enough o t) ∧
      (bracketInput f = .negra → Orderly src.lines) := by
  obtain ⟨items, hS, hF⟩ : ∃ items, Stream (bracketInput f) multiline src items true ∧
      List.Forall₂ (fun s r => Ptb.stringToTree f s = .ok r) texts items := by
    rcases hT with ⟨rfl, rfl⟩ | ⟨rfl, h⟩
    · exact C57_single_line f src
    · exact C57_multi_line f src texts h
  refine ⟨items, hS, hF, ?_, by cases f <;> exact fun h => nomatch h⟩
  rw [List.forall₂_iff_get] at hF
  intro t ht
  obtain ⟨j, hj, hjt⟩ := List.mem_iff_getElem.1 ht
  have hp := hF.2 j (by rw [hF.1]; exact hj) hj
  simp only [List.get_eq_getElem] at hp
  rw [hjt] at hp
  obtain ⟨ts, _, _, h3, _, _, h6⟩ := Bracketed.parsed hp
  rcases hE _ (List.getElem_mem (by rw [hF.1]; exact hj)) with h | ⟨h, h'⟩
  · left; rw [h3]; exact h
  · exact .inr ⟨h6 h, h'⟩

theorem parsed_forest {f : Ptb.Format} {s : Str} {t : Tree} (h : Ptb.stringToTree f s = .ok (.ok t)) :
    ∃ b, b.Single ∧ Reads s b ∧ t.isProjective = true ∧ t.Is ((b.forest f 0).setTop none) := by
  by_cases hb : ∃ b : Brackets, b.Single ∧ Reads s b
  · obtain ⟨b, hb, hr⟩ := hb
    obtain ⟨t1, h1, _, hp, hF⟩ := Ptb.stringToTree_ok (f := f) hr hb
    rw [h] at h1; cases h1
    exact ⟨b, hb, hr, hp, hF⟩
  · rw [Ptb.stringToTree_err hb] at h; cases h

/-- C90: `filter_nonterminals(f)` on a tree without gaps. `P` is where `f` is false. -/
theorem C90_filter (t : Tree) (W : t.WF) (hp : t.isProjective = true) (F : Forest) (hF : t.Is F) (f : Tree → Nat → Bool)
    (hf : NodeLocal f) (P : NonTerminal → Bool) (hP : ∀ n x, t.graph.node? n = some (.nt x) → P x = !f t n) :
    ∃ t', t.filterNonterminals f = .ok (t', .ok ()) ∧ t'.WF ∧ t'.isProjective = true ∧ t'.Is (F.filtered P) := by
  obtain ⟨t', h1, h2, h3⟩ := C24_filter_nonterminals t W f hf
  refine ⟨t', h1, h3.wf, h3.projective W hp, Removed.is_filtered h3 W h2 (fun n => ?_) hp hF⟩
  constructor
  · rintro ⟨⟨x, hx⟩, h4, h5⟩
    exact ⟨h4, x, hx, by rw [hP n x hx, h5]; rfl⟩
  · rintro ⟨h4, x, hx, h5⟩
    rw [hP n x hx, Bool.not_eq_true'] at h5
    exact ⟨⟨x, hx⟩, h4, h5⟩

/-- C90: `remove_dummy_nodes()` on a tree without gaps. -/
theorem C90_dummies (t : Tree) (W : t.WF) (hp : t.isProjective = true) (F : Forest) (hF : t.Is F) :
    ∃ t', t.removeDummyNodes = .ok (t', .ok ()) ∧ t'.WF ∧ t'.isProjective = true ∧ t'.Is F.undummied := by
  obtain ⟨t', R, h1, h2, h3, h4⟩ := C40_remove_dummy_nodes t W
  exact ⟨t', h1, h2.wf, h2.projective W hp, dummies_is W ⟨R, h2, h3, h4⟩ hp hF⟩

/-- C90: `insert_intermediate(f)` on a tree without gaps, for a function that gives the label `l` to the nodes with
`P` and no label to the others. -/
theorem C90_insert (t : Tree) (W : t.WF) (hp : t.isProjective = true) (hroot : t.IsNt t.root) (F : Forest) (hF : t.Is F)
    (f : Tree → Nat → Option Str) (hf : NodeFn f) (P : NonTerminal → Bool) (l : Str)
    (hP : ∀ n x, t.graph.node? n = some (.nt x) → f t n = if P x then some l else none)
    (hH : Silent f l ∨ ∀ p, t.FirstLeast p) :
    ∃ t', t.insertIntermediate f = .ok (t', .ok ()) ∧ t'.WF ∧ t'.isProjective = true ∧ t'.Is (F.grouped P l) := by
  have hnt : ∀ {p c}, t.IsChild p c → ∃ x, t.graph.node? p = some (.nt x) := fun h => W.shape.parent_isNt W.graph h
  by_cases hS : Silent f l
  · -- other labels are not given to nodes
    have key : ∀ p l', f t p = some l' → Silent f l' ∨ t.FirstLeast p := by
      intro p l' hl
      cases hn : t.graph.node? p with
      | none =>
        refine .inr fun c i hc _ _ d hd _ => ?_
        obtain ⟨x, hx⟩ := hnt hc
        rw [hn] at hx; cases hx
      | some nd =>
        cases nd with
        | term x =>
          refine .inr fun c i hc _ _ d hd _ => ?_
          obtain ⟨x, hx⟩ := hnt hc
          rw [hn] at hx; cases hx
        | nt x =>
          rw [hP p x hn] at hl
          split at hl
          · cases hl; exact .inl hS
          · cases hl
    exact insert_grouped W hp hroot hF hf hP key
  · exact insert_grouped W hp hroot hF hf hP fun p l' _ => .inr ((hH.resolve_left hS) p)

/-- C90: `annotate_pos(tags)` on a tree with its words in order. -/
theorem C90_pos (t : Tree) (W : t.WF) (ho : t.InOrder) (F : Forest) (hF : t.Is F) (tags : List Str) (hl : tags.length = t.nTerminals) :
    ∃ t', t.annotatePos tags = .ok (t', .ok ()) ∧ t'.WF ∧ t'.Is (F.retagged tags) := by
  obtain ⟨t', r, h1, h2, _, _, pos, E, _⟩ := C29_annotate_pos t W tags
  have hr := h2.2 hl
  subst hr
  obtain ⟨t'', k1, k3, k2⟩ := C29_by_position t W tags hl ho
  rw [h1] at k1
  cases k1
  have E' : PosTagged tags t t' := by
    refine TermEdit.congr E fun n x hx => ?_
    obtain ⟨i, _, hi⟩ := W.sentence.pos n ⟨x, hx⟩
    obtain ⟨p, hp1, hp2⟩ := k2 n i x hi hx
    rw [E.term n x hx] at hp2
    obtain ⟨x', hx', hxi⟩ := hi
    rw [hx] at hx'; cases hx'
    simp only [Option.some.injEq, Node.term.injEq] at hp2
    rw [hp2, hxi]
    simp [Span.ofIdx, hp1]
  exact ⟨t', h1, k3, pos_is E' hF⟩

/-- C90: `annotate_parent_tag(name)`. -/
theorem C90_parent (t : Tree) (W : t.WF) (hroot : t.IsNt t.root) (F : Forest) (hF : t.Is F) (name : Str) :
    ∃ t', t.annotateParentTag name = .ok (t', .ok ()) ∧ t'.WF ∧ t'.Is (F.parented name) := by
  obtain ⟨t', val, h1, E, h2⟩ := (C30_parent_tag t W name).1 hroot
  exact ⟨t', h1, E.wf (fun _ _ => rfl) W, parented_is W hroot ⟨val, E, h2⟩ hF⟩

/-- C90: `project_tag_set(name, f)`. -/
theorem C90_project (t : Tree) (W : t.WF) (F : Forest) (hF : t.Is F) (name : Str) (f : Tree → Nat → Bool)
    (hf : IgnoresTermFeatures f) (P : NonTerminal → Bool) (hP : ∀ n x, t.graph.node? n = some (.nt x) → f t n = P x) :
    ∃ t', t.projectTagSet name f = .ok t' ∧ t'.WF ∧ t'.Is (F.projected name P none) := by
  obtain ⟨t', val, h1, E, h2⟩ := C30_project_tag_set t W name f hf
  refine ⟨t', h1, E.wf (fun n x => by cases val n <;> rfl) W, projected_is W E hF fun n above hn hA => ?_⟩
  obtain ⟨h3, h4⟩ := h2 n hn
  have nt : ∀ a, a ≠ n → t.Dom a n → ∃ x, t.graph.node? a = some (.nt x) := by
    intro a ha hd
    rcases hd.cases_child with e | ⟨c, hc, _⟩
    · exact absurd e ha
    · exact W.shape.parent_isNt W.graph hc
  cases above with
  | some l =>
    obtain ⟨a, x, k1, k2, k3, k4, k5, k6⟩ := hA
    rw [h3 a x ⟨⟨k1, k2, by rw [hP a x k3, k4]⟩, fun b b1 b2 b3 => ?_⟩ k3, k5]
    obtain ⟨y, hy⟩ := nt b b1 b2
    exact k6 b y b1 b2 hy (by rw [← hP b y hy, b3])
  | none =>
    refine h4 ?_
    rintro ⟨a, ⟨k1, k2, k3⟩, _⟩
    obtain ⟨y, hy⟩ := nt a k1 k2
    have := hA a y k1 k2 hy
    rw [← hP a y hy, k3] at this
    cases this

/-- C90: `project_ids(name, f)` on a tree without gaps, for a function that chooses the root and the other nodes with
`P`. -/
theorem C90_ids (t : Tree) (W : t.WF) (hp : t.isProjective = true) (hroot : t.IsNt t.root) (ho : t.InOrder) (F : Forest)
    (hF : t.Is F) (name : Str) (f : Tree → Nat → Bool) (hf : IgnoresTermFeatures f) (hf0 : f t t.root = true)
    (P : NonTerminal → Bool) (hP : ∀ n x, n ≠ t.root → t.graph.node? n = some (.nt x) → f t n = P x) :
    ∃ t', t.projectIds name f = .ok t' ∧ t'.WF ∧ t'.Is (F.numbered name P) := by
  obtain ⟨t', num, h1, E, h2, h3⟩ := ids_numbered W hroot ho name hf hf0
  exact ⟨t', h1, E.wf (fun _ _ => rfl) W, numbered_is W hp hroot hf0 hP E h2 h3 hF⟩

/-- C90: all steps of the tool together, for a tree without gaps and without `--reattach`. -/
theorem C90_pipeline (o : Options) (tags : Option (List Str)) (t t' : Tree) (S : Suits o t) (hN : NoGaps t)
    (ho : o.reattachLabel = none) (h : Pipeline o tags t t') (F : Forest) (hF : t.Is F) :
    NoGaps t' ∧ t'.Is (F.edited o tags) := by
  obtain ⟨G, _⟩ := pipeline_good S h
  refine ⟨?_, pipeline_is S hN ho h hF⟩
  rw [← noGaps_iff G.fit.wf]
  exact G.proj (by rw [ho]; rfl) ((noGaps_iff S.fit.wf).2 hN)

/-- C90: from bracketed text to the other formats, for each tree that is written. -/
theorem C90_text (pick : Tree → Finset Nat → Option Nat) (hpick : IsOrder pick) (f : Ptb.Format) (multiline : Bool)
    (o : Options) (hout : o.out ≠ .negra) (ho : o.reattachLabel = none) (src : Source) (pos : Option (List PosItem))
    (texts : List Str) (hT : BracketTexts multiline src.lines texts) (hE : ∀ s ∈ texts, EnoughText o s) (i : Nat) (w : Written)
    (hw : (main (bracketInput f) multiline pick o src pos).1[i]? = some w) :
    ∃ s b tags, texts[i]? = some s ∧ b.Single ∧ Reads s b ∧ TagsAt pos i tags ∧
      (((b.forest f 0).setTop none).edited o tags).output o.out = some w := by
  obtain ⟨items, hS, hF, hE', hO⟩ := bracket_items f hT hE
  rw [List.forall₂_iff_get] at hF
  obtain ⟨t, t', tags, c, c', g1, g2, g3, g4, g5, W, W', _⟩ := (C57_written pick hpick _ multiline o src pos items true hS hO hE').2 i w hw
  obtain ⟨hi, hit⟩ := List.getElem?_eq_some_iff.1 g1
  have hi' : i < texts.length := by rw [hF.1]; exact hi
  have hpar := hF.2 i hi' hi
  simp only [List.get_eq_getElem] at hpar
  rw [hit] at hpar
  obtain ⟨b, hb, hr, hp, hB⟩ := parsed_forest hpar
  refine ⟨texts[i], b, tags, by simp [hi'], hb, hr, g2, ?_⟩
  have S := (ptb_read hpar).suits (hE' t (List.mem_of_getElem? g1))
  obtain ⟨k1, k2⟩ := C90_pipeline o tags t t' S ((noGaps_iff W).1 hp) ho g4 _ hB
  exact output_is hout W' k1 g5 k2

theorem run_output {pick : Tree → Finset Nat → Option Nat} (hpick : IsOrder pick) {f : InFormat} {multiline : Bool}
    {o : Options} (hout : o.out ≠ .negra) (ho : o.reattachLabel = none) {src : Source} {items : List (Except Err Tree)}
    (hS : Stream f multiline src items true) (hO : f = .negra → Orderly src.lines) (hE : ∀ t, .ok t ∈ items → Enough o t)
    {Fs : List Forest}
    (hF : List.Forall₂ (fun r F => ∃ t G, r = .ok t ∧ NoGaps t ∧ t.Is G ∧ Forest.Like G F) items Fs)
    {pos : Option (List (List Str))}
    (hpos : ∀ ps, pos = some ps → ∀ (i : Nat) (F : Forest), Fs[i]? = some F → ∃ l, ps[i]? = some l ∧ l.length = F.leaves.length) :
    ∃ ws, main f multiline pick o src (pos.map (·.map .ok)) = (ws, .finished) ∧
      ws.map some = Fs.mapIdx fun i F => (F.edited o (pos.bind (·[i]?))).output o.out := by
  rw [List.forall₂_iff_get] at hF
  have tree : ∀ (j : Nat) (hj : j < items.length), ∃ t G F, items[j] = .ok t ∧ Fs[j]? = some F ∧ NoGaps t ∧ t.Is G ∧ Forest.Like G F := by
    intro j hj
    have hj1 : j < Fs.length := by rw [← hF.1]; exact hj
    obtain ⟨t, G, h1, h2, h3, h4⟩ := hF.2 j hj hj1
    exact ⟨t, G, Fs[j], h1, by simp [hj1], h2, h3, h4⟩
  obtain ⟨items', b', h', _, hR⟩ := stream_exists f multiline src.size src (Nat.le_refl _)
  obtain ⟨rfl, rfl⟩ := hS.unique h'
  obtain ⟨h1, h2⟩ := C57_complete pick hpick f multiline o src (pos.map (·.map .ok)) items hS hO hE
    (fun x hx => by
      obtain ⟨j, hj, rfl⟩ := List.mem_iff_getElem.1 hx
      obtain ⟨t, _, _, ht, _⟩ := tree j hj
      exact ⟨t, ht⟩)
    (fun ps hps i t ht => by
      cases pos with
      | none => cases hps
      | some ls =>
        cases hps
        have hm := List.mem_of_getElem? ht
        obtain ⟨hi, e⟩ := List.getElem?_eq_some_iff.1 ht
        obtain ⟨u, G, F, hu, hF1, hN, hG, hL⟩ := tree i hi
        rw [hu] at e; cases e
        obtain ⟨l, hl, hl'⟩ := hpos ls rfl i F hF1
        refine ⟨l, by rw [List.getElem?_map, hl]; rfl, ?_⟩
        have W := (hR hO t hm).wf
        rw [hl', hL.leaves, (W.is_seq ((noGaps_iff W).2 hN) hG).2])
    (.inr ⟨ho, .inr fun t ht => by
      obtain ⟨j, hj, e⟩ := List.mem_iff_getElem.1 ht
      obtain ⟨u, _, _, hu, _, hN, _⟩ := tree j hj
      rw [hu] at e; cases e
      exact hN⟩)
  refine ⟨_, Prod.ext rfl h1, List.ext_getElem? fun i => ?_⟩
  rw [List.getElem?_map, List.getElem?_mapIdx]
  cases hw : (main f multiline pick o src (pos.map (·.map .ok))).1[i]? with
  | none =>
    rw [List.getElem?_eq_none_iff] at hw
    rw [List.getElem?_eq_none (by rw [← hF.1, ← h2]; exact hw)]
    rfl
  | some w =>
    obtain ⟨t, t', tags, c, c', g1, g2, g3, g4, g5, W, W', _⟩ := (C57_written pick hpick _ multiline o src _ items true hS hO hE).2 i w hw
    have hm := List.mem_of_getElem? g1
    obtain ⟨hi, e⟩ := List.getElem?_eq_some_iff.1 g1
    obtain ⟨u, G, F, hu, hF1, hN, hG, hL⟩ := tree i hi
    rw [hu] at e; cases e
    obtain ⟨k1, k2⟩ := C90_pipeline o tags t t' ((hR hO t hm).suits (hE t hm)) hN ho g4 _ hG
    have k3 := output_is hout W' k1 g5 k2
    have : tags = pos.bind (·[i]?) := by
      cases pos with
      | none =>
        rcases g2 with ⟨_, h⟩ | ⟨ps, l, h, _⟩
        · exact h
        · cases h
      | some ls =>
        rcases g2 with ⟨h, _⟩ | ⟨ps, l, h, h', rfl⟩
        · cases h
        · cases h
          rw [List.getElem?_map, Option.map_eq_some_iff] at h'
          obtain ⟨l', e1, e2⟩ := h'
          cases e2
          exact e1.symm
    rw [hF1, ← this]
    simp only [Option.map_some, Option.some.injEq]
    rw [(hL.edited o tags).output o.out, k3]

/-- C90: from any format to those other than NEGRA, for a whole file that is read as trees without gaps: this is all that is
written. The POS file may have more sentences than the input. -/
theorem C90_trees (pick : Tree → Finset Nat → Option Nat) (hpick : IsOrder pick) (f : InFormat) (multiline : Bool)
    (o : Options) (hout : o.out ≠ .negra) (ho : o.reattachLabel = none) (src : Source) (ts : List Tree)
    (hS : Stream f multiline src (ts.map .ok) true) (hO : f = .negra → Orderly src.lines) (hE : ∀ t ∈ ts, Enough o t)
    (Fs : List Forest) (hF : List.Forall₂ (fun t F => NoGaps t ∧ t.Is F) ts Fs) (pos : Option (List (List Str)))
    (hpos : ∀ ps, pos = some ps → ∀ (i : Nat) (t : Tree), ts[i]? = some t → ∃ l, ps[i]? = some l ∧ l.length = t.nTerminals) :
    ∃ ws, main f multiline pick o src (pos.map (·.map .ok)) = (ws, .finished) ∧
      ws.map some = Fs.mapIdx fun i F => (F.edited o (pos.bind (·[i]?))).output o.out := by
  obtain ⟨items', b', h', _, hR⟩ := stream_exists f multiline src.size src (Nat.le_refl _)
  obtain ⟨rfl, rfl⟩ := hS.unique h'
  refine run_output hpick hout ho hS hO (fun t ht => hE t (by simpa using ht)) ?_ fun ps hps i F hFi => ?_
  · rw [List.forall₂_map_left_iff]
    exact hF.imp fun t F ⟨h1, h2⟩ => ⟨t, F, rfl, h1, h2, .refl F⟩
  · rw [List.forall₂_iff_get] at hF
    obtain ⟨hi, rfl⟩ := List.getElem?_eq_some_iff.1 hFi
    have hi' : i < ts.length := by rw [hF.1]; exact hi
    obtain ⟨h1, h2⟩ := hF.2 i hi' hi
    simp only [List.get_eq_getElem] at h1 h2
    obtain ⟨l, k1, k2⟩ := hpos ps hps i ts[i] (by simp [hi'])
    have W := (hR hO ts[i] (by simp)).wf
    exact ⟨l, k1, by rw [k2, (W.is_seq ((noGaps_iff W).2 h1) h2).2]⟩

/-- C90: the same for bracketed text, with the trees given by the text. -/
theorem C90_file (pick : Tree → Finset Nat → Option Nat) (hpick : IsOrder pick) (f : Ptb.Format) (multiline : Bool)
    (o : Options) (hout : o.out ≠ .negra) (ho : o.reattachLabel = none) (src : Source)
    (texts : List Str) (hT : BracketTexts multiline src.lines texts) (hE : ∀ s ∈ texts, EnoughText o s)
    (bs : List Brackets) (hb : List.Forall₂ (fun s b => b.Single ∧ Reads s b) texts bs)
    (pos : Option (List (List Str)))
    (hpos : ∀ ps, pos = some ps → ∀ (i : Nat) (b : Brackets), bs[i]? = some b → ∃ l, ps[i]? = some l ∧ l.length = b.len) :
    ∃ ws, main (bracketInput f) multiline pick o src (pos.map (·.map .ok)) = (ws, .finished) ∧
      ws.map some = bs.mapIdx fun i b => (((b.forest f 0).setTop none).edited o (pos.bind (·[i]?))).output o.out := by
  obtain ⟨items, hS, hF, hE', hO⟩ := bracket_items f hT hE
  rw [List.forall₂_iff_get] at hF hb
  obtain ⟨ws, h1, h2⟩ := run_output hpick hout ho hS hO hE' (Fs := bs.map fun b => (b.forest f 0).setTop none) (pos := pos) (by
      rw [List.forall₂_iff_get]
      refine ⟨by rw [List.length_map, ← hb.1, hF.1], fun j hj hj' => ?_⟩
      have hj1 : j < texts.length := by rw [hF.1]; exact hj
      have hj2 : j < bs.length := by rw [← hb.1]; exact hj1
      have h1 := hF.2 j hj1 hj
      obtain ⟨h2, h3⟩ := hb.2 j hj1 hj2
      obtain ⟨t, k1, k2, k3, k4⟩ := Ptb.stringToTree_ok (f := f) h3 h2
      simp only [List.get_eq_getElem, List.getElem_map] at h1 k1 k4 ⊢
      rw [k1] at h1
      exact ⟨t, _, (Res.ok.inj h1).symm, (noGaps_iff k2).1 k3, k4, .refl _⟩)
    (fun ps hps i F hFi => by
      rw [List.getElem?_map, Option.map_eq_some_iff] at hFi
      obtain ⟨b, e1, rfl⟩ := hFi
      obtain ⟨l, e2, e3⟩ := hpos ps hps i b e1
      exact ⟨l, e2, by rw [e3, Ptb.setTop_leaves, (Ptb.forest_leaves).2]⟩)
  refine ⟨ws, h1, h2.trans (List.ext_getElem? fun i => ?_)⟩
  simp only [List.getElem?_mapIdx, List.getElem?_map, Option.map_map]
  rfl

theorem tagged_file {pick : Tree → Finset Nat → Option Nat} (hpick : IsOrder pick) {f : InFormat} {multiline : Bool}
    {o : Options} (hout : o.out ≠ .negra) (ho : o.reattachLabel = none) {src : Source} {items : List (Except Err Tree)}
    (hS : Stream f multiline src items true) (hf : f ≠ .negra) {ss : List (List Conllx.Token × AbsEncoding)}
    (hD : List.Forall₂ (fun r p => ∃ t, r = .ok t ∧ Conllx.Decoded p.2 p.1 t) items ss)
    (hE : ∀ p ∈ ss, 2 ≤ p.1.length ∨ (o.removeDummies = false ∧ ∃ e x k r, Forest.ofTags p.2 p.1 = .node e x k r))
    {pos : Option (List (List Str))}
    (hpos : ∀ ps, pos = some ps → ∀ (i : Nat) p, ss[i]? = some p → ∃ l, ps[i]? = some l ∧ l.length = p.1.length) :
    ∃ ws, main f multiline pick o src (pos.map (·.map .ok)) = (ws, .finished) ∧
      ws.map some = ss.mapIdx fun i p => ((Forest.ofTags p.2 p.1).edited o (pos.bind (·[i]?))).output o.out := by
  have hD' := hD
  rw [List.forall₂_iff_get] at hD
  have leaves : ∀ (i : Nat) p, ss[i]? = some p → (Forest.ofTags p.2 p.1).leaves.length = p.1.length := by
    intro i p hp
    obtain ⟨hi, rfl⟩ := List.getElem?_eq_some_iff.1 hp
    obtain ⟨t, _, D⟩ := hD.2 i (by rw [hD.1]; exact hi) hi
    simp only [List.get_eq_getElem] at D
    obtain ⟨G, hG, hL⟩ := decoded_like D
    rw [hL.leaves, (D.wf.is_seq D.proj hG).2, D.size]
  obtain ⟨ws, h1, h2⟩ := run_output hpick hout ho hS (fun h => absurd h hf) (fun t ht => by
      obtain ⟨i, hi, e⟩ := List.mem_iff_getElem.1 ht
      have hi' : i < ss.length := by rw [← hD.1]; exact hi
      obtain ⟨u, hu, D⟩ := hD.2 i hi hi'
      simp only [List.get_eq_getElem] at hu D
      rw [e] at hu; cases hu
      rcases hE ss[i] (by simp) with h | ⟨h, e', x, k, r, h'⟩
      · exact .inl (by rw [D.size]; exact h)
      · refine .inr ⟨?_, h, ho⟩
        obtain ⟨G, hG, hL⟩ := decoded_like D
        rw [h'] at hL
        cases hL
        obtain ⟨n, ns, ks, k1, k2, _⟩ := hG
        simp only [List.cons.injEq] at k1
        rw [k1.1]
        exact ⟨_, k2⟩)
    (Fs := ss.map fun p => Forest.ofTags p.2 p.1) (pos := pos)
    (by
      rw [List.forall₂_map_right_iff]
      refine hD'.imp fun r p ⟨t, e, D⟩ => ?_
      obtain ⟨G, hG, hL⟩ := decoded_like D
      exact ⟨t, G, e, (noGaps_iff D.wf).1 D.proj, hG, hL⟩)
    (fun ps hps i F hFi => by
      rw [List.getElem?_map, Option.map_eq_some_iff] at hFi
      obtain ⟨p, e1, rfl⟩ := hFi
      obtain ⟨l, e2, e3⟩ := hpos ps hps i p e1
      exact ⟨l, e2, by rw [e3, leaves i p e1]⟩)
  refine ⟨ws, h1, h2.trans (List.ext_getElem? fun i => ?_)⟩
  simp only [List.getElem?_mapIdx, List.getElem?_map, Option.map_map]
  rfl

/-- C90: the same for sentences with absolute tags, with the trees given by the tags. -/
theorem C90_absolute (pick : Tree → Finset Nat → Option Nat) (hpick : IsOrder pick) (multiline : Bool)
    (o : Options) (hout : o.out ≠ .negra) (ho : o.reattachLabel = none) (src : Source)
    (ss : List (List Conllx.Token × AbsEncoding)) (hs : src.sentences = ss.map fun p => some p.1)
    (hT : ∀ p ∈ ss, p.1 ≠ [] ∧ List.Forall₂ (Conllx.Tag "abs_ancestor".toList AbsAncestor.parse) p.1 p.2 ∧ AbsPositive p.2)
    (hE : ∀ p ∈ ss, 2 ≤ p.1.length ∨ (o.removeDummies = false ∧ ∃ e x k r, Forest.ofTags p.2 p.1 = .node e x k r))
    (pos : Option (List (List Str)))
    (hpos : ∀ ps, pos = some ps → ∀ (i : Nat) p, ss[i]? = some p → ∃ l, ps[i]? = some l ∧ l.length = p.1.length) :
    ∃ ws, main .absolute multiline pick o src (pos.map (·.map .ok)) = (ws, .finished) ∧
      ws.map some = ss.mapIdx fun i p => ((Forest.ofTags p.2 p.1).edited o (pos.bind (·[i]?))).output o.out := by
  have key : ∃ items : List (Except Err Tree), List.Forall₂ (fun p r => ∃ t, Conllx.tryFromAbsolute p.1 = .ok (.ok t) ∧ r = .ok t ∧
      Conllx.Decoded p.2 p.1 t) ss items := by
    clear hs hE hpos
    induction ss with
    | nil => exact ⟨[], .nil⟩
    | cons p ss ih =>
      obtain ⟨items, h⟩ := ih fun q hq => hT q (by simp [hq])
      obtain ⟨h1, h2, h3⟩ := hT p (by simp)
      obtain ⟨t, k1, k2⟩ := C59_absolute p.1 h1 p.2 h2 h3
      exact ⟨.ok t :: items, .cons ⟨t, k1, rfl, k2⟩ h⟩
  obtain ⟨items, h⟩ := key
  refine tagged_file hpick hout ho ((C57_tagged multiline src items).1 ?_) (by simp) ?_ hE hpos
  · rw [hs, List.forall₂_map_left_iff]
    exact h.imp fun p r ⟨t, h1, h2, _⟩ => by rw [h2]; exact h1
  · exact h.flip.imp fun r p ⟨t, _, h2, h3⟩ => ⟨t, h2, h3⟩

/-- C90: the same for relative tags. -/
theorem C90_relative (pick : Tree → Finset Nat → Option Nat) (hpick : IsOrder pick) (multiline : Bool)
    (o : Options) (hout : o.out ≠ .negra) (ho : o.reattachLabel = none) (src : Source)
    (ss : List (List Conllx.Token × RelEncoding)) (hs : src.sentences = ss.map fun p => some p.1)
    (hT : ∀ p ∈ ss, p.1 ≠ [] ∧ List.Forall₂ (Conllx.Tag "rel_ancestor".toList RelAncestor.parse) p.1 p.2)
    (hE : ∀ p ∈ ss, 2 ≤ p.1.length ∨ (o.removeDummies = false ∧
      ∃ e x k r, Forest.ofTags (tryFromRelative p.2).unwrapOrFix p.1 = .node e x k r))
    (pos : Option (List (List Str)))
    (hpos : ∀ ps, pos = some ps → ∀ (i : Nat) p, ss[i]? = some p → ∃ l, ps[i]? = some l ∧ l.length = p.1.length) :
    ∃ ws, main .relative multiline pick o src (pos.map (·.map .ok)) = (ws, .finished) ∧
      ws.map some = ss.mapIdx fun i p =>
        ((Forest.ofTags (tryFromRelative p.2).unwrapOrFix p.1).edited o (pos.bind (·[i]?))).output o.out := by
  have key : ∃ items : List (Except Err Tree), List.Forall₂ (fun p r => ∃ t, Conllx.tryFromRelative p.1 = .ok (.ok t) ∧ r = .ok t ∧
      Conllx.Decoded (tryFromRelative p.2).unwrapOrFix p.1 t) ss items := by
    clear hs hE hpos
    induction ss with
    | nil => exact ⟨[], .nil⟩
    | cons p ss ih =>
      obtain ⟨items, h⟩ := ih fun q hq => hT q (by simp [hq])
      obtain ⟨h1, h2⟩ := hT p (by simp)
      obtain ⟨t, k1, k2⟩ := C59_relative p.1 h1 p.2 h2
      exact ⟨.ok t :: items, .cons ⟨t, k1, rfl, k2⟩ h⟩
  obtain ⟨items, h⟩ := key
  obtain ⟨ws, h1, h2⟩ := tagged_file hpick hout ho (pos := pos) (ss := ss.map fun p => (p.1, (tryFromRelative p.2).unwrapOrFix))
    ((C57_tagged multiline src items).2 (by
      rw [hs, List.forall₂_map_left_iff]
      exact h.imp fun p r ⟨t, h1, h2, _⟩ => by rw [h2]; exact h1)) (by simp)
    (by
      rw [List.forall₂_map_right_iff]
      exact h.flip.imp fun r p ⟨t, _, h2, h3⟩ => ⟨t, h2, h3⟩)
    (fun p hp => by
      obtain ⟨q, hq, rfl⟩ := List.mem_map.1 hp
      exact hE q hq)
    (fun ps hps i p hp => by
      rw [List.getElem?_map, Option.map_eq_some_iff] at hp
      obtain ⟨q, hq, rfl⟩ := hp
      exact hpos ps hps i q hq)
  refine ⟨ws, h1, h2.trans (List.ext_getElem? fun i => ?_)⟩
  simp only [List.getElem?_mapIdx, List.getElem?_map, Option.map_map]
  rfl

/-! ## The hypotheses are met -/

example : ∃ F, Examples.nested.Is F ∧ ∃ t', Examples.nested.filterNonterminals isNP = .ok (t', .ok ()) ∧ t'.WF ∧
    t'.isProjective = true ∧ t'.Is (F.filtered fun x => x.label ≠ "NP".toList) := by
  obtain ⟨F, hF⟩ := nested_wf.is_exists
  refine ⟨F, hF, C90_filter _ nested_wf (by decide) F hF isNP isNP_local _ fun n x h => ?_⟩
  simp [isNP, h]

example : ∃ F, Examples.nested.Is F ∧ ∃ t', Examples.nested.removeDummyNodes = .ok (t', .ok ()) ∧ t'.WF ∧
    t'.isProjective = true ∧ t'.Is F.undummied := by
  obtain ⟨F, hF⟩ := nested_wf.is_exists
  exact ⟨F, hF, C90_dummies _ nested_wf (by decide) F hF⟩

example : ∃ F, Examples.nested.Is F ∧ ∃ t', Examples.nested.insertIntermediate markX = .ok (t', .ok ()) ∧ t'.WF ∧
    t'.isProjective = true ∧ t'.Is (F.grouped (fun x => x.label = "ROOT".toList ∨ x.label = "A".toList) "X".toList) := by
  obtain ⟨F, hF⟩ := nested_wf.is_exists
  refine ⟨F, hF, C90_insert _ nested_wf (by decide) ⟨_, rfl⟩ F hF markX markX_fn _ _ (fun n x h => ?_) (.inl markX_silent)⟩
  simp [markX, h]

example : ∃ F, Examples.nested.Is F ∧ ∃ t', Examples.nested.annotateParentTag "p".toList = .ok (t', .ok ()) ∧ t'.WF ∧
    t'.Is (F.parented "p".toList) := by
  obtain ⟨F, hF⟩ := nested_wf.is_exists
  exact ⟨F, hF, C90_parent _ nested_wf ⟨_, rfl⟩ F hF _⟩

example : ∃ F, Examples.nested.Is F ∧ ∃ t', Examples.nested.projectTagSet "p".toList isNP = .ok t' ∧ t'.WF ∧
    t'.Is (F.projected "p".toList (fun x => x.label = "NP".toList) none) := by
  obtain ⟨F, hF⟩ := nested_wf.is_exists
  refine ⟨F, hF, C90_project _ nested_wf F hF _ isNP isNP_ignores _ fun n x h => ?_⟩
  simp [isNP, h]

/-- The root and the nodes labelled `NP`. -/
def rootOrNP (t : Tree) (n : Nat) : Bool := isNP t n || n == t.root

/-- A tree that suits the tool. -/
theorem nested_suits (o : Options) : Suits o Examples.nested := (fitB_sound (by decide +kernel) o).1

example : ∃ F, Examples.nested.Is F ∧ ∃ t', Examples.nested.annotatePos ["X".toList, "Y".toList, "Z".toList] = .ok (t', .ok ()) ∧
    t'.WF ∧ t'.Is (F.retagged ["X".toList, "Y".toList, "Z".toList]) := by
  obtain ⟨F, hF⟩ := nested_wf.is_exists
  exact ⟨F, hF, C90_pos _ nested_wf (nested_suits (plain .ptb)).fit.order F hF _ rfl⟩

example : ∃ F, Examples.nested.Is F ∧ ∃ t', Examples.nested.projectIds "i".toList rootOrNP = .ok t' ∧ t'.WF ∧
    t'.Is (F.numbered "i".toList fun x => x.label = "NP".toList) := by
  obtain ⟨F, hF⟩ := nested_wf.is_exists
  refine ⟨F, hF, C90_ids _ nested_wf (by decide) ⟨_, rfl⟩ (nested_suits (plain .ptb)).fit.order F hF _ rootOrNP ?_ (by decide) _
    fun n x hn hx => ?_⟩
  · rintro t t' h n
    have h1 := isNP_ignores t t' h n
    obtain ⟨fs, E⟩ := h
    unfold rootOrNP
    rw [h1, E.root]
  · simp [rootOrNP, isNP, hx, hn]

/-- Two trees, one with dummies. -/
def rewriteFile : Source := ⟨["(S (NP (D a) (AP (A b)) (N c)) (V d))".toList, "(DUMMY (DUMMY (S (D e) (V f))))".toList], []⟩

/-- What the two lines stand for. -/
def rewriteBrackets : List Brackets :=
  [.node ['S'] (.node "NP".toList (.leaf ['D'] ['a'] (.node "AP".toList (.leaf ['A'] ['b'] .nil) (.leaf ['N'] ['c'] .nil)))
      (.leaf ['V'] ['d'] .nil)) .nil,
    .node "DUMMY".toList (.node "DUMMY".toList (.node ['S'] (.leaf ['D'] ['e'] (.leaf ['V'] ['f'] .nil)) .nil) .nil) .nil]

/-- Dummies out, only `NP` and `S` kept, the words below `NP` bundled. -/
def rewriteOptions : Options :=
  { plain .tueba with
    removeDummies := true, projectivize := true, filterSet := some (.positive ["NP".toList, ['S']]),
    insertionSet := some (.negative ["NP".toList]), insertionLabel := "UNK".toList }

example : ∃ F t', Examples.nested.Is F ∧ Pipeline rewriteOptions none Examples.nested t' ∧ NoGaps t' ∧
    t'.Is (F.edited rewriteOptions none) := by
  obtain ⟨F, hF⟩ := nested_wf.is_exists
  obtain ⟨t', k, _⟩ := process_spec minPick_order rewriteOptions none (nested_suits _) (by simp)
  exact ⟨F, t', hF, k, C90_pipeline _ none _ t' (nested_suits _) ((noGaps_iff nested_wf).1 (by decide)) rfl k F hF⟩

theorem rewriteFile_reads : List.Forall₂ (fun s b => b.Single ∧ Reads s b) (rewriteFile.lines.filter fun l => l.head? ≠ some '%')
    rewriteBrackets := by
  have w : ∀ s : List Str, (s.all fun s => s ≠ [] && s.all fun c => c ≠ ' ' ∧ c ≠ '\n' ∧ c ≠ '\r' ∧ c ≠ '(' ∧ c ≠ ')') = true →
      ∀ x ∈ s, Bracketed.Word x := by
    intro s h x hx
    have := List.all_eq_true.1 h x hx
    simp only [Bool.and_eq_true, decide_eq_true_eq, List.all_eq_true] at this
    exact this
  have W := w ["S".toList, "NP".toList, "D".toList, "a".toList, "AP".toList, "A".toList, "b".toList, "N".toList, "c".toList,
    "V".toList, "d".toList, "DUMMY".toList, "e".toList, "f".toList] (by decide +kernel)
  have e : (rewriteFile.lines.filter fun l => l.head? ≠ some '%') = rewriteFile.lines := by decide +kernel
  rw [e]
  refine .cons ⟨rfl, Ptb.reads_text_one (f := .simple) ?_ (by decide +kernel)⟩
    (.cons ⟨rfl, Ptb.reads_text_one (f := .simple) ?_ (by decide +kernel)⟩ .nil)
  · exact ⟨W _ (by decide), by decide, ⟨W _ (by decide), by decide, ⟨W _ (by decide), W _ (by decide), W _ (by decide), by decide,
      ⟨W _ (by decide), W _ (by decide), trivial⟩, W _ (by decide), W _ (by decide), trivial⟩, W _ (by decide), W _ (by decide), trivial⟩, trivial⟩
  · exact ⟨W _ (by decide), by decide, ⟨W _ (by decide), by decide, ⟨W _ (by decide), by decide, ⟨W _ (by decide), W _ (by decide),
      W _ (by decide), W _ (by decide), trivial⟩, trivial⟩, trivial⟩, trivial⟩

/-- Tags for the words; the third sentence is not used. -/
def rewriteTags : List (List Str) :=
  [["W".toList, "X".toList, "Y".toList, "Z".toList], ["U".toList, "V".toList], ["?".toList]]

example : ∃ ws, main .simple false minPick rewriteOptions rewriteFile (some (rewriteTags.map .ok)) = (ws, .finished) ∧
    ws.map some = rewriteBrackets.mapIdx fun i b => (((b.forest .simple 0).setTop none).edited rewriteOptions
      rewriteTags[i]?).output .tueba :=
  C90_file minPick minPick_order .simple false rewriteOptions (by decide) rfl rewriteFile _ (.inl ⟨rfl, rfl⟩)
    (by intro s hs; left; revert hs; revert s; decide +kernel) _ rewriteFile_reads (some rewriteTags) (by
      rintro _ ⟨⟩ i b hb
      rcases i with _ | _ | i
      · cases hb; exact ⟨_, rfl, rfl⟩
      · cases hb; exact ⟨_, rfl, rfl⟩
      · cases hb)

example := C90_text minPick minPick_order .simple false rewriteOptions (by decide) rfl rewriteFile none _ (.inl ⟨rfl, rfl⟩)
  (by intro s hs; left; revert hs; revert s; decide +kernel) 1 (.text "(S:--(D:-- e)(V:-- f))\n".toList) (by decide +kernel)

example : (rewriteBrackets.map fun b => (((b.forest .simple 0).setTop none).edited rewriteOptions none).line .tueba) =
    ["(S:--(NP:--(UNK:--(D:-- a)(A:-- b)(N:-- c)))(V:-- d))\n".toList, "(S:--(D:-- e)(V:-- f))\n".toList] := by decide +kernel

/-- Options with features for words. -/
def featureOptions (out : OutFormat) : Options :=
  { plain out with parentFeature := some ['p'], idSet := some (.positive ["NP".toList]), idFeatureName := ['i'] }

/-- The numbers and the labels of parents. -/
example : (rewriteBrackets.map fun b => (((b.forest .simple 0).setTop none).edited (featureOptions .conllx) none).leaves.map fun x =>
      x.features.map (·.toStr)) =
    [["i:0|p:NP", "i:0|p:AP", "i:0|p:NP", "i:1|p:S"].map (some ·.toList), ["i:0|p:S", "i:0|p:S"].map (some ·.toList)] := by decide +kernel

/-- A NEGRA file with a tree without gaps. -/
def plainFile : Source := ⟨["#BOS 1", "a -- X -- -- 500", "b -- P -- -- 500", "c -- X -- HD 0", "#500 -- A -- -- 0",
  "#EOS 1"].map String.toList, []⟩

theorem plainFile_orderly : Orderly plainFile.lines :=
  orderly_one (by decide) (by decide +kernel) (by decide +kernel) (by decide +kernel)

example : ∃ t F ws, Stream .negra false plainFile [.ok t] true ∧ t.Is F ∧
    main .negra false minPick rewriteOptions plainFile (some [.ok ["U".toList, "V".toList, "W".toList]]) = (ws, .finished) ∧
    ws.map some = [(F.edited rewriteOptions (some ["U".toList, "V".toList, "W".toList])).output .tueba] := by
  have hO := plainFile_orderly
  obtain ⟨t, h1, h2⟩ := onlyItem_spec (f := .negra) (multiline := false) (src := plainFile)
    (test := fun t => decide (t.nTerminals = 3) && t.isProjective) (by decide +kernel)
  simp only [Bool.and_eq_true, decide_eq_true_eq] at h2
  have hE : ∀ t' ∈ [t], Enough rewriteOptions t' := by simp; exact .inl (by omega)
  obtain ⟨items', b', h', _, hR⟩ := stream_exists .negra false plainFile.size plainFile (Nat.le_refl _)
  obtain ⟨rfl, rfl⟩ := h1.unique h'
  have W := (hR (fun _ => hO) t (by simp)).wf
  obtain ⟨F, hF⟩ := W.is_exists
  obtain ⟨ws, k1, k2⟩ := C90_trees minPick minPick_order .negra false rewriteOptions (by decide) rfl plainFile [t] h1 (fun _ => hO) hE
    [F] (.cons ⟨(noGaps_iff W).1 h2.2, hF⟩ .nil) (some [["U".toList, "V".toList, "W".toList]]) (by
      rintro _ ⟨⟩ i t' ht
      rcases i with _ | i
      · cases ht; exact ⟨_, rfl, h2.1.symm⟩
      · cases ht)
  exact ⟨t, F, ws, h1, hF, k1, k2⟩

/-- `(S (NP (X (_ a)) (_ b)) (_ c))` in tags. -/
def taggedSentence : List Conllx.Token :=
  [tagged "a" "abs_ancestor:NP+2~X", tagged "b" "k:v|abs_ancestor:S+1", tagged "c" "abs_ancestor:NONE"]

/-- The entries. -/
def taggedEntries : AbsEncoding := [(some ⟨2, "NP".toList⟩, some "X".toList), (some ⟨1, "S".toList⟩, none), (none, none)]

example := C90_absolute minPick minPick_order false rewriteOptions (by decide) rfl ⟨[], [some taggedSentence]⟩
  [(taggedSentence, taggedEntries)] rfl
  (by
    simp only [List.mem_singleton, forall_eq]
    refine ⟨by simp [taggedSentence], ?_, by unfold AbsPositive taggedEntries; decide⟩
    exact .cons ⟨"NP+2~X".toList, ⟨_, rfl, by decide +kernel⟩, ⟨"NP+2".toList, ["X".toList], by decide +kernel, rfl, .inr ⟨by decide, _, by decide +kernel, rfl⟩⟩⟩
      (.cons ⟨"S+1".toList, ⟨_, rfl, by decide +kernel⟩, ⟨"S+1".toList, [], by decide +kernel, rfl, .inr ⟨by decide, _, by decide +kernel, rfl⟩⟩⟩
        (.cons ⟨"NONE".toList, ⟨_, rfl, by decide +kernel⟩, ⟨"NONE".toList, [], by decide +kernel, rfl, .inl ⟨rfl, rfl⟩⟩⟩ .nil)))
  (by simp [taggedSentence]) none (by simp)

example : (Forest.ofTags taggedEntries taggedSentence).output .tueba =
    some (.text "(S:--(NP:--(X:--(_:-- a))(_:-- b))(_:-- c))\n".toList) := by decide +kernel

example := C90_relative minPick minPick_order false rewriteOptions (by decide) rfl
  ⟨[], [some [tagged "a" "rel_ancestor:NP+2", tagged "b" "rel_ancestor:S+-7", tagged "c" "rel_ancestor:NONE"]]⟩
  [([tagged "a" "rel_ancestor:NP+2", tagged "b" "rel_ancestor:S+-7", tagged "c" "rel_ancestor:NONE"],
    [(some (.regular 2 "NP".toList), none), (some (.regular (-7) "S".toList), none), (none, none)])] rfl
  (by
    simp only [List.mem_singleton, forall_eq]
    refine ⟨by simp, ?_⟩
    exact .cons ⟨"NP+2".toList, ⟨_, rfl, by decide +kernel⟩, ⟨"NP+2".toList, [], by decide +kernel, rfl, .inr ⟨by decide, _, by decide +kernel, rfl⟩⟩⟩
      (.cons ⟨"S+-7".toList, ⟨_, rfl, by decide +kernel⟩, ⟨"S+-7".toList, [], by decide +kernel, rfl, .inr ⟨by decide, _, by decide +kernel, rfl⟩⟩⟩
        (.cons ⟨"NONE".toList, ⟨_, rfl, by decide +kernel⟩, ⟨"NONE".toList, [], by decide +kernel, rfl, .inl ⟨rfl, rfl⟩⟩⟩ .nil)))
  (by simp) none (by simp)

end Props
end Lumberjack
