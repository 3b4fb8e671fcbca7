import Verif.Proofs.Added
import Verif.Proofs.Split
import Verif.Proofs.ThroughNegra

/-!
# Doing the steps of a conversion in two runs, with NEGRA between them
-/

namespace Lumberjack

open Lumberjack.Tree

namespace Convert

variable {t t' : Tree} {pick pick' : Tree → Finset Nat → Option Nat} {o : Options} {k : Nat} {f f' : InFormat} {m m' : Bool}

/-- What NEGRA holds, it holds after the steps. -/
theorem negra_pipeline {tags : Option (List Str)} (H : NegraHeld t) (N : NegraSteps o tags t) (S : Suits o t)
    (h : Pipeline o tags t t') (hz : t.nonterminals.length + t.nTerminals + 499 ≤ 2 ^ 64) : NegraHeld t' := by
  have W := S.fit.wf
  have P := pipeline_phrases W h
  have R := pipeline_rest W h
  have hs := R.secondary N.gaps
  have G := pipeline_good S h
  have W' := G.1.fit.wf
  obtain ⟨id, info, ⟨x, hx, hl, hf⟩, hd⟩ := H.head
  have hne : ¬ (o.removeDummies = true ∧ x.label = "DUMMY".toList) := by
    rw [hl]; rintro ⟨_, h⟩; revert h; decide
  have hr : t'.root = t.root := P.root x.label x.features ⟨x, hx, rfl, rfl⟩ hne
  obtain ⟨x', hx', hl', hf'⟩ : t'.Phrase t.root x.label x.features := P.kept _ _ _ ⟨x, hx, rfl, rfl⟩ hne
    (fun _ _ => .inl rfl) fun _ _ => .inl rfl
  rw [← hr] at hx'
  have hrf : Negra.rootFeatures t' = Negra.rootFeatures t := by
    unfold Negra.rootFeatures
    rw [hx, hx']
    simp [Node.features, hf']
  have hnt : ∀ n x, t'.graph.node? n = some (.nt x) → (∃ y, t.graph.node? n = some (.nt y) ∧ y.label = x.label ∧
      y.features = x.features) ∨ (o.insertionSet ≠ none ∧ x.label = o.insertionLabel ∧ x.features = none) := by
    intro n x hx
    rcases P.invented n _ _ ⟨x, hx, rfl, rfl⟩ with h1 | ⟨h1, h2, h3, _⟩
    · exact .inl h1
    · exact .inr ⟨h1, h2, h3⟩
  refine ⟨⟨W', ⟨x', hx'⟩, ?_, ?_, ?_, ?_, by have := pipeline_nonterminals S h; omega⟩, ⟨id, info, ⟨x', hx', hl'.trans hl, by rw [hf']; exact hf⟩, fun c => ?_⟩, ?_, ?_, ?_⟩
  · intro n y hy
    obtain ⟨z, hz, h1, h2, _, h4, h5, _⟩ := R.word n y hy
    have E := H.exportable.terms n z hz
    refine ⟨by rw [h1]; exact E.form, by rw [h1]; exact E.comment, ?_, by rw [h2]; exact E.lem,
      by rw [h5 N.features.1 N.features.2]; exact E.features⟩
    rw [h4]
    cases tags with
    | none => exact E.pos
    | some l =>
      obtain ⟨g1, g2⟩ := N.tags l rfl
      apply g2
      obtain ⟨i, hi, w, hw, e⟩ := W.sentence.pos n ⟨z, hz⟩
      rw [hz] at hw; cases hw
      simp only [e, Span.ofIdx_start]
      rw [List.getElem?_eq_getElem (by rw [g1]; exact hi)]
      exact List.getElem_mem _
  · intro n y hn hy
    rcases hnt n y hy with ⟨z, h1, h2, h3⟩ | ⟨h1, h2, h3⟩
    · have E := H.exportable.nts n z (hr ▸ hn) h1
      exact ⟨h2 ▸ E.label, h3 ▸ E.features, by rw [← h2, ← h3]; exact E.something⟩
    · obtain ⟨g1, g2⟩ := N.label h1
      refine ⟨by rw [h2]; exact g2, .inl (by rw [h3]; rfl), .inl (by rw [h2]; exact g1)⟩
  · intro e he
    cases hw : e.w with
    | primary l =>
      intro s hls
      have h1 := edge_inLabel W'.shape he (by rw [hw]; rfl)
      rw [hw] at h1
      have h2 := R.edge e.tgt s (h1.trans hls)
      obtain ⟨r, g1, g2, _, g4⟩ := inLabel_edge h2
      have E := H.exportable.edges r g1
      cases hw' : r.w with
      | primary l' =>
        rw [hw'] at E g4
        exact E s g4
      | secondary l' => rw [hw'] at g2; cases g2
    | secondary l =>
      have := H.exportable.edges e (hs e he (by rw [hw]; rfl))
      rwa [hw] at this
  · intro e he hw
    obtain ⟨y, hy⟩ := H.exportable.sources e (hs e he hw) hw
    obtain ⟨nd, hnd⟩ := (W'.graph.ends e he).1
    cases nd with
    | nt z => exact ⟨z, hnd⟩
    | term z =>
      obtain ⟨w, hw, _⟩ := R.word _ z hnd
      rw [hw] at hy; cases hy
  · obtain ⟨h1, h2, h3, h4⟩ := hd c
    exact ⟨by rw [hrf]; exact h1, h2, by rw [hrf]; exact h3, h4⟩
  · exact fun e he e' he' h1 h2 h3 => H.one e (hs e he h1) e' (hs e' he' h2) h1 h2 h3
  · intro e he hw
    rw [hr]
    exact H.top e (hs e he hw) hw
  · intro n nd hn
    cases nd with
    | term y =>
      obtain ⟨z, hz, _, _, _, _, h5, _⟩ := R.word n y hn
      show y.features ≠ _
      rw [h5 N.features.1 N.features.2]
      exact H.tidy n _ hz
    | nt y =>
      show y.features ≠ _
      rcases hnt n y hn with ⟨z, h1, h2, h3⟩ | ⟨h1, h2, h3⟩
      · rw [← h3]; exact H.tidy n _ h1
      · rw [h3]; simp

/-- The first run. -/
theorem loop_first_negra {pos : Option (List PosItem)} {ts ts' : List Tree} (h : Halves pick o k .negra pos ts ts') :
    ∀ {src : Source} {n c : Nat} {text : Str}, Stream f m src (ts.map .ok) true → Negra.writeTrees c ts' = .ok text →
      ts.length < n →
      ∃ ws, loop f m pick (firstSteps k .negra o) n src (firstPos k pos) c = (ws, .finished) ∧ textOf ws = text ∧
        ws.length = ts.length := by
  induction h with
  | nil =>
    intro src n c text hs hw hn
    obtain ⟨n, rfl⟩ : ∃ j, n = j + 1 := ⟨n - 1, by simp at hn; omega⟩
    cases hw
    cases hs with
    | stop hn => exact ⟨[], by rw [loop, hn], rfl, rfl⟩
  | @cons pos t t' ts ts' h _ ih =>
    intro src n c text hs hw hn
    obtain ⟨n, rfl⟩ : ∃ j, n = j + 1 := ⟨n - 1, by simp at hn; omega⟩
    rw [Negra.writeTrees] at hw
    obtain ⟨⟨s, c'⟩, h1, h2⟩ := Res.bind_eq_ok.1 hw
    obtain ⟨more, h3, h4⟩ := Res.bind_eq_ok.1 h2
    cases h4
    cases hs with
    | item hx hs =>
      obtain ⟨ws, g1, g2, g3⟩ := ih hs h3 (by simpa using hn)
      refine ⟨.text s :: ws, ?_, by rw [← g2]; rfl, by simp [g3]⟩
      rw [loop, hx, nextPos_first]
      have : convertTree pick (firstSteps k .negra o) (firstPos k (nextPos pos).1) c t = .ok (.ok (.text s, c')) := by
        unfold convertTree
        rw [h]
        show write .negra c t' = _
        rw [show write .negra c t' = (Negra.writeTree c t' >>= fun p => Res.ok (.ok (.text p.1, p.2))) from rfl, h1]
        rfl
      simp only [this]
      rw [g1]

/-- The steps of the tool in two runs, with NEGRA between them. -/
theorem split_negra (hpick : IsOrder pick) (hpick' : IsOrder pick') {src : Source} (ss : List (Option (List Conllx.Token)))
    {ts : List Tree} (hs : Stream f m src (ts.map .ok) true) (hS : ∀ t ∈ ts, Suits o t)
    {pos : Option (List PosItem)} (hT : EachTagged (firstPos k pos) ts)
    (hH : ∀ (i : Nat) (t t' : Tree) tags, ts[i]? = some t → TagsAt (firstPos k pos) i tags →
      Pipeline (firstSteps k .negra o) tags t t' → process pick (firstSteps k .negra o) (tags.map .ok) t = .ok (.ok t') →
      NegraHeld t' ∧ ((lastSteps k o).projectivize = true → NoGaps t')) :
    ∃ wn, main f m pick (firstSteps k .negra o) src (firstPos k pos) = (wn, .finished) ∧ wn.length = ts.length ∧
      main .negra m' pick' (lastSteps k o) ⟨Negra.lines (textOf wn), ss⟩ (lastPos k pos) = main f m pick o src pos := by
  obtain ⟨ts', h1, h2⟩ := halves_exist hpick (by simp) (by simp)
    (fun t' => NegraHeld t' ∧ ((lastSteps k o).projectivize = true → NoGaps t')) hS hT hH
  have : Inhabited Tree := ⟨⟨⟨[], [], [], 0, []⟩, 0, 0, 0⟩⟩
  have good : ∀ t ∈ ts', ∃ id info, Negra.SameRoot t id info ∧ ∀ counter, Negra.Head t counter id info :=
    fun t ht => (h2 t ht).1.1.head
  choose! id info hr Hd using good
  obtain ⟨text, us, g1, g2, g3, g4⟩ := Props.C48_file ts' (fun i => id (ts'[i]?.getD default)) (fun i => info (ts'[i]?.getD default)) 0
    (fun i t ht => by
      have hm := List.mem_of_getElem? ht
      rw [ht]
      exact ⟨(h2 t hm).1.1.exportable, Hd t hm _⟩)
  obtain ⟨items, b, k1, k2, _⟩ := stream_exists f m src.size src (Nat.le_refl _)
  obtain ⟨rfl, rfl⟩ := hs.unique k1
  rw [List.length_map] at k2
  obtain ⟨wn, w1, w2, w3⟩ := loop_first_negra h1 hs g1 (Nat.lt_succ_of_le k2)
  have hs' : Stream .negra m' ⟨Negra.lines (textOf wn), ss⟩ (us.map .ok) true := w2.symm ▸ (negra_stream m' _ _ ss _ g2).1
  obtain ⟨items', b', k1', k2', -⟩ := stream_exists .negra m' _ _ (Nat.le_refl _)
  obtain ⟨rfl, rfl⟩ := hs'.unique k1'
  rw [List.length_map] at k2'
  refine ⟨wn, w1, w3, loop_last (by simp) (by simp) h1 ?_ hs hs' (Nat.lt_succ_of_le k2) (Nat.lt_succ_of_le k2')⟩
  rw [List.forall₂_iff_get]
  refine ⟨g3.symm, fun i hi hi' => ?_⟩
  simp only [List.get_eq_getElem]
  have hm : ts'[i] ∈ ts' := List.getElem_mem hi
  obtain ⟨φ, C⟩ := g4 i ts'[i] us[i] (by simp) (by simp)
  rw [List.getElem?_eq_getElem hi, Option.getD_some] at C
  obtain ⟨⟨K, hp⟩, S⟩ := h2 _ hm
  have I := C.iso K.exportable.wf ⟨K.tidy, K.one, K.top⟩ (hr _ hm)
  intro tags c
  exact iso_options I S (iso_suits I S (C.read K.exportable.sources)) (fun e => (noGaps_iff K.exportable.wf).2 (hp e)) (fun _ => K.one)
    hpick hpick' tags c

/-- The trees of an export file. -/
theorem negra_file_held {ls : List Str} {ss : List (Option (List Conllx.Token))} {ts : List Tree} (hO : Orderly ls)
    (hn : ∀ l ∈ ls, '\n' ∉ l) (hz : ls.length + 500 ≤ 2 ^ 64) (hs : Stream .negra m ⟨ls, ss⟩ (ts.map .ok) true) :
    ∀ t ∈ ts, Read t ∧ NegraHeld t ∧ t.nonterminals.length + t.nTerminals + 499 ≤ 2 ^ 64 := by
  intro t ht
  obtain ⟨s, used, s', h1, h2⟩ := stream_found hs t (List.mem_map_of_mem ht)
  simp only at h2
  subst h2
  simp only [next, fromLines] at h1
  obtain ⟨⟨it, rest⟩, g1, g2⟩ := Res.bind_eq_ok.1 h1
  cases g2
  have hO' := hO.suffix
  obtain ⟨h3, h4, h6⟩ := Negra.read_exportable g1 hO' (fun l hl => hn l (by simp [hl])) (by simp at hz; omega)
  have h5 := Negra.read_plainly g1 hO'
  exact ⟨negra_read g1 hO', ⟨h3, h4, h5.one, h5.top, h5.tidy⟩, by simp at hz; omega⟩

theorem split_negra_input (hpick : IsOrder pick) (hpick' : IsOrder pick') {src : Source} (ss : List (Option (List Conllx.Token)))
    {ts : List Tree} (hs : Stream f m src (ts.map .ok) true) (hS : ∀ t ∈ ts, Suits o t)
    {pos : Option (List PosItem)} (hT : EachTagged (firstPos k pos) ts) (hH : ∀ t ∈ ts, NegraHeld t)
    (hN : ∀ (i : Nat) t tags, ts[i]? = some t → TagsAt (firstPos k pos) i tags → NegraSteps (firstSteps k .negra o) tags t)
    (hg : (lastSteps k o).projectivize = true → ∀ t ∈ ts, NoGaps t)
    (hz : ∀ t ∈ ts, t.nonterminals.length + t.nTerminals + 499 ≤ 2 ^ 64) :
    ∃ wn, main f m pick (firstSteps k .negra o) src (firstPos k pos) = (wn, .finished) ∧ wn.length = ts.length ∧
      main .negra m' pick' (lastSteps k o) ⟨Negra.lines (textOf wn), ss⟩ (lastPos k pos) = main f m pick o src pos := by
  refine split_negra hpick hpick' ss hs hS hT fun i t t' tags h1 h2 h3 h4 => ?_
  have hm := List.mem_of_getElem? h1
  have S : Suits (firstSteps k .negra o) t := suits_first (hS t hm)
  refine ⟨negra_pipeline (hH t hm) (hN i t tags h1 h2) S h3 (hz t hm), fun e => ?_⟩
  have G := pipeline_good S h3
  refine (noGaps_iff G.1.fit.wf).1 (G.1.proj ?_ ((noGaps_iff S.fit.wf).2 (hg e t hm)))
  simp only [lastSteps, Bool.and_eq_true, Bool.not_eq_true', decide_eq_false_iff_not] at e
  simp only [firstSteps]
  rw [if_neg (by omega)]
  rfl

end Convert
end Lumberjack
