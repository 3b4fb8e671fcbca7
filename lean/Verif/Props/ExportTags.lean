import Verif.Proofs.ExportTags
import Verif.Props.RewriteAny

/-!
# From tagged sentences to all formats, with all options (C95)
-/

namespace Lumberjack
namespace Props

open Lumberjack.Tree Lumberjack.Convert

theorem tagged_export {pick : Tree → Finset Nat → Option Nat} (hpick : IsOrder pick) {f : InFormat} {multiline : Bool}
    {o : Options} (hout : o.out = .negra) {src : Source} {items : List (Except Err Tree)}
    (hS : Stream f multiline src items true) (hf : f ≠ .negra) {ss : List (List Conllx.Token × AbsEncoding)}
    (hD : List.Forall₂ (fun r p => ∃ t, r = .ok t ∧ Conllx.Decoded p.2 p.1 t) items ss)
    (hE : ∀ p ∈ ss, 2 ≤ p.1.length ∨ (o.removeDummies = false ∧ o.reattachLabel = none ∧ ∃ e x k r, Forest.ofTags p.2 p.1 = .node e x k r))
    {pos : Option (List (List Str))}
    (hpos : ∀ ps, pos = some ps → ∀ (i : Nat) p, ss[i]? = some p → ∃ l, ps[i]? = some l ∧ l.length = p.1.length) :
    main f multiline pick o src (pos.map (·.map .ok)) =
      (Forest.exportTexts 0 (ss.mapIdx fun i p => (Forest.ofTags p.2 p.1).editedBy o (pos.bind (·[i]?))), .finished) := by
  rw [List.forall₂_iff_get] at hD
  have tree : ∀ (i : Nat) t, items[i]? = some (.ok t) → ∃ p, ss[i]? = some p ∧ p ∈ ss ∧ Conllx.Decoded p.2 p.1 t := by
    intro i t ht
    obtain ⟨hi, e⟩ := List.getElem?_eq_some_iff.1 ht
    have hi' : i < ss.length := by rw [← hD.1]; exact hi
    obtain ⟨u, hu, D⟩ := hD.2 i hi hi'
    simp only [List.get_eq_getElem] at hu D
    rw [e] at hu; cases hu
    exact ⟨ss[i], by simp [hi'], by simp, D⟩
  have mem : ∀ t, .ok t ∈ items → ∃ p ∈ ss, Conllx.Decoded p.2 p.1 t := by
    intro t ht
    obtain ⟨i, hi⟩ := List.mem_iff_getElem?.1 ht
    obtain ⟨p, _, h2, h3⟩ := tree i t hi
    exact ⟨p, h2, h3⟩
  have hE' : ∀ t, .ok t ∈ items → Enough o t := by
    intro t ht
    obtain ⟨p, hp, D⟩ := mem t ht
    rcases hE p hp with h | ⟨h, ho, e', x, k, r, h'⟩
    · exact .inl (by rw [D.size]; exact h)
    · refine .inr ⟨?_, h, ho⟩
      obtain ⟨G, hG, hL⟩ := decoded_like D
      rw [h'] at hL
      cases hL
      obtain ⟨n, ns, ks, k1, k2, _⟩ := hG
      simp only [List.cons.injEq] at k1
      rw [k1.1]
      exact ⟨_, k2⟩
  have hO : f = .negra → Orderly src.lines := fun h => absurd h hf
  obtain ⟨items', b', h', _, hR⟩ := stream_exists f multiline src.size src (Nat.le_refl _)
  obtain ⟨rfl, rfl⟩ := hS.unique h'
  have hrun := C57_run pick hpick f multiline o src (pos.map (·.map .ok)) _ _ hS hO hE'
  obtain ⟨h1, h2⟩ := hrun.complete_any
    (fun ps hps i t ht => by
      cases pos with
      | none => cases hps
      | some ls =>
        cases hps
        obtain ⟨p, k1, _, D⟩ := tree i t ht
        obtain ⟨l, hl, hl'⟩ := hpos ls rfl i p k1
        exact ⟨l, by rw [List.getElem?_map, hl]; rfl, by rw [hl', D.size]⟩)
    rfl (fun x hx => by
      obtain ⟨i, hi, rfl⟩ := List.mem_iff_getElem.1 hx
      obtain ⟨u, hu, _⟩ := hD.2 i hi (by rw [← hD.1]; exact hi)
      exact ⟨u, hu⟩) (fun _ _ _ _ _ _ _ => .inl (.inr hout))
  obtain ⟨Fs, g1, g2⟩ := hrun.exports_of hout (fun t tags F' => ∃ G, t.Is G ∧ F' = G.editedBy o tags) (by
    intro t tags t' ht h3
    obtain ⟨p, _, D⟩ := mem t ht
    have S := (hR hO t ht).suits (hE' t ht)
    have hN : NoGaps t := (noGaps_iff D.wf).1 D.proj
    have G := (pipeline_good S h3).1.fit
    obtain ⟨F, hF⟩ := D.wf.is_exists
    have S' : Suits { o with projectivize := false } t := ⟨S.fit, S.words⟩
    refine ⟨G.wf, G.rootNt, fun r hr => ?_, _, pipeline_any S' rfl (pipeline_unprojected S hN h3) hF, F, hF, rfl⟩
    by_contra hn
    exact hn (D.prim r ((pipeline_rest S.fit.wf h3).secondary (fun _ _ => hN) r hr (by simpa using hn))))
  refine Prod.ext ?_ h1
  rw [g1]
  refine (Forest.exportTexts_like (List.forall₂_iff_get.2 ⟨?_, fun i hi hi' => ?_⟩) 0).symm
  · rw [g1, exportTexts_length] at h2
    rw [h2, hD.1, List.length_mapIdx]
  · obtain ⟨t, tags, k1, k2, _, G, k4, k5⟩ := g2 i _ (List.getElem?_eq_getElem hi)
    obtain ⟨p, e1, _, D⟩ := tree i t k1
    obtain ⟨G', hG', hL⟩ := decoded_like D
    obtain rfl := Rep.unique hG' k4
    obtain ⟨hi1, rfl⟩ := List.getElem?_eq_some_iff.1 e1
    have htags : tags = pos.bind (·[i]?) := by
      cases pos with
      | none =>
        rcases k2 with ⟨_, h⟩ | ⟨ps, l, h, _⟩
        · exact h
        · cases h
      | some ls =>
        rcases k2 with ⟨h, _⟩ | ⟨ps, l, h, h', rfl⟩
        · cases h
        · cases h
          rw [List.getElem?_map, Option.map_eq_some_iff] at h'
          obtain ⟨l', e1, e2⟩ := h'
          cases e2
          exact e1.symm
    simp only [List.get_eq_getElem, List.getElem_mapIdx]
    rw [k5, htags]
    exact hL.editedBy o _

theorem absolute_items {ss : List (List Conllx.Token × AbsEncoding)}
    (hT : ∀ p ∈ ss, p.1 ≠ [] ∧ List.Forall₂ (Conllx.Tag "abs_ancestor".toList AbsAncestor.parse) p.1 p.2 ∧ AbsPositive p.2) :
    ∃ items : List (Except Err Tree), List.Forall₂ (fun p r => ∃ t, Conllx.tryFromAbsolute p.1 = .ok (.ok t) ∧ r = .ok t ∧
      Conllx.Decoded p.2 p.1 t) ss items := by
  induction ss with
  | nil => exact ⟨[], .nil⟩
  | cons p ss ih =>
    obtain ⟨items, h⟩ := ih fun q hq => hT q (by simp [hq])
    obtain ⟨h1, h2, h3⟩ := hT p (by simp)
    obtain ⟨t, k1, k2⟩ := C59_absolute p.1 h1 p.2 h2 h3
    exact ⟨.ok t :: items, .cons ⟨t, k1, rfl, k2⟩ h⟩

theorem relative_items {ss : List (List Conllx.Token × RelEncoding)}
    (hT : ∀ p ∈ ss, p.1 ≠ [] ∧ List.Forall₂ (Conllx.Tag "rel_ancestor".toList RelAncestor.parse) p.1 p.2) :
    ∃ items : List (Except Err Tree), List.Forall₂ (fun p r => ∃ t, Conllx.tryFromRelative p.1 = .ok (.ok t) ∧ r = .ok t ∧
      Conllx.Decoded (tryFromRelative p.2).unwrapOrFix p.1 t) ss items := by
  induction ss with
  | nil => exact ⟨[], .nil⟩
  | cons p ss ih =>
    obtain ⟨items, h⟩ := ih fun q hq => hT q (by simp [hq])
    obtain ⟨h1, h2⟩ := hT p (by simp)
    obtain ⟨t, k1, k2⟩ := C59_relative p.1 h1 p.2 h2
    exact ⟨.ok t :: items, .cons ⟨t, k1, rfl, k2⟩ h⟩

theorem tagged_any {pick : Tree → Finset Nat → Option Nat} (hpick : IsOrder pick) {f : InFormat} {multiline : Bool}
    {o : Options} (hout : o.out ≠ .negra) {src : Source} {items : List (Except Err Tree)}
    (hS : Stream f multiline src items true) (hf : f ≠ .negra) {ss : List (List Conllx.Token × AbsEncoding)}
    (hD : List.Forall₂ (fun r p => ∃ t, r = .ok t ∧ Conllx.Decoded p.2 p.1 t) items ss)
    (hE : ∀ p ∈ ss, 2 ≤ p.1.length ∨ (o.removeDummies = false ∧ o.reattachLabel = none ∧
      ∃ e x k r, Forest.ofTags p.2 p.1 = .node e x k r))
    {pos : Option (List (List Str))}
    (hpos : ∀ ps, pos = some ps → ∀ (i : Nat) p, ss[i]? = some p → ∃ l, ps[i]? = some l ∧ l.length = p.1.length)
    (hG : o.out = .conllx ∨ ∀ (i : Nat) p, ss[i]? = some p → ((Forest.ofTags p.2 p.1).editedBy o (pos.bind (·[i]?))).Solid) :
    ∃ ws, main f multiline pick o src (pos.map (·.map .ok)) = (ws, .finished) ∧
      ws.map some = ss.mapIdx fun i p => ((Forest.ofTags p.2 p.1).editedBy o (pos.bind (·[i]?))).outputBy o.out := by
  obtain ⟨ts, Gs, rfl, hts, hGs⟩ : ∃ (ts : List Tree) (Gs : List Forest), items = ts.map .ok ∧
      List.Forall₂ (fun t p => p ∈ ss ∧ Conllx.Decoded p.2 p.1 t) ts ss ∧
      List.Forall₂ (fun (tp : Tree × (List Conllx.Token × AbsEncoding)) G => tp.1.Is G ∧ Forest.Like G (Forest.ofTags tp.2.2 tp.2.1))
        (ts.zip ss) Gs := by
    have hD' := hD
    clear hG hpos hE hS
    suffices H : ∀ (all : List (List Conllx.Token × AbsEncoding)), ss ⊆ all → ∃ (ts : List Tree) (Gs : List Forest), items = ts.map .ok ∧
        List.Forall₂ (fun t p => p ∈ all ∧ Conllx.Decoded p.2 p.1 t) ts ss ∧
        List.Forall₂ (fun (tp : Tree × (List Conllx.Token × AbsEncoding)) G => tp.1.Is G ∧ Forest.Like G (Forest.ofTags tp.2.2 tp.2.1))
          (ts.zip ss) Gs from H ss (fun _ h => h)
    intro all hall
    induction hD' with
    | nil => exact ⟨[], [], rfl, .nil, .nil⟩
    | cons h1 h2 ih =>
      obtain ⟨t, rfl, D⟩ := h1
      obtain ⟨ts, Gs, rfl, k1, k2⟩ := ih h2 fun _ h => hall (by simp [h])
      obtain ⟨G, hG, hL⟩ := decoded_like D
      exact ⟨t :: ts, G :: Gs, rfl, .cons ⟨hall (by simp), D⟩ k1, .cons ⟨hG, hL⟩ k2⟩
  rw [List.forall₂_iff_get] at hts hGs
  obtain ⟨hl, hts⟩ := hts
  obtain ⟨hl', hGs⟩ := hGs
  rw [List.length_zip, hl, Nat.min_self] at hl'
  simp only [List.get_eq_getElem, List.getElem_zip] at hts hGs
  have at_ : ∀ (i : Nat) (hi : i < ss.length), ts[i].Is (Gs[i]'(by omega)) ∧
      Forest.Like (Gs[i]'(by omega)) (Forest.ofTags ss[i].2 ss[i].1) ∧ Conllx.Decoded ss[i].2 ss[i].1 ts[i] := fun i hi =>
    let ⟨h1, h2⟩ := hGs i (by rw [List.length_zip]; omega) (by omega)
    ⟨h1, h2, (hts i (by omega) hi).2⟩
  obtain ⟨ws, h1, h2⟩ := C95_trees pick hpick f multiline o hout src ts hS (fun h => absurd h hf) (fun t ht => by
      obtain ⟨i, hi, rfl⟩ := List.mem_iff_getElem.1 ht
      obtain ⟨k1, k2, D⟩ := at_ i (by omega)
      rcases hE ss[i] (by simp) with h | ⟨h, ho, e', x, k, r, h'⟩
      · exact .inl (by rw [D.size]; exact h)
      · refine .inr ⟨?_, h, ho⟩
        rw [h'] at k2
        generalize Gs[i]'(by omega) = G at k1 k2
        cases k2
        obtain ⟨n, ns, ks, k1, k2, _⟩ := k1
        simp only [List.cons.injEq] at k1
        rw [k1.1]
        exact ⟨_, k2⟩)
    (fun _ t ht => by
      obtain ⟨i, hi, rfl⟩ := List.mem_iff_getElem.1 ht
      have D := (at_ i (by omega)).2.2
      exact (noGaps_iff D.wf).1 D.proj)
    Gs (List.forall₂_iff_get.2 ⟨by omega, fun i hi hi' => (at_ i (by omega)).1⟩) pos
    (fun ps hps i t ht => by
      obtain ⟨hi, rfl⟩ := List.getElem?_eq_some_iff.1 ht
      obtain ⟨l, e1, e2⟩ := hpos ps hps i ss[i] (List.getElem?_eq_getElem (by omega))
      exact ⟨l, e1, by rw [e2, (at_ i (by omega)).2.2.size]⟩)
    (hG.imp id fun hG i G hGi => by
      obtain ⟨hi, rfl⟩ := List.getElem?_eq_some_iff.1 hGi
      exact (((at_ i (by omega)).2.1.editedBy o _).solid).1 (hG i ss[i] (List.getElem?_eq_getElem (by omega))))
  refine ⟨ws, h1, h2.trans (List.ext_getElem (by simp; omega) fun i hi hi' => ?_)⟩
  rw [List.length_mapIdx] at hi'
  rw [List.getElem_mapIdx, List.getElem_mapIdx]
  exact (((at_ i hi').2.1.editedBy o _).outputBy o.out).symm

/-- C95: from sentences with absolute tags to the formats other than NEGRA, with any options. -/
theorem C95_absolute (pick : Tree → Finset Nat → Option Nat) (hpick : IsOrder pick) (multiline : Bool)
    (o : Options) (hout : o.out ≠ .negra) (src : Source)
    (ss : List (List Conllx.Token × AbsEncoding)) (hs : src.sentences = ss.map fun p => some p.1)
    (hT : ∀ p ∈ ss, p.1 ≠ [] ∧ List.Forall₂ (Conllx.Tag "abs_ancestor".toList AbsAncestor.parse) p.1 p.2 ∧ AbsPositive p.2)
    (hE : ∀ p ∈ ss, 2 ≤ p.1.length ∨ (o.removeDummies = false ∧ o.reattachLabel = none ∧
      ∃ e x k r, Forest.ofTags p.2 p.1 = .node e x k r))
    (pos : Option (List (List Str)))
    (hpos : ∀ ps, pos = some ps → ∀ (i : Nat) p, ss[i]? = some p → ∃ l, ps[i]? = some l ∧ l.length = p.1.length)
    (hG : o.out = .conllx ∨ ∀ (i : Nat) p, ss[i]? = some p → ((Forest.ofTags p.2 p.1).editedBy o (pos.bind (·[i]?))).Solid) :
    ∃ ws, main .absolute multiline pick o src (pos.map (·.map .ok)) = (ws, .finished) ∧
      ws.map some = ss.mapIdx fun i p => ((Forest.ofTags p.2 p.1).editedBy o (pos.bind (·[i]?))).outputBy o.out := by
  obtain ⟨items, h⟩ := absolute_items hT
  refine tagged_any hpick hout ((C57_tagged multiline src items).1 ?_) (by simp) ?_ hE hpos hG
  · rw [hs, List.forall₂_map_left_iff]
    exact h.imp fun p r ⟨t, h1, h2, _⟩ => by rw [h2]; exact h1
  · exact h.flip.imp fun r p ⟨t, _, h2, h3⟩ => ⟨t, h2, h3⟩

/-- C95: the same for relative tags. -/
theorem C95_relative (pick : Tree → Finset Nat → Option Nat) (hpick : IsOrder pick) (multiline : Bool)
    (o : Options) (hout : o.out ≠ .negra) (src : Source)
    (ss : List (List Conllx.Token × RelEncoding)) (hs : src.sentences = ss.map fun p => some p.1)
    (hT : ∀ p ∈ ss, p.1 ≠ [] ∧ List.Forall₂ (Conllx.Tag "rel_ancestor".toList RelAncestor.parse) p.1 p.2)
    (hE : ∀ p ∈ ss, 2 ≤ p.1.length ∨ (o.removeDummies = false ∧ o.reattachLabel = none ∧
      ∃ e x k r, Forest.ofTags (tryFromRelative p.2).unwrapOrFix p.1 = .node e x k r))
    (pos : Option (List (List Str)))
    (hpos : ∀ ps, pos = some ps → ∀ (i : Nat) p, ss[i]? = some p → ∃ l, ps[i]? = some l ∧ l.length = p.1.length)
    (hG : o.out = .conllx ∨ ∀ (i : Nat) p, ss[i]? = some p →
      ((Forest.ofTags (tryFromRelative p.2).unwrapOrFix p.1).editedBy o (pos.bind (·[i]?))).Solid) :
    ∃ ws, main .relative multiline pick o src (pos.map (·.map .ok)) = (ws, .finished) ∧
      ws.map some = ss.mapIdx fun i p =>
        ((Forest.ofTags (tryFromRelative p.2).unwrapOrFix p.1).editedBy o (pos.bind (·[i]?))).outputBy o.out := by
  obtain ⟨items, h⟩ := relative_items hT
  obtain ⟨ws, h1, h2⟩ := tagged_any hpick hout (pos := pos) (ss := ss.map fun p => (p.1, (tryFromRelative p.2).unwrapOrFix))
    ((C57_tagged multiline src items).2 (by
      rw [hs, List.forall₂_map_left_iff]
      exact h.imp fun p r ⟨t, h1, h2, _⟩ => by rw [h2]; exact h1)) (by simp)
    (by
      rw [List.forall₂_map_right_iff]
      exact h.flip.imp fun r p ⟨t, _, h2, h3⟩ => ⟨t, h2, h3⟩)
    (fun p hp => by
      obtain ⟨q, hq, rfl⟩ := List.mem_map.1 hp
      exact hE q hq)
    (fun ps hps i p hp => by
      rw [List.getElem?_map, Option.map_eq_some_iff] at hp
      obtain ⟨q, hq, rfl⟩ := hp
      exact hpos ps hps i q hq)
    (hG.imp id fun hG i p hp => by
      rw [List.getElem?_map, Option.map_eq_some_iff] at hp
      obtain ⟨q, hq, rfl⟩ := hp
      exact hG i q hq)
  refine ⟨ws, h1, h2.trans (List.ext_getElem? fun i => ?_)⟩
  simp only [List.getElem?_mapIdx, List.getElem?_map, Option.map_map]
  rfl

/-- C95: from sentences with absolute tags to NEGRA. -/
theorem C95_export_absolute (pick : Tree → Finset Nat → Option Nat) (hpick : IsOrder pick) (multiline : Bool)
    (o : Options) (hout : o.out = .negra) (src : Source)
    (ss : List (List Conllx.Token × AbsEncoding)) (hs : src.sentences = ss.map fun p => some p.1)
    (hT : ∀ p ∈ ss, p.1 ≠ [] ∧ List.Forall₂ (Conllx.Tag "abs_ancestor".toList AbsAncestor.parse) p.1 p.2 ∧ AbsPositive p.2)
    (hE : ∀ p ∈ ss, 2 ≤ p.1.length ∨ (o.removeDummies = false ∧ o.reattachLabel = none ∧ ∃ e x k r, Forest.ofTags p.2 p.1 = .node e x k r))
    (pos : Option (List (List Str)))
    (hpos : ∀ ps, pos = some ps → ∀ (i : Nat) p, ss[i]? = some p → ∃ l, ps[i]? = some l ∧ l.length = p.1.length) :
    main .absolute multiline pick o src (pos.map (·.map .ok)) =
      (Forest.exportTexts 0 (ss.mapIdx fun i p => (Forest.ofTags p.2 p.1).editedBy o (pos.bind (·[i]?))), .finished) := by
  obtain ⟨items, h⟩ := absolute_items hT
  refine tagged_export hpick hout ((C57_tagged multiline src items).1 ?_) (by simp) ?_ hE hpos
  · rw [hs, List.forall₂_map_left_iff]
    exact h.imp fun p r ⟨t, h1, h2, _⟩ => by rw [h2]; exact h1
  · exact h.flip.imp fun r p ⟨t, _, h2, h3⟩ => ⟨t, h2, h3⟩

/-- C95: from sentences with relative tags to NEGRA. -/
theorem C95_export_relative (pick : Tree → Finset Nat → Option Nat) (hpick : IsOrder pick) (multiline : Bool)
    (o : Options) (hout : o.out = .negra) (src : Source)
    (ss : List (List Conllx.Token × RelEncoding)) (hs : src.sentences = ss.map fun p => some p.1)
    (hT : ∀ p ∈ ss, p.1 ≠ [] ∧ List.Forall₂ (Conllx.Tag "rel_ancestor".toList RelAncestor.parse) p.1 p.2)
    (hE : ∀ p ∈ ss, 2 ≤ p.1.length ∨ (o.removeDummies = false ∧ o.reattachLabel = none ∧
      ∃ e x k r, Forest.ofTags (tryFromRelative p.2).unwrapOrFix p.1 = .node e x k r))
    (pos : Option (List (List Str)))
    (hpos : ∀ ps, pos = some ps → ∀ (i : Nat) p, ss[i]? = some p → ∃ l, ps[i]? = some l ∧ l.length = p.1.length) :
    main .relative multiline pick o src (pos.map (·.map .ok)) =
      (Forest.exportTexts 0 (ss.mapIdx fun i p =>
        (Forest.ofTags (tryFromRelative p.2).unwrapOrFix p.1).editedBy o (pos.bind (·[i]?))), .finished) := by
  obtain ⟨items, h⟩ := relative_items hT
  have key := tagged_export hpick hout (pos := pos) (ss := ss.map fun p => (p.1, (tryFromRelative p.2).unwrapOrFix))
    ((C57_tagged multiline src items).2 (by
      rw [hs, List.forall₂_map_left_iff]
      exact h.imp fun p r ⟨t, h1, h2, _⟩ => by rw [h2]; exact h1)) (by simp)
    (by
      rw [List.forall₂_map_right_iff]
      exact h.flip.imp fun r p ⟨t, _, h2, h3⟩ => ⟨t, h2, h3⟩)
    (fun p hp => by
      obtain ⟨q, hq, rfl⟩ := List.mem_map.1 hp
      exact hE q hq)
    (fun ps hps i p hp => by
      rw [List.getElem?_map, Option.map_eq_some_iff] at hp
      obtain ⟨q, hq, rfl⟩ := hp
      exact hpos ps hps i q hq)
  rw [key]
  congr 2
  refine List.ext_getElem? fun i => ?_
  simp only [List.getElem?_mapIdx, List.getElem?_map, Option.map_map]
  rfl

/-! ## The hypotheses are met -/

/-- Whether there are gaps can be computed. -/
def solidDecidable : (F : Forest) → Decidable F.Solid
  | .nil => inferInstanceAs (Decidable True)
  | .leaf _ _ r => solidDecidable r
  | .node _ x k r =>
    have := solidDecidable k
    have := solidDecidable r
    inferInstanceAs (Decidable (x.span.skips = none ∧ k.Solid ∧ r.Solid))

local instance (F : Forest) : Decidable F.Solid := solidDecidable F

example := C95_export_absolute minPick minPick_order false { rewriteOptions with out := .negra, reattachLabel := some "N".toList, projectivize := true } rfl ⟨[], [some taggedSentence]⟩
  [(taggedSentence, taggedEntries)] rfl
  (by
    simp only [List.mem_singleton, forall_eq]
    refine ⟨by simp [taggedSentence], ?_, by unfold AbsPositive taggedEntries; decide⟩
    exact .cons ⟨"NP+2~X".toList, ⟨_, rfl, by decide +kernel⟩, ⟨"NP+2".toList, ["X".toList], by decide +kernel, rfl, .inr ⟨by decide, _, by decide +kernel, rfl⟩⟩⟩
      (.cons ⟨"S+1".toList, ⟨_, rfl, by decide +kernel⟩, ⟨"S+1".toList, [], by decide +kernel, rfl, .inr ⟨by decide, _, by decide +kernel, rfl⟩⟩⟩
        (.cons ⟨"NONE".toList, ⟨_, rfl, by decide +kernel⟩, ⟨"NONE".toList, [], by decide +kernel, rfl, .inl ⟨rfl, rfl⟩⟩⟩ .nil)))
  (by simp [taggedSentence]) (some [["D".toList, "N".toList, "V".toList]]) (by
    rintro _ ⟨⟩ i p hp
    rcases i with _ | i
    · cases hp; exact ⟨_, rfl, rfl⟩
    · cases hp)

/-- With the tags D, N and V and `--reattach N`. -/
example : ((Forest.ofTags taggedEntries taggedSentence).editedBy { plain .negra with reattachLabel := some "N".toList }
    (some ["D".toList, "N".toList, "V".toList])).exportText 0 = Negra.unlines (List.map String.toList
      ["#BOS 0",
       "a                               --                              D               --                      --              500",
       "b                               --                              N               --                      --              0",
       "c                               --                              V               --                      --              0",
       "#500                            --                              X               --                      --              501",
       "#501                            --                              NP              --                      --              0",
       "#EOS 0", ""]) := by
  decide +kernel

/-- The text for this sentence, without options. -/
example : (Forest.ofTags taggedEntries taggedSentence).exportText 7 = Negra.unlines (List.map String.toList
      ["#BOS 7",
       "a                               --                              _               --                      --              500",
       "b                               --                              _               --                      --              501",
       "c                               --                              _               --                      --              0",
       "#500                            --                              X               --                      --              501",
       "#501                            --                              NP              --                      --              0",
       "#EOS 7", ""]) := by
  decide +kernel

example := C95_export_relative minPick minPick_order false { rewriteOptions with out := .negra, reattachLabel := some "N".toList, projectivize := true } rfl
  ⟨[], [some [tagged "a" "rel_ancestor:NP+2", tagged "b" "rel_ancestor:S+-7", tagged "c" "rel_ancestor:NONE"]]⟩
  [([tagged "a" "rel_ancestor:NP+2", tagged "b" "rel_ancestor:S+-7", tagged "c" "rel_ancestor:NONE"],
    [(some (.regular 2 "NP".toList), none), (some (.regular (-7) "S".toList), none), (none, none)])] rfl
  (by
    simp only [List.mem_singleton, forall_eq]
    refine ⟨by simp, ?_⟩
    exact .cons ⟨"NP+2".toList, ⟨_, rfl, by decide +kernel⟩, ⟨"NP+2".toList, [], by decide +kernel, rfl, .inr ⟨by decide, _, by decide +kernel, rfl⟩⟩⟩
      (.cons ⟨"S+-7".toList, ⟨_, rfl, by decide +kernel⟩, ⟨"S+-7".toList, [], by decide +kernel, rfl, .inr ⟨by decide, _, by decide +kernel, rfl⟩⟩⟩
        (.cons ⟨"NONE".toList, ⟨_, rfl, by decide +kernel⟩, ⟨"NONE".toList, [], by decide +kernel, rfl, .inl ⟨rfl, rfl⟩⟩⟩ .nil)))
  (by simp) none (by simp)

/-- A word moved to the root, in the TueBa format. -/
example : ∃ ws, main .absolute false minPick { plain .tueba with reattachLabel := some "N".toList, projectivize := true } ⟨[], [some taggedSentence]⟩
    (some [.ok ["D".toList, "N".toList, "V".toList]]) = (ws, .finished) ∧
    ws.map some = [some (.text "(S:--(NP:--(X:--(D:-- a)))(N:-- b)(V:-- c))\n".toList)] := by
  obtain ⟨ws, h1, h2⟩ := C95_absolute minPick minPick_order false { plain .tueba with reattachLabel := some "N".toList, projectivize := true } (by decide)
    ⟨[], [some taggedSentence]⟩ [(taggedSentence, taggedEntries)] rfl
    (by
      simp only [List.mem_singleton, forall_eq]
      refine ⟨by simp [taggedSentence], ?_, by unfold AbsPositive taggedEntries; decide⟩
      exact .cons ⟨"NP+2~X".toList, ⟨_, rfl, by decide +kernel⟩, ⟨"NP+2".toList, ["X".toList], by decide +kernel, rfl, .inr ⟨by decide, _, by decide +kernel, rfl⟩⟩⟩
        (.cons ⟨"S+1".toList, ⟨_, rfl, by decide +kernel⟩, ⟨"S+1".toList, [], by decide +kernel, rfl, .inr ⟨by decide, _, by decide +kernel, rfl⟩⟩⟩
          (.cons ⟨"NONE".toList, ⟨_, rfl, by decide +kernel⟩, ⟨"NONE".toList, [], by decide +kernel, rfl, .inl ⟨rfl, rfl⟩⟩⟩ .nil)))
    (by simp [taggedSentence]) (some [["D".toList, "N".toList, "V".toList]]) (by
      rintro _ ⟨⟩ i p hp
      rcases i with _ | i
      · cases hp; exact ⟨_, rfl, rfl⟩
      · cases hp)
    (.inr fun i p hp => by
      rcases i with _ | i
      · cases hp
        decide +kernel
      · cases hp)
  exact ⟨ws, h1, h2.trans (by decide +kernel)⟩

example := C95_relative minPick minPick_order false { plain .conllx with reattachLabel := some "N".toList, projectivize := true } (by decide)
  ⟨[], [some [tagged "a" "rel_ancestor:NP+2", tagged "b" "rel_ancestor:S+-7", tagged "c" "rel_ancestor:NONE"]]⟩
  [([tagged "a" "rel_ancestor:NP+2", tagged "b" "rel_ancestor:S+-7", tagged "c" "rel_ancestor:NONE"],
    [(some (.regular 2 "NP".toList), none), (some (.regular (-7) "S".toList), none), (none, none)])] rfl
  (by
    simp only [List.mem_singleton, forall_eq]
    refine ⟨by simp, ?_⟩
    exact .cons ⟨"NP+2".toList, ⟨_, rfl, by decide +kernel⟩, ⟨"NP+2".toList, [], by decide +kernel, rfl, .inr ⟨by decide, _, by decide +kernel, rfl⟩⟩⟩
      (.cons ⟨"S+-7".toList, ⟨_, rfl, by decide +kernel⟩, ⟨"S+-7".toList, [], by decide +kernel, rfl, .inr ⟨by decide, _, by decide +kernel, rfl⟩⟩⟩
        (.cons ⟨"NONE".toList, ⟨_, rfl, by decide +kernel⟩, ⟨"NONE".toList, [], by decide +kernel, rfl, .inl ⟨rfl, rfl⟩⟩⟩ .nil)))
  (by simp) none (by simp) (.inl rfl)

end Props
end Lumberjack
