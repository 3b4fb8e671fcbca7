import Verif.Proofs.Conllx

/-!
# Trees survive as tagged sentences
-/

namespace Lumberjack

open Conllx Lumberjack.Tree

variable {t : Tree}

theorem Taggable.bare (S : t.Shape) (H : t.Taggable) {f : Forest} : ∀ {ids : List Nat}, t.Rep ids f → f.Bare := by
  induction f with
  | nil => intro ids _; trivial
  | leaf e x r ih =>
    rintro ids ⟨n, ns, rfl, h4, h5, h6⟩
    exact ⟨by rw [← h5, inLabel_plain S H.edges], H.lem n x h4, H.features n _ h4, ih h6⟩
  | node e x k r ihk ih =>
    rintro ids ⟨n, ns, ks, rfl, h4, h5, h6, h7, h8⟩
    exact ⟨by rw [← h5, inLabel_plain S H.edges], H.label n x h4, H.features n _ h4, ihk h7, ih h8⟩

theorem projective_skips (W : t.WF) (hp : t.isProjective = true) :
    ∀ n nd, t.graph.node? n = some nd → nd.span.skips = none := by
  rw [isProjective_iff W.count] at hp
  intro n nd hn
  cases nd with
  | term x =>
    obtain ⟨i, _, y, hy, hs⟩ := W.sentence.pos n ⟨x, hn⟩
    rw [hn] at hy
    simp only [Option.some.injEq, Node.term.injEq] at hy
    subst hy
    simp only [Node.span, hs]; rfl
  | nt x =>
    have := hp n
    cases hs : x.span.skips with
    | none => exact hs
    | some sk => exact absurd ⟨x, hn, by rw [hs]; rfl⟩ this

theorem no_disc (h : ∀ n nd, t.graph.node? n = some nd → nd.span.skips = none) (n : Nat) : ¬ t.Disc n := by
  rintro ⟨x, hx, hs⟩
  have := h n _ hx
  simp only [Node.span] at this
  rw [this] at hs; simp at hs

theorem Forest.all_imp {P Q : Node → Prop} (h : ∀ nd, P nd → Q nd) {f : Forest} (hf : f.All P) : f.All Q := by
  induction f with
  | nil => trivial
  | leaf e x r ih => exact ⟨h _ hf.1, ih hf.2⟩
  | node e x k r ihk ih => exact ⟨h _ hf.1, ihk hf.2.1, ih hf.2.2⟩

/-- Collapsing a tree that can be tagged. -/
theorem collapse_tagged (W : t.WF) (hp : t.isProjective = true) (H : t.Taggable) :
    ∃ t1 f, t.collapseUnaryChains ['_'] = .ok t1 ∧ t.Is f ∧ t1.WF ∧ t1.isProjective = true ∧
      t1.Is (f.collapse ['_']) ∧ (f.collapse ['_']).NoUnary ∧ (f.collapse ['_']).Tagged ∧
      t1.graph.nodes.length = t.graph.nodes.length ∧ ((f.collapse ['_']).restore ['_']).norm = f.norm ∧
      t1.nTerminals = t.nTerminals ∧
      ∀ n x, t1.graph.node? n = some (.nt x) → ∃ m y, t.graph.node? m = some (.nt y) ∧ x.label = y.label := by
  obtain ⟨f, hf⟩ := W.is_exists
  obtain ⟨t1, h1, I, hno⟩ := collapseUnaryChains_spec W ['_'] hf
  obtain ⟨f1, hf1, hc⟩ := I.is
  have hnu : f1.NoUnary := Rep.noUnary hno hf1
  have hf1' : f1 = f.collapse ['_'] := by rw [← hc, hnu.collapse]
  subst hf1'
  have hb := Taggable.bare W.shape H hf
  refine ⟨t1, f, h1, hf, I.wf, ?_, hf1, hnu, hb.tagged, I.len,
    (Forest.restore_collapse (by simp) (W.is_good hf).1 hb.coll).1, I.nterm, ?_⟩
  · refine (isProjective_iff I.wf.count).2 (no_disc ?_)
    intro n nd hn
    obtain ⟨nd0, g, k1, rfl⟩ := I.kept n nd hn
    rw [withFeats_span]; exact projective_skips W hp n nd0 k1
  · intro n x hn
    obtain ⟨nd0, g, k1, k2⟩ := I.kept n _ hn
    cases nd0 with
    | term y => simp [withFeats] at k2
    | nt y =>
      refine ⟨n, y, k1, ?_⟩
      simp only [withFeats, Node.nt.injEq] at k2
      rw [k2]

theorem fullLabel_ok {y : NonTerminal} (hl : TagLabel y.label) (hc : Forest.ChainTag y.features) :
    Forest.ChainStr y.fullLabel ∧ (y.label ≠ noneMarker → y.fullLabel ≠ noneMarker) := by
  rcases hc with h | ⟨c, hc, h⟩
  · have : y.fullLabel = y.label := by unfold NonTerminal.fullLabel; rw [h]; rfl
    rw [this]
    exact ⟨⟨hl.1, fun ch hch => hl.2 ch (by simp at hch ⊢; tauto)⟩, id⟩
  · have : y.fullLabel = c ++ '_' :: y.label := by
      unfold NonTerminal.fullLabel; rw [h]; simp [Features.getVal, Features.lookupEntry]
    rw [this]
    refine ⟨⟨by simp, fun ch hch hm => ?_⟩, fun _ hcon => ?_⟩
    · rw [List.mem_append, List.mem_cons] at hm
      rcases hm with hm | hm | hm
      · exact hc.2 ch hch hm
      · subst hm; simp at hch
      · exact hl.2 ch (by simp at hch ⊢; tauto) hm
    · have : '_' ∈ noneMarker := by rw [← hcon]; simp
      exact absurd this (by decide)

theorem chain_ok {x : Terminal} (hc : Forest.ChainTag x.features) : ∀ c, x.chain = some c → Forest.ChainStr c := by
  intro c h
  unfold Terminal.chain at h
  rcases hc with h0 | ⟨d, hd, h0⟩
  · rw [h0] at h; simp [Features.getVal, Features.lookupEntry, Features.empty] at h
  · rw [h0] at h
    simp [Features.getVal, Features.lookupEntry] at h
    subst h; exact hd

/-- The entries of the encoding of a collapsed tree can be stored in tags. -/
theorem entries_ok (W : t.WF) (hp : t.isProjective = true) {F : Forest} (hF : t.Is F) (hT : F.Tagged)
    (hsize : t.graph.nodes.length < 2 ^ 63) : ∀ p ∈ F.encoding 0 [] none, EntryOk p ∧
      ((∀ n x, t.graph.node? n = some (.nt x) → x.label ≠ noneMarker) → ∀ a, p.1 = some a → a.label ≠ noneMarker) := by
  have hall := fun n nd (hn : t.graph.node? n = some nd) => hF.all_conv W.shape hT.all hn
  obtain ⟨e, h1, h2, h3⟩ := Props.C31_encode_absolute t W hp
  rw [encodeAbsolute_eq W hp hF] at h1
  injection h1 with h1
  injection h1 with h1
  subst h1
  intro p hpm
  obtain ⟨i, hi⟩ := List.mem_iff_getElem?.1 hpm
  have hlt := (List.getElem?_eq_some_iff.1 hi).1
  obtain ⟨n, hn⟩ := W.sentence.occupied i (by omega)
  obtain ⟨x, hx⟩ := hn.isTerm
  obtain ⟨g1, g2⟩ := h3 n x i hx hn
  by_cases hlast : i + 1 = t.nTerminals
  · have := g2 hlast
    rw [hi] at this
    injection this with this
    subst this
    exact ⟨⟨by simp, by simp, chain_ok (hall n _ hx).1⟩, by simp⟩
  · obtain ⟨m, hm⟩ := W.sentence.occupied (i + 1) (by omega)
    obtain ⟨a, k, y, q1, q2, q3⟩ := g1 m hm
    rw [hi] at q3
    injection q3 with q3
    subst q3
    obtain ⟨r1, r2⟩ := hall a _ q2
    obtain ⟨u1, u2⟩ := fullLabel_ok (r2 y rfl) r1
    refine ⟨⟨?_, ?_, chain_ok (hall n _ hx).1⟩, ?_⟩
    · rintro b hb; injection hb with hb; subst hb; exact u1
    · rintro b hb; injection hb with hb; subst hb
      obtain ⟨l, l1, l2, l3⟩ := q1.count
      have hsub : l ⊆ List.range t.graph.nodes.length := by
        intro q hq
        obtain ⟨d1, _⟩ := (l3 q).1 hq
        rw [List.mem_range]
        exact Graph.Live.lt (d1.live_left W.graph ⟨_, hx⟩)
      have := (List.subperm_of_subset l1 hsub).length_le
      rw [List.length_range, l2] at this
      simp only
      omega
    · rintro hnone b hb; injection hb with hb; subst hb; exact u2 (hnone a y q2)

theorem finishDecode_spec {F : Forest} (hs : F.Seq 0) (hw : F.width = 1) (hu : F.NoUnary) (hT : F.Tagged) {f : Forest}
    (hr : (F.restore ['_']).norm = f.norm) (hf : f.All (fun nd => nd.span.skips = none)) :
    ∃ t' f', finishDecode (F.encoding 0 [] none) (F.leaves.map Forest.bare) = .ok (.ok t') ∧ t'.WF ∧
      t'.isProjective = true ∧ t'.nTerminals = F.leaves.length ∧ t'.Is f' ∧ f'.norm = f.norm := by
  obtain ⟨T1, T2⟩ := hT.strip hs
  have hs' := hs.strip
  have hne : F ≠ .nil := by rintro rfl; simp [Forest.width] at hw
  have hpos := hs.leaves_pos hne
  have hpos' : ∀ p ∈ F.encoding 0 [] none, ∀ a, p.1 = some a → 1 ≤ a.common :=
    encoding_positive (.inr (by omega)) (by simp)
  obtain ⟨t3, h1, h2, h3, h4⟩ := Decoding.decode_spec (e := F.encoding 0 [] none) (ts := F.leaves.map Forest.bare)
    (by rw [Forest.length_encoding]; simp) (by intro hc; simp at hc; rw [hc] at hpos; simp at hpos) hpos' (by
      refine List.ext_getElem? (fun i => ?_)
      rw [List.getElem?_map, List.getElem?_map, List.getElem?_map, List.length_map]
      cases hx : F.leaves[i]? with
      | none =>
        rw [List.getElem?_eq_none_iff] at hx
        rw [List.getElem?_eq_none (by simpa using hx)]; rfl
      | some x =>
        have hi := (List.getElem?_eq_some_iff.1 hx).1
        rw [List.getElem?_range hi]
        simp [hs.leaf_span hx, Forest.bare, Terminal.new, Span.ofIdx])
  have hrun : Decoding.forest (F.encoding 0 [] none) (F.leaves.map Forest.bare) = F.strip.redecode := by
    rw [← Decoding.forest_bare Forest.encoding_chains, ← Forest.leaves_strip, ← Forest.encoding_strip (f := F)]
    exact Decoding.forest_encoding (by rw [Forest.width_strip]; exact hw) hs'.full hu.strip
  rw [hrun] at h4
  have hnorm := T1.norm hs'
  have hall : ∀ n nd, t3.graph.node? n = some nd → Forest.ChainTag nd.features := by
    have key : (F.strip.redecode.respan 0).All (fun nd => Forest.ChainTag nd.features) := by
      have h0 := T1.all
      have hfe : ∀ (f g : Forest), f.norm = g.norm → f.All (fun nd => Forest.ChainTag nd.features) →
          g.All (fun nd => Forest.ChainTag nd.features) := by
        intro f
        induction f with
        | nil => intro g hg _; cases g <;> simp [Forest.norm] at hg; trivial
        | leaf e x r ih =>
          intro g hg ha
          cases g with
          | leaf e' x' r' =>
            simp only [Forest.norm, Forest.leaf.injEq, Terminal.mk.injEq, Option.some.injEq] at hg
            refine ⟨?_, ih r' hg.2.2 ha.2⟩
            have := ha.1
            simp only [Node.features, Forest.ChainTag] at this ⊢
            rw [← hg.2.1.2.2.2.1]; exact this
          | nil => simp [Forest.norm] at hg
          | node => simp [Forest.norm] at hg
        | node e x k r ihk ih =>
          intro g hg ha
          cases g with
          | node e' x' k' r' =>
            simp only [Forest.norm, Forest.node.injEq, NonTerminal.mk.injEq, Option.some.injEq] at hg
            refine ⟨?_, ihk k' hg.2.2.1 ha.2.1, ih r' hg.2.2.2 ha.2.2⟩
            have := ha.1
            simp only [Node.features, Forest.ChainTag] at this ⊢
            rw [← hg.2.1.2.1]; exact this
          | nil => simp [Forest.norm] at hg
          | leaf => simp [Forest.norm] at hg
      refine hfe _ _ hnorm.symm (Forest.all_imp (fun nd h => h.1) h0)
    intro n nd hn
    exact h4.all_conv h2.shape key hn
  obtain ⟨t4, k1, k2, k3, k4, k5, f4, k6, k7⟩ := restoreUnaryChains_spec h2.core ['_'] h4
    (fun n nd hn => (hall n nd hn).sorted) (fun n nd hn => (hall n nd hn).value)
  have hfin : f4.norm = f.norm := by
    rw [k7, ← Forest.restore_norm, hnorm, T2, Forest.restore_norm, hr]
  have hspan : f4.All (fun nd => nd.span.skips = none) := Forest.All.of_norm (P := fun s => s.skips = none) hfin.symm hf
  have hd := no_disc (fun n nd hn => k6.all_conv k2.shape hspan hn)
  have W4 : t4.WF := by
    refine k2.wf ?_
    unfold CountOK
    rw [k3, Finset.filter_false_of_mem (fun n _ => hd n)]
    simpa [isProjective] using h3
  refine ⟨t4, f4, ?_, W4, (isProjective_iff W4.count).2 hd, ?_, k6, hfin⟩
  · unfold finishDecode
    rw [h1]
    simp only [Res.ok_bind, k1]
    rfl
  · rw [k4]
    have := (terminals_leaves h2 h3 h4).1
    rw [← this, Forest.leaves_respan, Forest.leaves_redecode T1.leaf_sorted, Forest.leaves_strip]
    simp

/-- The terminals after an annotation. -/
theorem TermEdit.terminals {t' : Tree} {g : Terminal → Terminal} (h : TermEdit t t' (fun _ x => g x))
    (hg : ∀ x, (g x).span = x.span) {ts : List Terminal} (hts : t.Terminals ts) : t'.Terminals (ts.map g) := by
  refine ⟨by rw [List.length_map, hts.1, h.nTerm], fun n x i hx hi => ?_⟩
  cases hn : t.graph.node? n with
  | none => rw [h.none n hn] at hx; cases hx
  | some nd =>
    cases nd with
    | nt y => rw [h.nt n y hn] at hx; cases hx
    | term y =>
      have hy := h.term n y hn
      rw [hy] at hx
      simp only [Option.some.injEq, Node.term.injEq] at hx
      subst hx
      obtain ⟨z, hz, hs⟩ := hi
      rw [hy] at hz
      simp only [Option.some.injEq, Node.term.injEq] at hz
      subst hz
      rw [List.getElem?_map, hts.2 n y i hn ⟨y, hn, by rw [← hg]; exact hs⟩]; rfl

theorem entries_forall {α : Type} {key : Str} {parse : Str → Except Err α} {text : Option α × Option Str → Str}
    (hk : key < Forest.chainKey) (hk1 : '|' ∉ key) (hk2 : ':' ∉ key) {F : Forest} (hs : F.Seq 0) (hT : F.Tagged)
    {E : List (Option α × Option Str)} (hl : E.length = F.leaves.length) (dflt : Option α × Option Str)
    (hE : ∀ e ∈ E, splitAncestor parse (text e) = .ok e ∧ '|' ∉ text e ∧ ':' ∉ text e) :
    List.Forall₂ (fun x e => ancestorStr key (tokenOf (withFeature key (text (E[x.span.start]?.getD dflt)) x)) =
        .ok (text (E[x.span.start]?.getD dflt)) ∧ splitAncestor parse (text (E[x.span.start]?.getD dflt)) = .ok e)
      F.leaves E := by
  have hct : ∀ x ∈ F.leaves, Forest.ChainTag x.features := by
    clear hE hl hs
    induction F with
    | nil => intro x hx; simp [Forest.leaves] at hx
    | leaf e y r ih =>
      intro x hx
      rcases List.mem_cons.1 hx with rfl | hx
      · exact hT.2.2.1
      · exact ih hT.2.2.2 x hx
    | node e y k r ihk ih =>
      intro x hx
      rcases List.mem_append.1 hx with hx | hx
      · exact ihk hT.2.2.2.1 x hx
      · exact ih hT.2.2.2.2 x hx
  rw [List.forall₂_iff_get]
  refine ⟨hl.symm, fun i h1 h2 => ?_⟩
  have hsp := hs.leaf_span (List.getElem?_eq_getElem h1)
  have e1 : (F.leaves.get ⟨i, h1⟩).span.start = i := by
    simp only [List.get_eq_getElem, hsp, Span.ofIdx, Nat.zero_add]
  have e2 : E[(F.leaves.get ⟨i, h1⟩).span.start]?.getD dflt = E.get ⟨i, h2⟩ := by
    rw [e1, List.getElem?_eq_getElem h2]; rfl
  simp only [e2]
  obtain ⟨q1, q2, q3⟩ := hE _ (List.get_mem E ⟨i, h2⟩)
  exact ⟨ancestorStr_tag (hct _ (List.get_mem _ _)) hk hk1 hk2 q2 q3, q1⟩

theorem relEntries_ok : ∀ (es : AbsEncoding) (p : Int), 0 ≤ p → p < 2 ^ 63 →
    (∀ e ∈ es, EntryOk e ∧ ∀ a, e.1 = some a → a.label ≠ noneMarker) → ∀ x ∈ relFromAbsLoop es p [], RelEntryOk x := by
  intro es
  induction es with
  | nil => intro p _ _ _ x hx; simp [relFromAbsLoop] at hx
  | cons e es ih =>
    intro p hp0 hp1 hes x hx
    obtain ⟨a, c⟩ := e
    obtain ⟨he, hn⟩ := hes (a, c) (by simp)
    have hes' := fun e he => hes e (List.mem_cons_of_mem _ he)
    cases a with
    | none =>
      simp only [relFromAbsLoop, List.nil_append] at hx
      rw [Props.relFromAbsLoop_acc] at hx
      rcases List.mem_append.1 hx with hx | hx
      · simp only [List.mem_singleton] at hx
        subst hx
        exact ⟨by simp, by simp, he.chain⟩
      · exact ih p hp0 hp1 hes' x hx
    | some a =>
      have hc := he.count a rfl
      simp only [relFromAbsLoop, List.nil_append] at hx
      rw [Props.relFromAbsLoop_acc] at hx
      rcases List.mem_append.1 hx with hx | hx
      · simp only [List.mem_singleton] at hx
        subst hx
        refine ⟨?_, ?_, he.chain⟩
        · intro b hb
          simp only [Option.some.injEq] at hb
          subst hb
          have : (if a.common = 1 then RelAncestor.root a.label else .regular (a.common - p) a.label).lab = a.label := by
            split <;> rfl
          rw [this]
          exact ⟨he.label a rfl, hn a rfl⟩
        · intro o l hb
          simp only [Option.some.injEq] at hb
          split at hb
          · cases hb
          · injection hb with h1 h2
            unfold IsizeRange
            omega
      · exact ih _ (by omega) (by omega) hes' x hx

theorem relFromAbs_length (e : AbsEncoding) : (relFromAbs e).length = e.length := by
  have : ∀ (e : AbsEncoding) p acc, (relFromAbsLoop e p acc).length = acc.length + e.length := by
    intro e
    induction e with
    | nil => intro p acc; rfl
    | cons x e ih =>
      intro p acc
      obtain ⟨a, b⟩ := x
      cases a <;> simp [relFromAbsLoop, ih] <;> omega
  unfold relFromAbs
  rw [this]; simp

end Lumberjack
