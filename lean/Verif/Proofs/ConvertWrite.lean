import Verif.Proofs.Convert
import Verif.Proofs.NegraOrder
import Verif.Props.Bracket
import Verif.Props.Chains
import Verif.Props.Conllx
import Verif.Props.Encode
import Verif.Props.NegraWrite

/-!
# What the conversion tool writes for a tree
-/

namespace Lumberjack
namespace Convert

open Lumberjack.Tree

variable {t t' : Tree}

theorem noGaps_iff (W : t.WF) : t.isProjective = true ↔ NoGaps t := by
  rw [isProjective_iff W.count]
  constructor
  · intro h n hn
    rcases live_iff.1 hn with ht | hnt
    · exact gapless_term W ht
    · by_contra hg
      exact h n ((disc_iff W).2 ⟨hnt, hg⟩)
  · intro h n hD
    obtain ⟨a, b⟩ := (disc_iff W).1 hD
    exact b (h n a.live)

theorem covers_only (W : t.WF) {n c : Nat} (h : t.OnlyChild n c) (i : Nat) : t.Covers n i ↔ t.Covers c i := by
  constructor
  · rintro ⟨m, hm, hi⟩
    rcases Relation.ReflTransGen.cases_head hm with rfl | ⟨d, h1, h2⟩
    · exfalso
      obtain ⟨x, hx⟩ := W.shape.parent_isNt W.graph h.1
      obtain ⟨y, hy, _⟩ := hi
      rw [hx] at hy; cases hy
    · rw [h.2 d h1] at h2
      exact ⟨m, h2, hi⟩
  · rintro ⟨m, hm, hi⟩
    exact ⟨m, Dom.head h.1 hm, hi⟩

/-- Collapsing unary chains neither makes nor closes gaps. -/
theorem collapse_projective (W : t.WF) (W' : t'.WF)
    (hlive : ∀ n, t'.Live n ↔ t.Live n ∧ ¬ ∃ c, t.OnlyChild n c)
    (hnode : ∀ n nd, t'.graph.node? n = some nd → ∃ nd0 fs, t.graph.node? n = some nd0 ∧ nd = nd0.setFeatures fs) :
    t'.isProjective = t.isProjective := by
  have disc : ∀ n, t'.Live n → (t'.Disc n ↔ t.Disc n) := by
    rintro n ⟨nd, hn⟩
    obtain ⟨nd0, fs, h0, rfl⟩ := hnode n nd hn
    cases nd0 with
    | term x =>
      constructor
      · rintro ⟨y, hy, _⟩; rw [hn] at hy; cases hy
      · rintro ⟨y, hy, _⟩; rw [h0] at hy; cases hy
    | nt x =>
      constructor
      · rintro ⟨y, hy, hs⟩; rw [hn] at hy; cases hy; exact ⟨x, h0, hs⟩
      · rintro ⟨y, hy, hs⟩; rw [h0] at hy; cases hy; exact ⟨_, hn, hs⟩
  rw [Bool.eq_iff_iff, isProjective_iff W.count, isProjective_iff W'.count]
  constructor
  · intro h n hD
    have key : ∀ n, t.Live n → ¬ t.Gapless n → ∃ m, t'.Live m ∧ ¬ t.Gapless m := by
      refine W.shape.induction_up W.graph fun n hn ih hg => ?_
      by_cases ho : ∃ c, t.OnlyChild n c
      · obtain ⟨c, hc⟩ := ho
        refine ih c hc.1 fun hgc => hg fun i j k => ?_
        rw [covers_only W hc, covers_only W hc, covers_only W hc]
        exact hgc i j k
      · exact ⟨n, (hlive n).2 ⟨hn, ho⟩, hg⟩
    obtain ⟨a, b⟩ := (disc_iff W).1 hD
    obtain ⟨m, hm, hg⟩ := key n a.live b
    refine h m ((disc m hm).2 ((disc_iff W).2 ⟨?_, hg⟩))
    rcases live_iff.1 ((hlive m).1 hm).1 with ht | hnt
    · exact absurd (gapless_term W ht) hg
    · exact hnt
  · intro h n hD
    exact h n ((disc n ⟨_, hD.choose_spec.1⟩).1 hD)

theorem collapse_sameWords (h1 : ∀ n, t'.IsTerm n ↔ t.IsTerm n) (h2 : t'.nTerminals = t.nTerminals)
    (hnode : ∀ n nd, t'.graph.node? n = some nd → ∃ nd0 fs, t.graph.node? n = some nd0 ∧ nd = nd0.setFeatures fs) :
    SameWords t t' := by
  refine ⟨h2, fun n => (h1 n).1, fun n x hx => ?_⟩
  obtain ⟨y, hy⟩ := (h1 n).2 ⟨x, hx⟩
  obtain ⟨nd0, fs, h0, e⟩ := hnode n _ hy
  rw [hx] at h0
  cases h0
  simp only [Node.setFeatures, Node.term.injEq] at e
  exact ⟨y, hy, by rw [e], by rw [e], by rw [e]⟩

/-- The last step: tags for the two tag formats, nothing for the others. -/
theorem stepEncode_spec (o : Options) (W : t.WF) :
    (o.out = .absolute → (NoGaps t → ∃ t', stepEncode o (.ok t) = .ok (.ok t') ∧ AbsTagged t t' ∧ t'.WF ∧ SameWords t t') ∧
      (¬ NoGaps t → stepEncode o (.ok t) = .ok (.error .nonProjective))) ∧
    (o.out = .relative → (NoGaps t → ∃ t', stepEncode o (.ok t) = .ok (.ok t') ∧ RelTagged t t' ∧ t'.WF ∧ SameWords t t') ∧
      (¬ NoGaps t → stepEncode o (.ok t) = .ok (.error .nonProjective))) ∧
    (o.out ≠ .absolute → o.out ≠ .relative → stepEncode o (.ok t) = .ok (.ok t)) := by
  obtain ⟨f, hf⟩ := W.is_exists
  obtain ⟨t1, h1, W1, _, hlive, hnode, _, hterm, hn⟩ := Props.C26_collapse t W ['_']
  obtain ⟨t1', h1', hf1⟩ := Props.C26_collapsed_tree t W ['_'] f hf
  rw [h1] at h1'
  cases h1'
  have hp : t1.isProjective = t.isProjective := collapse_projective W W1 hlive hnode
  have hw := collapse_sameWords hterm hn hnode
  refine ⟨fun ho => ⟨fun hg => ?_, fun hg => ?_⟩, fun ho => ⟨fun hg => ?_, fun hg => ?_⟩, fun h1 h2 => ?_⟩
  · have hp1 : t1.isProjective = true := by rw [hp, noGaps_iff W]; exact hg
    obtain ⟨e, t2, a1, a2, a3, W2, a4⟩ := Props.C38_annotate_absolute t1 W1 hp1
    rw [encodeAbsolute_eq W1 hp1 hf1] at a1
    simp only [Res.ok.injEq, Except.ok.injEq] at a1
    subst a1
    refine ⟨t2, ?_, ⟨f, t1, hf, W1, hf1, a4⟩, W2, hw.trans (a4.sameWords fun _ _ => ⟨rfl, rfl, rfl⟩)⟩
    unfold stepEncode
    rw [show (decide (o.out = .absolute) || decide (o.out = .relative)) = true by simp [ho], stepIf_true, h1]
    simp [ho, a3, orExit]
  · have hp1 : t1.isProjective = false := by
      rw [hp, ← Bool.not_eq_true, noGaps_iff W]; exact hg
    unfold stepEncode
    rw [show (decide (o.out = .absolute) || decide (o.out = .relative)) = true by simp [ho], stepIf_true, h1]
    simp [ho, (Props.C38_annotate_nonprojective t1 hp1).1, orExit]
  · have hp1 : t1.isProjective = true := by rw [hp, noGaps_iff W]; exact hg
    obtain ⟨e, t2, a1, a2, a3, W2, a4⟩ := Props.C38_annotate_relative t1 W1 hp1
    rw [Props.C36_encode_relative, encodeAbsolute_eq W1 hp1 hf1] at a1
    simp only [Res.ok_bind, Res.pure_eq, Except.map, Res.ok.injEq, Except.ok.injEq] at a1
    subst a1
    refine ⟨t2, ?_, ⟨f, t1, hf, W1, hf1, a4⟩, W2, hw.trans (a4.sameWords fun _ _ => ⟨rfl, rfl, rfl⟩)⟩
    unfold stepEncode
    rw [show (decide (o.out = .absolute) || decide (o.out = .relative)) = true by simp [ho], stepIf_true, h1]
    simp [ho, a3, orExit]
  · have hp1 : t1.isProjective = false := by
      rw [hp, ← Bool.not_eq_true, noGaps_iff W]; exact hg
    unfold stepEncode
    rw [show (decide (o.out = .absolute) || decide (o.out = .relative)) = true by simp [ho], stepIf_true, h1]
    simp [ho, (Props.C38_annotate_nonprojective t1 hp1).2, orExit]
  · unfold stepEncode
    rw [show (decide (o.out = .absolute) || decide (o.out = .relative)) = false by simp [h1, h2], stepIf_false]

theorem sentence_exists (W : t.WF) : ∃ s, Sentence t s ∧ Conllx.toConllx t = .ok s := by
  obtain ⟨ts, h, _⟩ := Props.C52_terminals t W
  exact ⟨_, ⟨ts, h, rfl⟩, (Props.C52_tokens t W ts h).1⟩

theorem writePtb_spec (W : t.WF) (f : Ptb.Format) :
    (NoGaps t → ∃ s, BracketText f t s ∧ writePtb f t = .ok (.ok s)) ∧
    (¬ NoGaps t → writePtb f t = .ok (.error .nonProjective)) := by
  rw [← noGaps_iff W]
  obtain ⟨F, hF⟩ := W.is_exists
  constructor
  · intro hp
    obtain ⟨s, h1, h2⟩ := Props.C44_text t W hp F hF f
    refine ⟨s ++ ['\n'], ⟨F, s, hF, h2, rfl⟩, ?_⟩
    unfold writePtb
    rw [h1]; rfl
  · intro hp
    have := Props.C44_writing_total t W f
    rw [if_neg hp] at this
    unfold writePtb
    rw [this]; rfl

theorem HoldsGaps.not {out : OutFormat} (h1 : out ≠ .conllx) (h2 : out ≠ .negra) : ¬ HoldsGaps out := by
  rintro (h | h)
  · exact h1 h
  · exact h2 h

/-- The last step and the writer. -/
theorem encode_write (o : Options) (counter : Nat) (F : Fit t) :
    (∃ w c, Output o.out counter t w c ∧
      (stepEncode o (.ok t) >>= fun r => match r with
        | .error e => .ok (.error e)
        | .ok t' => write o.out counter t') = .ok (.ok (w, c))) ∨
    (¬ HoldsGaps o.out ∧ ¬ NoGaps t ∧
      (stepEncode o (.ok t) >>= fun r => match r with
        | .error e => .ok (.error e)
        | .ok t' => write o.out counter t') = .ok (.error .nonProjective)) := by
  obtain ⟨habs, hrel, hother⟩ := stepEncode_spec o F.wf
  have viaPtb : ∀ f, (NoGaps t → ∃ s, BracketText f t s ∧ writePtb f t = .ok (.ok s)) ∧
    (¬ NoGaps t → writePtb f t = .ok (.error .nonProjective)) := fun f => writePtb_spec F.wf f
  cases ho : o.out with
  | absolute =>
    obtain ⟨h1, h2⟩ := habs ho
    by_cases hg : NoGaps t
    · obtain ⟨t', e, ht, W', _⟩ := h1 hg
      obtain ⟨s, hs, hc⟩ := sentence_exists W'
      refine .inl ⟨_, _, .absolute hg ht hs, ?_⟩
      rw [e, Res.ok_bind]
      simp [write, hc]
    · exact .inr ⟨HoldsGaps.not (by simp) (by simp), hg, by rw [h2 hg]; rfl⟩
  | relative =>
    obtain ⟨h1, h2⟩ := hrel ho
    by_cases hg : NoGaps t
    · obtain ⟨t', e, ht, W', _⟩ := h1 hg
      obtain ⟨s, hs, hc⟩ := sentence_exists W'
      refine .inl ⟨_, _, .relative hg ht hs, ?_⟩
      rw [e, Res.ok_bind]
      simp [write, hc]
    · exact .inr ⟨HoldsGaps.not (by simp) (by simp), hg, by rw [h2 hg]; rfl⟩
  | conllx =>
    obtain ⟨s, hs, hc⟩ := sentence_exists F.wf
    refine .inl ⟨_, _, .conllx hs, ?_⟩
    rw [hother (by simp [ho]) (by simp [ho]), Res.ok_bind]
    simp [write, hc]
  | negra =>
    obtain ⟨ns, nts, T, N, tl, nl, a1, a2, a3, a4, a5, a6, a7⟩ := Negra.writeTree_sequence F.wf F.rootNt F.sec counter
    refine .inl ⟨_, _, .negra ⟨ns, nts, T, N, tl, nl, a1, a2, a3, a4, a5, a6, rfl, rfl⟩, ?_⟩
    rw [hother (by simp [ho]) (by simp [ho]), Res.ok_bind]
    simp only [write, a7, Res.ok_bind, Res.pure_eq]
    rfl
  | ptb =>
    rw [hother (by simp [ho]) (by simp [ho]), Res.ok_bind]
    by_cases hg : NoGaps t
    · obtain ⟨s, h1, h2⟩ := (viaPtb .ptb).1 hg
      exact .inl ⟨_, _, .ptb hg h1, by simp [write, h2]⟩
    · exact .inr ⟨HoldsGaps.not (by simp) (by simp), hg, by simp [write, (viaPtb .ptb).2 hg]⟩
  | simple =>
    rw [hother (by simp [ho]) (by simp [ho]), Res.ok_bind]
    by_cases hg : NoGaps t
    · obtain ⟨s, h1, h2⟩ := (viaPtb .simple).1 hg
      exact .inl ⟨_, _, .simple hg h1, by simp [write, h2]⟩
    · exact .inr ⟨HoldsGaps.not (by simp) (by simp), hg, by simp [write, (viaPtb .simple).2 hg]⟩
  | tueba =>
    rw [hother (by simp [ho]) (by simp [ho]), Res.ok_bind]
    by_cases hg : NoGaps t
    · obtain ⟨s, h1, h2⟩ := (viaPtb .tueba).1 hg
      exact .inl ⟨_, _, .tueba hg h1, by simp [write, h2]⟩
    · exact .inr ⟨HoldsGaps.not (by simp) (by simp), hg, by simp [write, (viaPtb .tueba).2 hg]⟩

/-- One tree. -/
theorem convertTree_spec {pick : Tree → Finset Nat → Option Nat} (hpick : IsOrder pick) (o : Options)
    (tags : Option (List Str)) (counter : Nat) (S : Suits o t) (hl : ∀ l, tags = some l → l.length = t.nTerminals) :
    ∃ t', Pipeline o tags t t' ∧ Good o.reattachLabel.isNone t t' ∧
      (o.projectivize = true → o.reattachLabel = none → NoGaps t') ∧
      ((∃ w c, Output o.out counter t' w c ∧ convertTree pick o (tags.map .ok) counter t = .ok (.ok (w, c))) ∨
       (¬ HoldsGaps o.out ∧ ¬ NoGaps t' ∧ convertTree pick o (tags.map .ok) counter t = .ok (.error .nonProjective))) := by
  obtain ⟨t', h1, h2, h3, h4⟩ := process_spec hpick o tags S hl
  refine ⟨t', h1, h2, fun a b => (noGaps_iff h2.fit.wf).1 (h3 a b), ?_⟩
  unfold convertTree
  rw [h4]
  exact encode_write o counter h2.fit

/-- The words written are those of the tree. -/
theorem output_words {out : OutFormat} {c c' : Nat} {s : List Conllx.Token} (W : t.WF)
    (h : Output out c t (.sentence s) c') :
    ∀ ts, t.Terminals ts → s.map (·.form) = ts.map (·.form) ∧ s.map (·.lem) = ts.map (·.lem) := by
  have tok : ∀ us : List Terminal, (us.map Conllx.tokenOf).map (·.form) = us.map (·.form) ∧
      (us.map Conllx.tokenOf).map (·.lem) = us.map (·.lem) := by
    intro us; simp [Conllx.tokenOf, Function.comp_def]
  have tagged : ∀ (f : Forest) (t1 t' : Tree) (g : Terminal → Terminal) us ts, t.Is f → t1.WF → t1.Is (f.collapse ['_']) →
      TermEdit t1 t' (fun _ x => g x) → (∀ x, (g x).form = x.form ∧ (g x).lem = x.lem ∧ (g x).span = x.span) →
      NoGaps t → t'.Terminals us → t.Terminals ts →
      us.map (·.form) = ts.map (·.form) ∧ us.map (·.lem) = ts.map (·.lem) := by
    intro f t1 t' g us ts hf W1 hf1 E hg hN hus hts
    obtain ⟨t2, a1, W2, _, hlive, hnode, _, hterm, hn⟩ := Props.C26_collapse t W ['_']
    obtain ⟨t2', a2, hf2⟩ := Props.C26_collapsed_tree t W ['_'] f hf
    rw [a1] at a2
    cases a2
    have hp2 : t2.isProjective = true := by
      rw [collapse_projective W W2 hlive hnode, noGaps_iff W]; exact hN
    have hl2 := terminals_leaves W2 hp2 hf2
    have hw2 := collapse_sameWords hterm hn hnode
    have h1 := hw2.terminals W hts hl2
    have hp1 : t1.isProjective = true := by
      rw [isProjective_iff W1.count]
      rintro n ⟨x, hx, hs⟩
      have hA : (f.collapse ['_']).All (fun nd => nd.span.skips = none) :=
        Rep.all hf2 fun n nd hn => projective_skips W2 hp2 n nd hn
      have := Is.all_conv W1.shape hf1 hA hx
      simp only [Node.span] at this
      rw [this] at hs; cases hs
    have hl1 := terminals_leaves W1 hp1 hf1
    have hl1' := TermEdit.terminals E (fun x => (hg x).2.2) hl1
    have W' : t'.WF := E.wf (fun _ x => (hg x).2.2) W1
    have e := Terminals.unique W' hus hl1'
    subst e
    rw [← h1.1, ← h1.2]
    simp [Function.comp_def, hg]
  intro ts hts
  cases h with
  | conllx hs =>
    obtain ⟨us, h1, rfl⟩ := hs
    rw [Terminals.unique W h1 hts]
    exact tok ts
  | absolute hN hT hs =>
    obtain ⟨us, h1, rfl⟩ := hs
    obtain ⟨f, t1, a1, a2, a3, a4⟩ := hT
    rw [(tok us).1, (tok us).2]
    exact tagged f t1 _ _ us ts a1 a2 a3 a4 (fun x => ⟨rfl, rfl, rfl⟩) hN h1 hts
  | relative hN hT hs =>
    obtain ⟨us, h1, rfl⟩ := hs
    obtain ⟨f, t1, a1, a2, a3, a4⟩ := hT
    rw [(tok us).1, (tok us).2]
    exact tagged f t1 _ _ us ts a1 a2 a3 a4 (fun x => ⟨rfl, rfl, rfl⟩) hN h1 hts

end Convert
end Lumberjack
