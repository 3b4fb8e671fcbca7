import Verif.Spec.Phrases
import Verif.Proofs.IsoSteps
import Verif.Proofs.TextOut
import Verif.Proofs.ConvertWrite

/-!
# Words, edge labels and secondary edges of a converted tree
-/

namespace Lumberjack

open Lumberjack.Tree

namespace Tree

variable {t t' t1 : Tree}

/-- Edge labels are kept or dropped. -/
def NoMoreLabels (t t' : Tree) : Prop := ∀ n l, t'.inLabel n = some l → t.inLabel n = some l

theorem Removed.noMoreLabels {R : Nat → Prop} (W : t.WF) (H : Removed t t' R) : NoMoreLabels t t' := by
  intro n l hl
  obtain ⟨r, h1, h2, rfl, h3⟩ := inLabel_edge hl
  rcases H.added r h1 with h4 | ⟨_, h4⟩
  · rw [edge_inLabel W.shape h4 h2, h3]
  · rw [h4] at h3; simp [Edge.label] at h3

theorem TermEdit.noMoreLabels {g : Nat → Terminal → Terminal} (E : TermEdit t t' g) : NoMoreLabels t t' := by
  intro n l hl
  unfold inLabel edgeLabel at hl ⊢
  rw [E.edges] at hl; exact hl

theorem Moves.noMoreLabels {log : List Move} (M : Moves t log t') : NoMoreLabels t t' := by
  induction M with
  | nil => exact fun n l h => h
  | @snoc t1 t2 log m hM W hm ih =>
    obtain ⟨q, id, id', g1, g2, _, _, _, _, _, g3, g4, _⟩ := hm
    intro n l hl
    apply ih
    obtain ⟨r, h1, h2, rfl, h3⟩ := inLabel_edge hl
    rw [g3, List.mem_cons] at h1
    rcases h1 with rfl | h1
    · have := edge_inLabel W.shape g1 g2
      simp only at this h3 ⊢
      rw [this, h3]
    · rw [edge_inLabel W.shape (List.mem_filter.1 h1).1 h2, h3]

theorem Moves.noMore {log : List Move} (M : Moves t log t') : Convert.NoMoreSecondary t t' := by
  induction M with
  | nil => exact fun e h _ => h
  | @snoc t1 t2 log m hM W hm ih =>
    obtain ⟨q, id, id', g1, g2, _, _, _, _, _, g3, g4, _⟩ := hm
    intro e he hw
    refine ih e ?_ hw
    rw [g3, List.mem_cons] at he
    rcases he with rfl | he
    · rw [g2] at hw; cases hw
    · exact (List.mem_filter.1 he).1

theorem Gathered.noMoreLabels {a : Nat} {M : Nat → Prop} (G : Gathered t a M t') : NoMoreLabels t t' := by
  intro n l hl
  obtain ⟨r, h1, h2, rfl, h3⟩ := inLabel_edge hl
  by_cases hM : M r.tgt
  · rw [G.moved _ hM] at hl; cases hl
  · rw [← G.label _ (G.wf.graph.ends r h1).2 hM]; exact hl

theorem Inserted.noMoreLabels {K : Nat → Nat → Prop} {lab : Nat → Str} (I : Inserted t K lab t') : NoMoreLabels t t' := by
  intro n k hk
  obtain ⟨r, h1, h2, rfl, h3⟩ := inLabel_edge hk
  have hL := (I.wf.graph.ends r h1).2
  by_cases hn : t.Live r.tgt
  · by_cases hf : ∀ p d i, K p r.tgt → K p d → t.TermAt d i → ¬ t.TermAt r.tgt (i + 1)
    · rw [I.first _ hn hf] at hk; exact hk
    · simp only [not_forall, not_not] at hf
      obtain ⟨p, d, i, a1, a2, a3, a4⟩ := hf
      rw [I.follow p _ d i a1 a2 a3 a4] at hk; cases hk
  · obtain ⟨p, c, _, _, h5, _⟩ := I.new _ hL hn
    rw [h5] at hk; cases hk

end Tree

namespace Convert

variable {t t' : Tree} {o : Options} {tags : Option (List Str)}

theorem withFeature_val (name v : Str) (x : Terminal) {key : Str} (h : key ≠ name) :
    ((withFeature name v x).features.getD Features.empty).getVal key = (x.features.getD Features.empty).getVal key := by
  simp only [withFeature, Option.getD_some, Features.getVal, Features.insert]
  rw [Features.lookup_insert, if_neg h]

/-- What is kept by all steps. -/
structure RestStep (P : Terminal → Terminal → Prop) (t t' : Tree) : Prop where
  wf : t'.WF
  words : ∀ n y, t'.graph.node? n = some (.term y) → ∃ x, t.graph.node? n = some (.term x) ∧ P x y
  labels : NoMoreLabels t t'

theorem RestStep.trans {P Q R : Terminal → Terminal → Prop} {a b c : Tree} (h1 : RestStep P a b) (h2 : RestStep Q b c)
    (h : ∀ x y z, P x y → Q y z → R x z) : RestStep R a c where
  wf := h2.wf
  words n z hz := by
    obtain ⟨y, hy, q⟩ := h2.words n z hz
    obtain ⟨x, hx, p⟩ := h1.words n y hy
    exact ⟨x, hx, h x y z p q⟩
  labels n l hl := h1.labels n l (h2.labels n l hl)

theorem RestStep.refl (W : t.WF) : RestStep (fun x y => y = x) t t := ⟨W, fun _ y hy => ⟨y, hy, rfl⟩, fun _ _ h => h⟩

theorem restStep_edit {g : Nat → Terminal → Terminal} {P : Terminal → Terminal → Prop} (E : TermEdit t t' g) (W : t'.WF)
    (h : ∀ n x, P x (g n x)) : RestStep P t t' where
  wf := W
  words n y hy := by
    cases hx : t.graph.node? n with
    | none => rw [E.none n hx] at hy; cases hy
    | some nd =>
      cases nd with
      | term x => rw [E.term n x hx] at hy; cases hy; exact ⟨_, rfl, h n _⟩
      | nt x => rw [E.nt n x hx] at hy; cases hy
  labels := E.noMoreLabels

theorem restStep_removed {R : Nat → Prop} (W : t.WF) (H : Removed t t' R) : RestStep (fun x y => y = x) t t' where
  wf := H.wf
  words n y hy := ⟨y, by rw [← H.node n fun h => H.gone n h ⟨_, hy⟩]; exact hy, rfl⟩
  labels := H.noMoreLabels W

/-- Terminals with the same content at the same position. -/
theorem content_word {n : Nat} {y : Terminal} (hc : t'.content n = t.content n) (hy : t'.graph.node? n = some (.term y)) :
    ∃ x, t.graph.node? n = some (.term x) ∧ { y with span := x.span } = x := by
  unfold Tree.content at hc
  rw [hy] at hc
  cases hx : t.graph.node? n with
  | none => rw [hx] at hc; cases hc
  | some nd =>
    rw [hx] at hc
    cases nd with
    | nt x => simp [Node.replaceSpan] at hc
    | term x =>
      refine ⟨x, rfl, ?_⟩
      simp only [Node.replaceSpan, Option.map_some, Option.some.injEq, Node.term.injEq, Terminal.mk.injEq] at hc
      obtain ⟨_, _, _, _, _⟩ := x
      simp_all

theorem restStep_moves {log : List Move} (W : t.WF) (W' : t'.WF) (M : Moves t log t') : RestStep (fun x y => y = x) t t' where
  wf := W'
  words n y hy := by
    obtain ⟨x, hx, h⟩ := content_word (M.content n) hy
    refine ⟨x, hx, ?_⟩
    obtain ⟨i, _, h1⟩ := W.sentence.pos n ⟨x, hx⟩
    have h2 := (M.termAt n i).2 h1
    obtain ⟨x', e1, e2⟩ := h1
    obtain ⟨y', f1, f2⟩ := h2
    rw [hx] at e1; cases e1
    rw [hy] at f1; cases f1
    rw [e2, ← f2] at h
    exact h
  labels := M.noMoreLabels

theorem restStep_recorded {log : List Move} (W : t.WF) (R : Recorded log t t') : RestStep (fun x y => y = x) t t' where
  wf := R.wf
  words n y hy := ⟨y, by rw [← R.node]; exact hy, rfl⟩
  labels := by
    intro n l hl
    obtain ⟨r, h1, h2, rfl, h3⟩ := inLabel_edge hl
    obtain ⟨new, g1, g2⟩ := R.edges
    rw [g1, List.mem_append] at h1
    rcases h1 with h1 | h1
    · have : (r.src, r.tgt, r.w) ∈ new.reverse.map (fun r => (r.src, r.tgt, r.w)) :=
        List.mem_map.2 ⟨r, List.mem_reverse.2 h1, rfl⟩
      rw [g2, List.mem_map] at this
      obtain ⟨m, _, hm⟩ := this
      simp only [Prod.mk.injEq] at hm
      rw [← hm.2.2] at h2; cases h2
    · rw [edge_inLabel W.shape h1 h2, h3]

theorem restStep_gathered {a : Nat} {M : Nat → Prop} (G : Gathered t a M t') : RestStep (fun x y => y = x) t t' where
  wf := G.wf
  words n y hy := by
    obtain ⟨x, hx, _⟩ := content_word (G.content n ⟨_, hy⟩) hy
    have := G.term n x hx
    rw [hy] at this; cases this
    exact ⟨_, hx, rfl⟩
  labels := G.noMoreLabels

theorem restStep_inserted {K : Nat → Nat → Prop} {lab : Nat → Str} (I : Inserted t K lab t') : RestStep (fun x y => y = x) t t' where
  wf := I.wf
  words n y hy := by
    by_cases hn : t.Live n
    · exact ⟨y, by rw [← I.old n hn]; exact hy, rfl⟩
    · obtain ⟨p, c, _, _, _, ⟨s, hs⟩, _⟩ := I.new n ⟨_, hy⟩ hn
      rw [hy] at hs; cases hs
  labels := I.noMoreLabels

/-- What the features can become. -/
def Extended (b : Bool) (name : Str) (x y : Terminal) : Prop :=
  y.form = x.form ∧ y.lem = x.lem ∧ y.span = x.span ∧ y.pos = x.pos ∧ (b = false → y.features = x.features) ∧
    ∀ key, (b = true → key ≠ name) → (y.features.getD Features.empty).getVal key = (x.features.getD Features.empty).getVal key

theorem extended_with (name v : Str) (x : Terminal) : Extended true name x (withFeature name v x) :=
  ⟨rfl, rfl, rfl, rfl, by simp, fun key h => withFeature_val name v x (h rfl)⟩

theorem extended_refl (b : Bool) (name : Str) (x : Terminal) : Extended b name x x :=
  ⟨rfl, rfl, rfl, rfl, fun _ => rfl, fun _ _ => rfl⟩

theorem RestStep.mono {P Q : Terminal → Terminal → Prop} (h : RestStep P t t') (hPQ : ∀ x y, P x y → Q x y) : RestStep Q t t' :=
  ⟨h.wf, fun n y hy => let ⟨x, hx, p⟩ := h.words n y hy; ⟨x, hx, hPQ x y p⟩, h.labels⟩

theorem pipeline_rest (W : t.WF) (h : Pipeline o tags t t') : RestKept o tags t t' := by
  obtain ⟨t1, t2, t3, t4, t5, t6, t7, b1, b2, b3, b4, b5, b6, b7, b8⟩ := h
  have c1 : RestStep (fun x y => y = x) t t1 ∧ NoMoreSecondary t t1 ∧ (NoGaps t → NoGaps t1) := by
    cases h : o.removeDummies with
    | false => rw [b1.2 h]; exact ⟨.refl W, fun e h _ => h, id⟩
    | true =>
      obtain ⟨R, h1, h2, _⟩ := b1.1 h
      exact ⟨restStep_removed W h1, Removed.noMore h1, fun hg => (noGaps_iff h1.wf).1 (h1.projective W ((noGaps_iff W).2 hg))⟩
  have c2 : RestStep (fun x y => y = x) t1 t2 ∧
      ((o.projectivize = true → o.secEdges = true → NoGaps t1) → NoMoreSecondary t1 t2) := by
    cases h : o.projectivize with
    | false => rw [b2.2 h]; exact ⟨.refl c1.1.wf, fun _ e h _ => h⟩
    | true =>
      rcases b2.1 h with ⟨_, rfl⟩ | ⟨⟨m, hm, hg⟩, log, u, _, M, W', _, h1, h2⟩
      · exact ⟨.refl c1.1.wf, fun _ e h _ => h⟩
      · have hu := restStep_moves c1.1.wf W' M
        cases hs : o.secEdges with
        | false => rw [h2 hs]; exact ⟨hu, fun _ => M.noMore⟩
        | true =>
          refine ⟨hu.trans (restStep_recorded W' (h1 hs)) (by rintro x y z rfl rfl; rfl), fun h => ?_⟩
          exact absurd (h rfl rfl m hm) hg
  have c3 : RestStep (fun x y => y = { x with pos := match (motive := Option (List Str) → Str) tags with
      | some l => l[x.span.start]?.getD []
      | none => x.pos }) t2 t3 ∧ NoMoreSecondary t2 t3 := by
    cases tags with
    | none => rw [show t3 = t2 from b3]; exact ⟨.refl c2.1.wf, fun e h _ => h⟩
    | some l => exact ⟨restStep_edit b3 (TermEdit.wf b3 (fun _ _ => rfl) c2.1.wf) (fun n x => rfl), TermEdit.noMore b3⟩
  have c4 : RestStep (fun x y => y = x) t3 t4 ∧ NoMoreSecondary t3 t4 := by
    cases h : o.reattachLabel with
    | none => rw [h] at b4; rw [show t4 = t3 from b4]; exact ⟨.refl c3.1.wf, fun e h _ => h⟩
    | some p => rw [h] at b4; exact ⟨restStep_gathered b4, fun e he hw => ((b4.secondary e hw).1 he).1⟩
  have c5 : RestStep (Extended o.idSet.isSome o.idFeatureName) t4 t5 ∧ NoMoreSecondary t4 t5 := by
    cases h : o.idSet with
    | none =>
      rw [h] at b5; rw [show t5 = t4 from b5]
      exact ⟨(RestStep.refl c4.1.wf).mono fun x y e => e ▸ extended_refl _ _ _, fun e h _ => h⟩
    | some p =>
      rw [h] at b5
      obtain ⟨num, E, _⟩ := b5
      exact ⟨restStep_edit E (E.wf (fun _ _ => rfl) c4.1.wf) fun n x => extended_with _ _ _, TermEdit.noMore E⟩
  have c6 : RestStep (fun x y => y = x) t5 t6 ∧ NoMoreSecondary t5 t6 := by
    cases h : o.filterSet with
    | none => rw [h] at b6; rw [show t6 = t5 from b6]; exact ⟨.refl c5.1.wf, fun e h _ => h⟩
    | some p => rw [h] at b6; exact ⟨restStep_removed c5.1.wf b6.2, Removed.noMore b6.2⟩
  have c7 : RestStep (fun x y => y = x) t6 t7 ∧ NoMoreSecondary t6 t7 := by
    cases h : o.insertionSet with
    | none => rw [h] at b7; rw [show t7 = t6 from b7]; exact ⟨.refl c6.1.wf, fun e h _ => h⟩
    | some p => rw [h] at b7; exact ⟨restStep_inserted b7, b7.secondary⟩
  have c8 : RestStep (Extended o.parentFeature.isSome (o.parentFeature.getD [])) t7 t' ∧ NoMoreSecondary t7 t' := by
    cases h : o.parentFeature with
    | none =>
      rw [h] at b8; rw [show t' = t7 from b8]
      exact ⟨(RestStep.refl c7.1.wf).mono fun x y e => e ▸ extended_refl _ _ _, fun e h _ => h⟩
    | some p =>
      rw [h] at b8
      obtain ⟨val, E, _⟩ := b8
      exact ⟨restStep_edit E (E.wf (fun _ _ => rfl) c7.1.wf) fun n x => extended_with _ _ _, TermEdit.noMore E⟩
  refine ⟨fun n y hy => ?_, fun n l hl => ?_, fun hg e he hw => ?_⟩
  · obtain ⟨x7, a7, e8⟩ := c8.1.words n y hy
    obtain ⟨x6, a6, e7⟩ := c7.1.words n x7 a7
    obtain ⟨x5, a5, e6⟩ := c6.1.words n x6 a6
    obtain ⟨x4, a4, e5⟩ := c5.1.words n x5 a5
    obtain ⟨x3, a3, e4⟩ := c4.1.words n x4 a4
    obtain ⟨x2, a2, e3⟩ := c3.1.words n x3 a3
    obtain ⟨x1, a1, e2⟩ := c2.1.words n x2 a2
    obtain ⟨x0, a0, e1⟩ := c1.1.words n x1 a1
    subst e7 e6 e4 e3 e2 e1
    obtain ⟨d1, d2, d3, d4, d5, d6⟩ := e5
    obtain ⟨f1, f2, f3, f4, f5, f6⟩ := e8
    refine ⟨_, a0, f1.trans d1, f2.trans d2, f3.trans d3, f4.trans d4, fun h1 h2 => ?_, fun key h1 h2 => ?_⟩
    · rw [f5 (by simp [h2]), d5 (by simp [h1])]
    · rw [f6 key ?_, d6 key ?_]
      · intro hi
        exact h1 (by rintro h; rw [h] at hi; cases hi)
      · intro hi hk
        cases hp : o.parentFeature with
        | none => rw [hp] at hi; cases hi
        | some p => rw [hp] at hk h2; exact h2 (by rw [hk]; rfl)
  · exact c1.1.labels _ _ (c2.1.labels _ _ (c3.1.labels _ _ (c4.1.labels _ _ (c5.1.labels _ _ (c6.1.labels _ _ (c7.1.labels _ _
      (c8.1.labels _ _ hl)))))))
  · exact c1.2.1 e (c2.2 (fun h1 h2 => c1.2.2 (hg h1 h2)) e (c3.2 e (c4.2 e (c5.2 e (c6.2 e (c7.2 e (c8.2 e he hw) hw) hw) hw) hw) hw) hw) hw

end Convert
end Lumberjack
