import Verif.Proofs.Filled
import Verif.Spec.ConvertRun
import Verif.Props.Filter
import Verif.Props.Projectivize
import Verif.Props.Reattach
import Verif.Props.Runs
import Verif.Props.Annotate

/-!
# The steps of the conversion tool

For each contract: it keeps the invariants of the pipeline.
-/

namespace Lumberjack
namespace Tree

variable {t t' t'' : Tree}

/-! ## The sentence -/

theorem SameWords.refl (t : Tree) : SameWords t t := ⟨rfl, fun _ h => h, fun _ x h => ⟨x, h, rfl, rfl, rfl⟩⟩

theorem SameWords.trans (h : SameWords t t') (h' : SameWords t' t'') : SameWords t t'' := by
  refine ⟨h'.len.trans h.len, fun n hn => h.terms n (h'.terms n hn), fun n x hx => ?_⟩
  obtain ⟨y, hy, a, b, c⟩ := h.kept n x hx
  obtain ⟨z, hz, a', b', c'⟩ := h'.kept n y hy
  exact ⟨z, hz, a'.trans a, b'.trans b, c'.trans c⟩

theorem SameWords.termAt (h : SameWords t t') (n i : Nat) : t'.TermAt n i ↔ t.TermAt n i := by
  constructor
  · rintro ⟨y, hy, hi⟩
    obtain ⟨x, hx⟩ := h.terms n ⟨y, hy⟩
    obtain ⟨z, hz, _, _, c⟩ := h.kept n x hx
    rw [hy] at hz
    cases hz
    exact ⟨x, hx, c.symm.trans hi⟩
  · rintro ⟨x, hx, hi⟩
    obtain ⟨z, hz, _, _, c⟩ := h.kept n x hx
    exact ⟨z, hz, c.trans hi⟩

theorem SameWords.inOrder (h : SameWords t t') (ho : t.InOrder) : t'.InOrder := by
  intro n m i j hi hj
  exact ho n m i j ((h.termAt n i).1 hi) ((h.termAt m j).1 hj)

/-- The words of the sentence, read off the list of terminals. -/
theorem SameWords.terminals (W : t.WF) (h : SameWords t t') {ts ts' : List Terminal} (hts : t.Terminals ts)
    (hts' : t'.Terminals ts') : ts'.map (·.form) = ts.map (·.form) ∧ ts'.map (·.lem) = ts.map (·.lem) := by
  have key : ∀ i (hi : i < t.nTerminals), ∃ x y, ts[i]? = some x ∧ ts'[i]? = some y ∧ y.form = x.form ∧ y.lem = x.lem := by
    intro i hi
    obtain ⟨n, hn⟩ := W.sentence.occupied i hi
    obtain ⟨x, hx, hxi⟩ := hn
    obtain ⟨y, hy, a, b, c⟩ := h.kept n x hx
    exact ⟨x, y, hts.2 n x i hx ⟨x, hx, hxi⟩, hts'.2 n y i hy ⟨y, hy, c.trans hxi⟩, a, b⟩
  have hl : ts'.length = ts.length := by rw [hts'.1, hts.1, h.len]
  constructor
  · refine List.ext_getElem (by simp [hl]) fun i h1 h2 => ?_
    simp only [List.length_map] at h1 h2
    obtain ⟨x, y, a, b, c, _⟩ := key i (by rw [← hts.1]; exact h2)
    rw [List.getElem?_eq_getElem h2] at a
    rw [List.getElem?_eq_getElem h1] at b
    simp only [Option.some.injEq] at a b
    simp [a, b, c]
  · refine List.ext_getElem (by simp [hl]) fun i h1 h2 => ?_
    simp only [List.length_map] at h1 h2
    obtain ⟨x, y, a, b, _, c⟩ := key i (by rw [← hts.1]; exact h2)
    rw [List.getElem?_eq_getElem h2] at a
    rw [List.getElem?_eq_getElem h1] at b
    simp only [Option.some.injEq] at a b
    simp [a, b, c]

/-! ## Removal -/

section removed
variable {R : Nat → Prop}

theorem Removed.stays (H : Removed t t' R) {n : Nat} (h : t'.Live n) : ¬ R n := fun hR => H.gone n hR h

theorem Removed.sameWords (H : Removed t t' R) (hR : ∀ n, R n → t.IsNt n) : SameWords t t' := by
  have hterm : ∀ n x, t.graph.node? n = some (.term x) → ¬ R n := by
    intro n x hx h
    obtain ⟨y, hy⟩ := hR n h
    rw [hx] at hy; cases hy
  refine ⟨H.nTerm, ?_, ?_⟩
  · rintro n ⟨x, hx⟩
    exact ⟨x, by rw [← H.node n (H.stays ⟨_, hx⟩)]; exact hx⟩
  · intro n x hx
    exact ⟨x, by rw [H.node n (hterm n x hx)]; exact hx, rfl, rfl, rfl⟩

theorem Removed.secondaryNt (H : Removed t t' R) (h : t.SecondaryNt) : t'.SecondaryNt := by
  intro r hr hw
  have hl := (H.wf.graph.ends r hr).1
  have hs := H.node r.src (H.stays hl)
  rcases H.added r hr with h1 | ⟨_, h1⟩
  · obtain ⟨x, hx⟩ := h r h1 hw
    exact ⟨x, by rw [hs]; exact hx⟩
  · rw [h1] at hw; simp [Edge.isPrimary] at hw

theorem Removed.projective (W : t.WF) (H : Removed t t' R) (h : t.isProjective = true) : t'.isProjective = true := by
  rw [isProjective_iff W.count] at h
  rw [isProjective_iff H.wf.count]
  rintro n ⟨x, hx, hs⟩
  exact h n ⟨x, by rw [← H.node n (H.stays ⟨_, hx⟩)]; exact hx, hs⟩

end removed

/-! ## Changes of terminals -/

section termEdit
variable {g g' : Nat → Terminal → Terminal}

theorem TermEdit.congr (E : TermEdit t t' g) (h : ∀ n x, t.graph.node? n = some (.term x) → g n x = g' n x) :
    TermEdit t t' g' :=
  ⟨E.graph, E.root, E.nTerm, E.disc, E.len, E.none, E.nt, fun n x hx => by rw [← h n x hx]; exact E.term n x hx⟩

theorem TermEdit.sameWords (E : TermEdit t t' g)
    (hg : ∀ n x, (g n x).form = x.form ∧ (g n x).lem = x.lem ∧ (g n x).span = x.span) : SameWords t t' := by
  refine ⟨E.nTerm, ?_, fun n x hx => ⟨_, E.term n x hx, hg n x⟩⟩
  rintro n ⟨y, hy⟩
  cases hn : t.graph.node? n with
  | none => rw [E.none n hn] at hy; cases hy
  | some nd =>
    cases nd with
    | nt x => rw [E.nt n x hn] at hy; cases hy
    | term x => exact ⟨x, hn⟩

theorem TermEdit.edges (E : TermEdit t t' g) : t'.graph.edges = t.graph.edges := by rw [E.graph]

theorem TermEdit.secondaryNt (E : TermEdit t t' g) (h : t.SecondaryNt) : t'.SecondaryNt := by
  intro r hr hw
  rw [E.edges] at hr
  obtain ⟨x, hx⟩ := h r hr hw
  exact ⟨x, E.nt _ x hx⟩

theorem TermEdit.projective (E : TermEdit t t' g) : t'.isProjective = t.isProjective := by
  unfold isProjective; rw [E.disc]

end termEdit

/-! ## Projectivization -/

theorem isNt_content {n : Nat} (h : t'.content n = t.content n) : t'.IsNt n ↔ t.IsNt n := by
  unfold content at h
  unfold IsNt
  cases h1 : t'.graph.node? n with
  | none =>
    cases h2 : t.graph.node? n with
    | none => simp
    | some b => rw [h1, h2] at h; simp at h
  | some a =>
    cases h2 : t.graph.node? n with
    | none => rw [h1, h2] at h; simp at h
    | some b =>
      rw [h1, h2] at h
      cases a <;> cases b <;> simp [Node.replaceSpan] at h ⊢

theorem live_content {n : Nat} (h : t'.content n = t.content n) : t'.Live n ↔ t.Live n := by
  rw [live_iff, live_iff, isNt_content h, isTerm_content h]

theorem Moves.sameWords {log : List Move} (W : t.WF) (M : Moves t log t') : SameWords t t' := by
  refine ⟨M.root.2, fun n h => (isTerm_content (M.content n)).1 h, fun n x hx => ?_⟩
  obtain ⟨i, _, hi⟩ := W.sentence.pos n ⟨x, hx⟩
  obtain ⟨y, hy, hyi⟩ := (M.termAt n i).2 hi
  obtain ⟨x', hx', hxi⟩ := hi
  rw [hx] at hx'; cases hx'
  have hc := M.content n
  unfold Tree.content at hc
  rw [hx, hy] at hc
  simp only [Option.map_some, Node.replaceSpan, Option.some.injEq, Node.term.injEq] at hc
  refine ⟨y, hy, ?_, ?_, hyi.trans hxi.symm⟩
  · cases x; cases y; simp_all
  · cases x; cases y; simp_all

theorem Moves.secondaryNt {log : List Move} (M : Moves t log t') (h : t.SecondaryNt) : t'.SecondaryNt := by
  intro r hr hw
  exact (isNt_content (M.content _)).2 (h r ((M.secondary hw).1 hr) hw)

theorem Moves.ends {log : List Move} (M : Moves t log t') : ∀ m ∈ log, t'.IsNt m.1 ∧ t'.Live m.2.2 := by
  induction M with
  | nil => intro m hm; cases hm
  | @snoc t1 t' log m0 M W hm ih =>
    obtain ⟨q, id, id', h1, h2, _, _, _, _, _, _, hc, _⟩ := hm
    intro m hmem
    rcases List.mem_append.1 hmem with hmem | hmem
    · obtain ⟨a, b⟩ := ih m hmem
      exact ⟨(isNt_content (hc _)).2 a, (live_content (hc _)).2 b⟩
    · simp only [List.mem_singleton] at hmem
      subst hmem
      have hch : t1.IsChild m.1 m.2.2 := ⟨_, h1, rfl, rfl, h2⟩
      exact ⟨(isNt_content (hc _)).2 (W.shape.parent_isNt W.graph hch),
        (live_content (hc _)).2 (isChild_live W.graph hch).2⟩

/-! ## Gathering -/

theorem Gathered.sameWords {a : Nat} {M : Nat → Prop} (H : Gathered t a M t') : SameWords t t' :=
  ⟨H.nterm, fun n h => (H.isTerm n).1 h, fun n x hx => ⟨x, H.term n x hx, rfl, rfl, rfl⟩⟩

theorem Gathered.secondaryNt {a : Nat} {M : Nat → Prop} (H : Gathered t a M t') (h : t.SecondaryNt) : t'.SecondaryNt := by
  intro r hr hw
  have := (H.secondary r hw).1 hr
  exact (isNt_content (H.content _ this.2.1)).2 (h r this.1 hw)

/-! ## Insertion -/

section inserted
variable {K : Nat → Nat → Prop} {lab lab' : Nat → Str}

theorem Inserted.relabel (I : Inserted t K lab t') (h : ∀ p c, K p c → lab p = lab' p) : Inserted t K lab' t' :=
  { I with
    new := fun n h1 h2 => by
      obtain ⟨p, c, a, b, d, ⟨s, e⟩, f⟩ := I.new n h1 h2
      exact ⟨p, c, a, b, d, ⟨s, by rw [← h p c a]; exact e⟩, f⟩ }

theorem Inserted.sameWords (I : Inserted t K lab t') : SameWords t t' :=
  ⟨I.nterm, fun _ h => I.term_old h, fun n x hx => ⟨x, by rw [I.old n ⟨_, hx⟩]; exact hx, rfl, rfl, rfl⟩⟩

theorem Inserted.secondaryNt (I : Inserted t K lab t') (h : t.SecondaryNt) : t'.SecondaryNt := by
  intro r hr hw
  obtain ⟨x, hx⟩ := h r (I.secondary r hr hw) hw
  exact ⟨x, by rw [I.old _ ⟨_, hx⟩]; exact hx⟩

theorem Inserted.projective (W : t.WF) (I : Inserted t K lab t') (h : t.isProjective = true) : t'.isProjective = true := by
  have W' := I.wf
  rw [isProjective_iff W.count] at h
  rw [isProjective_iff W'.count]
  intro n hD
  obtain ⟨x, hx, hs⟩ := hD
  by_cases hl : t.Live n
  · exact h n ⟨x, by rw [← I.old n hl]; exact hx, hs⟩
  · refine ((disc_iff W').1 ⟨x, hx, hs⟩).2 ?_
    obtain ⟨p, c, _, _, _, _, hk⟩ := I.new n ⟨_, hx⟩ hl
    have cov : ∀ i, t'.Covers n i ↔ ∃ d, t'.IsChild n d ∧ t.TermAt d i := by
      intro i
      constructor
      · rintro ⟨m, hd, hm⟩
        rcases Relation.ReflTransGen.cases_head hd with rfl | ⟨d, hd1, hd2⟩
        · obtain ⟨y, hy, _⟩ := hm
          rw [hx] at hy; cases hy
        · obtain ⟨i', j', _, hj, _⟩ := (hk d).1 hd1
          have := W'.shape.dom_term (I.termAt hj).isTerm hd2
          subst this
          exact ⟨_, hd1, (I.sameWords.termAt _ i).1 hm⟩
      · rintro ⟨d, h1, h2⟩
        exact ⟨d, .single h1, I.termAt h2⟩
    intro i j k hi hj hik hkj
    obtain ⟨d, d1, d2⟩ := (cov i).1 hi
    obtain ⟨e, e1, e2⟩ := (cov j).1 hj
    obtain ⟨a, b, ha, hb, hab⟩ := (hk d).1 d1
    obtain ⟨a', b', ha', hb', hab'⟩ := (hk e).1 e1
    have := ha.pos_unique ha'
    subst this
    have := hb.pos_unique d2
    subst this
    have := hb'.pos_unique e2
    subst this
    have hin : ∀ m, b ≤ m → m ≤ b' → ∃ f, K p f ∧ t.TermAt f m := by
      intro m h1 h2
      by_cases hm : m ≤ a
      · exact hab m (.inr ⟨h1, hm⟩)
      · exact hab' m (.inl ⟨by omega, h2⟩)
    obtain ⟨f, hf1, hf2⟩ := hin k hik hkj
    refine (cov k).2 ⟨f, (hk f).2 ⟨a, k, ha, hf2, ?_⟩, hf2⟩
    rintro m (⟨h1, h2⟩ | ⟨h1, h2⟩)
    · by_cases hm : b ≤ m
      · exact hin m hm (by omega)
      · exact hab m (.inl ⟨h1, by omega⟩)
    · by_cases hm : m ≤ b'
      · exact hin m (by omega) hm
      · exact hab' m (.inr ⟨by omega, h2⟩)

end inserted

end Tree

namespace Convert

open Lumberjack.Tree

variable {t t' : Tree}

theorem rootNt_of_two (W : t.WF) (h2 : 2 ≤ t.nTerminals) : t.IsNt t.root := by
  rcases live_iff.1 W.shape.root_live with h | h
  · exfalso
    obtain ⟨m, hm, hne⟩ := two_terms W.sentence (T := t.root) h2
    exact hne (W.shape.dom_term h (W.shape.reach m hm.live))
  · exact h

theorem Fit.next (F : Fit t) (W' : t'.WF) (hr : t'.IsNt t'.root) (h : SameWords t t') (hs : t'.SecondaryNt) : Fit t' :=
  ⟨W', hr, h.inOrder F.order, hs⟩

/-- A step keeps the invariants, the sentence, and projectivity if `p`. -/
structure Good (p : Bool) (t t' : Tree) : Prop where
  fit : Fit t'
  words : SameWords t t'
  proj : p = true → t.isProjective = true → t'.isProjective = true

theorem Good.refl (F : Fit t) : Good true t t := ⟨F, .refl t, fun _ h => h⟩

theorem Good.trans {p q : Bool} {t'' : Tree} (h : Good p t t') (h' : Good q t' t'') : Good (p && q) t t'' :=
  ⟨h'.fit, h.words.trans h'.words, fun hp h0 => by
    rw [Bool.and_eq_true] at hp
    exact h'.proj hp.2 (h.proj hp.1 h0)⟩

theorem Good.weaken {p : Bool} (h : Good true t t') : Good p t t' := ⟨h.fit, h.words, fun _ => h.proj rfl⟩

theorem dummies_good (F : Fit t) (h2 : 2 ≤ t.nTerminals) (h : DummiesRemoved t t') : Good true t t' := by
  obtain ⟨R, H, hR, _⟩ := h
  have hw := H.sameWords fun n hn => by obtain ⟨x, hx, _⟩ := hR n hn; exact ⟨x, hx⟩
  exact ⟨F.next H.wf (rootNt_of_two H.wf (by rw [hw.len]; exact h2)) hw (H.secondaryNt F.sec), hw, fun _ => H.projective F.wf⟩

theorem filtered_good {s : LabelSet} (F : Fit t) (h : Filtered s t t') : Good true t t' := by
  obtain ⟨hr, H⟩ := h
  have hw := H.sameWords fun n hn => by obtain ⟨_, x, hx, _⟩ := hn; exact ⟨x, hx⟩
  have hroot : t'.IsNt t'.root := by
    obtain ⟨x, hx⟩ := F.rootNt
    rw [hr]
    exact ⟨x, by rw [H.node t.root (fun h => h.1 rfl)]; exact hx⟩
  exact ⟨F.next H.wf hroot hw (H.secondaryNt F.sec), hw, fun _ => H.projective F.wf⟩

theorem edit_good {g : Nat → Terminal → Terminal} (F : Fit t) (E : TermEdit t t' g)
    (hg : ∀ n x, (g n x).form = x.form ∧ (g n x).lem = x.lem ∧ (g n x).span = x.span) : Good true t t' := by
  have hw := E.sameWords hg
  have hroot : t'.IsNt t'.root := by
    obtain ⟨x, hx⟩ := F.rootNt
    rw [E.root]
    exact ⟨x, E.nt _ x hx⟩
  exact ⟨F.next (E.wf (fun n x => (hg n x).2.2) F.wf) hroot hw (E.secondaryNt F.sec), hw,
    fun _ h => E.projective.trans h⟩

theorem gathered_good {a : Nat} {M : Nat → Prop} (F : Fit t) (H : Gathered t a M t') : Good false t t' :=
  ⟨F.next H.wf (by rw [H.root]; exact (isNt_content (H.content _ (H.root ▸ H.wf.shape.root_live))).2 F.rootNt)
    H.sameWords (H.secondaryNt F.sec), H.sameWords, fun h => by cases h⟩

theorem inserted_good {K : Nat → Nat → Prop} {lab : Nat → Str} (F : Fit t) (I : Inserted t K lab t') : Good true t t' :=
  ⟨F.next I.wf (by
      obtain ⟨x, hx⟩ := F.rootNt
      rw [I.root]
      exact ⟨x, by rw [I.old _ ⟨_, hx⟩]; exact hx⟩)
    I.sameWords (I.secondaryNt F.sec), I.sameWords, fun _ => I.projective F.wf⟩

/-! ## The steps -/

theorem stepIf_false {f : Tree → Res (Except Err Tree)} : stepIf false f (.ok t) = .ok (.ok t) := rfl

theorem stepIf_true {f : Tree → Res (Except Err Tree)} : stepIf true f (.ok t) = f t := rfl

theorem npLabel_eq (e : Edge) : npLabel e = moveLabel e.label := by
  unfold npLabel moveLabel
  cases e.label <;> rfl

theorem stepDummies_spec (o : Options) (F : Fit t) (h2 : 2 ≤ t.nTerminals ∨ o.removeDummies = false) :
    ∃ t', stepDummies o (.ok t) = .ok (.ok t') ∧ Switch o.removeDummies DummiesRemoved t t' ∧ Good true t t' := by
  unfold stepDummies
  cases h : o.removeDummies with
  | false => exact ⟨t, rfl, ⟨by simp, fun _ => rfl⟩, .refl F⟩
  | true =>
    obtain ⟨t', R, h1, k2, h3, h4⟩ := Props.C40_remove_dummy_nodes t F.wf
    have hD : DummiesRemoved t t' := ⟨R, k2, h3, h4⟩
    refine ⟨t', ?_, ⟨fun _ => hD, by simp⟩, dummies_good F (by rcases h2 with h2 | h2; exacts [h2, by rw [h] at h2; cases h2]) hD⟩
    rw [stepIf_true, h1]; rfl

/-- Recording the moves. -/
theorem addMoves_spec : ∀ (log : List Move) {t : Tree}, t.WF → (∀ m ∈ log, t.IsNt m.1 ∧ t.Live m.2.2) →
    ∃ t', addMoves log t = .ok t' ∧ t'.WF ∧ Recorded log t t' ∧ t'.isProjective = t.isProjective := by
  intro log
  induction log with
  | nil => intro t W _; exact ⟨t, rfl, W, ⟨W, fun _ => rfl, rfl, rfl, [], rfl, rfl⟩, rfl⟩
  | cons m log ih =>
    intro t W h
    obtain ⟨p, e, c⟩ := m
    obtain ⟨hp, hc⟩ := h (p, e, c) (by simp)
    simp only at hp hc
    obtain ⟨g', i, h1, h2, h3, h4, h5, h6⟩ := Graph.addEdge_spec W.graph hp.live hc (.secondary (some (npLabel e)))
    have he : ({ t with graph := g' } : Tree).primEdges = t.primEdges := by
      unfold primEdges; simp only [h2]; rfl
    have hn : ∀ n, ({ t with graph := g' } : Tree).graph.node? n = t.graph.node? n := by
      intro n; unfold Graph.node?; simp only [h3]
    have W1 : ({ t with graph := g' } : Tree).WF := W.congr h6 he rfl rfl rfl hn
    obtain ⟨t', k1, k2, k3, k4⟩ := ih W1 (fun m hm => by
      obtain ⟨⟨x, hx⟩, ⟨nd, hnd⟩⟩ := h m (by simp [hm])
      exact ⟨⟨x, by rw [hn]; exact hx⟩, ⟨nd, by have := hn m.2.2; rw [hnd] at this; exact this⟩⟩)
    refine ⟨t', ?_, k2, ⟨k2, fun n => (k3.node n).trans (hn n), k3.root, k3.nterm, ?_⟩, k4⟩
    · unfold addMoves addSecondaryEdge
      rw [h1]
      exact k1
    · obtain ⟨new, e1, e2⟩ := k3.edges
      refine ⟨new ++ [⟨i, p, c, .secondary (some (npLabel e))⟩], ?_, ?_⟩
      · rw [e1]; simp only [h2]; simp
      · simp [e2, npLabel_eq]

theorem recorded_good {log : List Move} (F : Fit t) (W' : t'.WF) (R : Recorded log t t')
    (hp : t'.isProjective = t.isProjective) (hl : ∀ m ∈ log, t.IsNt m.1) : Good true t t' := by
  have hw : SameWords t t' := ⟨R.nterm, fun n ⟨x, hx⟩ => ⟨x, by rw [← R.node]; exact hx⟩,
    fun n x hx => ⟨x, by rw [R.node]; exact hx, rfl, rfl, rfl⟩⟩
  have hroot : t'.IsNt t'.root := by
    obtain ⟨x, hx⟩ := F.rootNt
    rw [R.root]
    exact ⟨x, by rw [R.node]; exact hx⟩
  refine ⟨F.next W' hroot hw ?_, hw, fun _ h => hp.trans h⟩
  intro r hr hwp
  have : t.IsNt r.src := by
    obtain ⟨new, e1, e2⟩ := R.edges
    rw [e1, List.mem_append] at hr
    rcases hr with hr | hr
    · have : (r.src, r.tgt, r.w) ∈ new.reverse.map (fun r => (r.src, r.tgt, r.w)) :=
        List.mem_map.2 ⟨r, by simpa using hr, rfl⟩
      rw [e2, List.mem_map] at this
      obtain ⟨m, hm, e⟩ := this
      have := hl m hm
      rw [Prod.mk.injEq] at e
      rw [← e.1]; exact this
    · exact F.sec r hr hwp
  obtain ⟨x, hx⟩ := this
  exact ⟨x, by rw [R.node]; exact hx⟩

theorem stepProjectivize_spec {pick : Tree → Finset Nat → Option Nat} (hpick : IsOrder pick) (o : Options) (F : Fit t) :
    ∃ t', stepProjectivize pick o (.ok t) = .ok (.ok t') ∧ Switch o.projectivize (Projectivized o.secEdges) t t' ∧
      Good true t t' ∧ (o.projectivize = true → t'.isProjective = true) := by
  unfold stepProjectivize
  cases h : o.projectivize with
  | false => exact ⟨t, rfl, ⟨by simp, fun _ => rfl⟩, .refl F, by simp⟩
  | true =>
    rw [stepIf_true]
    by_cases hg : ∀ n, t.Live n → t.Gapless n
    · refine ⟨t, ?_, ⟨fun _ => .inl ⟨hg, rfl⟩, by simp⟩, .refl F, fun _ => ?_⟩
      · rw [Props.C22_projective_unchanged t F.wf pick hg]; rfl
      · rw [isProjective_iff F.wf.count]
        intro n hD
        obtain ⟨a, b⟩ := (disc_iff F.wf).1 hD
        exact b (hg n a.live)
    · push Not at hg
      obtain ⟨t1, log, h1, W1, hp1, hg1⟩ := Props.C22_projectivize t F.wf pick hpick hg
      have M := Props.C23_moves t F.wf pick hpick h1
      have hw := M.sameWords F.wf
      have F1 : Fit t1 := F.next W1 (by rw [M.root.1]; exact (isNt_content (M.content _)).2 F.rootNt) hw (M.secondaryNt F.sec)
      have hfill := projectivize_filled hpick F.wf h1
      rw [h1, Res.ok_bind]
      cases hs : o.secEdges with
      | false =>
        refine ⟨t1, rfl, ⟨fun _ => .inr ⟨hg, log, t1, hfill, M, W1, hg1, by simp, fun _ => rfl⟩, by simp⟩,
          ⟨F1, hw, fun _ _ => hp1⟩, fun _ => hp1⟩
      | true =>
        obtain ⟨t2, k1, k2, k3, k4⟩ := addMoves_spec log W1 M.ends
        have G := recorded_good F1 k2 k3 k4 fun m hm => (M.ends m hm).1
        refine ⟨t2, ?_, ⟨fun _ => .inr ⟨hg, log, t1, hfill, M, W1, hg1, fun _ => k3, by simp⟩, by simp⟩,
          ⟨G.fit, hw.trans G.words, fun _ _ => k4.trans hp1⟩, fun _ => k4.trans hp1⟩
        simp only [if_true, k1, Res.ok_bind]
        rfl

theorem stepPos_spec (tags : Option (List Str)) (F : Fit t) (hl : ∀ l, tags = some l → l.length = t.nTerminals) :
    ∃ t', stepPos (tags.map .ok) (.ok t) = .ok (.ok t') ∧ Opt tags PosTagged t t' ∧ Good true t t' := by
  unfold stepPos
  cases tags with
  | none => exact ⟨t, rfl, rfl, .refl F⟩
  | some l =>
    have hlen := hl l rfl
    obtain ⟨t', r, h1, h2, _, _, pos, E, _⟩ := Props.C29_annotate_pos t F.wf l
    have hr := h2.2 hlen
    subst hr
    obtain ⟨t'', k1, _, k2⟩ := Props.C29_by_position t F.wf l hlen F.order
    rw [h1] at k1
    cases k1
    have E' : TermEdit t t' fun _ x => { x with pos := l[x.span.start]?.getD [] } := by
      refine E.congr fun n x hx => ?_
      obtain ⟨i, _, hi⟩ := F.wf.sentence.pos n ⟨x, hx⟩
      obtain ⟨p, hp1, hp2⟩ := k2 n i x hi hx
      rw [E.term n x hx] at hp2
      obtain ⟨x', hx', hxi⟩ := hi
      rw [hx] at hx'; cases hx'
      simp only [Option.some.injEq, Node.term.injEq] at hp2
      rw [hp2, hxi]
      simp [Span.ofIdx, hp1]
    refine ⟨t', ?_, E', edit_good F E' fun n x => ⟨rfl, rfl, rfl⟩⟩
    show (t.annotatePos l >>= fun r => _) = _
    rw [h1]; rfl

theorem stepReattach_spec (o : Options) (F : Fit t) (h2 : 2 ≤ t.nTerminals ∨ o.reattachLabel = none) :
    ∃ t', stepReattach o (.ok t) = .ok (.ok t') ∧ Opt o.reattachLabel PrefixGathered t t' ∧
      Good o.reattachLabel.isNone t t' := by
  unfold stepReattach
  cases h : o.reattachLabel with
  | none => exact ⟨t, rfl, rfl, .refl F⟩
  | some p =>
    have h2 : 2 ≤ t.nTerminals := by
      rcases h2 with h2 | h2
      · exact h2
      · rw [h] at h2; cases h2
    obtain ⟨t', h1, hG⟩ := Props.C25_to_root t F.wf h2
      (fun t n => (t.graph.node? n).any fun nd => Negra.startsWith p nd.label) (by
        intro t1 t2 n x h1 h2; simp only [h1, h2])
    have H : PrefixGathered p t t' := by
      refine hG.congr fun n => ?_
      constructor
      · rintro ⟨x, hx, hp⟩
        refine ⟨⟨x, hx⟩, ?_⟩
        simp only [hx, Option.any, Node.label, Negra.startsWith]
        exact List.isPrefixOf_iff_prefix.2 hp
      · rintro ⟨⟨x, hx⟩, hp⟩
        refine ⟨x, hx, ?_⟩
        simp only [hx, Option.any, Node.label, Negra.startsWith] at hp
        exact List.isPrefixOf_iff_prefix.1 hp
    refine ⟨t', ?_, H, gathered_good F hG⟩
    show (t.reattachTerminals t.root _ >>= fun r => _) = _
    rw [Option.getD_some, h1]; rfl

theorem matches_iff (s : LabelSet) (q : Str) : s.matches q = true ↔ Matches s q := by
  cases s <;> simp [LabelSet.matches, Matches]

theorem matches_false (s : LabelSet) (q : Str) : s.matches q = false ↔ ¬ Matches s q := by
  rw [← matches_iff]; simp

theorem idNode_ignores (s : LabelSet) : IgnoresTermFeatures (idNode s) := by
  rintro t t' ⟨fs, E⟩ n
  unfold idNode
  rw [E.root]
  congr 1
  cases hn : t.graph.node? n with
  | none => rw [E.none n hn]
  | some nd =>
    cases nd with
    | nt x => rw [E.nt n x hn]
    | term x => rw [E.term n x hn]; rfl

/-- A finite chain has a lowest element satisfying a predicate. -/
theorem exists_closest (W : t.WF) {f : Tree → Nat → Bool} {n : Nat} (hn : t.Live n) (hr : n ≠ t.root) (hf : f t t.root = true) :
    ∃ a, t.Closest f n a := by
  have key : ∀ (l : List Nat) (c : Nat), t.Anc c l → t.Live c → c ≠ t.root → ∃ a, t.Closest f c a := by
    intro l
    induction l with
    | nil => intro c hc hl hcr; exact absurd (W.shape.root_of_no_parent hl hc) hcr
    | cons p l ih =>
      intro c hc hl hcr
      have hp : t.IsChild p c := hc.1
      have hpc : p ≠ c := by rintro rfl; exact W.shape.not_isChild_self W.graph p hp
      have up : ∀ b, b ≠ c → t.Dom b c → t.Dom b p := by
        intro b hb hd
        rcases Relation.ReflTransGen.cases_tail hd with h | ⟨d, h1, h2⟩
        · exact absurd h.symm hb
        · rw [W.shape.isChild_unique hp h2]; exact h1
      cases hfp : f t p with
      | true => exact ⟨p, ⟨hpc, .single hp, hfp⟩, fun b hb hd _ => up b hb hd⟩
      | false =>
        have hpr : p ≠ t.root := by rintro rfl; rw [hf] at hfp; cases hfp
        obtain ⟨a, ⟨h1, h2, h3⟩, h4⟩ := ih p hc.2 (isChild_live W.graph hp).1 hpr
        refine ⟨a, ⟨?_, h2.tail hp, h3⟩, fun b hb hd hfb => ?_⟩
        · rintro rfl
          exact W.shape.acyclic W.graph a (Relation.TransGen.tail' h2 hp)
        · have hbp : b ≠ p := by rintro rfl; rw [hfb] at hfp; cases hfp
          exact h4 b hbp (up b hb hd) hfb
  obtain ⟨l, hl⟩ := W.shape.exists_anc hn
  exact key l n hl hn hr

/-- Numbers for the words as they are projected from the closest of the nodes with `q`, among which is the root. -/
theorem ids_numbered {t : Tree} (W : t.WF) (hnt : t.IsNt t.root) (ho : t.InOrder) (name : Str) {q : Tree → Nat → Bool}
    (hq : IgnoresTermFeatures q) (hroot : q t t.root = true) :
    ∃ (t' : Tree) (num : Nat → Nat), t.projectIds name q = .ok t' ∧
      TermEdit t t' (fun n => withFeature name (Nat.toDigits 10 (num n))) ∧
      (∀ n m a b, t.IsTerm n → t.IsTerm m → t.Closest q n a → t.Closest q m b → (num n = num m ↔ a = b)) ∧ CountsUp t num := by
  obtain ⟨t', val, ids, h1, h2, h3, hord, h4, h5, h6⟩ := Props.C30_project_ids t W name q hq
  have hv : ∀ n, ∃ k, t.IsTerm n → val n = some (Nat.toDigits 10 k) ∧ ∃ a, ids[k]? = some a ∧ t.Closest q n a := by
    intro n
    by_cases hn : t.IsTerm n
    · have hr : n ≠ t.root := by
        rintro rfl
        obtain ⟨x, hx⟩ := hn
        obtain ⟨y, hy⟩ := hnt
        rw [hx] at hy; cases hy
      obtain ⟨a, ha⟩ := exists_closest W hn.live hr hroot
      obtain ⟨k, hk1, hk2⟩ := (h5 n hn).1 a ha
      exact ⟨k, fun _ => ⟨hk2, a, hk1, ha⟩⟩
    · exact ⟨0, fun h => absurd h hn⟩
  choose num hnum using hv
  have E : TermEdit t t' (fun n => withFeature name (Nat.toDigits 10 (num n))) := by
    refine h4.congr fun n x hx => ?_
    rw [(hnum n ⟨x, hx⟩).1]
  refine ⟨t', num, h1, E, ?_, ?_⟩
  · intro n m a b hn hm ha hb
    constructor
    · intro e
      refine (h6 n m a b hn hm ha hb).1 ?_
      rw [(hnum n hn).1, (hnum m hm).1, e]
    · intro e
      subst e
      obtain ⟨_, a1, p1, p2⟩ := hnum n hn
      obtain ⟨_, a2, q1, q2⟩ := hnum m hm
      have e1 := (h6 n n a1 a hn hn p2 ha).1 rfl
      have e2 := (h6 m m a2 a hm hm q2 hb).1 rfl
      rw [e1] at p1
      rw [e2] at q1
      exact (List.getElem?_inj (List.getElem?_eq_some_iff.1 p1).1 h2).1 (p1.trans q1.symm)
  · have hnumIds : ∀ n a, t.IsTerm n → t.Closest q n a → ids[num n]? = some a := by
      intro n a hn ha
      obtain ⟨_, b, hb1, hb2⟩ := hnum n hn
      rwa [(h6 n n b a hn hn hb2 ha).1 rfl] at hb1
    have hclosest : ∀ n, t.IsTerm n → ∃ a, t.Closest q n a := fun n hn =>
      let ⟨_, a, _, ha⟩ := hnum n hn; ⟨a, ha⟩
    intro n i hi hfirst k
    have hn : t.IsTerm n := hi.isTerm
    obtain ⟨a, ha⟩ := hclosest n hn
    have hk := hnumIds n a hn ha
    constructor
    · intro hlt
      obtain ⟨a', ha'⟩ : ∃ a', ids[k]? = some a' :=
        ⟨_, List.getElem?_eq_getElem (hlt.trans (List.getElem?_eq_some_iff.1 hk).1)⟩
      obtain ⟨m, m1, m2, m3⟩ := hord k (num n) a' a ha' hk hlt
      have hm : t.TermAt m _ := W.sentence.termAt m1
      refine ⟨m, _, hm, (ho m n _ _ hm hi).1 (m3 n hn ha), ?_⟩
      exact (List.getElem?_inj (List.getElem?_eq_some_iff.1 (hnumIds m a' m1 m2)).1 h2).1
        ((hnumIds m a' m1 m2).trans ha'.symm)
    · rintro ⟨m, j, hm, hj, rfl⟩
      by_contra hge
      have hne := hfirst m j hm hj
      have hlt : num n < num m := by omega
      obtain ⟨b, hb⟩ := hclosest m hm.isTerm
      obtain ⟨n', k1, k2, k3⟩ := hord (num n) (num m) a b hk (hnumIds m b hm.isTerm hb) hlt
      have hn' : t.TermAt n' _ := W.sentence.termAt k1
      have hlt' := (ho n' m _ _ hn' hm).1 (k3 m hm.isTerm hb)
      refine hfirst n' _ hn' (by omega) ?_
      exact (List.getElem?_inj (List.getElem?_eq_some_iff.1 (hnumIds n' a k1 k2)).1 h2).1
        ((hnumIds n' a k1 k2).trans hk.symm)

theorem stepIds_spec (o : Options) (F : Fit t) :
    ∃ t', stepIds o (.ok t) = .ok (.ok t') ∧ Opt o.idSet (IdsProjected o.idFeatureName) t t' ∧ Good true t t' := by
  unfold stepIds
  cases h : o.idSet with
  | none => exact ⟨t, rfl, rfl, .refl F⟩
  | some s =>
    obtain ⟨t', num, h1, E, h2, h3⟩ := ids_numbered F.wf F.rootNt F.order o.idFeatureName (idNode_ignores s) (by simp [idNode])
    refine ⟨t', ?_, ⟨num, E, h2, h3⟩, edit_good F E fun n x => ⟨rfl, rfl, rfl⟩⟩
    show (t.projectIds _ (idNode s) >>= fun r => _) = _
    rw [h1]; rfl

theorem filter_local (s : LabelSet) : NodeLocal fun t n => (t.graph.node? n).any fun nd => s.matches nd.label := by
  intro t t' n h
  unfold content at h
  cases h1 : t.graph.node? n with
  | none =>
    rw [h1] at h
    cases h2 : t'.graph.node? n with
    | none => simp only [h1, h2]
    | some nd => rw [h2] at h; simp at h
  | some nd =>
    rw [h1] at h
    cases h2 : t'.graph.node? n with
    | none => rw [h2] at h; simp at h
    | some nd' =>
      rw [h2] at h
      cases nd <;> cases nd' <;> simp [Node.replaceSpan] at h <;>
        simp only [h1, h2, Option.any, Node.label, h]

theorem stepFilter_spec (o : Options) (F : Fit t) :
    ∃ t', stepFilter o (.ok t) = .ok (.ok t') ∧ Opt o.filterSet Filtered t t' ∧ Good true t t' := by
  unfold stepFilter
  cases h : o.filterSet with
  | none => exact ⟨t, rfl, rfl, .refl F⟩
  | some s =>
    obtain ⟨t', h1, h2, h3⟩ := Props.C24_filter_nonterminals t F.wf _ (filter_local s)
    have H : Filtered s t t' := by
      refine ⟨h2, h3.congr fun n => ?_⟩
      constructor
      · rintro ⟨⟨x, hx⟩, hr, hm⟩
        refine ⟨hr, x, hx, ?_⟩
        simp only [hx, Option.any, Node.label] at hm
        exact (matches_false _ _).1 hm
      · rintro ⟨hr, x, hx, hm⟩
        refine ⟨⟨x, hx⟩, hr, ?_⟩
        simp only [hx, Option.any, Node.label]
        exact (matches_false _ _).2 hm
    refine ⟨t', ?_, H, filtered_good F H⟩
    show (t.filterNonterminals _ >>= fun r => _) = _
    rw [Option.getD_some, h1]; rfl

/-- In a tree with its terminals in order the first child is the least. -/
theorem firstLeast (F : Fit t) (p : Nat) : t.FirstLeast p := by
  intro c i hc hi hmin d hd hdt
  obtain ⟨j, _, hj⟩ := F.wf.sentence.pos d hdt
  have hij := hmin d j hd hj
  by_contra hlt
  have := (F.order d c j i hj hi).1 (by omega)
  omega

theorem stepInsert_spec (o : Options) (F : Fit t) :
    ∃ t', stepInsert o (.ok t) = .ok (.ok t') ∧
      Opt o.insertionSet (fun s => RunsInserted s o.insertionLabel) t t' ∧ Good true t t' := by
  unfold stepInsert
  cases h : o.insertionSet with
  | none => exact ⟨t, rfl, rfl, .refl F⟩
  | some s =>
    set f : Tree → Nat → Option Str := fun t n =>
      if (t.graph.node? n).any fun nd => !s.matches nd.label then some o.insertionLabel else none with hf
    obtain ⟨t', h1, h2⟩ := Props.C28_insert_intermediate t F.wf F.rootNt f
      (by intro t t' n e; simp only [hf, e]) (fun p _ _ => .inr (firstLeast F p))
    have hff : ∀ p l, f t p = some l → l = o.insertionLabel := by
      intro p l hl
      simp only [hf] at hl
      split at hl
      · exact (Option.some.inj hl).symm
      · cases hl
    have H : RunsInserted s o.insertionLabel t t' := by
      refine (h2.relabel (lab' := fun _ => o.insertionLabel) ?_).congr ?_
      · rintro p c ⟨⟨l, hl⟩, _⟩
        rw [hl]; exact hff p l hl
      · rintro p c
        refine and_congr_left fun ⟨hpc, _⟩ => ?_
        obtain ⟨x, hx⟩ := F.wf.shape.parent_isNt F.wf.graph hpc
        simp only [hf, hx, Option.any, Node.label, Option.some.injEq, Node.nt.injEq, exists_eq_left']
        cases hm : s.matches x.label with
        | true => simp [(matches_iff _ _).1 hm]
        | false => simp [(matches_false _ _).1 hm]
    refine ⟨t', ?_, H, inserted_good F H⟩
    show (t.insertIntermediate _ >>= fun r => _) = _
    rw [Option.getD_some, h1]; rfl

theorem stepParent_spec (o : Options) (F : Fit t) :
    ∃ t', stepParent o (.ok t) = .ok (.ok t') ∧ Opt o.parentFeature ParentTagged t t' ∧ Good true t t' := by
  unfold stepParent
  cases h : o.parentFeature with
  | none => exact ⟨t, rfl, rfl, .refl F⟩
  | some name =>
    obtain ⟨t', val, h1, E, h2⟩ := (Props.C30_parent_tag t F.wf name).1 F.rootNt
    refine ⟨t', ?_, ⟨val, E, h2⟩, edit_good F E fun n x => ⟨rfl, rfl, rfl⟩⟩
    show (t.annotateParentTag _ >>= fun r => _) = _
    rw [Option.getD_some, h1]; rfl

theorem process_spec {pick : Tree → Finset Nat → Option Nat} (hpick : IsOrder pick) (o : Options) (tags : Option (List Str))
    (S : Suits o t) (hl : ∀ l, tags = some l → l.length = t.nTerminals) :
    ∃ t', Pipeline o tags t t' ∧ Good o.reattachLabel.isNone t t' ∧
      (o.projectivize = true → o.reattachLabel = none → t'.isProjective = true) ∧
      process pick o (tags.map .ok) t = stepEncode o (.ok t') := by
  obtain ⟨t1, a1, b1, c1⟩ := stepDummies_spec o S.fit (S.words.imp_right And.left)
  obtain ⟨t2, a2, b2, c2, d2⟩ := stepProjectivize_spec hpick o c1.fit
  obtain ⟨t3, a3, b3, c3⟩ := stepPos_spec tags c2.fit (fun l h => by
    rw [c2.words.len, c1.words.len]; exact hl l h)
  obtain ⟨t4, a4, b4, c4⟩ := stepReattach_spec o c3.fit (by
    rw [c3.words.len, c2.words.len, c1.words.len]; exact S.words.imp_right And.right)
  obtain ⟨t5, a5, b5, c5⟩ := stepIds_spec o c4.fit
  obtain ⟨t6, a6, b6, c6⟩ := stepFilter_spec o c5.fit
  obtain ⟨t7, a7, b7, c7⟩ := stepInsert_spec o c6.fit
  obtain ⟨t8, a8, b8, c8⟩ := stepParent_spec o c7.fit
  have G := c3.trans (c4.trans (c5.trans (c6.trans (c7.trans c8))))
  have G' := c1.trans (c2.trans G)
  simp only [Bool.true_and, Bool.and_true] at G G'
  refine ⟨t8, ⟨t1, t2, t3, t4, t5, t6, t7, b1, b2, b3, b4, b5, b6, b7, b8⟩, G', ?_, ?_⟩
  · intro h1 h2
    exact G.proj (by rw [h2]; rfl) (d2 h1)
  · unfold process
    simp only [a1, a2, a3, a4, a5, a6, a7, a8, Res.ok_bind]

/-- The steps keep the invariants and the sentence, and projectivity unless words are moved. -/
theorem pipeline_good {o : Options} {tags : Option (List Str)} (S : Suits o t) (h : Pipeline o tags t t') :
    Good o.reattachLabel.isNone t t' ∧ (o.projectivize = true → o.reattachLabel = none → t'.isProjective = true) := by
  obtain ⟨t1, t2, t3, t4, t5, t6, t7, b1, b2, b3, b4, b5, b6, b7, b8⟩ := h
  have c1 : Good true t t1 := by
    cases h : o.removeDummies with
    | false => rw [b1.2 h]; exact .refl S.fit
    | true => exact dummies_good S.fit (by rcases S.words with h2 | h2; exacts [h2, by rw [h] at h2; cases h2.1]) (b1.1 h)
  have gapless : ∀ t : Tree, t.WF → (∀ n, t.Live n → t.Gapless n) → t.isProjective = true := by
    intro t W hg
    rw [isProjective_iff W.count]
    intro n hD
    obtain ⟨a, b⟩ := (disc_iff W).1 hD
    exact b (hg n a.live)
  have c2 : Good true t1 t2 ∧ (o.projectivize = true → t2.isProjective = true) := by
    cases h : o.projectivize with
    | false => rw [b2.2 h]; exact ⟨.refl c1.fit, by simp⟩
    | true =>
      rcases b2.1 h with ⟨hg, rfl⟩ | ⟨_, log, u, _, M, W, hg, h1, h2⟩
      · exact ⟨.refl c1.fit, fun _ => gapless _ c1.fit.wf hg⟩
      · have hw := M.sameWords c1.fit.wf
        have F1 : Fit u := c1.fit.next W (by rw [M.root.1]; exact (isNt_content (M.content _)).2 c1.fit.rootNt) hw
          (M.secondaryNt c1.fit.sec)
        have hp := gapless u W hg
        cases hs : o.secEdges with
        | false =>
          rw [h2 hs]
          exact ⟨⟨F1, hw, fun _ _ => hp⟩, fun _ => hp⟩
        | true =>
          have R := h1 hs
          have hp2 : t2.isProjective = true := by
            rw [isProjective_iff W.count] at hp
            rw [isProjective_iff R.wf.count]
            rintro n ⟨x, hx, hk⟩
            exact hp n ⟨x, by rw [← R.node]; exact hx, hk⟩
          have G := recorded_good F1 R.wf R (hp2.trans hp.symm) fun m hm => (M.ends m hm).1
          exact ⟨⟨G.fit, hw.trans G.words, fun _ _ => hp2⟩, fun _ => hp2⟩
  have c3 : Good true t2 t3 := by
    cases tags with
    | none => rw [show t3 = t2 from b3]; exact .refl c2.1.fit
    | some l => exact edit_good c2.1.fit b3 fun n x => ⟨rfl, rfl, rfl⟩
  have c4 : Good o.reattachLabel.isNone t3 t4 := by
    cases h : o.reattachLabel with
    | none => rw [h] at b4; rw [show t4 = t3 from b4]; exact .refl c3.fit
    | some p => rw [h] at b4; exact gathered_good c3.fit b4
  have c5 : Good true t4 t5 := by
    cases h : o.idSet with
    | none => rw [h] at b5; rw [show t5 = t4 from b5]; exact .refl c4.fit
    | some p => rw [h] at b5; obtain ⟨num, E, _⟩ := b5; exact edit_good c4.fit E fun n x => ⟨rfl, rfl, rfl⟩
  have c6 : Good true t5 t6 := by
    cases h : o.filterSet with
    | none => rw [h] at b6; rw [show t6 = t5 from b6]; exact .refl c5.fit
    | some p => rw [h] at b6; exact filtered_good c5.fit b6
  have c7 : Good true t6 t7 := by
    cases h : o.insertionSet with
    | none => rw [h] at b7; rw [show t7 = t6 from b7]; exact .refl c6.fit
    | some p => rw [h] at b7; exact inserted_good c6.fit b7
  have c8 : Good true t7 t' := by
    cases h : o.parentFeature with
    | none => rw [h] at b8; rw [show t' = t7 from b8]; exact .refl c7.fit
    | some p => rw [h] at b8; obtain ⟨val, E, _⟩ := b8; exact edit_good c7.fit E fun n x => ⟨rfl, rfl, rfl⟩
  have G := c3.trans (c4.trans (c5.trans (c6.trans (c7.trans c8))))
  have G' := c1.trans (c2.1.trans G)
  simp only [Bool.true_and, Bool.and_true] at G G'
  exact ⟨G', fun h1 h2 => G.proj (by rw [h2]; rfl) (c2.2 h1)⟩

/-- A wrong number of tags. -/
theorem process_tags {pick : Tree → Finset Nat → Option Nat} (hpick : IsOrder pick) (o : Options) (l : List Str)
    (S : Suits o t) (hl : l.length ≠ t.nTerminals) :
    process pick o (some (.ok l)) t = .ok (.error (if l.length < t.nTerminals then .notEnoughPos else .tooManyPos)) := by
  obtain ⟨t1, a1, b1, c1⟩ := stepDummies_spec o S.fit (S.words.imp_right And.left)
  obtain ⟨t2, a2, b2, c2, d2⟩ := stepProjectivize_spec hpick o c1.fit
  have hn : t2.nTerminals = t.nTerminals := c2.words.len.trans c1.words.len
  have a3 : stepPos (some (.ok l)) (.ok t2) =
      .ok (.error (if l.length < t.nTerminals then .notEnoughPos else .tooManyPos)) := by
    unfold stepPos
    obtain ⟨t', r, h1, h2, h3, h4, _⟩ := Props.C29_annotate_pos t2 c2.fit.wf l
    show (t2.annotatePos l >>= fun r => _) = _
    rw [h1]
    rw [hn] at h3 h4
    by_cases h : l.length < t.nTerminals
    · rw [if_pos h, h4.2 h]; rfl
    · rw [if_neg h, h3.2 (by omega)]; rfl
  unfold process
  simp only [a1, a2, a3, Res.ok_bind]
  rfl

/-- No sentence in the POS file. -/
theorem process_posError {pick : Tree → Finset Nat → Option Nat} (hpick : IsOrder pick) (o : Options) (e : Err)
    (S : Suits o t) : process pick o (some (.error e)) t = .ok (.error e) := by
  obtain ⟨t1, a1, b1, c1⟩ := stepDummies_spec o S.fit (S.words.imp_right And.left)
  obtain ⟨t2, a2, b2, c2, d2⟩ := stepProjectivize_spec hpick o c1.fit
  unfold process
  simp only [a1, a2, Res.ok_bind]
  rfl

end Convert
end Lumberjack
