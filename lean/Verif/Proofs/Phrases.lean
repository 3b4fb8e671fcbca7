import Verif.Spec.Phrases
import Verif.Proofs.IsoSteps
import Verif.Proofs.Lowering
import Verif.Proofs.Rewrite
import Verif.Proofs.Calls
import Verif.Proofs.Forest
import Verif.Proofs.TreeQuery
import Mathlib.Data.List.Perm.Subperm

/-!
# The phrases of a converted tree
-/

namespace Lumberjack
namespace Tree

variable {t t' : Tree} {n : Nat} {l : Str} {fs : Option Features}

theorem Phrase.live (h : t.Phrase n l fs) : t.Live n := let ⟨_, hx, _⟩ := h; ⟨_, hx⟩

theorem Phrase.of_content (h : t'.content n = t.content n) (hp : t'.Phrase n l fs) : t.Phrase n l fs := by
  obtain ⟨x, hx, h1, h2⟩ := hp
  obtain ⟨y, hy, h3, h4⟩ := content_nt_fields h hx
  exact ⟨y, hy, h3.trans h1, h4.trans h2⟩

theorem Phrase.of_node (h : t'.graph.node? n = t.graph.node? n) (hp : t'.Phrase n l fs) : t.Phrase n l fs := by
  obtain ⟨x, hx, h1⟩ := hp
  exact ⟨x, h ▸ hx, h1⟩

theorem TermEdit.phrase {g : Nat → Terminal → Terminal} (E : TermEdit t t' g) : t'.Phrase n l fs ↔ t.Phrase n l fs := by
  constructor
  · rintro ⟨x, hx, h1⟩
    cases hn : t.graph.node? n with
    | none => rw [E.none n hn] at hx; cases hx
    | some nd =>
      cases nd with
      | nt y =>
        rw [E.nt n y hn] at hx
        cases hx
        exact ⟨_, hn, h1⟩
      | term y => rw [E.term n y hn] at hx; cases hx
  · rintro ⟨x, hx, h1⟩
    exact ⟨x, E.nt n x hx, h1⟩

theorem TermEdit.domEq {g : Nat → Terminal → Terminal} (E : TermEdit t t' g) : t'.Dom = t.Dom := by
  apply dom_congr
  funext p c
  unfold Tree.IsChild Graph.IsChild
  rw [E.edges]

end Tree

namespace Convert

open Lumberjack.Tree

variable {t t' : Tree} {o : Options} {tags : Option (List Str)}

theorem keep_tag {m : Nat} {q : Str} (K : Keep t t') (h : t.HasTag tags m q) : t'.HasTag tags m q := by
  obtain ⟨x, hx, hq⟩ := h
  obtain ⟨y, hy, _, _, hs⟩ := K.1.kept m x hx
  have hp := K.2 m x y hx hy
  refine ⟨y, hy, ?_⟩
  rw [hq, hs, hp]

/-- What is left of `t` keeps its place and the words below it. -/
structure PhraseStay (t t' : Tree) : Prop where
  phrase : ∀ n l fs, t'.Phrase n l fs → t.Phrase n l fs
  dom : ∀ a b, t'.Live a → t.IsTerm b → t.Dom a b → t'.Dom a b
  term : ∀ b, t.IsTerm b → t'.IsTerm b
  keep : Keep t t'

theorem PhraseStay.refl (t : Tree) : PhraseStay t t := ⟨fun _ _ _ h => h, fun _ _ _ _ h => h, fun _ h => h, Keep.refl t⟩

theorem PhraseStay.of_keep (K : Keep t t') (h1 : ∀ n l fs, t'.Phrase n l fs → t.Phrase n l fs)
    (h2 : ∀ a b, t'.Live a → t.IsTerm b → t.Dom a b → t'.Dom a b) : PhraseStay t t' :=
  ⟨h1, h2, fun b ⟨x, hx⟩ => let ⟨y, hy, _⟩ := K.1.kept b x hx; ⟨y, hy⟩, K⟩

theorem removed_kept {R : Nat → Prop} (H : Removed t t' R) (hR : ∀ n, R n → t.IsNt n) : PhraseStay t t' := by
  refine .of_keep (H.keep hR) (fun n l fs h => ?_) fun a b ha hb h => ?_
  · exact h.of_node (H.node n (H.stays h.live))
  · refine (H.dom a b (H.stays ha) fun h' => ?_).2 h
    obtain ⟨x, hx⟩ := hR b h'
    obtain ⟨y, hy⟩ := hb
    rw [hx] at hy; cases hy

theorem projectivized_kept {sec : Bool} (W : t.WF) (h : Projectivized sec t t') :
    PhraseStay t t' ∧ t'.root = t.root ∧ ∀ n l fs, t.Phrase n l fs → t'.Phrase n l fs := by
  rcases h with ⟨_, rfl⟩ | ⟨_, log, t1, _, M, _, _, h1, h2⟩
  · exact ⟨.refl _, rfl, fun _ _ _ h => h⟩
  · have a : PhraseStay t t1 := .of_keep (M.keep W) (fun n _ _ h => h.of_content (M.content n)) fun _ _ _ _ h => M.mono h
    cases sec with
    | false =>
      rw [h2 rfl]
      exact ⟨a, M.root.1, fun n _ _ h => h.of_content (M.content n).symm⟩
    | true =>
      have R := h1 rfl
      refine ⟨.of_keep (a.keep.trans (Keep.of R.nterm fun n x => by rw [R.node n])) (fun n l fs h => ?_) fun c b hc hb h => ?_, R.root.trans M.root.1,
        fun n _ _ h => (h.of_content (M.content n).symm).of_node (R.node n).symm⟩
      · exact (h.of_node (R.node n)).of_content (M.content n)
      · obtain ⟨new, e1, e2⟩ := R.edges
        refine Relation.ReflTransGen.mono ?_ _ _ (M.mono h)
        rintro p q ⟨r, hr, hw⟩
        exact ⟨r, by rw [e1]; exact List.mem_append_right _ hr, hw⟩

theorem pipeline_phrases (W : t.WF) (h : Pipeline o tags t t') : PhrasesKept o tags t t' := by
  obtain ⟨t1, t2, t3, t4, t5, t6, t7, b1, b2, b3, b4, b5, b6, b7, b8⟩ := h
  have k1 : PhraseStay t t1 ∧ t1.WF ∧ ∀ n l fs, t.Phrase n l fs → ¬ (o.removeDummies = true ∧ l = "DUMMY".toList) →
      t1.Phrase n l fs ∧ (n = t.root → t1.root = t.root) := by
    cases hd : o.removeDummies with
    | false => rw [b1.2 hd]; exact ⟨.refl _, W, fun _ _ _ h _ => ⟨h, fun _ => rfl⟩⟩
    | true =>
      obtain ⟨R, H, hR, _⟩ := b1.1 hd
      refine ⟨removed_kept H fun n hn => let ⟨x, hx, _⟩ := hR n hn; ⟨x, hx⟩, H.wf, fun n l fs h hl => ?_⟩
      have hn : ¬ R n := by
        intro hn
        obtain ⟨x, hx, he⟩ := hR n hn
        obtain ⟨y, hy, hyl, _⟩ := h
        rw [hx] at hy; cases hy
        exact hl ⟨rfl, hyl ▸ he⟩
      exact ⟨h.of_node (H.node n hn).symm, fun e => H.root_eq W (e ▸ hn)⟩
  have k2 : PhraseStay t1 t2 ∧ t2.root = t1.root ∧ ∀ n l fs, t1.Phrase n l fs → t2.Phrase n l fs := by
    cases hd : o.projectivize with
    | false => rw [b2.2 hd]; exact ⟨.refl _, rfl, fun _ _ _ h => h⟩
    | true => exact projectivized_kept k1.2.1 (b2.1 hd)
  have k3 : (∀ n l fs, t3.Phrase n l fs ↔ t2.Phrase n l fs) ∧ t3.root = t2.root ∧ t3.Dom = t2.Dom ∧
      ∀ m q, t2.HasTag tags m q → ∃ x, t3.graph.node? m = some (.term x) ∧ x.pos = q := by
    cases tags with
    | none =>
      rw [show t3 = t2 from b3]
      exact ⟨fun _ _ _ => Iff.rfl, rfl, rfl, fun m q ⟨x, hx, hq⟩ => ⟨x, hx, hq.symm⟩⟩
    | some l =>
      have E : TermEdit t2 t3 _ := b3
      exact ⟨fun _ _ _ => E.phrase, E.root, E.domEq, fun m q ⟨x, hx, hq⟩ => ⟨_, E.term m x hx, hq.symm⟩⟩
  have k4 : (∀ n l fs, t4.Phrase n l fs → t3.Phrase n l fs) ∧ t4.root = t3.root ∧
      ∀ n l fs, t3.Phrase n l fs → (∀ p, o.reattachLabel = some p → n = t3.root ∨
        ∃ m x, t3.Dom n m ∧ t3.graph.node? m = some (.term x) ∧ ¬ p <+: x.pos) → t4.Phrase n l fs := by
    cases hr : o.reattachLabel with
    | none => rw [hr] at b4; rw [show t4 = t3 from b4]; exact ⟨fun _ _ _ h => h, rfl, fun _ _ _ h _ => h⟩
    | some p =>
      rw [hr] at b4
      have G : Gathered t3 t3.root _ t4 := b4
      refine ⟨fun n l fs h => h.of_content (G.content n h.live), G.root, fun n l fs h hm => ?_⟩
      have hl : t4.Live n := by
        refine (G.live n).2 ⟨h.live, .inr ?_⟩
        rcases hm p rfl with rfl | ⟨m, x, h1, h2, h3⟩
        · exact .inl .refl
        · refine .inr ⟨m, ⟨x, h2⟩, ?_, h1⟩
          rintro ⟨y, hy, hp⟩
          rw [h2] at hy; cases hy
          exact h3 hp
      exact h.of_content (G.content n hl).symm
  have k5 : (∀ n l fs, t5.Phrase n l fs ↔ t4.Phrase n l fs) ∧ t5.root = t4.root := by
    cases hi : o.idSet with
    | none => rw [hi] at b5; rw [show t5 = t4 from b5]; exact ⟨fun _ _ _ => Iff.rfl, rfl⟩
    | some s => rw [hi] at b5; obtain ⟨num, E, _⟩ := b5; exact ⟨fun _ _ _ => E.phrase, E.root⟩
  have k6 : (∀ n l fs, t6.Phrase n l fs → t5.Phrase n l fs ∧ ∀ s, o.filterSet = some s → n = t6.root ∨ Matches s l) ∧
      t6.root = t5.root ∧
      ∀ n l fs, t5.Phrase n l fs → (∀ s, o.filterSet = some s → n = t5.root ∨ Matches s l) → t6.Phrase n l fs := by
    cases hf : o.filterSet with
    | none => rw [hf] at b6; rw [show t6 = t5 from b6]; exact ⟨fun _ _ _ h => ⟨h, nofun⟩, rfl, fun _ _ _ h _ => h⟩
    | some s =>
      rw [hf] at b6
      obtain ⟨hr, H⟩ := b6
      refine ⟨fun n l fs h => ?_, hr, fun n l fs h hm => ?_⟩
      · have hn := H.stays h.live
        have h' := h.of_node (H.node n hn)
        refine ⟨h', fun s' e => ?_⟩
        cases e
        by_contra hc
        rw [not_or, hr] at hc
        obtain ⟨x, hx, hl, _⟩ := h'
        exact hn ⟨hc.1, x, hx, hl ▸ hc.2⟩
      · refine h.of_node (H.node n ?_).symm
        rintro ⟨h1, x, hx, h2⟩
        obtain ⟨y, hy, hl, _⟩ := h
        rw [hx] at hy; cases hy
        rcases hm s rfl with e | e
        · exact h1 e
        · exact h2 (hl ▸ e)
  have k7 : (∀ n l fs, t7.Phrase n l fs → t6.Phrase n l fs ∨
      (o.insertionSet ≠ none ∧ l = o.insertionLabel ∧ fs = none ∧ ∀ c, t7.IsChild n c → t7.IsTerm c)) ∧
      t7.root = t6.root ∧ ∀ n l fs, t6.Phrase n l fs → t7.Phrase n l fs := by
    cases hi : o.insertionSet with
    | none => rw [hi] at b7; rw [show t7 = t6 from b7]; exact ⟨fun _ _ _ h => .inl h, rfl, fun _ _ _ h => h⟩
    | some s =>
      rw [hi] at b7
      have I : Inserted t6 _ _ t7 := b7
      refine ⟨fun n l fs h => ?_, I.root, fun n l fs h => h.of_node (I.old n h.live).symm⟩
      by_cases hl : t6.Live n
      · exact .inl (h.of_node (I.old n hl))
      · right
        obtain ⟨p, c, hK, _, _, ⟨sp, hsp⟩, hd⟩ := I.new n h.live hl
        obtain ⟨x, hx, e1, e2⟩ := h
        rw [hsp] at hx; cases hx
        refine ⟨by simp, e1.symm, e2.symm, fun d hc => I.isTerm ?_⟩
        obtain ⟨_, _, _, ⟨x, hx, _⟩, _⟩ := (hd d).1 hc
        exact ⟨x, hx⟩
  have k8 : (∀ n l fs, t'.Phrase n l fs ↔ t7.Phrase n l fs) ∧ t'.root = t7.root ∧
      ∀ n, (∀ c, t7.IsChild n c → t7.IsTerm c) → ∀ c, t'.IsChild n c → t'.IsTerm c := by
    cases hp : o.parentFeature with
    | none => rw [hp] at b8; rw [show t' = t7 from b8]; exact ⟨fun _ _ _ => Iff.rfl, rfl, fun _ h => h⟩
    | some name =>
      rw [hp] at b8
      obtain ⟨val, E, _⟩ := b8
      refine ⟨fun _ _ _ => E.phrase, E.root, fun n h c hc => ?_⟩
      obtain ⟨x, hx⟩ := h c (by
        unfold Tree.IsChild Graph.IsChild at hc ⊢
        rwa [E.edges] at hc)
      exact ⟨_, E.term c x hx⟩
  have back : ∀ n l fs, t6.Phrase n l fs → t.Phrase n l fs := fun n l fs h =>
    k1.1.phrase _ _ _ (k2.1.phrase _ _ _ ((k3.1 _ _ _).1 (k4.1 _ _ _ ((k5.1 _ _ _).1 (k6.1 _ _ _ h).1))))
  refine ⟨fun n l fs h => ?_, fun s hs n l fs h => ?_, fun n l fs h h1 h2 h3 => ?_, fun l fs h h1 => ?_⟩
  · rcases k7.1 _ _ _ ((k8.1 _ _ _).1 h) with h | ⟨h1, h2, h3, h4⟩
    · exact .inl (back _ _ _ h)
    · exact .inr ⟨h1, h2, h3, k8.2.2 n h4⟩
  · rcases k7.1 _ _ _ ((k8.1 _ _ _).1 h) with h | ⟨h1, h2, h3, h4⟩
    · rw [k8.2.1, k7.2.1]
      exact ((k6.1 _ _ _ h).2 s hs).imp_right .inl
    · exact .inr (.inr ⟨h1, h2⟩)
  · obtain ⟨p1, r1⟩ := k1.2.2 n l fs h h1
    have p3 := (k3.1 _ _ _).2 (k2.2.2 _ _ _ p1)
    have r3 : n = t.root → n = t3.root := fun e => by rw [k3.2.1, k2.2.1, r1 e]; exact e
    have p4 : t4.Phrase n l fs := by
      refine k4.2.2 n l fs p3 fun p hp => ?_
      rcases h3 p hp with e | ⟨m, q, hd, hq, hpq⟩
      · exact .inl (r3 e)
      · right
        have hm : t.IsTerm m := let ⟨x, hx, _⟩ := hq; ⟨x, hx⟩
        have d1 := k1.1.dom n m p1.live hm hd
        have d2 := k2.1.dom n m (k2.2.2 _ _ _ p1).live (k1.1.term m hm) d1
        obtain ⟨x, hx, e⟩ := k3.2.2.2 m q (keep_tag k2.1.keep (keep_tag k1.1.keep hq))
        exact ⟨m, x, by rw [k3.2.2.1]; exact d2, hx, by rw [e]; exact hpq⟩
    have p6 := k6.2.2 n l fs ((k5.1 _ _ _).2 p4) fun s hs => by
      refine (h2 s hs).imp_left fun e => ?_
      rw [k5.2, k4.2.1]; exact r3 e
    exact (k8.1 _ _ _).2 (k7.2.2 _ _ _ p6)
  · rw [k8.2.1, k7.2.1, k6.2.1, k5.2, k4.2.1, k3.2.1, k2.2.1]
    exact (k1.2.2 _ l fs h h1).2 rfl

end Convert

/-! ## Counting phrases -/

namespace Tree

variable {t : Tree}

/-- Label and features of a node. -/
def phraseAt (t : Tree) (n : Nat) : Str × Option Features :=
  match t.graph.node? n with
  | some (.nt x) => (x.label, x.features)
  | _ => ([], none)

theorem phrase_iff {n : Nat} {p : Str × Option Features} : t.Phrase n p.1 p.2 ↔ t.IsNt n ∧ t.phraseAt n = p := by
  constructor
  · rintro ⟨x, hx, h1, h2⟩
    exact ⟨⟨x, hx⟩, by simp [phraseAt, hx, h1, h2]⟩
  · rintro ⟨⟨x, hx⟩, h⟩
    simp only [phraseAt, hx] at h
    subst h
    exact ⟨x, hx, rfl, rfl⟩

theorem Rep.phrases (W : t.WF) {f : Forest} : ∀ {ids : List Nat}, t.Rep ids f →
    ids.Pairwise (fun a b => ¬ t.Dom a b ∧ ¬ t.Dom b a) →
    ∃ L : List Nat, L.Nodup ∧ (∀ n, n ∈ L ↔ t.IsNt n ∧ ∃ a ∈ ids, t.Dom a n) ∧ f.phrases = L.map t.phraseAt := by
  have far : ∀ {n m : Nat} {ns : List Nat}, (n :: ns).Pairwise (fun a b => ¬ t.Dom a b ∧ ¬ t.Dom b a) → t.Dom n m →
      ∀ a ∈ ns, ¬ t.Dom a m := by
    intro n m ns h h1 a ha h2
    have := (List.pairwise_cons.1 h).1 a ha
    rcases W.shape.dom_linear h1 h2 with h | h
    · exact this.1 h
    · exact this.2 h
  induction f with
  | nil =>
    intro ids h _
    rw [show ids = [] from h]
    exact ⟨[], List.nodup_nil, by simp, rfl⟩
  | leaf e x r ih =>
    rintro ids ⟨n, ns, rfl, h4, h5, h6⟩ hp
    obtain ⟨L, g1, g2, g3⟩ := ih h6 (List.pairwise_cons.1 hp).2
    refine ⟨L, g1, fun m => ?_, g3⟩
    rw [g2]
    constructor
    · rintro ⟨hm, a, ha, hd⟩
      exact ⟨hm, a, List.mem_cons_of_mem _ ha, hd⟩
    · rintro ⟨hm, a, ha, hd⟩
      rcases List.mem_cons.1 ha with rfl | ha
      · have := W.shape.dom_term ⟨x, h4⟩ hd
        subst this
        obtain ⟨y, hy⟩ := hm
        rw [h4] at hy
        cases hy
      · exact ⟨hm, a, ha, hd⟩
  | node e x k r ihk ih =>
    rintro ids ⟨n, ns, ks, rfl, h4, h5, h6, h7, h8⟩ hp
    have hk : ks.Pairwise (fun a b => ¬ t.Dom a b ∧ ¬ t.Dom b a) := by
      refine h6.2.imp_of_mem fun {a b} ha hb hab => ?_
      have ha := (h6.1 a).1 ha
      have hb := (h6.1 b).1 hb
      exact ⟨fun h => absurd (congrArg t.startOf (W.shape.siblings_not_dom W.graph ha hb h)) (by omega),
        fun h => absurd (congrArg t.startOf (W.shape.siblings_not_dom W.graph hb ha h)) (by omega)⟩
    obtain ⟨L, g1, g2, g3⟩ := ih h8 (List.pairwise_cons.1 hp).2
    obtain ⟨K, k1, k2, k3⟩ := ihk h7 hk
    have inK : ∀ m, m ∈ K ↔ t.IsNt m ∧ ∃ c, t.IsChild n c ∧ t.Dom c m := by
      intro m
      rw [k2]
      simp only [h6.1]
    have below : ∀ m, m ∈ n :: K ↔ t.IsNt m ∧ t.Dom n m := by
      intro m
      rw [List.mem_cons, inK]
      constructor
      · rintro (rfl | ⟨hm, c, hc, hd⟩)
        · exact ⟨⟨x, h4⟩, Dom.refl⟩
        · exact ⟨hm, Dom.head hc hd⟩
      · rintro ⟨hm, hd⟩
        rcases hd.cases_child with rfl | ⟨c, hc, hd⟩
        · exact .inl rfl
        · exact .inr ⟨hm, c, hc, hd⟩
    refine ⟨(n :: K) ++ L, ?_, fun m => ?_, ?_⟩
    · refine List.nodup_append'.2 ⟨List.nodup_cons.2 ⟨fun h => ?_, k1⟩, g1, fun m h h' => ?_⟩
      · obtain ⟨_, c, hc, hd⟩ := (inK n).1 h
        exact W.shape.acyclic W.graph n (Relation.TransGen.head' hc hd)
      · obtain ⟨_, a, ha, hd⟩ := (g2 m).1 h'
        exact far hp ((below m).1 h).2 a ha hd
    · rw [List.mem_append, below, g2]
      simp only [List.mem_cons, exists_eq_or_imp]
      tauto
    · simp [Forest.phrases, g3, k3, phraseAt, h4]

theorem WF.phrases (W : t.WF) {f : Forest} (h : t.Is f) :
    ∃ L : List Nat, L.Nodup ∧ (∀ n, n ∈ L ↔ t.IsNt n) ∧ f.phrases = L.map t.phraseAt := by
  obtain ⟨L, g1, g2, g3⟩ := Rep.phrases W h (by simp)
  refine ⟨L, g1, fun n => ?_, g3⟩
  rw [g2]
  simp only [List.mem_singleton, exists_eq_left, and_iff_left_iff_imp]
  exact fun h => W.shape.reach n h.live

end Tree

namespace Convert
open Lumberjack.Tree

theorem subperm_map {α β : Type} (g : α → β) {a b : List α} (h : a.Subperm b) : (a.map g).Subperm (b.map g) := by
  obtain ⟨l, h1, h2⟩ := h
  exact ⟨l.map g, h1.map g, h2.map g⟩

theorem PhrasesKept.few {o : Options} {tags : Option (List Str)} {t t' : Tree} (h : PhrasesKept o tags t t') (W : t.WF)
    (W' : t'.WF) {F F' : Forest} (hF : t.Is F) (hF' : t'.Is F') (q : Str × Option Features → Bool)
    (hq : ∀ p, q p = true → ¬ Insertable o p) : (F'.phrases.filter q).Subperm F.phrases := by
  obtain ⟨L, a1, a2, a3⟩ := W.phrases hF
  obtain ⟨L', b1, b2, b3⟩ := W'.phrases hF'
  have key : ∀ n ∈ L'.filter (fun n => q (t'.phraseAt n)), n ∈ L ∧ t.phraseAt n = t'.phraseAt n := by
    intro n hn
    obtain ⟨h1, h2⟩ := List.mem_filter.1 hn
    rcases h.invented n _ _ (phrase_iff.2 ⟨(b2 n).1 h1, rfl⟩) with k | ⟨k1, k2, k3, _⟩
    · obtain ⟨k1, k2⟩ := phrase_iff.1 k
      exact ⟨(a2 n).2 k1, k2⟩
    · exact absurd ⟨k1, Prod.ext k2 k3⟩ (hq _ h2)
  rw [a3, b3, List.filter_map]
  rw [show (List.filter (q ∘ t'.phraseAt) L').map t'.phraseAt = (List.filter (q ∘ t'.phraseAt) L').map t.phraseAt from
    List.map_congr_left fun n hn => ((key n hn).2).symm]
  exact subperm_map _ (List.subperm_of_subset (b1.filter _) fun n hn => (key n hn).1)

theorem PhrasesKept.many {o : Options} {tags : Option (List Str)} {t t' : Tree} (h : PhrasesKept o tags t t') (W : t.WF)
    (W' : t'.WF) {F F' : Forest} (hF : t.Is F) (hF' : t'.Is F') (ho : o.reattachLabel = none) (q : Str × Option Features → Bool)
    (hq : ∀ p, q p = true → Lasting o p) : (F.phrases.filter q).Subperm F'.phrases := by
  obtain ⟨L, a1, a2, a3⟩ := W.phrases hF
  obtain ⟨L', b1, b2, b3⟩ := W'.phrases hF'
  have key : ∀ n ∈ L.filter (fun n => q (t.phraseAt n)), n ∈ L' ∧ t'.phraseAt n = t.phraseAt n := by
    intro n hn
    obtain ⟨h1, h2⟩ := List.mem_filter.1 hn
    have hl := hq _ h2
    have k := h.kept n _ _ (phrase_iff.2 ⟨(a2 n).1 h1, rfl⟩) hl.1 (fun s hs => .inr (hl.2 s hs)) (by simp [ho])
    obtain ⟨k1, k2⟩ := phrase_iff.1 k
    exact ⟨(b2 n).2 k1, k2⟩
  rw [a3, b3, List.filter_map]
  rw [show (List.filter (q ∘ t.phraseAt) L).map t.phraseAt = (List.filter (q ∘ t.phraseAt) L).map t'.phraseAt from
    List.map_congr_left fun n hn => ((key n hn).2).symm]
  exact subperm_map _ (List.subperm_of_subset (a1.filter _) fun n hn => (key n hn).1)

theorem PhrasesKept.count_le {o : Options} {tags : Option (List Str)} {t t' : Tree} (h : PhrasesKept o tags t t') (W : t.WF)
    (W' : t'.WF) {F F' : Forest} (hF : t.Is F) (hF' : t'.Is F') {p : Str × Option Features} (hp : ¬ Insertable o p) :
    F'.phrases.count p ≤ F.phrases.count p := by
  have := (h.few W W' hF hF' (p = ·) (fun q hq => by simp at hq; exact hq ▸ hp)).count_le p
  rwa [List.count_filter (by simp)] at this

theorem PhrasesKept.le_count {o : Options} {tags : Option (List Str)} {t t' : Tree} (h : PhrasesKept o tags t t') (W : t.WF)
    (W' : t'.WF) {F F' : Forest} (hF : t.Is F) (hF' : t'.Is F') (ho : o.reattachLabel = none) {p : Str × Option Features}
    (hp : Lasting o p) : F.phrases.count p ≤ F'.phrases.count p := by
  have := (h.many W W' hF hF' ho (p = ·) (fun q hq => by simp at hq; exact hq ▸ hp)).count_le p
  rwa [List.count_filter (by simp)] at this

end Convert
end Lumberjack
