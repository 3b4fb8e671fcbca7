import Verif.Proofs.Reset

/-!
# Editing the shape of a tree
-/

namespace Lumberjack

open Relation

/-- `R'` is `R` with the node `n` cut out, its children attached to its parents. -/
def Splice (R R' : Nat → Nat → Prop) (n : Nat) : Prop :=
  ∀ a b, R' a b ↔ a ≠ n ∧ b ≠ n ∧ (R a b ∨ (R a n ∧ R n b))

namespace Splice

variable {R R' : Nat → Nat → Prop} {n : Nat}

theorem dom_up (h : Splice R R' n) {a b : Nat} (hd : ReflTransGen R' a b) : ReflTransGen R a b := by
  induction hd with
  | refl => exact .refl
  | tail _ hr ih =>
    obtain ⟨_, _, h1 | ⟨h1, h2⟩⟩ := (h _ _).1 hr
    · exact ih.tail h1
    · exact (ih.tail h1).tail h2

theorem dom_down (h : Splice R R' n) (hn : ¬ R n n) {a b : Nat} (ha : a ≠ n) (hb : b ≠ n)
    (hd : ReflTransGen R a b) : ReflTransGen R' a b := by
  have key : (b ≠ n → ReflTransGen R' a b) ∧ (b = n → ∃ q, q ≠ n ∧ ReflTransGen R' a q ∧ R q n) := by
    clear hb
    induction hd with
    | refl => exact ⟨fun _ => .refl, fun e => absurd e ha⟩
    | @tail c d _ hr ih =>
      by_cases hc : c = n
      · subst hc
        obtain ⟨q, hq, h1, h2⟩ := ih.2 rfl
        refine ⟨fun hd => h1.tail ((h _ _).2 ⟨hq, hd, .inr ⟨h2, hr⟩⟩), ?_⟩
        rintro rfl
        exact absurd hr hn
      · have h1 := ih.1 hc
        refine ⟨fun hd => h1.tail ((h _ _).2 ⟨hc, hd, .inl hr⟩), ?_⟩
        rintro rfl
        exact ⟨c, hc, h1, hr⟩
  exact key.1 hb

theorem dom_iff (h : Splice R R' n) (hn : ¬ R n n) {a b : Nat} (ha : a ≠ n) (hb : b ≠ n) :
    ReflTransGen R' a b ↔ ReflTransGen R a b := ⟨h.dom_up, h.dom_down hn ha hb⟩

end Splice

namespace Tree

variable {t t' : Tree}

/-! ## Uniqueness of parents through target lists -/

theorem uniq_of_nodup (h : (t.primEdges.map (·.tgt)).Nodup) : t.Uniq := by
  rw [uniq_prim]
  intro r hr s hs e
  exact List.inj_on_of_nodup_map h hr hs e

theorem nodup_of_uniq (G : t.graph.OK) (h : t.Uniq) : (t.primEdges.map (·.tgt)).Nodup := by
  rw [uniq_prim] at h
  exact List.Nodup.map_on (fun r hr s hs e => h r hr s hs e) ((edges_nodup G).filter _)

/-! ## Contents -/

theorem content_eq {n : Nat} (h : t'.graph.node? n = t.graph.node? n) : t'.content n = t.content n := by
  unfold content; rw [h]

theorem SpanEdit.content (h : SpanEdit t t') (n : Nat) : t'.content n = t.content n := by
  unfold Tree.content
  cases hn : t.graph.node? n with
  | none => rw [h.none n hn]
  | some nd =>
    cases nd with
    | term x => rw [h.term n x hn]
    | nt x =>
      obtain ⟨sp, h2⟩ := h.nt n x hn
      rw [h2]; rfl

theorem content_none {n : Nat} : t.content n = none ↔ ¬ t.Live n := by
  unfold Tree.content Live Graph.Live
  rw [Option.map_eq_none_iff]
  cases t.graph.node? n <;> simp

theorem content_term {n : Nat} (h : t'.content n = t.content n) : t'.IsTerm n ↔ t.IsTerm n := by
  unfold Tree.content at h
  unfold IsTerm
  cases h1 : t'.graph.node? n with
  | none =>
    rw [h1] at h
    cases h2 : t.graph.node? n with
    | none => simp
    | some nd => rw [h2] at h; simp at h
  | some nd' =>
    rw [h1] at h
    cases h2 : t.graph.node? n with
    | none => rw [h2] at h; simp at h
    | some nd =>
      rw [h2] at h
      cases nd <;> cases nd' <;> simp_all [Node.replaceSpan]

theorem content_nt {n : Nat} (h : t'.content n = t.content n) : t'.IsNt n ↔ t.IsNt n := by
  unfold Tree.content at h
  unfold IsNt
  cases h1 : t'.graph.node? n with
  | none =>
    rw [h1] at h
    cases h2 : t.graph.node? n with
    | none => simp
    | some nd => rw [h2] at h; simp at h
  | some nd' =>
    rw [h1] at h
    cases h2 : t.graph.node? n with
    | none => rw [h2] at h; simp at h
    | some nd =>
      rw [h2] at h
      cases nd <;> cases nd' <;> simp_all [Node.replaceSpan]

/-! ## Cutting out or adding one node

`t` is the tree with the node `n`, `t'` the tree without. -/

/-- `t'` is `t` without node `n`, whose children are attached to its parent. -/
structure Cut (t t' : Tree) (n : Nat) : Prop where
  splice : Splice t.IsChild t'.IsChild n
  live : t.Live n
  dead : t'.graph.node? n = none
  node : ∀ m, m ≠ n → t'.graph.node? m = t.graph.node? m

namespace Cut

variable {n : Nat}

theorem isTerm (h : Cut t t' n) (m : Nat) : t'.IsTerm m ↔ m ≠ n ∧ t.IsTerm m := by
  unfold IsTerm
  by_cases e : m = n
  · subst e; simp [h.dead]
  · simp [h.node m e, e]

theorem isNt (h : Cut t t' n) (m : Nat) : t'.IsNt m ↔ m ≠ n ∧ t.IsNt m := by
  unfold IsNt
  by_cases e : m = n
  · subst e; simp [h.dead]
  · simp [h.node m e, e]

theorem live_iff (h : Cut t t' n) (m : Nat) : t'.Live m ↔ m ≠ n ∧ t.Live m := by
  rw [Tree.live_iff, Tree.live_iff, h.isTerm, h.isNt]; tauto

theorem termAt (h : Cut t t' n) (m i : Nat) : t'.TermAt m i ↔ m ≠ n ∧ t.TermAt m i := by
  unfold TermAt
  by_cases e : m = n
  · subst e; simp [h.dead]
  · simp [h.node m e, e]

theorem dom (h : Cut t t' n) (hn : ¬ t.IsChild n n) {a b : Nat} (ha : a ≠ n) (hb : b ≠ n) :
    t'.Dom a b ↔ t.Dom a b := h.splice.dom_iff hn ha hb

theorem covers (h : Cut t t' n) (hn : ¬ t.IsChild n n) {m i : Nat} (hm : m ≠ n) :
    t'.Covers m i ↔ ∃ k, k ≠ n ∧ t.Dom m k ∧ t.TermAt k i := by
  unfold Covers
  constructor
  · rintro ⟨k, h1, h2⟩
    obtain ⟨h3, h4⟩ := (h.termAt k i).1 h2
    exact ⟨k, h3, (h.dom hn hm h3).1 h1, h4⟩
  · rintro ⟨k, h1, h2, h3⟩
    exact ⟨k, (h.dom hn hm h1).2 h2, (h.termAt k i).2 ⟨h1, h3⟩⟩

theorem covers_nt (h : Cut t t' n) (hn : ¬ t.IsChild n n) (hnt : t.IsNt n) {m i : Nat} (hm : m ≠ n) :
    t'.Covers m i ↔ t.Covers m i := by
  rw [h.covers hn hm]
  unfold Covers
  constructor
  · rintro ⟨k, _, h2, h3⟩; exact ⟨k, h2, h3⟩
  · rintro ⟨k, h2, h3⟩
    refine ⟨k, ?_, h2, h3⟩
    rintro rfl
    exact not_isTerm_isNt h3.isTerm hnt

/-- The smaller tree has a good shape if the larger one has: the node cut out is a nonterminal other
than the root, or a root with one child, or a leaf with a sibling. -/
theorem shape_down (h : Cut t t' n) (G : t.graph.OK) (S : t.Shape) (hu : t'.Uniq)
    (hroot : (n ≠ t.root ∧ t'.root = t.root) ∨ (n = t.root ∧ t.IsChild n t'.root ∧
      ∀ c, t.IsChild n c → c = t'.root))
    (hkeep : ∀ m, t.IsNt m → m ≠ n → ∃ c, t'.IsChild m c) : t'.Shape := by
  have hself := S.not_isChild_self G n
  have hr' : t'.root ≠ n ∧ t.Live t'.root := by
    rcases hroot with ⟨h1, h2⟩ | ⟨h1, h2, _⟩
    · exact ⟨fun e => h1 (e.symm.trans h2), h2 ▸ S.root_live⟩
    · refine ⟨?_, (isChild_live G h2).2⟩
      intro e
      rw [e] at h2
      exact hself h2
  refine ⟨(h.live_iff _).2 hr', ?_, hu, ?_, ?_, ?_⟩
  · intro p hp
    obtain ⟨h1, h2, h3⟩ := (h.splice p t'.root).1 hp
    rcases hroot with ⟨_, he⟩ | ⟨rfl, hc, _⟩
    · rw [he] at h3
      rcases h3 with h3 | ⟨_, h3⟩ <;> exact S.root_top _ h3
    · rcases h3 with h3 | ⟨h3, _⟩
      · exact h1 (S.isChild_unique h3 hc)
      · exact S.root_top _ h3
  · intro m hm
    obtain ⟨h1, h2⟩ := (h.live_iff m).1 hm
    rw [h.dom hself hr'.1 h1]
    have hd := S.reach m h2
    rcases hroot with ⟨_, he⟩ | ⟨e, _, honly⟩
    · rw [he]; exact hd
    · rw [← e] at hd
      rcases hd.cases_child with h3 | ⟨c, h3, h4⟩
      · exact absurd h3.symm h1
      · rw [honly c h3] at h4; exact h4
  · intro m c hm hc
    obtain ⟨_, h2⟩ := (h.isTerm m).1 hm
    obtain ⟨_, _, h3 | ⟨h3, _⟩⟩ := (h.splice m c).1 hc <;> exact S.term_leaf m _ h2 h3
  · intro m hm
    obtain ⟨h1, h2⟩ := (h.isNt m).1 hm
    exact hkeep m h2 h1

/-- The larger tree has a good shape if the smaller one has. -/
theorem shape_up (h : Cut t t' n) (G : t.graph.OK) (S : t'.Shape) (hu : t.Uniq) (hself : ¬ t.IsChild n n)
    (hterm : ∀ m c, t.IsTerm m → ¬ t.IsChild m c) (hnt : t.IsNt n → ∃ c, t.IsChild n c)
    (hroot : (t.root = t'.root ∧ ∃ p, p ≠ n ∧ t.IsChild p n) ∨
      (t.root = n ∧ t.IsChild n t'.root ∧ ∀ p, ¬ t.IsChild p n)) : t.Shape := by
  have hr' := (h.live_iff _).1 S.root_live
  refine ⟨?_, ?_, hu, ?_, hterm, ?_⟩
  · rcases hroot with ⟨h1, _⟩ | ⟨h1, _⟩
    · rw [h1]; exact hr'.2
    · rw [h1]; exact h.live
  · intro p hp
    rcases hroot with ⟨h1, q, hq, hqn⟩ | ⟨h1, h2, h3⟩
    · rw [h1] at hp
      by_cases e : p = n
      · subst e
        exact S.root_top q ((h.splice q _).2 ⟨hq, hr'.1, .inr ⟨hqn, hp⟩⟩)
      · exact S.root_top p ((h.splice p _).2 ⟨e, hr'.1, .inl hp⟩)
    · rw [h1] at hp; exact h3 p hp
  · intro m hm
    have hlow : ∀ m, m ≠ n → t.Live m → t.Dom t'.root m := fun m h1 h2 =>
      (h.dom hself hr'.1 h1).1 (S.reach m ((h.live_iff m).2 ⟨h1, h2⟩))
    rcases hroot with ⟨h1, q, hq, hqn⟩ | ⟨h1, h2, h3⟩
    · rw [h1]
      by_cases e : m = n
      · subst e
        exact (hlow q hq (isChild_live G hqn).1).tail hqn
      · exact hlow m e hm
    · rw [h1]
      by_cases e : m = n
      · subst e; exact Dom.refl
      · exact Dom.head h2 (hlow m e hm)
  · intro m hm
    by_cases e : m = n
    · subst e; exact hnt hm
    · obtain ⟨c, hc⟩ := S.nt_child m ((h.isNt m).2 ⟨e, hm⟩)
      obtain ⟨_, _, h3 | ⟨h3, _⟩⟩ := (h.splice m c).1 hc
      · exact ⟨c, h3⟩
      · exact ⟨n, h3⟩

end Cut

end Tree
end Lumberjack
