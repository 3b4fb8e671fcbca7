import Verif.Proofs.ReattachTerms
import Verif.Proofs.Unary
import Verif.Spec.Runs

/-!
# `insert_intermediate`
-/

namespace Lumberjack
namespace Tree

open Relation

variable {t t' : Tree}

theorem Conn.comm {S : Nat → Prop} {i j : Nat} : Conn S i j ↔ Conn S j i :=
  ⟨fun h k hk => h k hk.symm, fun h k hk => h k hk.symm⟩

theorem Conn.trans {S : Nat → Prop} {i j l : Nat} (h1 : Conn S i j) (h2 : Conn S j l) : Conn S i l := by
  intro k hk
  by_cases h : (i ≤ k ∧ k ≤ j) ∨ (j ≤ k ∧ k ≤ i)
  · exact h1 k h
  · exact h2 k (by omega)

theorem conn_self {S : Nat → Prop} {i l : Nat} (h1 : ¬ S (i + 1)) (h2 : ∀ k, k + 1 = i → ¬ S k) :
    Conn (fun k => S k ∨ k = i) i l ↔ l = i := by
  constructor
  · intro h
    by_contra hne
    rcases Nat.lt_or_gt_of_ne hne with hl | hl
    · rcases h (i - 1) (by omega) with h | h
      · exact h2 (i - 1) (by omega) h
      · omega
    · rcases h (i + 1) (by omega) with h | h
      · exact h1 h
      · omega
  · rintro rfl k hk
    right; omega

theorem conn_iso {S : Nat → Prop} {i j l : Nat} (h1 : ¬ S (i + 1)) (h2 : ∀ k, k + 1 = i → ¬ S k) (hj : j ≠ i) :
    Conn (fun k => S k ∨ k = i) j l ↔ Conn S j l := by
  constructor
  · intro h k hk
    rcases h k hk with hs | rfl
    · exact hs
    · exfalso
      rcases Nat.lt_or_gt_of_ne hj with hl | hl
      · rcases h (k - 1) (by omega) with h | h
        · exact h2 (k - 1) (by omega) h
        · omega
      · rcases h (k + 1) (by omega) with h | h
        · exact h1 h
        · omega
  · intro h k hk
    exact .inl (h k hk)

theorem conn_end {S : Nat → Prop} {i d j l : Nat} (hd : d + 1 = i) (h0 : ¬ S i) (h1 : ¬ S (i + 1)) (hj : j ≠ i) :
    Conn (fun k => S k ∨ k = i) j l ↔ Conn S j l ∨ (l = i ∧ Conn S j d) := by
  constructor
  · intro h
    by_cases hi : (j ≤ i ∧ i ≤ l) ∨ (l ≤ i ∧ i ≤ j)
    · right
      have hl : l = i := by
        by_contra hne
        have : (j ≤ i + 1 ∧ i + 1 ≤ l) ∨ (l ≤ i + 1 ∧ i + 1 ≤ j) := by omega
        rcases h _ this with h | h
        · exact h1 h
        · omega
      subst hl
      refine ⟨rfl, fun k hk => ?_⟩
      have hjl : j < l := by
        by_contra hc
        rcases h (l + 1) (by omega) with h | h
        · exact h1 h
        · omega
      rcases h k (by omega) with h | h
      · exact h
      · omega
    · left
      intro k hk
      rcases h k hk with h | rfl
      · exact h
      · exact absurd hk hi
  · rintro (h | ⟨rfl, h⟩)
    · exact fun k hk => .inl (h k hk)
    · intro k hk
      by_cases hkl : k = l
      · exact .inr hkl
      · by_cases hjl : j < l
        · exact .inl (h k (by omega))
        · exfalso
          exact h0 (h l (by omega))

theorem Run.comm {A : Nat → Prop} {c d : Nat} (h : t.Run A c d) : t.Run A d c := by
  obtain ⟨i, j, h1, h2, h3⟩ := h
  exact ⟨j, i, h2, h1, Conn.comm.1 h3⟩

theorem Run.trans {A : Nat → Prop} {c d e : Nat} (h : t.Run A c d) (h' : t.Run A d e) : t.Run A c e := by
  obtain ⟨i, j, h1, h2, h3⟩ := h
  obtain ⟨j', l, k1, k2, k3⟩ := h'
  have := h2.pos_unique k1
  subst this
  exact ⟨i, l, h1, k2, h3.trans k3⟩

theorem Run.right (Z : t.Sentence) {A : Nat → Prop} {c d : Nat} (h : t.Run A c d) : A d := by
  obtain ⟨i, j, h1, h2, h3⟩ := h
  obtain ⟨e, he, hej⟩ := h3 j (by omega)
  rw [← Z.inj _ _ _ hej h2]; exact he

theorem Run.left (Z : t.Sentence) {A : Nat → Prop} {c d : Nat} (h : t.Run A c d) : A c := h.comm.right Z

theorem Run.self {A : Nat → Prop} (Z : t.Sentence) {c : Nat} (hc : t.IsTerm c) (h : A c) : t.Run A c c := by
  obtain ⟨i, _, hi⟩ := Z.pos c hc
  refine ⟨i, i, hi, hi, fun k hk => ⟨c, h, ?_⟩⟩
  have : k = i := by omega
  rw [this]; exact hi

theorem Run.congr {A B : Nat → Prop} (h : ∀ x, A x ↔ B x) {c d : Nat} : t.Run A c d ↔ t.Run B c d := by
  have : A = B := funext fun x => propext (h x)
  rw [this]

theorem run_set {A : Nat → Prop} {c i : Nat} (hi : t.TermAt c i) :
    (fun k => ∃ e, (A e ∨ e = c) ∧ t.TermAt e k) = (fun k => (∃ e, A e ∧ t.TermAt e k) ∨ k = i) := by
  funext k
  apply propext
  constructor
  · rintro ⟨e, h | rfl, he⟩
    · exact .inl ⟨e, h, he⟩
    · exact .inr (he.pos_unique hi)
  · rintro (⟨e, h, he⟩ | rfl)
    · exact ⟨e, .inl h, he⟩
    · exact ⟨c, .inr rfl, hi⟩

theorem run_self (Z : t.Sentence) {A : Nat → Prop} {c i d : Nat} (hi : t.TermAt c i)
    (h1 : ∀ e, A e → ¬ t.TermAt e (i + 1)) (h2 : ∀ e k, A e → t.TermAt e k → k + 1 ≠ i) :
    t.Run (fun x => A x ∨ x = c) c d ↔ d = c := by
  constructor
  · rintro ⟨i', j, k1, k2, k3⟩
    have := k1.pos_unique hi
    subst this
    rw [run_set hi] at k3
    have := (conn_self (fun ⟨e, a, b⟩ => h1 e a b) (fun k hk ⟨e, a, b⟩ => h2 e k a b hk)).1 k3
    subst this
    exact Z.inj _ _ _ k2 hi
  · rintro rfl
    exact Run.self Z hi.isTerm (.inr rfl)

theorem run_iso (Z : t.Sentence) {A : Nat → Prop} {c i b d : Nat} (hi : t.TermAt c i) (hb : b ≠ c)
    (h1 : ∀ e, A e → ¬ t.TermAt e (i + 1)) (h2 : ∀ e k, A e → t.TermAt e k → k + 1 ≠ i) :
    t.Run (fun x => A x ∨ x = c) b d ↔ t.Run A b d := by
  constructor
  · rintro ⟨j, l, k1, k2, k3⟩
    have hj : j ≠ i := by rintro rfl; exact hb (Z.inj _ _ _ k1 hi)
    rw [run_set hi] at k3
    exact ⟨j, l, k1, k2, (conn_iso (fun ⟨e, a, b⟩ => h1 e a b) (fun k hk ⟨e, a, b⟩ => h2 e k a b hk) hj).1 k3⟩
  · rintro ⟨j, l, k1, k2, k3⟩
    refine ⟨j, l, k1, k2, fun k hk => ?_⟩
    obtain ⟨e, a, b⟩ := k3 k hk
    exact ⟨e, .inl a, b⟩

theorem run_end (Z : t.Sentence) {A : Nat → Prop} {c i e b d : Nat} (hi : t.TermAt c (i + 1)) (he : t.TermAt e i) (hb : b ≠ c)
    (h0 : ¬ A c) (h1 : ∀ e, A e → ¬ t.TermAt e (i + 1 + 1)) :
    t.Run (fun x => A x ∨ x = c) b d ↔ t.Run A b d ∨ (d = c ∧ t.Run A b e) := by
  have h0' : ¬ ∃ e, A e ∧ t.TermAt e (i + 1) := by
    rintro ⟨x, a, hx⟩
    rw [Z.inj _ _ _ hx hi] at a
    exact h0 a
  constructor
  · rintro ⟨j, l, k1, k2, k3⟩
    have hj : j ≠ i + 1 := by rintro rfl; exact hb (Z.inj _ _ _ k1 hi)
    rw [run_set hi] at k3
    rcases (conn_end rfl h0' (fun ⟨e, a, b⟩ => h1 e a b) hj).1 k3 with h | ⟨rfl, h⟩
    · exact .inl ⟨j, l, k1, k2, h⟩
    · exact .inr ⟨Z.inj _ _ _ k2 hi, j, i, k1, he, h⟩
  · rintro (⟨j, l, k1, k2, k3⟩ | ⟨rfl, j, l, k1, k2, k3⟩)
    · refine ⟨j, l, k1, k2, fun k hk => ?_⟩
      obtain ⟨e, a, b⟩ := k3 k hk
      exact ⟨e, .inl a, b⟩
    · have := k2.pos_unique he
      subst this
      have hj : j ≠ l + 1 := by rintro rfl; exact hb (Z.inj _ _ _ k1 hi)
      refine ⟨j, l + 1, k1, hi, ?_⟩
      rw [run_set hi]
      exact (conn_end rfl h0' (fun ⟨e, a, b⟩ => h1 e a b) hj).2 (.inr ⟨rfl, k3⟩)

/-- What `K` ranges over. -/
def KOK (t : Tree) (K : Nat → Nat → Prop) : Prop := ∀ p c, K p c → t.IsChild p c ∧ t.IsTerm c

/-- `K` with `c` below `p` added. -/
def addK (K : Nat → Nat → Prop) (p c : Nat) : Nat → Nat → Prop := fun a b => K a b ∨ (a = p ∧ b = c)

theorem KOK.add {K : Nat → Nat → Prop} (h : t.KOK K) {p c : Nat} (hp : t.IsChild p c) (hc : t.IsTerm c) :
    t.KOK (addK K p c) := by
  rintro a b (h' | ⟨rfl, rfl⟩)
  · exact h a b h'
  · exact ⟨hp, hc⟩

theorem addK_same {K : Nat → Nat → Prop} {p c x : Nat} : addK K p c p x ↔ (K p x ∨ x = c) := by simp [addK]

theorem addK_other {K : Nat → Nat → Prop} {p c a x : Nat} (h : a ≠ p) : addK K p c a x ↔ K a x := by simp [addK, h]

section steps

variable {t0 : Tree} {K : Nat → Nat → Prop} {lab : Nat → Str}

theorem Inserted.live_old (I : Inserted t0 K lab t) {n : Nat} (h : t0.Live n) : t.Live n := by
  obtain ⟨nd, hnd⟩ := h
  exact ⟨nd, by rw [I.old n ⟨nd, hnd⟩]; exact hnd⟩

theorem Inserted.termAt (I : Inserted t0 K lab t) {n i : Nat} (h : t0.TermAt n i) : t.TermAt n i := by
  obtain ⟨x, hx, hs⟩ := h
  exact ⟨x, by rw [I.old n ⟨_, hx⟩]; exact hx, hs⟩

theorem Inserted.isTerm (I : Inserted t0 K lab t) {n : Nat} (h : t0.IsTerm n) : t.IsTerm n := by
  obtain ⟨x, hx⟩ := h
  exact ⟨x, by rw [I.old n ⟨_, hx⟩]; exact hx⟩

/-- A new node is no terminal. -/
theorem Inserted.term_old (I : Inserted t0 K lab t) {n : Nat} (h : t.IsTerm n) : t0.IsTerm n := by
  by_cases hl : t0.Live n
  · obtain ⟨x, hx⟩ := h
    exact ⟨x, by rw [← I.old n hl]; exact hx⟩
  · obtain ⟨_, _, _, _, _, ⟨s, hs⟩, _⟩ := I.new n h.live hl
    obtain ⟨x, hx⟩ := h
    rw [hx] at hs; simp at hs

/-- Inserting a node above a terminal not adjacent to any in `K`. -/
theorem Inserted.single (W0 : t0.WF) (hK : t0.KOK K) (I : Inserted t0 K lab t) {p c i : Nat} (hp : t0.IsChild p c)
    (hi : t0.TermAt c i) (hn : ¬ K p c) (h1 : ∀ e, K p e → ¬ t0.TermAt e (i + 1)) (h2 : ∀ e k, K p e → t0.TermAt e k → k + 1 ≠ i) :
    ∃ t' ins, t.insertUnaryAbove c (lab p) = .ok (t', ins) ∧ Inserted t0 (addK K p c) lab t' ∧ t'.IsChild ins c ∧ ¬ t0.Live ins := by
  have W := I.wf
  have Z0 := W0.sentence
  obtain ⟨hpl, hcl⟩ := isChild_live W0.graph hp
  have hpc : t.IsChild p c := (I.child p c hpl hcl).2 ⟨hp, hn⟩
  obtain ⟨x, hx, hxs⟩ := I.termAt hi
  obtain ⟨t1, ins, k1, k2, k3, k4, k5, k6, k7, k8, k9, k10⟩ := insertUnaryAbove_spec W.core hx (lab p)
  have hcr : c ≠ t.root := by rintro rfl; exact W.shape.root_top _ hpc
  have hins : ¬ t.Live ins := by rintro ⟨nd, h⟩; rw [k3.dead] at h; simp at h
  have hins0 : ¬ t0.Live ins := fun h => hins (I.live_old h)
  have hnode : ∀ m, m ≠ ins → t1.graph.node? m = t.graph.node? m := fun m hm => (k3.node m hm).symm
  have W1 : t1.WF := by
    refine k2.wf (k3.count_up W.count ?_)
    rw [if_neg, k5]
    rintro ⟨y, hy, hys⟩
    rw [k4] at hy
    have : y = NonTerminal.new (lab p) (Node.term x).span := by simpa using hy.symm
    rw [this] at hys
    simp [NonTerminal.new, Node.span, hxs, Span.ofIdx] at hys
  have hroot : t1.root = t.root := by rw [k8, if_neg hcr]
  have hnew_not_c : ∀ n, ¬ t0.Live n → ¬ t.IsChild n c := by
    intro n hn' h
    rw [W.shape.isChild_unique h hpc] at hn'
    exact hn' hpl
  have hlab : ∀ b, b ≠ ins → b ≠ c → t1.inLabel b = t.inLabel b := by
    intro b hb hbc
    refine inLabel_congr W.shape W1.shape ?_ ?_
    · rintro r hr hw rfl
      exact ⟨r, k9 r hr (.inr hbc), rfl, rfl⟩
    · intro q hq
      rcases (k7 q b).1 hq with ⟨h, _⟩ | ⟨_, h⟩ | ⟨_, h⟩
      · exact ⟨q, h⟩
      · exact absurd h hb
      · exact absurd h hbc
  have hlabc : t1.inLabel c = t.inLabel c := by
    obtain ⟨r, hr, rs, rt, hw⟩ := (k7 ins c).2 (.inr (.inr ⟨rfl, rfl⟩))
    have hl1 := W1.shape.edgeLabel_of_edge hr hw
    rw [rt] at hl1
    unfold inLabel
    rw [hl1]
    rcases k10 r hr with h | ⟨_, h, _⟩ | ⟨_, _, _, ⟨s, hs, hst, hsw⟩ | ⟨h, _⟩⟩
    · have h' := (isChild_live W.graph ⟨r, h, rs, rt, hw⟩).1
      exact absurd h' hins
    · exact absurd (rt.symm.trans h ▸ (isChild_live W.graph hpc).2) hins
    · have := W.shape.edgeLabel_of_edge hs (by rw [hsw]; exact hw)
      rw [hst] at this
      rw [this, hsw]
    · exact absurd hpc (h p)
  have hinsc : ins ≠ c := by rintro rfl; exact hins (isChild_live W.graph hpc).2
  refine ⟨t1, ins, k1, ⟨W1, hroot.trans I.root, k6.trans I.nterm, ?_, ?_, ?_, ?_, ?_, ?_, ?_, ?_⟩,
    (k7 ins c).2 (.inr (.inr ⟨rfl, rfl⟩)), hins0⟩
  · intro n hn'
    rw [hnode n (by rintro rfl; exact hins0 hn')]
    exact I.old n hn'
  · intro a b ha hb
    rw [k7]
    constructor
    · rintro (⟨h, hbc⟩ | ⟨_, rfl⟩ | ⟨rfl, _⟩)
      · obtain ⟨u1, u2⟩ := (I.child a b ha hb).1 h
        exact ⟨u1, not_or.2 ⟨u2, fun h => hbc h.2⟩⟩
      · exact absurd hb hins0
      · exact absurd ha hins0
    · rintro ⟨h, h'⟩
      rw [addK, not_or] at h'
      refine .inl ⟨(I.child a b ha hb).2 ⟨h, h'.1⟩, ?_⟩
      rintro rfl
      exact h'.2 ⟨W0.shape.isChild_unique h hp, rfl⟩
  · rintro a b (h | ⟨rfl, rfl⟩)
    · obtain ⟨n, g1, g2⟩ := I.cover a b h
      refine ⟨n, g1, (k7 n b).2 (.inl ⟨g2, ?_⟩)⟩
      rintro rfl
      exact hnew_not_c n g1 g2
    · exact ⟨ins, hins0, (k7 ins b).2 (.inr (.inr ⟨rfl, rfl⟩))⟩
  · intro n hl hl0
    by_cases hni : n = ins
    · subst hni
      refine ⟨p, c, .inr ⟨rfl, rfl⟩, (k7 p n).2 (.inr (.inl ⟨hpc, rfl⟩)), ?_, ⟨_, k4⟩, ?_⟩
      · obtain ⟨r, hr, rs, rt, hw⟩ := (k7 p n).2 (.inr (.inl ⟨hpc, rfl⟩))
        have hl1 := W1.shape.edgeLabel_of_edge hr hw
        rw [rt] at hl1
        unfold inLabel
        rw [hl1]
        rcases k10 r hr with h | ⟨_, _, h⟩ | ⟨_, h, _⟩
        · exact absurd (isChild_live W.graph ⟨r, h, rs, rt, hw⟩).2 hins
        · rw [h]; rfl
        · exact absurd (rt.symm.trans h) hinsc
      · intro d
        rw [Run.congr (fun x => addK_same), run_self Z0 hi h1 h2, k7]
        constructor
        · rintro (⟨h, _⟩ | ⟨h, _⟩ | ⟨_, h⟩)
          · exact absurd (isChild_live W.graph h).1 hins
          · exact absurd (isChild_live W.graph h).1 hins
          · exact h
        · rintro rfl
          exact .inr (.inr ⟨rfl, rfl⟩)
    · have hlt : t.Live n := by
        obtain ⟨nd, h⟩ := hl
        exact ⟨nd, by rw [← hnode n hni]; exact h⟩
      obtain ⟨p', c', g1, g2, g3, ⟨s, g4⟩, g5⟩ := I.new n hlt hl0
      have hnc : n ≠ c := by rintro rfl; exact hl0 hcl
      refine ⟨p', c', .inl g1, (k7 p' n).2 (.inl ⟨g2, hnc⟩), (hlab n hni hnc).trans g3, ⟨s, by rw [hnode n hni]; exact g4⟩, ?_⟩
      intro d
      have e1 : t1.IsChild n d ↔ t.IsChild n d := by
        rw [k7]
        constructor
        · rintro (⟨h, _⟩ | ⟨h, _⟩ | ⟨h, _⟩)
          · exact h
          · exact absurd h (hnew_not_c n hl0)
          · exact absurd h hni
        · intro h
          refine .inl ⟨h, ?_⟩
          rintro rfl
          exact hnew_not_c n hl0 h
      rw [e1, g5]
      by_cases hpp : p' = p
      · subst hpp
        rw [Run.congr (fun x => addK_same), run_iso Z0 hi (by rintro rfl; exact hn g1) h1 h2]
      · rw [Run.congr (fun x => addK_other hpp)]
  · intro r hr h
    rcases h with h | h
    · exact k9 r (I.edges r hr (.inl h)) (.inl h)
    · rw [addK, not_or] at h
      by_cases hw : r.w.isPrimary = true
      · refine k9 r (I.edges r hr (.inr h.1)) (.inr fun e => h.2 ⟨?_, e⟩)
        exact W0.shape.isChild_unique (c := r.tgt) ⟨r, hr, rfl, rfl, hw⟩ (by rw [e]; exact hp)
      · have hw' : r.w.isPrimary = false := by simpa using hw
        exact k9 r (I.edges r hr (.inl hw')) (.inl hw')
  · intro a b d k ha hd hdk hbk
    have hb0 : b ≠ c := by
      rintro rfl
      have hap : a = p := W0.shape.isChild_unique ((hK.add hp hi.isTerm) a b ha).1 hp
      subst hap
      have hk := hbk.pos_unique hi
      rcases hd with hd | ⟨_, rfl⟩
      · exact h2 d k hd hdk hk
      · have := hdk.pos_unique hi; omega
    have ha' : K a b := ha.resolve_right fun h => hb0 h.2
    have hd' : K a d := by
      rcases hd with hd | ⟨rfl, rfl⟩
      · exact hd
      · have := hdk.pos_unique hi
        subst this
        exact absurd hbk (h1 b ha')
    rw [hlab b ?_ hb0]
    · exact I.follow a b d k ha' hd' hdk hbk
    · rintro rfl
      exact hins0 hbk.isTerm.live
  · intro b hb h
    have hbi : b ≠ ins := by rintro rfl; exact hins0 hb
    have hfirst : t.inLabel b = t0.inLabel b := I.first b hb fun a d k u1 u2 => h a d k (.inl u1) (.inl u2)
    by_cases hbc : b = c
    · subst hbc; rw [hlabc, hfirst]
    · rw [hlab b hbi hbc, hfirst]
  · intro r' hr' hw'
    rcases k10 r' hr' with h | ⟨_, _, h⟩ | ⟨_, _, h, _⟩
    · exact I.secondary r' h hw'
    · rw [h] at hw'; simp [Edge.isPrimary] at hw'
    · rw [h] at hw'; simp at hw'

/-- Adding the next terminal to the run of the one before it. -/
theorem Inserted.extend (W0 : t0.WF) (hK : t0.KOK K) (I : Inserted t0 K lab t) {p c d i q : Nat} {r : EdgeRec}
    (hr : r ∈ t0.graph.edges) (hrs : r.src = p) (hrt : r.tgt = c) (hrw : r.w.isPrimary = true)
    (hi : t0.TermAt c (i + 1)) (hn : ¬ K p c) (hd : K p d) (hdi : t0.TermAt d i) (hq : t.IsChild q d) (hq0 : ¬ t0.Live q)
    (h1 : ∀ e, K p e → ¬ t0.TermAt e (i + 1 + 1)) :
    ∃ t' x, t.reattachNode q r.id = .ok (t', .ok x) ∧ Inserted t0 (addK K p c) lab t' ∧ t'.IsChild q c := by
  have W := I.wf
  have S := W.shape
  have Z0 := W0.sentence
  have hp : t0.IsChild p c := ⟨r, hr, hrs, hrt, hrw⟩
  obtain ⟨hpl, hcl⟩ := isChild_live W0.graph hp
  have hpc : t.IsChild p c := (I.child p c hpl hcl).2 ⟨hp, hn⟩
  have hrt' : r ∈ t.graph.edges := I.edges r hr (.inr (by rw [hrs, hrt]; exact hn))
  obtain ⟨p', c', g1, g2, g3, ⟨s, g4⟩, g5⟩ := I.new q (isChild_live W.graph hq).1 hq0
  have hrun := (g5 d).1 hq
  have hpp : p' = p := W0.shape.isChild_unique (hK _ _ (hrun.right Z0)).1 (hK _ _ hd).1
  subst hpp
  have hct := I.isTerm hi.isTerm
  have hqc : q ≠ c := by rintro rfl; exact hq0 hcl
  have hnd : ¬ t.Dom r.tgt q := by
    rw [hrt]; intro h; exact hqc (S.dom_term hct h)
  obtain ⟨t1, e', k1, k2, k3, k4, k5, k6, k7, k8, k9, k10, k11, k12, k13, k14⟩ :=
    reattachPrimary_spec W hrt' hrw ⟨_, g4⟩ hnd (.inr ⟨q, by rw [hrt]; exact hqc, by rw [hrs]; exact g2⟩)
  have W1 : t1.WF := ⟨k2, k3, k4, k13 (.inr (by rw [hrs]; exact .single g2)), k5⟩
  rw [hrt] at k6 k7
  have hlive1 : ∀ n, t1.Live n ↔ t.Live n := by
    intro n
    have := k11 n
    unfold content at this
    unfold Live Graph.Live
    cases h1 : t1.graph.node? n with
    | none =>
      cases h2 : t.graph.node? n with
      | none => simp
      | some b => rw [h1, h2] at this; simp at this
    | some a =>
      cases h2 : t.graph.node? n with
      | none => rw [h1, h2] at this; simp at this
      | some b => simp
  have hdom : ∀ n m, n ≠ q → (t1.Dom n m ↔ t.Dom n m) := by
    intro n m hnq
    constructor
    · intro h
      induction h with
      | refl => exact Dom.refl
      | tail hb hc ih =>
        rcases (k6 _ _).1 hc with ⟨h, _⟩ | ⟨rfl, rfl⟩
        · exact ih.tail h
        · rcases ReflTransGen.cases_tail ih with h | ⟨b, hb', hbc⟩
          · exact absurd h.symm hnq
          · rw [S.isChild_unique hbc g2] at hb'
            exact hb'.tail hpc
    · intro h
      induction h with
      | refl => exact Dom.refl
      | tail hb hc ih =>
        rename_i a b
        by_cases hbc : b = c
        · subst hbc
          rw [S.isChild_unique hc hpc] at ih
          exact (ih.tail ((k6 _ _).2 (.inl ⟨g2, hqc⟩))).tail ((k6 _ _).2 (.inr ⟨rfl, rfl⟩))
        · exact ih.tail ((k6 _ _).2 (.inl ⟨hc, hbc⟩))
  have htermAt : ∀ m k, t1.TermAt m k ↔ t.TermAt m k := by
    intro m k
    constructor
    · rintro ⟨x, hx, hs⟩
      have := k11 m
      unfold content at this
      rw [hx] at this
      cases h2 : t.graph.node? m with
      | none => rw [h2] at this; simp at this
      | some y =>
        cases y with
        | nt y => rw [h2] at this; simp [Node.replaceSpan] at this
        | term y =>
          have := k10 m y h2
          rw [hx] at this
          simp at this
          subst this
          exact ⟨x, h2, hs⟩
    · rintro ⟨x, hx, hs⟩
      exact ⟨x, k10 m x hx, hs⟩
  have hnode : ∀ n, n ≠ q → t1.graph.node? n = t.graph.node? n := by
    intro n hnq
    cases hx : t.graph.node? n with
    | none =>
      cases hy : t1.graph.node? n with
      | none => rfl
      | some y =>
        have := (hlive1 n).1 ⟨y, hy⟩
        obtain ⟨z, hz⟩ := this
        rw [hx] at hz; simp at hz
    | some nd =>
      cases nd with
      | term x => exact k10 n x hx
      | nt x =>
        obtain ⟨y, hy⟩ := (hlive1 n).2 ⟨_, hx⟩
        have hc := k11 n
        unfold content at hc
        rw [hx, hy] at hc
        cases y with
        | term y => simp [Node.replaceSpan] at hc
        | nt y =>
          obtain ⟨v1, c1⟩ := W.span_spec hx
          obtain ⟨v2, c2⟩ := W1.span_spec hy
          have : y.span = x.span := by
            refine Span.Valid.ext v2 v1 ?_
            ext j
            refine (c2 j).trans (Iff.trans ?_ (c1 j).symm)
            unfold Covers
            constructor
            · rintro ⟨m, m1, m2⟩; exact ⟨m, (hdom n m hnq).1 m1, (htermAt m j).1 m2⟩
            · rintro ⟨m, m1, m2⟩; exact ⟨m, (hdom n m hnq).2 m1, (htermAt m j).2 m2⟩
          rw [hy]
          cases x; cases y
          simp [Node.replaceSpan] at hc this ⊢
          exact ⟨hc.1, hc.2, this⟩
  have hlab : ∀ b, b ≠ c → t1.inLabel b = t.inLabel b := by
    intro b hb
    refine inLabel_congr S k3 ?_ ?_
    · rintro r' hr' hw' rfl
      refine ⟨r', ?_, rfl, rfl⟩
      rw [k7, List.mem_cons, List.mem_filter]
      refine .inr ⟨hr', decide_eq_true fun h => hb ?_⟩
      rw [W.graph.edge_ext hr' hrt' h, hrt]
    · intro a ha
      rcases (k6 a b).1 ha with ⟨h, _⟩ | ⟨_, h⟩
      · exact ⟨a, h⟩
      · exact absurd h hb
  have hlabc : t1.inLabel c = none := by
    unfold inLabel
    have := k3.edgeLabel_of_edge (r := ⟨e', q, c, .primary none⟩) (by rw [k7]; simp) rfl
    rw [this]; rfl
  have hnew_not_c : ∀ n, ¬ t0.Live n → ¬ t.IsChild n c := by
    intro n hn' h
    rw [S.isChild_unique h hpc] at hn'
    exact hn' hpl
  refine ⟨t1, (e', r.w), ?_, ⟨W1, k8.trans I.root, k9.trans I.nterm, ?_, ?_, ?_, ?_, ?_, ?_, ?_, ?_⟩, (k6 q c).2 (.inr ⟨rfl, rfl⟩)⟩
  · unfold reattachNode
    rw [Graph.contains_iff.2 ⟨_, g4⟩, (Graph.edge?_eq W.graph).2 ⟨hrt', rfl⟩]
    simp only [Res.assert_true, Res.ok_bind, Res.ofOption_some]
    rw [if_neg (fun h : r.tgt = q => hnd (h ▸ Dom.refl))]
    cases hw' : r.w with
    | primary l => rw [hw'] at k1; exact k1
    | secondary l => rw [hw'] at hrw; simp [Edge.isPrimary] at hrw
  · intro n hn'
    rw [hnode n (by rintro rfl; exact hq0 hn')]
    exact I.old n hn'
  · intro a b ha hb
    rw [k6]
    constructor
    · rintro (⟨h, hbc⟩ | ⟨rfl, _⟩)
      · obtain ⟨u1, u2⟩ := (I.child a b ha hb).1 h
        exact ⟨u1, not_or.2 ⟨u2, fun h => hbc h.2⟩⟩
      · exact absurd ha hq0
    · rintro ⟨h, h'⟩
      rw [addK, not_or] at h'
      refine .inl ⟨(I.child a b ha hb).2 ⟨h, h'.1⟩, ?_⟩
      rintro rfl
      exact h'.2 ⟨W0.shape.isChild_unique h hp, rfl⟩
  · rintro a b (h | ⟨rfl, rfl⟩)
    · obtain ⟨n, u1, u2⟩ := I.cover a b h
      refine ⟨n, u1, (k6 n b).2 (.inl ⟨u2, ?_⟩)⟩
      rintro rfl
      exact hnew_not_c n u1 u2
    · exact ⟨q, hq0, (k6 q b).2 (.inr ⟨rfl, rfl⟩)⟩
  · intro n hl hl0
    have hlt := (hlive1 n).1 hl
    obtain ⟨a, b, u1, u2, u3, ⟨s', u4⟩, u5⟩ := I.new n hlt hl0
    have hnc : n ≠ c := by rintro rfl; exact hl0 hcl
    refine ⟨a, b, .inl u1, (k6 a n).2 (.inl ⟨u2, hnc⟩), (hlab n hnc).trans u3, ?_, ?_⟩
    · obtain ⟨y, hy⟩ := hl
      have hc := k11 n
      unfold content at hc
      rw [u4, hy] at hc
      cases y with
      | term y => simp [Node.replaceSpan] at hc
      | nt y =>
        refine ⟨y.span, ?_⟩
        rw [hy]
        cases y
        simp [Node.replaceSpan, NonTerminal.new] at hc ⊢
        exact hc
    · intro x
      rw [k6]
      by_cases hap : a = p'
      · subst hap
        rw [Run.congr (fun x => addK_same), run_end Z0 hi hdi (by rintro rfl; exact hn u1) hn h1, u5]
        constructor
        · rintro (⟨h, _⟩ | ⟨rfl, rfl⟩)
          · exact .inl h
          · exact .inr ⟨rfl, (u5 d).1 hq⟩
        · rintro (h | ⟨rfl, h⟩)
          · refine .inl ⟨h, ?_⟩
            rintro rfl
            exact hn (h.right Z0)
          · exact .inr ⟨S.isChild_unique ((u5 d).2 h) hq, rfl⟩
      · rw [Run.congr (fun x => addK_other hap), u5]
        constructor
        · rintro (⟨h, _⟩ | ⟨rfl, rfl⟩)
          · exact h
          · exact absurd (S.isChild_unique u2 g2) hap
        · intro h
          refine .inl ⟨h, ?_⟩
          rintro rfl
          exact hap (W0.shape.isChild_unique (hK _ _ (h.right Z0)).1 hp)
  · intro r' hr' h
    have key : r' ∈ t.graph.edges → r'.id ≠ r.id → r' ∈ t1.graph.edges := by
      intro u1 u2
      rw [k7, List.mem_cons, List.mem_filter]
      exact .inr ⟨u1, decide_eq_true u2⟩
    rcases h with h | h
    · refine key (I.edges r' hr' (.inl h)) fun e => ?_
      rw [W0.graph.edge_ext hr' hr e, hrw] at h
      simp at h
    · rw [addK, not_or] at h
      refine key (I.edges r' hr' (.inr h.1)) fun e => ?_
      have := W0.graph.edge_ext hr' hr e
      subst this
      exact h.2 ⟨hrs, hrt⟩
  · intro a b x k ha hx hxk hbk
    by_cases hbc : b = c
    · rw [hbc]; exact hlabc
    · have ha' : K a b := ha.resolve_right fun h => hbc h.2
      have hx' : K a x := by
        rcases hx with hx | ⟨rfl, rfl⟩
        · exact hx
        · have := hxk.pos_unique hi
          subst this
          exact absurd hbk (h1 b ha')
      rw [hlab b hbc]
      exact I.follow a b x k ha' hx' hxk hbk
  · intro b hb h
    have hbc : b ≠ c := by
      rintro rfl
      exact h p' d i (.inr ⟨rfl, rfl⟩) (.inl hd) hdi hi
    rw [hlab b hbc]
    exact I.first b hb fun a d k u1 u2 => h a d k (.inl u1) (.inl u2)
  · intro r' hr' hw'
    rw [k7, List.mem_cons, List.mem_filter] at hr'
    rcases hr' with h | ⟨h, _⟩
    · rw [h] at hw'; simp [Edge.isPrimary] at hw'
    · exact I.secondary r' h hw'

end steps

/-- Changing `K` to an equivalent relation. -/
theorem Inserted.congr {t0 : Tree} {K K' : Nat → Nat → Prop} {lab : Nat → Str} (I : Inserted t0 K lab t)
    (h : ∀ a b, K' a b ↔ K a b) : Inserted t0 K' lab t := by
  have : K' = K := funext fun a => funext fun b => propext (h a b)
  rw [this]; exact I

theorem forE_cons_ok {α σ ε : Type} {f : σ → α → Res (σ × Except ε Unit)} {a : α} {as : List α} {s s' : σ}
    (h : f s a = .ok (s', .ok ())) : forE f (a :: as) s = forE f as s' := by
  rw [forE, h]; rfl

theorem intermediateInner_spec {t0 : Tree} {lab : Nat → Str} (W0 : t0.WF) {p : Nat} :
    ∀ (l : List (Nat × Nat)) {K : Nat → Nat → Prop} {t : Tree} {vis : Finset Nat} {ins prev : Nat}, t0.KOK K →
    Inserted t0 K lab t → (∃ d, K p d ∧ t0.TermAt d prev ∧ t.IsChild ins d) → ¬ t0.Live ins →
    (∀ d k, K p d → t0.TermAt d k → k ≤ prev) →
    (∀ x ∈ l, t0.IsTerm x.1 ∧ ∃ r ∈ t0.graph.edges, r.src = p ∧ r.tgt = x.1 ∧ r.w.isPrimary = true ∧ r.id = x.2) →
    (∀ x ∈ l, prev < t0.startOf x.1) → l.Pairwise (fun x y => t0.startOf x.1 < t0.startOf y.1) →
    ∃ t' ins' prev', forE (intermediateInner (lab p)) l (t, vis, ins, prev) =
        .ok ((t', vis ∪ (l.map (·.1)).toFinset, ins', prev'), .ok ()) ∧
      Inserted t0 (fun a b => K a b ∨ (a = p ∧ b ∈ l.map (·.1))) lab t' := by
  intro l
  induction l with
  | nil =>
    intro K t vis ins prev hK I _ _ _ _ _ _
    exact ⟨t, ins, prev, by simp [forE], I.congr (by simp)⟩
  | cons y l ih =>
    intro K t vis ins prev hK I hd hins hle hl hlt hpw
    obtain ⟨c, e⟩ := y
    obtain ⟨d, d1, d2, d3⟩ := hd
    obtain ⟨hct, r, r1, r2, r3, r4, r5⟩ := hl (c, e) (by simp)
    simp only at hct r3 r5
    obtain ⟨i, _, hi⟩ := W0.sentence.pos c hct
    have hsi : t0.startOf c = i := hi.startOf
    have hgt := hlt (c, e) (by simp)
    simp only [hsi] at hgt
    have hpc : t0.IsChild p c := ⟨r, r1, r2, r3, r4⟩
    have hnK : ¬ K p c := fun h => by have := hle c i h hi; omega
    have hnode : ∃ x, t.graph.node? c = some (.term x) ∧ x.span.start = i := by
      obtain ⟨x, hx, hs⟩ := I.termAt hi
      exact ⟨x, hx, by rw [hs]; rfl⟩
    obtain ⟨x, hx, hxs⟩ := hnode
    rw [List.pairwise_cons] at hpw
    have hle' : ∀ d k, addK K p c p d → t0.TermAt d k → k ≤ i := by
      rintro d k (h | ⟨_, rfl⟩) hk
      · have := hle d k h hk; omega
      · have := hk.pos_unique hi; omega
    have hlt' : ∀ x ∈ l, i < t0.startOf x.1 := by
      intro x hx
      have := hpw.1 x hx
      simp only [hsi] at this
      exact this
    have fin : ∀ {t1 ins1}, Inserted t0 (addK K p c) lab t1 → t1.IsChild ins1 c → ¬ t0.Live ins1 →
        intermediateInner (lab p) (t, vis, ins, prev) (c, e) = .ok ((t1, insert c vis, ins1, i), .ok ()) →
        ∃ t' ins' prev', forE (intermediateInner (lab p)) ((c, e) :: l) (t, vis, ins, prev) =
          .ok ((t', vis ∪ (((c, e) :: l).map (·.1)).toFinset, ins', prev'), .ok ()) ∧
          Inserted t0 (fun a b => K a b ∨ (a = p ∧ b ∈ ((c, e) :: l).map (·.1))) lab t' := by
      intro t1 ins1 J j1 j2 j3
      obtain ⟨t', ins', prev', g1, g2⟩ := ih (vis := insert c vis) (hK.add hpc hct) J
        ⟨c, .inr ⟨rfl, rfl⟩, hi, j1⟩ j2 hle' (fun x hx => hl x (by simp [hx])) hlt' hpw.2
      refine ⟨t', ins', prev', ?_, g2.congr ?_⟩
      · rw [forE_cons_ok j3, g1]
        simp
      · intro a b
        simp only [List.map_cons, List.mem_cons, addK]
        constructor
        · rintro (h | ⟨rfl, h | h⟩)
          · exact .inl (.inl h)
          · exact .inl (.inr ⟨rfl, h⟩)
          · exact .inr ⟨rfl, h⟩
        · rintro ((h | ⟨rfl, h⟩) | ⟨rfl, h⟩)
          · exact .inl h
          · exact .inr ⟨rfl, .inl h⟩
          · exact .inr ⟨rfl, .inr h⟩
    by_cases hadj : i = prev + 1
    · subst hadj
      obtain ⟨t1, w, g1, g2, g3⟩ := I.extend W0 hK r1 r2 r3 r4 hi hnK d1 d2 d3 hins (fun e he hk => by
        have := hle e _ he hk; omega)
      refine fin g2 g3 hins ?_
      unfold intermediateInner
      simp only [node_eq hx, Res.ok_bind, Node.span, hxs, if_true, ← r5, g1]
      rfl
    · obtain ⟨t1, ins1, g1, g2, g3, g4⟩ := I.single W0 hK hpc hi hnK
        (fun e he hk => by have := hle e _ he hk; omega) (fun e k he hk => by have := hle e _ he hk; omega)
      refine fin g2 g3 g4 ?_
      unfold intermediateInner
      simp only [node_eq hx, Res.ok_bind, Node.span, hxs, if_neg hadj, g1]
      rfl

theorem mem_termKids {p c e : Nat} : (c, e) ∈ t.termKids p ↔ (c, e) ∈ t.children p ∧ t.IsTerm c := by
  unfold termKids
  rw [List.mem_insertionSort, List.mem_filter]
  refine and_congr_right fun _ => ?_
  unfold IsTerm
  cases t.graph.node? c with
  | none => simp
  | some nd => cases nd <;> simp [Node.isTerminal]

theorem mem_termKids_fst {p c : Nat} : c ∈ (t.termKids p).map (·.1) ↔ t.IsChild p c ∧ t.IsTerm c := by
  rw [List.mem_map]
  constructor
  · rintro ⟨⟨c, e⟩, h, rfl⟩
    obtain ⟨h1, h2⟩ := mem_termKids.1 h
    exact ⟨mem_children_fst.1 (List.mem_map.2 ⟨_, h1, rfl⟩), h2⟩
  · rintro ⟨h1, h2⟩
    obtain ⟨⟨c', e⟩, h3, rfl⟩ := List.mem_map.1 (mem_children_fst.2 h1)
    exact ⟨(c', e), mem_termKids.2 ⟨h3, h2⟩, rfl⟩

theorem termKids_sorted (W : t.WF) (p : Nat) :
    (t.termKids p).Pairwise (fun x y => t.startOf x.1 < t.startOf y.1) := by
  have hterm : ∀ x ∈ (t.children p).filter (fun c => (t.graph.node? c.1).any Node.isTerminal), t.IsTerm x.1 ∧ x ∈ t.children p := by
    intro x hx
    have := mem_termKids.1 (show (x.1, x.2) ∈ t.termKids p by unfold termKids; rw [List.mem_insertionSort]; exact hx)
    exact ⟨this.2, this.1⟩
  have hnd : ((t.children p).filter (fun c => (t.graph.node? c.1).any Node.isTerminal)).Nodup :=
    (List.Nodup.of_map _ (children_ids_nodup W.graph p)).filter _
  have key : t.termKids p = ((t.children p).filter (fun c => (t.graph.node? c.1).any Node.isTerminal)).insertionSort
      (fun x y => t.startOf x.1 ≤ t.startOf y.1) := by
    unfold termKids
    refine insertionSort_congr _ fun a ha b hb => ?_
    obtain ⟨i, _, x, hx, hxs⟩ := W.sentence.pos _ (hterm a ha).1
    obtain ⟨j, _, y, hy, hys⟩ := W.sentence.pos _ (hterm b hb).1
    have e1 : t.startOf a.1 = i := TermAt.startOf ⟨x, hx, hxs⟩
    have e2 : t.startOf b.1 = j := TermAt.startOf ⟨y, hy, hys⟩
    rw [hx, hy, e1, e2]
    simp only [Node.span, hxs, hys]
    unfold Span.cmp Span.ofIdx
    rcases Nat.lt_trichotomy i j with h | h | h
    · simp [Nat.compare_eq_lt.2 h, Nat.ne_of_lt h, Nat.le_of_lt h]
    · subst h; simp
    · simp [Nat.compare_eq_gt.2 h, Nat.ne_of_gt h, h]
  have hT : Std.Total (fun x y : Nat × Nat => t.startOf x.1 ≤ t.startOf y.1) := ⟨fun a b => Nat.le_total _ _⟩
  have hTr : IsTrans (Nat × Nat) (fun x y => t.startOf x.1 ≤ t.startOf y.1) := ⟨fun a b c h1 h2 => Nat.le_trans h1 h2⟩
  have hs : (t.termKids p).Pairwise (fun x y => t.startOf x.1 ≤ t.startOf y.1) := by
    rw [key]; exact List.pairwise_insertionSort _ _
  have hnd' : (t.termKids p).Nodup := (List.perm_insertionSort _ _).nodup_iff.2 hnd
  refine (hs.and hnd').imp_of_mem (fun {a b} ha hb h => ?_)
  rcases Nat.lt_or_ge (t.startOf a.1) (t.startOf b.1) with h' | h'
  · exact h'
  · exfalso
    obtain ⟨a1, a2⟩ := a
    obtain ⟨b1, b2⟩ := b
    obtain ⟨ha1, ha2⟩ := mem_termKids.1 ha
    obtain ⟨hb1, hb2⟩ := mem_termKids.1 hb
    have e : a1 = b1 := W.sentence.startOf_inj ha2 hb2 (by simp only at h h'; omega)
    subst e
    obtain ⟨r, u1, u2, u3, u4, u5⟩ := mem_children.1 ha1
    obtain ⟨r', v1, v2, v3, v4, v5⟩ := mem_children.1 hb1
    have := W.shape.unique r u1 r' v1 (u3.trans v3.symm) u5 v5
    subst this
    exact h.2 (by rw [← u4, ← v4])

/-- All terminal children of the nodes in `P`. -/
def kidsIn (t : Tree) (P : Nat → Prop) : Nat → Nat → Prop := fun p c => P p ∧ t.IsChild p c ∧ t.IsTerm c

theorem kidsIn_ok {P : Nat → Prop} : t.KOK (kidsIn t P) := fun _ _ h => h.2

/-- The state of the outer loop. -/
structure OInv (t0 : Tree) (f : Tree → Nat → Option Str) (P : Nat → Prop) (vis : Finset Nat) (t : Tree) : Prop where
  ins : Inserted t0 (kidsIn t0 P) (fun p => (f t0 p).getD []) t
  sound : ∀ p, P p → ∃ l, f t0 p = some l
  seen : ∀ c ∈ vis, ∀ p, t0.IsChild p c → ∀ l, f t0 p = some l → P p
  rest : ∀ p, P p → ∀ c, t0.IsChild p c → t0.IsTerm c → c ∈ vis ∨ ∀ l, f t0 p = some l → Silent f l

theorem intermediateStep_spec {t0 : Tree} (W0 : t0.WF) {f : Tree → Nat → Option Str} (hf : NodeFn f)
    (hH : ∀ p l, f t0 p = some l → Silent f l ∨ t0.FirstLeast p)
    {P : Nat → Prop} {vis : Finset Nat} (I : OInv t0 f P vis t) {T : Nat} (hT : t0.IsTerm T) (hTr : T ≠ t0.root)
    (hdone : ∀ c, t0.IsTerm c → c < T → c ∈ vis) :
    ∃ t' vis' P', intermediateStep f (t, vis) T = .ok ((t', vis'), .ok ()) ∧ OInv t0 f P' vis' t' ∧
      vis ⊆ vis' ∧ T ∈ vis' := by
  have J := I.ins
  have W := J.wf
  by_cases hv : T ∈ vis
  · refine ⟨t, vis, P, ?_, I, subset_rfl, hv⟩
    unfold intermediateStep
    simp only [if_pos hv]
    rfl
  · obtain ⟨p, hp⟩ := W0.shape.exists_parent hT.live hTr
    obtain ⟨hpl, hTl⟩ := isChild_live W0.graph hp
    by_cases hP : P p
    · -- already below a new node
      have hsil := (I.rest p hP T hp hT).resolve_left hv
      obtain ⟨l, hl⟩ := I.sound p hP
      obtain ⟨n, n1, n2⟩ := J.cover p T ⟨hP, hp, hT⟩
      obtain ⟨e, he⟩ := W.shape.parent_of_isChild n2
      obtain ⟨p', c', g1, g2, g3, ⟨s, g4⟩, g5⟩ := J.new n (isChild_live W.graph n2).1 n1
      have hpp : p' = p := W0.shape.isChild_unique (((g5 T).1 n2).right W0.sentence).2.1 hp
      subst hpp
      have hfn : f t n = none := by
        refine hsil l hl t n s ?_
        rw [g4, hl]; rfl
      refine ⟨t, insert T vis, P, ?_, ⟨J, I.sound, ?_, ?_⟩, Finset.subset_insert _ _, Finset.mem_insert_self _ _⟩
      · unfold intermediateStep
        simp only [if_neg hv, he, hfn]
        rfl
      · intro c hc q hq l' hl'
        rcases Finset.mem_insert.1 hc with rfl | hc
        · rw [W0.shape.isChild_unique hq hp]; exact hP
        · exact I.seen c hc q hq l' hl'
      · intro q hq c hc hct
        rcases I.rest q hq c hc hct with h | h
        · exact .inl (Finset.mem_insert_of_mem h)
        · exact .inr h
    · have hpT : t.IsChild p T := (J.child p T hpl hTl).2 ⟨hp, fun h => hP h.1⟩
      obtain ⟨e, he⟩ := W.shape.parent_of_isChild hpT
      have hfp : f t p = f t0 p := hf _ _ _ (J.old p hpl)
      cases hl : f t0 p with
      | none =>
        refine ⟨t, insert T vis, P, ?_, ⟨J, I.sound, ?_, ?_⟩, Finset.subset_insert _ _, Finset.mem_insert_self _ _⟩
        · unfold intermediateStep
          simp only [if_neg hv, he, hfp, hl]
          rfl
        · intro c hc q hq l' hl'
          rcases Finset.mem_insert.1 hc with rfl | hc
          · rw [W0.shape.isChild_unique hq hp, hl] at hl'; simp at hl'
          · exact I.seen c hc q hq l' hl'
        · intro q hq c hc hct
          rcases I.rest q hq c hc hct with h | h
          · exact .inl (Finset.mem_insert_of_mem h)
          · exact .inr h
      | some l =>
        have hmemk : ∀ c, c ∈ (t.termKids p).map (·.1) ↔ t0.IsChild p c ∧ t0.IsTerm c := by
          intro c
          rw [mem_termKids_fst]
          constructor
          · rintro ⟨u1, u2⟩
            have u3 := J.term_old u2
            exact ⟨((J.child p c hpl u3.live).1 u1).1, u3⟩
          · rintro ⟨u1, u2⟩
            exact ⟨(J.child p c hpl u2.live).2 ⟨u1, fun h => hP h.1⟩, J.isTerm u2⟩
        have hstart : ∀ c, t0.IsTerm c → t.startOf c = t0.startOf c := by
          intro c hc
          obtain ⟨i, _, hi⟩ := W0.sentence.pos c hc
          rw [hi.startOf, (J.termAt hi).startOf]
        have hrec : ∀ x ∈ t.termKids p, t0.IsTerm x.1 ∧
            ∃ r ∈ t0.graph.edges, r.src = p ∧ r.tgt = x.1 ∧ r.w.isPrimary = true ∧ r.id = x.2 := by
          rintro ⟨c, e'⟩ hx
          obtain ⟨u1, u2⟩ := (hmemk c).1 (List.mem_map.2 ⟨_, hx, rfl⟩)
          refine ⟨u2, ?_⟩
          obtain ⟨r, r1, r2, r3, r4⟩ := u1
          obtain ⟨r', v1, v2, v3, v4, v5⟩ := mem_children.1 (mem_termKids.1 hx).1
          have hrt := J.edges r r1 (.inr fun h => hP (by rw [r2] at h; exact h.1))
          have := W.shape.unique r hrt r' v1 (r3.trans v3.symm) r4 v5
          subst this
          exact ⟨r, r1, r2, r3, r4, v4⟩
        have hsort := termKids_sorted W p
        have hTk : T ∈ (t.termKids p).map (·.1) := (hmemk T).2 ⟨hp, hT⟩
        cases hk : t.termKids p with
        | nil => rw [hk] at hTk; simp at hTk
        | cons y l' =>
          obtain ⟨c, e'⟩ := y
          rw [hk] at hsort hrec hmemk
          rw [List.pairwise_cons] at hsort
          obtain ⟨u1, u2⟩ := (hmemk c).1 (by simp)
          obtain ⟨i, _, hi⟩ := W0.sentence.pos c u2
          have hnone : ∀ e, ¬ kidsIn t0 P p e := fun e h => hP h.1
          obtain ⟨t1, ins, g1, g2, g3, g4⟩ := J.single W0 kidsIn_ok u1 hi (hnone c) (fun e h => absurd h (hnone e))
            (fun e k h => absurd h (hnone e))
          have hlt : ∀ x ∈ l', i < t0.startOf x.1 := by
            intro x hx
            have h := hsort.1 x hx
            simp only at h
            rw [hstart c u2, hstart x.1 (hrec x (by simp [hx])).1, hi.startOf] at h
            exact h
          obtain ⟨t2, ins2, prev2, q1, q2⟩ := intermediateInner_spec W0 (p := p) l' (vis := insert T vis) (kidsIn_ok.add u1 u2) g2
            ⟨c, .inr ⟨rfl, rfl⟩, hi, g3⟩ g4 (by
              rintro d k (h | ⟨_, rfl⟩) hd
              · exact absurd h (hnone d)
              · rw [hd.pos_unique hi])
            (fun x hx => hrec x (by simp [hx])) hlt (hsort.2.imp_of_mem fun {a b} ha hb h => by
              rw [hstart a.1 (hrec a (by simp [ha])).1, hstart b.1 (hrec b (by simp [hb])).1] at h; exact h)
          refine ⟨t2, insert T vis ∪ (l'.map (·.1)).toFinset, fun a => P a ∨ a = p, ?_, ⟨?_, ?_, ?_, ?_⟩, ?_, ?_⟩
          · obtain ⟨x, hx, hxs⟩ := g2.termAt hi
            have hxs' : (Node.term x).span.start = i := by
              have : (Node.term x).span = x.span := rfl
              rw [this, hxs]; rfl
            have hgl : (f t0 p).getD [] = l := by rw [hl]; rfl
            simp only [hgl] at g1 q1
            unfold intermediateStep
            simp only [if_neg hv, he, hfp, hl, hk, g1, Res.ok_bind, node_eq hx, hxs', q1]
            rfl
          · refine q2.congr fun a b => ?_
            unfold addK kidsIn
            constructor
            · rintro ⟨h | rfl, h1, h2⟩
              · exact .inl (.inl ⟨h, h1, h2⟩)
              · have := (hmemk b).2 ⟨h1, h2⟩
                rcases List.mem_cons.1 this with h | h
                · exact .inl (.inr ⟨rfl, h⟩)
                · exact .inr ⟨rfl, h⟩
            · rintro ((h | ⟨rfl, rfl⟩) | ⟨rfl, h⟩)
              · exact ⟨.inl h.1, h.2⟩
              · exact ⟨.inr rfl, u1, u2⟩
              · have := (hmemk b).1 (by simp only [List.map_cons, List.mem_cons]; exact .inr h)
                exact ⟨.inr rfl, this⟩
          · rintro q (h | rfl)
            · exact I.sound q h
            · exact ⟨l, hl⟩
          · intro d hd q hq l'' hl''
            rcases Finset.mem_union.1 hd with hd | hd
            · rcases Finset.mem_insert.1 hd with rfl | hd
              · exact .inr (W0.shape.isChild_unique hq hp)
              · exact .inl (I.seen d hd q hq l'' hl'')
            · have hd' : d ∈ l'.map (·.1) := by simpa using hd
              have := (hmemk d).1 (by simp only [List.map_cons, List.mem_cons]; exact .inr hd')
              exact .inr (W0.shape.isChild_unique hq this.1)
          · rintro q (h | rfl) d hd hdt
            · rcases I.rest q h d hd hdt with h | h
              · exact .inl (Finset.mem_union_left _ (Finset.mem_insert_of_mem h))
              · exact .inr h
            · rcases hH q l hl with hS | hF
              · refine .inr fun l'' hl'' => ?_
                have : l'' = l := by rw [hl] at hl''; simpa using hl''.symm
                rw [this]; exact hS
              · left
                rcases List.mem_cons.1 ((hmemk d).2 ⟨hd, hdt⟩) with h | h
                · simp only at h
                  subst h
                  have hfirst : d ≤ T := by
                    refine hF d i u1 hi ?_ T hp hT
                    intro b j hb hbj
                    rcases List.mem_cons.1 ((hmemk b).2 ⟨hb, hbj.isTerm⟩) with h | h
                    · simp only at h; subst h; rw [hbj.pos_unique hi]
                    · obtain ⟨y, hy, rfl⟩ := List.mem_map.1 h
                      have := hlt y hy
                      rw [hbj.startOf] at this
                      omega
                  rcases Nat.lt_or_eq_of_le hfirst with h | h
                  · exact absurd (I.seen d (hdone d hdt h) q hd l hl) hP
                  · rw [h]; exact Finset.mem_union_left _ (Finset.mem_insert_self _ _)
                · refine Finset.mem_union_right _ ?_
                  simpa using h
          · intro x hx
            exact Finset.mem_union_left _ (Finset.mem_insert_of_mem hx)
          · exact Finset.mem_union_left _ (Finset.mem_insert_self _ _)

theorem intermediateLoop_spec {t0 : Tree} (W0 : t0.WF) {f : Tree → Nat → Option Str} (hf : NodeFn f)
    (hH : ∀ p l, f t0 p = some l → Silent f l ∨ t0.FirstLeast p) (hroot : t0.IsNt t0.root) :
    ∀ (l : List Nat) {t : Tree} {P : Nat → Prop} {vis : Finset Nat}, OInv t0 f P vis t → (∀ m ∈ l, t0.IsTerm m) →
    l.Pairwise (· < ·) → (∀ c, t0.IsTerm c → c ∈ vis ∨ c ∈ l) →
    ∃ t' vis' P', forE (intermediateStep f) l (t, vis) = .ok ((t', vis'), .ok ()) ∧ OInv t0 f P' vis' t' ∧
      ∀ c, t0.IsTerm c → c ∈ vis' := by
  intro l
  induction l with
  | nil => intro t P vis I _ _ h; exact ⟨t, vis, P, rfl, I, fun c hc => (h c hc).resolve_right (by simp)⟩
  | cons T l ih =>
    intro t P vis I hl hpw hall
    rw [List.pairwise_cons] at hpw
    have hT := hl T (by simp)
    have hTr : T ≠ t0.root := by
      rintro rfl
      obtain ⟨x, hx⟩ := hT
      obtain ⟨y, hy⟩ := hroot
      rw [hx] at hy; simp at hy
    obtain ⟨t1, vis1, P1, k1, k2, k3, k4⟩ := intermediateStep_spec W0 hf hH I hT hTr (by
      intro c hc hlt
      rcases hall c hc with h | h
      · exact h
      · rcases List.mem_cons.1 h with rfl | h
        · omega
        · have := hpw.1 c h; omega)
    rw [forE_cons_ok k1]
    refine ih k2 (fun m hm => hl m (by simp [hm])) hpw.2 fun c hc => ?_
    rcases hall c hc with h | h
    · exact .inl (k3 h)
    · rcases List.mem_cons.1 h with rfl | h
      · exact .inl k4
      · exact .inr h

theorem Inserted.start (W : t.WF) {K : Nat → Nat → Prop} (hK : ∀ a b, ¬ K a b) (lab : Nat → Str) : Inserted t K lab t where
  wf := W
  root := rfl
  nterm := rfl
  old := fun _ _ => rfl
  child := fun a b _ _ => ⟨fun h => ⟨h, hK a b⟩, fun h => h.1⟩
  cover := fun a b h => absurd h (hK a b)
  new := fun _ h h' => absurd h h'
  edges := fun _ h _ => h
  follow := fun a b _ _ h => absurd h (hK a b)
  first := fun _ _ _ => rfl
  secondary := fun _ h _ => h

theorem insertIntermediate_spec (W : t.WF) {f : Tree → Nat → Option Str} (hf : NodeFn f) (hroot : t.IsNt t.root)
    (hH : ∀ p l, f t p = some l → Silent f l ∨ t.FirstLeast p) :
    ∃ t', t.insertIntermediate f = .ok (t', .ok ()) ∧
      Inserted t (fun p c => (∃ l, f t p = some l) ∧ t.IsChild p c ∧ t.IsTerm c) (fun p => (f t p).getD []) t' := by
  obtain ⟨t', vis', P', k1, k2, k3⟩ := intermediateLoop_spec W hf hH hroot t.terminals (P := fun _ => False) (vis := ∅)
    ⟨Inserted.start W (fun _ _ h => h.1) _, fun _ h => h.elim, fun _ h => absurd h (Finset.notMem_empty _), fun _ h => h.elim⟩
    (fun m hm => mem_terminals.1 hm) terminals_sorted (fun c hc => .inr (mem_terminals.2 hc))
  refine ⟨t', ?_, k2.ins.congr fun a b => ?_⟩
  · unfold insertIntermediate
    rw [k1]; rfl
  · unfold kidsIn
    refine and_congr_left fun ⟨h1, h2⟩ => ?_
    exact ⟨fun ⟨l, hl⟩ => k2.seen b (k3 b h2) a h1 l hl, fun h => k2.sound a h⟩

end Tree
end Lumberjack
