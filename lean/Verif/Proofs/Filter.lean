import Verif.Proofs.Remove
import Verif.Proofs.Annotate
import Verif.Model.Encode
import Verif.Spec.Remove

/-!
# Lemmas about removing several nodes
-/

namespace Lumberjack
namespace Tree

open Relation

theorem Removed.refl {t : Tree} (W : t.WF) {R : Nat → Prop} (hR : ∀ n, ¬ R n) : Removed t t R :=
  ⟨W, rfl, fun n h => absurd h (hR n), fun _ _ => rfl, fun _ _ _ _ => Iff.rfl,
    fun _ h _ _ => h, fun _ h => .inl h⟩

theorem Removed.congr {t t' : Tree} {R R' : Nat → Prop} (h : Removed t t' R)
    (hR : ∀ n, R n ↔ R' n) : Removed t t' R' := by
  have : R = R' := funext fun n => propext (hR n)
  exact this ▸ h

theorem Removed.trans {t t' t'' : Tree} {R R' : Nat → Prop} (h : Removed t t' R)
    (h' : Removed t' t'' R') (hsub : ∀ n, R n → ¬ t''.Live n) :
    Removed t t'' (fun n => R n ∨ R' n) where
  wf := h'.wf
  nTerm := h'.nTerm.trans h.nTerm
  gone n hn := by
    rcases hn with hn | hn
    · exact hsub n hn
    · exact h'.gone n hn
  node n hn := by
    rw [not_or] at hn
    rw [h'.node n hn.2, h.node n hn.1]
  dom a b ha hb := by
    rw [not_or] at ha hb
    rw [h'.dom a b ha.2 hb.2, h.dom a b ha.1 hb.1]
  edges r hr hs ht := by
    rw [not_or] at hs ht
    exact h'.edges r (h.edges r hr hs.1 ht.1) hs.2 ht.2
  added r hr := by
    rcases h'.added r hr with h1 | ⟨h1, h2⟩
    · exact h.added r h1
    · obtain ⟨l1, l2⟩ := h'.wf.graph.ends r hr
      refine .inr ⟨(h.dom _ _ (fun hR => hsub _ hR l1) (fun hR => hsub _ hR l2)).1 h1, h2⟩

/-- Taking out one inner nonterminal. -/
theorem removed_inner {t : Tree} (W : t.WF) {n : Nat} {x : NonTerminal}
    (hx : t.graph.node? n = some (.nt x)) (hr : n ≠ t.root) :
    ∃ t', t.removeNode n = .ok (t', .ok (.nt x)) ∧ Removed t t' (· = n) ∧ t'.root = t.root ∧
      t'.graph.nodes.length = t.graph.nodes.length := by
  obtain ⟨p, hp⟩ := W.shape.exists_parent ⟨_, hx⟩ hr
  obtain ⟨t', h1, h2, h3, h4, h5, h6, h7, h8⟩ := removeNonterminal_inner W hx hp
  have hself := W.shape.not_isChild_self W.graph n
  refine ⟨t', (removeNode_nt hx).trans h1, ⟨h2, h5, ?_, fun m hm => h3.node m hm, ?_,
    fun r hr h h' => h6 r hr h h', ?_⟩, h4, h8⟩
  · rintro m rfl ⟨nd, hnd⟩
    rw [h3.dead] at hnd; simp at hnd
  · intro a b ha hb
    exact h3.splice.dom_iff hself ha hb
  · intro r hr
    rcases h7 r hr with h | ⟨h, h', h''⟩
    · exact .inl h
    · exact .inr ⟨by rw [h]; exact .head hp (.single h'), h''⟩

theorem filterNonterminals_spec {t : Tree} (W : t.WF) {f : Tree → Nat → Bool} (hf : NodeLocal f) :
    ∃ t', t.filterNonterminals f = .ok (t', .ok ()) ∧ t'.root = t.root ∧
      t'.graph.nodes.length = t.graph.nodes.length ∧
      Removed t t' (fun n => t.IsNt n ∧ n ≠ t.root ∧ f t n = false) := by
  unfold filterNonterminals
  have := forE_rule (f := fun (t : Tree) n =>
    if !(f t n) then do
      let (t', r) ← t.removeNode n
      match r with
      | .ok _ => return (t', .ok ())
      | .error e => return (t', .error (ε := Err) e)
    else
      .ok (t, .ok ()))
    (fun as t1 => as.Nodup ∧ (∀ n ∈ as, t.IsNt n ∧ n ≠ t.root) ∧ t1.root = t.root ∧
      t1.graph.nodes.length = t.graph.nodes.length ∧
      Removed t t1 (fun n => t.IsNt n ∧ n ≠ t.root ∧ n ∉ as ∧ f t n = false)) ?_
    (t.nonterminals.filter (· ≠ t.root)) t ⟨nonterminals_nodup.filter _, ?_, rfl, rfl,
      Removed.refl W ?_⟩
  · obtain ⟨t', h1, _, _, h2, h3, h4⟩ := this
    exact ⟨t', h1, h2, h3, h4.congr (by simp)⟩
  · rintro n as t1 ⟨h1, h2, h3, h4, h5⟩
    obtain ⟨⟨x, hx⟩, hnr⟩ := h2 n (by simp)
    have hnas := (List.nodup_cons.1 h1).1
    have hx1 : t1.graph.node? n = some (.nt x) := by rw [h5.node n (by simp)]; exact hx
    have hfn : f t1 n = f t n := hf t1 t n (by unfold content; rw [hx, hx1])
    cases hfv : f t n with
    | true =>
      refine ⟨t1, ?_, h1.of_cons, fun m hm => h2 m (by simp [hm]), h3, h4, h5.congr ?_⟩
      · simp [hfn, hfv]
      · intro m
        by_cases e : m = n
        · subst e; simp [hfv]
        · simp [e]
    | false =>
      obtain ⟨t2, k1, k2, k3, k4⟩ := removed_inner h5.wf hx1 (by rw [h3]; exact hnr)
      refine ⟨t2, ?_, h1.of_cons, fun m hm => h2 m (by simp [hm]), k3.trans h3, k4.trans h4,
        (h5.trans k2 ?_).congr ?_⟩
      · simp [hfn, hfv, k1]
      · intro m hm hl
        have hmn : m ≠ n := by rintro rfl; exact hm.2.2.1 (by simp)
        obtain ⟨nd, hnd⟩ := hl
        rw [k2.node m hmn] at hnd
        exact h5.gone m hm ⟨nd, hnd⟩
      · intro m
        by_cases e : m = n
        · subst e; simp [hfv, hnr, hnas, show t.IsNt m from ⟨x, hx⟩]
        · simp [e]
  · intro n hn
    rw [List.mem_filter, mem_nonterminals] at hn
    simpa using hn
  · rintro n ⟨h1, h2, h3, _⟩
    exact h3 (by rw [List.mem_filter, mem_nonterminals]; simpa using ⟨h1, h2⟩)

/-- One node of `filter_nonterminals`. -/
def filterStep (f : Tree → Nat → Bool) (t : Tree) (n : Nat) : Res (Tree × Except Err Unit) :=
  if !(f t n) then do
    let (t', r) ← t.removeNode n
    match r with
    | .ok _ => return (t', .ok ())
    | .error e => return (t', .error e)
  else
    .ok (t, .ok ())

theorem filterSteps_any {t : Tree} (f : Tree → Nat → Bool) : ∀ (as : List Nat) (t1 : Tree) (R0 : Nat → Prop),
    as.Pairwise (· < ·) → (∀ n ∈ as, t.IsNt n ∧ n ≠ t.root) → t1.root = t.root → Removed t t1 R0 →
    (∀ m, R0 m → ∀ n ∈ as, m < n) →
    ∃ (t' : Tree) (u : Nat → Tree) (R : Nat → Prop), forE (filterStep f) as t1 = .ok (t', .ok ()) ∧ t'.root = t.root ∧
      Removed t t' (fun m => R0 m ∨ R m) ∧ (∀ n, R n ↔ n ∈ as ∧ f (u n) n = false) ∧
      ∀ n ∈ as, (u n).root = t.root ∧ Removed t (u n) (fun m => R0 m ∨ R m ∧ m < n) := by
  intro as
  induction as with
  | nil =>
    intro t1 R0 _ _ h3 h5 _
    exact ⟨t1, fun _ => t1, fun _ => False, rfl, h3, h5.congr (by simp), by simp, by simp⟩
  | cons n as ih =>
    intro t1 R0 h1 h2 h3 h5 h6
    obtain ⟨hlt, h1⟩ := List.pairwise_cons.1 h1
    obtain ⟨⟨x, hx⟩, hnr⟩ := h2 n (by simp)
    have hR0 : ¬ R0 n := fun h => absurd (h6 n h n (by simp)) (lt_irrefl n)
    have hx1 : t1.graph.node? n = some (.nt x) := by rw [h5.node n hR0]; exact hx
    have hnas : n ∉ as := fun h => absurd (hlt n h) (lt_irrefl n)
    cases hfv : f t1 n with
    | true =>
      obtain ⟨t', u, R, g1, g2, g3, g4, g5⟩ := ih t1 R0 h1 (fun m hm => h2 m (by simp [hm])) h3 h5
        (fun m hm k hk => h6 m hm k (by simp [hk]))
      have hge : ∀ m, R m → n < m := fun m hm => hlt m ((g4 m).1 hm).1
      refine ⟨t', fun m => if m = n then t1 else u m, R, ?_, g2, g3, ?_, ?_⟩
      · simp only [forE, filterStep, hfv]; exact g1
      · intro m
        by_cases e : m = n
        · subst e
          simp only [if_true, hfv]
          exact ⟨fun h => absurd (hge m h) (lt_irrefl m), fun h => by simp at h⟩
        · simp only [if_neg e]; rw [g4]; simp [e]
      · intro m hm
        by_cases e : m = n
        · subst e
          simp only [if_true]
          refine ⟨h3, h5.congr fun k => ⟨.inl, ?_⟩⟩
          rintro (h | ⟨h, h'⟩)
          · exact h
          · have := hge k h; omega
        · simp only [if_neg e]
          exact g5 m (by simpa [e] using hm)
    | false =>
      obtain ⟨t2, k1, k2, k3, k4⟩ := removed_inner h5.wf hx1 (by rw [h3]; exact hnr)
      have h7 : Removed t t2 (fun m => R0 m ∨ m = n) := h5.trans k2 (by
        intro m hm hl
        have hmn : m ≠ n := by rintro rfl; exact hR0 hm
        obtain ⟨nd, hnd⟩ := hl
        rw [k2.node m hmn] at hnd
        exact h5.gone m hm ⟨nd, hnd⟩)
      obtain ⟨t', u, R, g1, g2, g3, g4, g5⟩ := ih t2 _ h1 (fun m hm => h2 m (by simp [hm])) (k3.trans h3) h7
        (by
          rintro m (hm | rfl) k hk
          · exact h6 m hm k (by simp [hk])
          · exact hlt k hk)
      have hge : ∀ m, R m → n < m := fun m hm => hlt m ((g4 m).1 hm).1
      refine ⟨t', fun m => if m = n then t1 else u m, fun m => R m ∨ m = n, ?_, g2, g3.congr (by intro m; tauto), ?_, ?_⟩
      · simp only [forE, filterStep, hfv, k1]; exact g1
      · intro m
        by_cases e : m = n
        · subst e
          simp [hfv]
        · simp only [if_neg e]; rw [g4]; simp [e]
      · intro m hm
        by_cases e : m = n
        · subst e
          simp only [if_true]
          refine ⟨h3, h5.congr fun k => ⟨.inl, ?_⟩⟩
          rintro (h | ⟨h | h, h'⟩)
          · exact h
          · have := hge k h; omega
          · omega
        · simp only [if_neg e]
          have hm' : m ∈ as := by simpa [e] using hm
          refine ⟨(g5 m hm').1, (g5 m hm').2.congr fun k => ?_⟩
          have := hlt m hm'
          constructor
          · rintro ((h | h) | h)
            · exact .inl h
            · exact .inr ⟨.inr h, by omega⟩
            · exact .inr ⟨.inl h.1, h.2⟩
          · rintro (h | ⟨h | h, h'⟩)
            · exact .inl (.inl h)
            · exact .inr ⟨h, h'⟩
            · exact .inl (.inr h)

theorem filterNonterminals_asked {t : Tree} (W : t.WF) (f : Tree → Nat → Bool) :
    ∃ (t' : Tree) (u : Nat → Tree) (R : Nat → Prop), t.filterNonterminals f = .ok (t', .ok ()) ∧ t'.root = t.root ∧
      Removed t t' R ∧ (∀ n, R n ↔ t.IsNt n ∧ n ≠ t.root ∧ f (u n) n = false) ∧
      ∀ n, t.IsNt n → n ≠ t.root → (u n).root = t.root ∧ Removed t (u n) (fun m => R m ∧ m < n) := by
  have hmem : ∀ n, n ∈ t.nonterminals.filter (· ≠ t.root) ↔ t.IsNt n ∧ n ≠ t.root := by
    intro n; rw [List.mem_filter, mem_nonterminals]; simp
  obtain ⟨t', u, R, g1, g2, g3, g4, g5⟩ := filterSteps_any f (t.nonterminals.filter (· ≠ t.root)) t (fun _ => False)
    (((Graph.nodeIndices_sorted _).filter _).filter _) (fun n hn => (hmem n).1 hn) rfl (Removed.refl W (by simp)) (by simp)
  refine ⟨t', u, R, g1, g2, g3.congr (by simp), fun n => by rw [g4, hmem]; tauto, fun n h1 h2 => ?_⟩
  obtain ⟨k1, k2⟩ := g5 n ((hmem n).2 ⟨h1, h2⟩)
  exact ⟨k1, k2.congr (by simp)⟩

/-- Taking out a nonterminal root with a single child. -/
theorem removed_root {t : Tree} (W : t.WF) {c : Nat} {x : NonTerminal}
    (hx : t.graph.node? t.root = some (.nt x)) (hc : t.IsChild t.root c)
    (hu : ∀ c', t.IsChild t.root c' → c' = c) :
    ∃ t', t.removeNode t.root = .ok (t', .ok (.nt x)) ∧ Removed t t' (· = t.root) ∧ t'.root = c ∧
      t'.graph.edges = t.graph.edges.filter (fun r => r.src ≠ t.root ∧ r.tgt ≠ t.root) ∧
      t'.graph.nodes.length = t.graph.nodes.length := by
  obtain ⟨t', h1, h2, h3, h4, h5, h6, h7⟩ := removeNonterminal_root W hx hc hu
  have hself := W.shape.not_isChild_self W.graph t.root
  refine ⟨t', (removeNode_nt hx).trans h1, ⟨h2, h5, ?_, fun m hm => h3.node m hm, ?_, ?_, ?_⟩, h4,
    h6, h7⟩
  · rintro m rfl ⟨nd, hnd⟩
    rw [h3.dead] at hnd; simp at hnd
  · intro a b ha hb
    exact h3.splice.dom_iff hself ha hb
  · intro r hr hs ht
    rw [h6, List.mem_filter]
    simpa using ⟨hr, hs, ht⟩
  · intro r hr
    rw [h6, List.mem_filter] at hr
    exact .inl hr.1

end Tree
end Lumberjack
