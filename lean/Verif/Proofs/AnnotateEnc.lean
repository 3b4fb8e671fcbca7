import Verif.Proofs.Encode
import Verif.Proofs.Annotate
import Verif.Props.Encoding

/-!
# Writing the encoding onto the terminals
-/

namespace Lumberjack
namespace Tree

variable {t : Tree}

theorem commonOf_congr {t' : Tree} {l : List Nat} (h : ∀ p ∈ l, t'.graph.node? p = t.graph.node? p) (j : Nat) :
    t'.commonOf j l = t.commonOf j l := by
  induction l with
  | nil => rfl
  | cons p l ih =>
    have h1 := h p (by simp)
    simp only [commonOf, spanHas, chainLabelAt, h1]
    rw [ih (fun q hq => h q (by simp [hq]))]
    rfl

theorem TermEdit.getCommon {t1 : Tree} {g : Nat → Terminal → Terminal} (h : TermEdit t t1 g)
    (hs : ∀ n x, (g n x).span = x.span) (W : t.WF) (hp : t.isProjective = true) {n : Nat} (hn : t.IsTerm n) :
    t1.getCommon n = t.getCommon n := by
  have E := termEdit_iff.1 h
  obtain ⟨l, hl⟩ := W.shape.exists_anc hn.live
  obtain ⟨i, hi, x, hx, hxi⟩ := W.sentence.pos n hn
  rw [getCommon_eq W hp ⟨x, hx, hxi⟩ hl, getCommon_eq (h.wf hs W) (i := i) (l := l)]
  · congr 2
    refine commonOf_congr (fun p hp => ?_) _
    obtain ⟨y, hy⟩ := hl.isNt W.graph W.shape p hp
    rw [hy, h.nt p y hy]
  · unfold isProjective at hp ⊢; rw [h.disc]; exact hp
  · exact ⟨_, h.term n x hx, by rw [hs, hxi]⟩
  · exact hl.congr E.isChild

theorem withFeature_span (name v : Str) (x : Terminal) : (withFeature name v x).span = x.span := rfl

theorem Progress.perm {t1 : Tree} {g : Nat → Terminal → Terminal} {as bs : List Nat} (h : Progress t t1 g as)
    (hp : as.Perm bs) : Progress t t1 g bs := by
  obtain ⟨h1, h2, h3⟩ := h
  refine ⟨hp.nodup h1, fun n hn => h2 n (hp.mem_iff.2 hn), ?_⟩
  simpa only [hp.mem_iff] using h3

theorem Progress.getCommon {t1 : Tree} {name : Str} {val : Terminal → Str} {n : Nat} {as : List Nat}
    (h : Progress t t1 (fun _ x => withFeature name (val x) x) (n :: as)) (W : t.WF)
    (hp : t.isProjective = true) : t1.getCommon n = t.getCommon n := by
  refine TermEdit.getCommon h.2.2 (fun m x => ?_) W hp (h.2.1 n (by simp))
  split <;> rfl

theorem withChain_abs (c : Option AbsAncestor) (ch : Option Str) : withChain (match c with
    | some a => a.toStr
    | none => noneMarker) ch = absText (c, ch) := by
  cases ch <;> cases c <;> simp [withChain, absText, noneMarker]

theorem withChain_rel (c : Option RelAncestor) (ch : Option Str) : withChain (match c with
    | some a => a.toStr
    | none => noneMarker) ch = relText (c, ch) := by
  cases ch <;> cases c <;> simp [withChain, relText, noneMarker]

theorem annotateAbs_loop (W : t.WF) (hp : t.isProjective = true) {val : Terminal → Str} {ns : List Nat}
    {es : AbsEncoding} (h : List.Forall₂ t.HasEntry ns es) : ∀ {t1 : Tree},
    List.Forall₂ (fun n e => ∀ x, t.graph.node? n = some (.term x) → val x = absText e) ns es →
    Progress t t1 (fun _ x => withFeature "abs_ancestor".toList (val x) x) ns →
    ∃ t2, forE annotateAbsStep ns t1 = .ok (t2, .ok ()) ∧
      Progress t t2 (fun _ x => withFeature "abs_ancestor".toList (val x) x) [] := by
  induction h with
  | nil => intro t1 _ P; exact ⟨t1, rfl, P⟩
  | @cons n e ns es h1 h2 ih =>
    intro t1 hv P
    obtain ⟨x, c, h3, h4, rfl⟩ := h1
    obtain ⟨x', q1, q2⟩ := P.node
    rw [h3] at q1
    simp only [Option.some.injEq, Node.term.injEq] at q1
    subst q1
    cases hv with
    | cons hv1 hv2 =>
    have hst : annotateAbsStep t1 n =
        .ok (t1.setNode n (.term (withFeature "abs_ancestor".toList (val x) x)), .ok ()) := by
      unfold annotateAbsStep
      rw [P.getCommon W hp, h4]
      simp only [Res.ok_bind, node_eq q2, featVal_term]
      have hv := hv1 x h3
      rw [← withChain_abs] at hv
      rw [hv, insertFeature_term q2]
      cases c <;> rfl
    obtain ⟨t2, k1, k2⟩ := ih hv2 (P.step q2)
    exact ⟨t2, by simp only [forE, hst, Res.ok_bind, k1], k2⟩

theorem annotateRel_loop (W : t.WF) (hp : t.isProjective = true) {val : Terminal → Str} {ns : List Nat}
    {es : AbsEncoding} (h : List.Forall₂ t.HasEntry ns es) : ∀ {t1 : Tree} {prev : Int},
    List.Forall₂ (fun n e => ∀ x, t.graph.node? n = some (.term x) → val x = relText e) ns
      (relFromAbsLoop es prev []) →
    Progress t t1 (fun _ x => withFeature "rel_ancestor".toList (val x) x) ns →
    ∃ t2 p, forE annotateRelStep ns (t1, prev) = .ok ((t2, p), .ok ()) ∧
      Progress t t2 (fun _ x => withFeature "rel_ancestor".toList (val x) x) [] := by
  induction h with
  | nil => intro t1 prev _ P; exact ⟨t1, prev, rfl, P⟩
  | @cons n e ns es h1 h2 ih =>
    intro t1 prev hv P
    obtain ⟨x, c, h3, h4, rfl⟩ := h1
    obtain ⟨x', q1, q2⟩ := P.node
    rw [h3] at q1
    simp only [Option.some.injEq, Node.term.injEq] at q1
    subst q1
    cases c with
    | none =>
      simp only [Option.map_none, relFromAbsLoop] at hv
      rw [Props.relFromAbsLoop_acc] at hv
      cases hv with
      | cons hv1 hv2 =>
      have hst : annotateRelStep (t1, prev) n =
          .ok ((t1.setNode n (.term (withFeature "rel_ancestor".toList (val x) x)), prev), .ok ()) := by
        unfold annotateRelStep
        rw [P.getCommon W hp, h4]
        simp only [Res.ok_bind, node_eq q2, featVal_term]
        have hv := hv1 x h3
        rw [← withChain_rel] at hv
        rw [hv, insertFeature_term q2]
        rfl
      obtain ⟨t2, p, k1, k2⟩ := ih hv2 (P.step q2)
      exact ⟨t2, p, by simp only [forE, hst, Res.ok_bind, k1], k2⟩
    | some c =>
      obtain ⟨l, k⟩ := c
      simp only [Option.map_some, relFromAbsLoop, toAnc] at hv
      rw [Props.relFromAbsLoop_acc] at hv
      cases hv with
      | cons hv1 hv2 =>
      have hst : annotateRelStep (t1, prev) n =
          .ok ((t1.setNode n (.term (withFeature "rel_ancestor".toList (val x) x)), k), .ok ()) := by
        unfold annotateRelStep
        rw [P.getCommon W hp, h4]
        simp only [Res.ok_bind, node_eq q2, featVal_term]
        have hv := hv1 x h3
        rw [← withChain_rel] at hv
        rw [hv, insertFeature_term q2]
        rfl
      obtain ⟨t2, p, k1, k2⟩ := ih hv2 (P.step q2)
      exact ⟨t2, p, by simp only [forE, hst, Res.ok_bind, k1], k2⟩

/-- From lists to positions. -/
theorem values_of_list {α : Type} (W : t.WF) (d : α) (f : α → Str) {es : List α} (hl : es.length = t.nTerminals) :
    List.Forall₂ (fun n e => ∀ x, t.graph.node? n = some (.term x) → f (es[x.span.start]?.getD d) = f e)
      (t.sortIndices t.terminals) es := by
  rw [List.forall₂_iff_get]
  refine ⟨by rw [sorted_terminals_length W.sentence, hl], ?_⟩
  intro i h1 h2 x hx
  have hpos : t.TermAt ((t.sortIndices t.terminals).get ⟨i, h1⟩) x.span.start := by
    obtain ⟨j, -, y, hy, hs⟩ := W.sentence.pos _ ⟨x, hx⟩
    rw [hx] at hy
    simp only [Option.some.injEq, Node.term.injEq] at hy
    subst hy
    exact ⟨x, hx, by rw [hs]; rfl⟩
  have := sorted_terminals_get W.sentence hpos
  have hi : x.span.start = i := by
    have hlt : x.span.start < (t.sortIndices t.terminals).length := by
      rw [List.getElem?_eq_some_iff] at this; exact this.1
    rw [List.getElem?_eq_getElem hlt, Option.some.injEq] at this
    have hnd : (t.sortIndices t.terminals).Nodup := (sortIndices_perm _).nodup_iff.2 terminals_nodup
    exact (List.Nodup.getElem_inj_iff hnd).1 this
  rw [hi, List.getElem?_eq_getElem h2]
  rfl

end Tree
end Lumberjack
