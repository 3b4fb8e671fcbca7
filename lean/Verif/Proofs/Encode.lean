import Verif.Spec.Ancestor
import Verif.Proofs.Seq
import Verif.Proofs.TreeQuery
import Verif.Proofs.Reset

/-!
# The lowest common ancestor encoding
-/

namespace Lumberjack
namespace Tree

variable {t : Tree}

theorem featVal_nt (x : NonTerminal) : (match (Node.nt x).featVal unaryKey with
    | some chain => chain ++ ['_'] ++ x.label
    | none => x.label) = x.fullLabel := by
  unfold Node.featVal NonTerminal.fullLabel
  show (match (x.features.bind (fun f => f.getVal unaryKey)).bind id with
    | some chain => chain ++ ['_'] ++ x.label
    | none => x.label) = _
  cases hf : x.features with
  | none => rfl
  | some f =>
    show (match (f.getVal Forest.chainKey).bind id with
      | some chain => chain ++ ['_'] ++ x.label
      | none => x.label) = match f.getVal Forest.chainKey with
        | some (some c) => c ++ '_' :: x.label
        | _ => x.label
    cases hc : f.getVal Forest.chainKey with
    | none => rfl
    | some v => cases v <;> simp

theorem featVal_term (x : Terminal) : (Node.term x).featVal unaryKey = x.chain := by
  unfold Node.featVal Terminal.chain
  show (x.features.bind (fun f => f.getVal unaryKey)).bind id = _
  cases hf : x.features with
  | none => rfl
  | some f =>
    show (f.getVal Forest.chainKey).bind id = match f.getVal Forest.chainKey with
        | some (some c) => some c
        | _ => none
    cases hc : f.getVal Forest.chainKey with
    | none => rfl
    | some v => cases v <;> simp

/-- Does the span of node `p` contain `j`? -/
def spanHas (t : Tree) (p j : Nat) : Bool := (t.graph.node? p).any (·.span.contains j)

/-- The label of node `p` in an encoding. -/
def chainLabelAt (t : Tree) (p : Nat) : Str := match t.graph.node? p with
  | some (.nt x) => x.fullLabel
  | _ => []

/-- The first node in a list of ancestors whose span contains `j`, and the number of nodes from there. -/
def commonOf (t : Tree) (j : Nat) : List Nat → Option (Str × Nat)
  | [] => none
  | p :: l => if t.spanHas p j then some (t.chainLabelAt p, l.length + 1) else commonOf t j l

theorem Anc.isNt {n : Nat} {l : List Nat} (G : t.graph.OK) (S : t.Shape) (h : t.Anc n l) : ∀ p ∈ l, t.IsNt p := by
  intro p hp
  have hl := h.live G hp
  obtain ⟨c, hd, hc⟩ := transGen_iff.1 (h.mem hp)
  rcases live_iff.1 hl with ht | hn
  · have := S.dom_term ht hd
    subst this
    exact absurd hc (S.term_leaf _ _ ht)
  · exact hn

/-- The loop of `get_common`. -/
theorem getCommon_loop (G : t.graph.OK) (S : t.Shape) (idx : Nat) {l : List Nat} : ∀ {n : Nat} (fuel : Nat)
    (found : Option Str) (count : Nat), t.Anc n l → (∀ p ∈ l, ¬ t.Disc p) → l.length < fuel →
    (found = none → count = 0) →
    loopM (t.commonStep idx) fuel (t.parent n, found, count) =
      Res.ok (.ok (α := Option (Str × Nat)) (ε := Err) (match found with
        | some lab => some (lab, count + l.length)
        | none => t.commonOf (idx + 1) l)) := by
  induction l with
  | nil =>
    intro n fuel found count h _ hf _
    obtain ⟨k, rfl⟩ : ∃ k, fuel = k + 1 := ⟨fuel - 1, by omega⟩
    rw [loopM_succ_inr (b := .ok (found.map fun l => (l, count)))]
    · cases found <;> rfl
    · simp only [commonStep, climberNext_nil h]
  | cons p l ih =>
    intro n fuel found count h hd hf h0
    obtain ⟨k, rfl⟩ : ∃ k, fuel = k + 1 := ⟨fuel - 1, by omega⟩
    obtain ⟨e, he⟩ := climberNext_cons S h.1
    obtain ⟨x, hx⟩ := h.isNt G S p List.mem_cons_self
    have hs : x.span.skips.isSome = false := by
      cases hb : x.span.skips.isSome with
      | false => rfl
      | true => exact absurd ⟨x, hx, hb⟩ (hd p List.mem_cons_self)
    have hd' : ∀ q ∈ l, ¬ t.Disc q := fun q hq => hd q (List.mem_cons_of_mem _ hq)
    have hlen : l.length < k := by simpa using hf
    cases found with
    | some lab =>
      rw [loopM_succ_inl (s' := (t.parent p, some lab, count + 1))]
      · rw [ih k (some lab) (count + 1) h.2 hd' hlen (by simp)]
        simp only [List.length_cons]
        congr 4; omega
      · simp only [commonStep, he, node_eq hx, Res.ok_bind, Node.span, hs]
        simp
    | none =>
      rw [h0 rfl]
      by_cases hc : x.span.contains (idx + 1) = true
      · rw [loopM_succ_inl (s' := (t.parent p, some x.fullLabel, 0 + 1))]
        · rw [ih k (some x.fullLabel) (0 + 1) h.2 hd' hlen (by simp)]
          simp only [commonOf, spanHas, chainLabelAt, hx, Option.any_some, Node.span, hc, if_true]
          congr 4; omega
        · simp only [commonStep, he, node_eq hx, Res.ok_bind, Node.span, hs, hc]
          rw [← featVal_nt]
          cases (Node.nt x).featVal unaryKey <;> simp
      · rw [loopM_succ_inl (s' := (t.parent p, none, 0))]
        · rw [ih k none 0 h.2 hd' hlen (by simp)]
          simp only [commonOf, spanHas, hx, Option.any_some, Node.span, hc]
          simp
        · simp only [commonStep, he, node_eq hx, Res.ok_bind, Node.span, hs, hc]
          simp

theorem getCommon_eq (W : t.WF) (hp : t.isProjective = true) {n i : Nat} (hn : t.TermAt n i) {l : List Nat}
    (hl : t.Anc n l) : t.getCommon n = .ok (.ok (t.commonOf (i + 1) l)) := by
  obtain ⟨x, hx, hs⟩ := hn
  have := getCommon_loop W.graph W.shape i t.climbFuel none 0 hl
    (fun p _ => (isProjective_iff W.count).1 hp p) (by
      have := hl.length_lt W.graph W.shape ⟨_, hx⟩; unfold climbFuel; omega) (fun _ => rfl)
  unfold getCommon climberNew
  simp only [node_eq hx, Res.ok_bind, Node.span, hs]
  exact this

/-! ## The encoding of a forest -/

/-- A label and a count as an ancestor. -/
def toAnc (p : Str × Nat) : AbsAncestor := ⟨p.2, p.1⟩

/-- The entry of a terminal. -/
def HasEntry (t : Tree) (n : Nat) (e : Option AbsAncestor × Option Str) : Prop :=
  ∃ x c, t.graph.node? n = some (.term x) ∧ t.getCommon n = .ok (.ok c) ∧
    e = (c.map toAnc, x.chain)

theorem encodeAbsLoop_ok {ns : List Nat} {es : AbsEncoding} (h : List.Forall₂ t.HasEntry ns es) :
    ∀ acc, t.encodeAbsLoop ns acc = .ok (.ok (acc ++ es)) := by
  induction h with
  | nil => intro acc; simp [encodeAbsLoop]
  | @cons n e ns es h1 h2 ih =>
    intro acc
    obtain ⟨x, c, h3, h4, rfl⟩ := h1
    rw [encodeAbsLoop]
    simp only [h4, node_eq h3, Res.ok_bind, featVal_term]
    rw [ih]; cases c <;> simp [toAnc]

theorem forest_entries (W : t.WF) (hp : t.isProjective = true) {F : Forest} : ∀ {ids l : List Nat} {k d : Nat} {lab : Str}
    {last : Option AbsAncestor},
    t.Rep ids F → F.Seq k → (∀ n ∈ ids, t.Anc n l) →
    (∀ j, k < j → j < k + F.leaves.length → (t.commonOf j l).map toAnc = some ⟨d, lab⟩) →
    (t.commonOf (k + F.leaves.length) l).map toAnc = last → (F ≠ .nil → d = l.length) →
    ∃ ns, List.Forall₂ t.HasEntry ns (F.encoding d lab last) ∧ ns.length = F.leaves.length ∧
      (∀ j n, ns[j]? = some n → t.TermAt n (k + j)) ∧
      List.Forall₂ (fun n x => t.graph.node? n = some (.term x)) ns F.leaves := by
  induction F with
  | nil => intro ids l k d lab last _ _ _ _ _ _; exact ⟨[], .nil, rfl, by simp, .nil⟩
  | leaf e x r ih =>
    rintro ids l k d lab last ⟨n, ns, rfl, h1, -, h2⟩ ⟨h3, h4⟩ ha hin hlast hd
    simp only [Forest.leaves, List.length_cons] at hin hlast
    have hT : t.TermAt n k := ⟨x, h1, h3⟩
    have hg := getCommon_eq W hp hT (ha n List.mem_cons_self)
    obtain ⟨ms, m1, m2, m3, m4⟩ := ih (k := k + 1) (d := d) (lab := lab) (last := last) h2 h4
      (fun m hm => ha m (List.mem_cons_of_mem _ hm)) (fun j hj1 hj2 => hin j (by omega) (by omega))
      (by rw [← hlast]; congr 2; omega) (fun _ => hd (by simp))
    refine ⟨n :: ms, .cons ⟨x, _, h1, hg, ?_⟩ m1, by simp [m2, Forest.leaves], ?_, .cons h1 m4⟩
    · congr 1
      split
      · rename_i hr; subst hr; simpa [Forest.leaves] using hlast.symm
      · rename_i hr
        exact (hin (k + 1) (by omega) (by have := h4.leaves_pos hr; omega)).symm
    · intro j m hj
      cases j with
      | zero => simp at hj; subst hj; exact hT
      | succ j =>
        have := m3 j m (by simpa using hj)
        rwa [show k + (j + 1) = k + 1 + j by omega]
  | node e x ks r ihk ih =>
    rintro ids l k d lab last ⟨n, ns, cs, rfl, h1, -, h2, h3, h4⟩ ⟨h5, h6, h7, h8⟩ ha hin hlast hd
    simp only [Forest.leaves, List.length_append] at hin hlast
    have hlen := h7.leaves_pos h5
    have hnt : t.spanHas n = fun j => decide (k ≤ j ∧ j < k + ks.leaves.length) := by
      funext j
      unfold spanHas
      rw [h1, Option.any_some, Node.span, h6, Bool.eq_iff_iff, Forest.contains_interval, decide_eq_true_iff]
    have hlab : t.chainLabelAt n = x.fullLabel := by unfold chainLabelAt; rw [h1]
    obtain ⟨ms, m1, m2, m3, m4⟩ := ih (k := k + ks.leaves.length) (d := d) (lab := lab) (last := last) h4 h8
      (fun m hm => ha m (List.mem_cons_of_mem _ hm)) (fun j hj1 hj2 => hin j (by omega) (by omega))
      (by rw [← hlast]; congr 2; omega) (fun _ => hd (by simp))
    obtain ⟨qs, q1, q2, q3, q4⟩ := ihk (l := n :: l) (k := k) (d := d + 1) (lab := x.fullLabel)
      (last := if r = .nil then last else some ⟨d, lab⟩) h3 h7
      (fun m hm => ⟨(h2.1 m).1 hm, ha n List.mem_cons_self⟩) (fun j hj1 hj2 => by
        rw [commonOf, hnt, if_pos (by simp; omega), hlab, hd (by simp)]; rfl) (by
        rw [commonOf, hnt, if_neg (by simp)]
        split
        · rename_i hr; subst hr; simpa [Forest.leaves] using hlast
        · rename_i hr
          exact hin _ (by omega) (by have := h8.leaves_pos hr; omega)) (fun _ => by rw [hd (by simp)]; rfl)
    refine ⟨qs ++ ms, List.rel_append q1 m1, by simp [q2, m2, Forest.leaves], ?_, List.rel_append q4 m4⟩
    intro j m hj
    by_cases hlt : j < qs.length
    · rw [List.getElem?_append_left hlt] at hj; exact q3 j m hj
    · rw [List.getElem?_append_right (by omega)] at hj
      have := m3 _ m hj
      rwa [show k + ks.leaves.length + (j - qs.length) = k + j by omega] at this

/-- Encoding a tree is encoding its forest. -/
theorem encode_forest (W : t.WF) (hp : t.isProjective = true) {F : Forest} (h : t.Is F) :
    List.Forall₂ t.HasEntry (t.sortIndices t.terminals) (F.encoding 0 [] none) ∧
      List.Forall₂ (fun n x => t.graph.node? n = some (.term x)) (t.sortIndices t.terminals) F.leaves := by
  obtain ⟨hs, hn⟩ := W.is_seq hp h
  have main : ∃ ns, List.Forall₂ t.HasEntry ns (F.encoding 0 [] none) ∧ ns.length = F.leaves.length ∧
      (∀ j n, ns[j]? = some n → t.TermAt n (0 + j)) ∧
      List.Forall₂ (fun n x => t.graph.node? n = some (.term x)) ns F.leaves := by
    have hroot : t.Anc t.root [] := fun p => W.shape.root_top p
    cases F with
    | nil => exact absurd h (by intro h; cases h)
    | leaf e x r =>
      have hr : r = .nil := by
        obtain ⟨n, ns, h0, h1, -, h2⟩ := h
        injection h0 with h0 h0'
        subst h0'
        cases r with
        | nil => rfl
        | leaf => obtain ⟨_, _, h, _⟩ := h2; cases h
        | node => obtain ⟨_, _, _, h, _⟩ := h2; cases h
      subst hr
      exact forest_entries W hp (l := []) h hs
        (by simpa using hroot) (by intro j h1 h2; simp [Forest.leaves] at h2; omega) rfl (fun _ => rfl)
    | node e x ks r =>
      obtain ⟨n, ns, cs, h0, h1, -, h2, h3, h4⟩ := h
      injection h0 with h0 h0'
      subst h0' h0
      have hr : r = .nil := by
        cases r with
        | nil => rfl
        | leaf => obtain ⟨_, _, h, _⟩ := h4; cases h
        | node => obtain ⟨_, _, _, h, _⟩ := h4; cases h
      subst hr
      obtain ⟨h5, h6, h7, h8⟩ := hs
      have hnt : t.spanHas t.root = fun j => decide (0 ≤ j ∧ j < 0 + ks.leaves.length) := by
        funext j
        unfold spanHas
        rw [h1, Option.any_some, Node.span, h6, Bool.eq_iff_iff, Forest.contains_interval, decide_eq_true_iff]
      have hlab : t.chainLabelAt t.root = x.fullLabel := by unfold chainLabelAt; rw [h1]
      have := forest_entries W hp (l := [t.root]) (k := 0) (d := 1) (lab := x.fullLabel) (last := none) h3 h7
        (fun m hm => ⟨(h2.1 m).1 hm, hroot⟩) (fun j hj1 hj2 => by
          rw [commonOf, hnt, if_pos (by simp; omega), hlab]; rfl) (by
          rw [commonOf, hnt, if_neg (by simp)]; rfl) (fun _ => rfl)
      simpa [Forest.encoding, Forest.leaves] using this
  obtain ⟨ns, h1, h2, h3, h4⟩ := main
  have : ns = t.sortIndices t.terminals := by
    apply List.ext_getElem?
    intro j
    cases hj : ns[j]? with
    | none =>
      rw [List.getElem?_eq_none_iff] at hj
      rw [eq_comm, List.getElem?_eq_none_iff, sorted_terminals_length W.sentence]; omega
    | some n =>
      have := h3 j n hj
      rw [Nat.zero_add] at this
      rw [sorted_terminals_get W.sentence this]
  rw [← this]
  exact ⟨h1, h4⟩

theorem encodeAbsolute_eq (W : t.WF) (hp : t.isProjective = true) {F : Forest} (h : t.Is F) :
    t.encodeAbsolute = .ok (.ok (F.encoding 0 [] none)) := by
  unfold encodeAbsolute
  rw [hp, if_neg (by simp), encodeAbsLoop_ok (encode_forest W hp h).1]
  rfl

/-! ## Lowest common ancestors -/

theorem commonOf_cases (j : Nat) (l : List Nat) :
    ((∀ p ∈ l, t.spanHas p j = false) ∧ t.commonOf j l = none) ∨
    ∃ pre a post, l = pre ++ a :: post ∧ (∀ p ∈ pre, t.spanHas p j = false) ∧ t.spanHas a j = true ∧
      t.commonOf j l = some (t.chainLabelAt a, post.length + 1) := by
  induction l with
  | nil => exact .inl ⟨by simp, rfl⟩
  | cons p l ih =>
    cases hp : t.spanHas p j with
    | true => exact .inr ⟨[], p, l, rfl, by simp, hp, by simp [commonOf, hp]⟩
    | false =>
      rcases ih with ⟨h1, h2⟩ | ⟨pre, a, post, h1, h2, h3, h4⟩
      · refine .inl ⟨?_, by simp [commonOf, hp, h2]⟩
        intro q hq
        rcases List.mem_cons.1 hq with rfl | hq
        · exact hp
        · exact h1 q hq
      · refine .inr ⟨p :: pre, a, post, by rw [h1]; rfl, ?_, h3, by simp [commonOf, hp, h4]⟩
        intro q hq
        rcases List.mem_cons.1 hq with rfl | hq
        · exact hp
        · exact h2 q hq

theorem Anc.suffix {pre : List Nat} : ∀ {n a : Nat} {post : List Nat}, t.Anc n (pre ++ a :: post) → t.Anc a post := by
  induction pre with
  | nil => intro n a post h; exact h.2
  | cons p pre ih => intro n a post h; exact ih h.2

theorem spanHas_covers (W : t.WF) {p j : Nat} (hp : t.IsNt p) : t.spanHas p j = true ↔ t.Covers p j := by
  obtain ⟨x, hx⟩ := hp
  unfold spanHas
  rw [hx]
  exact (W.spans p x hx).2 j

theorem commonOf_lowest (W : t.WF) {n m i : Nat} (hn : t.TermAt n i) (hm : t.TermAt m (i + 1)) {l : List Nat}
    (hl : t.Anc n l) : ∃ a k y, t.LowestCommon n m a k ∧ t.graph.node? a = some (.nt y) ∧
      t.commonOf (i + 1) l = some (y.fullLabel, k) := by
  have hne : ∀ p, t.Dom p n → t.Dom p m → p ∈ l := by
    intro p h1 h2
    rw [hl.mem_iff W.shape]
    rcases Relation.ReflTransGen.cases_tail h1 with rfl | ⟨c, h3, h4⟩
    · have := W.shape.dom_term hn.isTerm h2
      subst this
      have := hn.pos_unique hm
      omega
    · exact transGen_iff.2 ⟨c, h3, h4⟩
  have hcov : ∀ p ∈ l, (t.spanHas p (i + 1) = true ↔ t.Dom p m) := by
    intro p hp
    rw [spanHas_covers W (hl.isNt W.graph W.shape p hp)]
    constructor
    · rintro ⟨m', h1, h2⟩
      rwa [W.sentence.inj _ _ _ hm h2]
    · intro h; exact ⟨m, h, hm⟩
  rcases commonOf_cases (t := t) (i + 1) l with ⟨h1, -⟩ | ⟨pre, a, post, rfl, h2, h3, h4⟩
  · have hr := hne t.root (W.shape.reach n hn.isTerm.live) (W.shape.reach m hm.isTerm.live)
    have := (hcov _ hr).2 (W.shape.reach m hm.isTerm.live)
    rw [h1 _ hr] at this
    cases this
  · have ha : a ∈ pre ++ a :: post := by simp
    have hA := hl.suffix
    obtain ⟨y, hy⟩ := hl.isNt W.graph W.shape a ha
    have hd : t.Dom a m := (hcov a ha).1 h3
    have hup : ∀ p ∈ a :: post, t.Dom p a := by
      intro p hp
      rcases List.mem_cons.1 hp with rfl | hp
      · exact Dom.refl
      · exact (hA.mem hp).to_reflTransGen
    have hall : ∀ p, p ∈ a :: post ↔ t.Dom p n ∧ t.Dom p m := by
      intro p
      constructor
      · intro hp
        exact ⟨(hl.mem (by simp at hp ⊢; tauto)).to_reflTransGen, (hup p hp).trans hd⟩
      · rintro ⟨q1, q2⟩
        have hp := hne p q1 q2
        rcases List.mem_append.1 hp with hp' | hp'
        · have := (hcov p hp).2 q2
          rw [h2 p hp'] at this; cases this
        · exact hp'
    refine ⟨a, post.length + 1, y, ⟨(hl.mem ha).to_reflTransGen, hd, fun p q1 q2 => hup p ((hall p).2 ⟨q1, q2⟩),
      a :: post, hA.nodup W.graph W.shape, rfl, hall⟩, hy, ?_⟩
    rw [h4]; unfold chainLabelAt; rw [hy]

theorem commonOf_last (W : t.WF) {n i : Nat} (hi : t.nTerminals ≤ i) {l : List Nat}
    (hl : t.Anc n l) : t.commonOf i l = none := by
  rcases commonOf_cases (t := t) i l with ⟨h1, h2⟩ | ⟨pre, a, post, rfl, h2, h3, h4⟩
  · exact h2
  · rw [spanHas_covers W (hl.isNt W.graph W.shape a (by simp))] at h3
    obtain ⟨m, -, hm⟩ := h3
    obtain ⟨j, hj, hj'⟩ := W.sentence.pos m hm.isTerm
    have := hj'.pos_unique hm
    omega

end Tree
end Lumberjack
