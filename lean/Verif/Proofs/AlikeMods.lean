import Verif.Proofs.AlikeSteps
import Verif.Proofs.Convert

/-!
# Modifications of twins
-/

namespace Lumberjack
namespace Tree

variable {t u t' u' a b : Tree}

/-! ### Edges to parents -/

/-- There is an edge with the given index from a parent to a child. -/
def HasEdge (t : Tree) (p : Nat) (c : Nat × Nat) : Prop :=
  ∃ r ∈ t.graph.edges, r.src = p ∧ r.tgt = c.1 ∧ r.w.isPrimary = true ∧ r.id = c.2

theorem parentRec_of_mem (S : t.Shape) {r : EdgeRec} (hr : r ∈ t.graph.edges) (hp : r.w.isPrimary = true) :
    t.graph.parentRec r.tgt = some r := by
  cases h : t.graph.parentRec r.tgt with
  | none =>
    unfold Graph.parentRec at h
    rw [List.find?_eq_none] at h
    exact absurd hp (by simpa using h r (by unfold Graph.inEdges; rw [List.mem_filter]; exact ⟨hr, by simp⟩))
  | some r' =>
    obtain ⟨h1, h2, h3⟩ := Graph.parentRec_mem h
    rw [S.unique r' h1 r hr h2 h3 hp]

theorem HasEdge.parentRec (S : t.Shape) {p : Nat} {c : Nat × Nat} (h : t.HasEdge p c) :
    ∃ r, t.graph.parentRec c.1 = some r ∧ r.src = p ∧ r.id = c.2 := by
  obtain ⟨r, h1, h2, h3, h4, h5⟩ := h
  exact ⟨r, h3 ▸ parentRec_of_mem S h1 h4, h2, h5⟩

theorem HasEdge.isChild {p : Nat} {c : Nat × Nat} (h : t.HasEdge p c) : t.IsChild p c.1 := by
  obtain ⟨r, h1, h2, h3, h4, _⟩ := h
  exact ⟨r, h1, h2, h3, h4⟩

theorem Pair.isTerm (h : Pair t u) (n : Nat) : t.IsTerm n ↔ u.IsTerm n := by unfold IsTerm; rw [h.alike.node?]

theorem Pair.isNt (h : Pair t u) (n : Nat) : t.IsNt n ↔ u.IsNt n := by unfold IsNt; rw [h.alike.node?]

theorem not_term_of_nt {n : Nat} (h : t.IsNt n) : ¬ t.IsTerm n := by
  rintro ⟨x, hx⟩
  obtain ⟨y, hy⟩ := h
  rw [hx] at hy; cases hy

/-! ### Moving a terminal -/

theorem reattachNode_wf (W : t.WF) {q c : Nat} {r : EdgeRec} (hr : t.graph.parentRec c = some r) (hc : t.IsTerm c)
    (hq : t.IsNt q) (hd : t.Dom q r.src ∨ t.Dom r.src q) {x : Except Err (Nat × Edge)}
    (h : t.reattachNode q r.id = .ok (t', x)) : t'.WF := by
  obtain ⟨m1, m2, m3⟩ := Graph.parentRec_mem hr
  refine (op_step W (.reattachNode q r.id) (t' := t') (v := none)
    (by simp only [Op.run, h, Res.ok_bind, Res.pure_eq])).2.2 ?_
  intro r0 h1 h2 _ _ _ _
  have := W.graph.edge_ext h1 m1 h2
  subst this
  refine ⟨fun hh => ?_, hd⟩
  rw [m2] at hh
  have := W.shape.dom_term hc hh
  subst this
  exact not_term_of_nt hq hc

theorem reattachNode_stays (W : t.WF) {q e : Nat} {x : Except Err (Nat × Edge)} (h : t.reattachNode q e = .ok (t', x)) (n : Nat) :
    t'.content n = t.content n := by
  have S := (op_step W (.reattachNode q e) (t' := t') (v := none)
    (by simp only [Op.run, h, Res.ok_bind, Res.pure_eq])).1
  by_cases hn : t.Live n
  · exact S.keep n hn (by simp [Op.target])
  · rw [content_none.2 hn, content_none]
    intro h'
    exact absurd (S.only n h' hn) (by simp)

/-- Moving a terminal keeps the edges to other nodes. -/
theorem reattachNode_edges (W : t.WF) {q c : Nat} {r : EdgeRec} (hr : t.graph.parentRec c = some r)
    {x : Except Err (Nat × Edge)} (h : t.reattachNode q r.id = .ok (t', x)) :
    t'.root = t.root ∧ ∀ s ∈ t.graph.edges, s.tgt ≠ c → s ∈ t'.graph.edges := by
  obtain ⟨m1, m2, m3⟩ := Graph.parentRec_mem hr
  unfold reattachNode at h
  rw [(Graph.edge?_eq W.graph).2 ⟨m1, rfl⟩] at h
  obtain ⟨_, _, h⟩ := Res.bind_eq_ok.1 h
  simp only [Res.ofOption_some, Res.ok_bind] at h
  split at h
  · simp only [Res.pure_eq, Res.ok.injEq, Prod.mk.injEq] at h
    rw [← h.1]
    exact ⟨rfl, fun s hs _ => hs⟩
  · split at h
    · rcases reattachPrimary_any W.graph h with ⟨_, _, rfl⟩ | ⟨r', e', h1, h2, _, _, _, _, h3, h4, _⟩
      · exact ⟨rfl, fun s hs _ => hs⟩
      · refine ⟨h4, fun s hs hne => ?_⟩
        rw [h3, List.mem_cons, List.mem_filter]
        refine .inr ⟨hs, decide_eq_true fun e => hne ?_⟩
        rw [W.graph.edge_ext hs m1 e, m2]
    · rename_i hw
      rw [hw] at m3; simp [Edge.isPrimary] at m3

theorem Pair.reattachNode (h : Pair t u) {q c : Nat} {r r' : EdgeRec} (hr : t.graph.parentRec c = some r)
    (hr' : u.graph.parentRec c = some r') (hc : t.IsTerm c) (hq : t.IsNt q) (hd : t.Dom q r.src ∨ t.Dom r.src q) :
    Rel (fun x y => Pair x.1 y.1 ∧ Alike.SameOut x.2 y.2) (t.reattachNode q r.id) (u.reattachNode q r'.id) := by
  rintro ⟨t1, x⟩ ⟨u1, y⟩ h1 h2
  obtain ⟨k1, k2⟩ := h.alike.reattachNode q hr hr' _ _ h1 h2
  have hs : r'.src = r.src := by
    have := h.alike.graph.parentRec c
    rw [hr, hr'] at this
    simp only [Option.map_some, Option.some.injEq, Prod.mk.injEq] at this
    exact this.1.symm
  refine ⟨⟨k1, reattachNode_wf h.left hr hc hq hd h1, reattachNode_wf h.right hr' ((h.isTerm c).1 hc) ((h.isNt q).1 hq) ?_ h2⟩, k2⟩
  rw [hs, ← h.alike.twin.dom]
  exact hd

theorem insertUnaryAbove_wf (W : t.WF) {c ins : Nat} (hc : t.IsTerm c) {label : Str}
    (h : t.insertUnaryAbove c label = .ok (t', ins)) : t'.WF := by
  refine (op_step W (.insertUnaryAbove c label) (t' := t') (v := some ins)
    (by simp only [Op.run, h, Res.ok_bind, Res.pure_eq])).2.2 ?_
  rintro ⟨x, hx, _⟩
  exact not_term_of_nt ⟨x, hx⟩ hc

theorem insertUnaryAbove_edges (W : t.WF) {p c ins : Nat} (hp : t.IsChild p c) {label : Str}
    (h : t.insertUnaryAbove c label = .ok (t', ins)) :
    t'.IsChild p ins ∧ t'.IsNt ins ∧ (∀ s ∈ t.graph.edges, s.tgt ≠ c → s ∈ t'.graph.edges) ∧
      ∀ n, t.IsTerm n → t'.IsTerm n := by
  obtain ⟨nd, hn⟩ := (isChild_live W.graph hp).2
  obtain ⟨t1, i1, k1, _, _, k2, _, _, k3, _, k4, _⟩ := insertUnaryAbove_spec W.core hn label
  have S := (op_step W (.insertUnaryAbove c label) (t' := t') (v := some ins)
    (by simp only [Op.run, h, Res.ok_bind, Res.pure_eq])).1
  rw [h] at k1
  simp only [Res.ok.injEq, Prod.mk.injEq] at k1
  obtain ⟨rfl, rfl⟩ := k1
  refine ⟨(k3 _ _).2 (.inr (.inl ⟨hp, rfl⟩)), ⟨_, k2⟩, fun s hs hne => k4 s hs (.inr hne), fun n hn => ?_⟩
  exact (isTerm_content (S.keep n hn.live (by simp [Op.target]))).2 hn

theorem Pair.insertUnaryAbove (h : Pair t u) {c : Nat} (hc : t.IsTerm c) (label : Str) :
    Rel (Same Pair) (t.insertUnaryAbove c label) (u.insertUnaryAbove c label) := by
  rintro ⟨t1, i⟩ ⟨u1, j⟩ h1 h2
  obtain ⟨k1, k2⟩ := h.alike.insertUnaryAbove c label _ _ h1 h2
  exact ⟨⟨k1, insertUnaryAbove_wf h.left hc h1, insertUnaryAbove_wf h.right ((h.isTerm c).1 hc) h2⟩, k2⟩

/-! ### Insertion of intermediate nodes -/

theorem termKids_hasEdge {p : Nat} {c : Nat × Nat} (h : c ∈ t.termKids p) : t.HasEdge p c ∧ t.IsTerm c.1 := by
  obtain ⟨c, e⟩ := c
  obtain ⟨h1, h2⟩ := mem_termKids.1 h
  refine ⟨?_, h2⟩
  obtain ⟨r, hr, h3, h4, h5, h6⟩ := mem_children.1 h1
  exact ⟨r, hr, h3, h4, h6, h5⟩

theorem Pair.termKids (h : Pair t u) (p : Nat) : (t.termKids p).map (·.1) = (u.termKids p).map (·.1) := by
  have hs : ∀ n, t.startOf n = u.startOf n := fun n => by unfold startOf; rw [h.alike.node?]
  have s1 : ((t.termKids p).map (·.1)).Pairwise fun a b => t.startOf a < t.startOf b :=
    List.pairwise_map.2 (termKids_sorted h.left p)
  have s2 : ((u.termKids p).map (·.1)).Pairwise fun a b => u.startOf a < u.startOf b :=
    List.pairwise_map.2 (termKids_sorted h.right p)
  refine List.Perm.eq_of_pairwise (le := fun a b => t.startOf a < t.startOf b) (fun a b _ _ h1 h2 => by omega)
    s1 (by simpa only [hs] using s2) ?_
  refine (List.perm_ext_iff_of_nodup ?_ ?_).2 fun n => ?_
  · refine s1.imp fun {a b} hab => ?_
    rintro rfl; omega
  · refine s2.imp fun {a b} hab => ?_
    rintro rfl; omega
  · rw [mem_termKids_fst, mem_termKids_fst, h.alike.twin.isChild, h.isTerm]

/-- The state of the inner loop on both sides. -/
structure Inner (p : Nat) (l l' : List (Nat × Nat)) (x y : Tree × Finset Nat × Nat × Nat) : Prop where
  pair : Pair x.1 y.1
  rest : x.2 = y.2
  same : l.map (·.1) = l'.map (·.1)
  nodup : (l.map (·.1)).Nodup
  left : ∀ c ∈ l, x.1.HasEdge p c ∧ x.1.IsTerm c.1
  right : ∀ c ∈ l', y.1.HasEdge p c ∧ y.1.IsTerm c.1
  child : x.1.IsChild p x.2.2.1
  nt : x.1.IsNt x.2.2.1

theorem HasEdge.keep {p : Nat} {c : Nat × Nat} {n : Nat} (h : t.HasEdge p c) (hn : c.1 ≠ n)
    (hk : ∀ s ∈ t.graph.edges, s.tgt ≠ n → s ∈ t'.graph.edges) : t'.HasEdge p c := by
  obtain ⟨r, h1, h2, h3, h4, h5⟩ := h
  exact ⟨r, hk r h1 (by rw [h3]; exact hn), h2, h3, h4, h5⟩

theorem Inner.step {p : Nat} {label : Str} {i j : Nat × Nat} {is js : List (Nat × Nat)}
    {x y : Tree × Finset Nat × Nat × Nat} (h : Inner p (i :: is) (j :: js) x y) :
    Rel (fun x y => x.2 = y.2 ∧ (Pair x.1.1 y.1.1 ∧ x.1.2 = y.1.2) ∧ (x.2 = .ok () → Inner p is js x.1 y.1))
      (intermediateInner label x i) (intermediateInner label y j) := by
  obtain ⟨a, vis, ins, prev⟩ := x
  obtain ⟨b, s⟩ := y
  obtain ⟨hab, rfl, same, nodup, left, right, child, nt⟩ := h
  obtain ⟨c, e⟩ := i
  obtain ⟨d, e'⟩ := j
  simp only [List.map_cons, List.cons.injEq] at same
  obtain ⟨rfl, same⟩ := same
  simp only at hab child nt
  obtain ⟨l1, l2⟩ := left (c, e) (by simp)
  obtain ⟨r1, r2⟩ := right (c, e') (by simp)
  simp only at l1 l2 r1 r2
  rw [List.map_cons, List.nodup_cons] at nodup
  have ne1 : ∀ k ∈ is, k.1 ≠ c := fun k hk e => nodup.1 (List.mem_map.2 ⟨k, hk, e⟩)
  have ne2 : ∀ k ∈ js, k.1 ≠ c := fun k hk e => nodup.1 (by rw [same]; exact List.mem_map.2 ⟨k, hk, e⟩)
  unfold intermediateInner
  simp only
  refine hab.alike.bind_node c fun nd hnd => ?_
  split
  · obtain ⟨r, a1, a2, a3⟩ := l1.parentRec hab.left.shape
    obtain ⟨r', b1, b2, b3⟩ := r1.parentRec hab.right.shape
    simp only at a1 a2 a3 b1 b2 b3
    subst a3 b3
    intro x y hx hy
    obtain ⟨⟨t1, o⟩, h1, hx⟩ := Res.bind_eq_ok.1 hx
    obtain ⟨⟨u1, o'⟩, h2, hy⟩ := Res.bind_eq_ok.1 hy
    obtain ⟨k1, k2⟩ := hab.reattachNode a1 b1 l2 nt (.inr (a2 ▸ .single child)) _ _ h1 h2
    simp only at k1 k2
    rcases k2 with ⟨er, rfl, rfl⟩ | ⟨e1, e2, w, rfl, rfl⟩
    · simp only [Res.pure_eq, Res.ok.injEq] at hx hy
      subst hx hy
      exact ⟨rfl, ⟨k1, rfl⟩, nofun⟩
    · simp only [Res.pure_eq, Res.ok.injEq] at hx hy
      subst hx hy
      refine ⟨rfl, ⟨k1, rfl⟩, fun _ => ⟨k1, rfl, same, nodup.2, ?_, ?_, ?_, ?_⟩⟩
      · intro k hk
        obtain ⟨m1, m2⟩ := left k (by simp [hk])
        exact ⟨m1.keep (ne1 k hk) (reattachNode_edges hab.left a1 h1).2,
          (isTerm_content (reattachNode_stays hab.left h1 _)).2 m2⟩
      · intro k hk
        obtain ⟨m1, m2⟩ := right k (by simp [hk])
        exact ⟨m1.keep (ne2 k hk) (reattachNode_edges hab.right b1 h2).2,
          (isTerm_content (reattachNode_stays hab.right h2 _)).2 m2⟩
      · obtain ⟨s, s1, s2, s3, s4⟩ := child
        refine ⟨s, (reattachNode_edges hab.left a1 h1).2 s s1 ?_, s2, s3, s4⟩
        rw [s3]
        rintro rfl
        exact not_term_of_nt nt l2
      · exact (isNt_content (reattachNode_stays hab.left h1 _)).2 nt
  · intro x y hx hy
    obtain ⟨⟨t1, i1⟩, h1, hx⟩ := Res.bind_eq_ok.1 hx
    obtain ⟨⟨u1, i2⟩, h2, hy⟩ := Res.bind_eq_ok.1 hy
    obtain ⟨k1, k2⟩ := hab.insertUnaryAbove l2 label _ _ h1 h2
    simp only at k1 k2
    subst k2
    simp only [Res.pure_eq, Res.ok.injEq] at hx hy
    subst hx hy
    obtain ⟨p1, p2, p3, p4⟩ := insertUnaryAbove_edges hab.left l1.isChild h1
    obtain ⟨q1, q2, q3, q4⟩ := insertUnaryAbove_edges hab.right r1.isChild h2
    refine ⟨rfl, ⟨k1, rfl⟩, fun _ => ⟨k1, rfl, same, nodup.2, ?_, ?_, p1, p2⟩⟩
    · intro k hk
      obtain ⟨m1, m2⟩ := left k (by simp [hk])
      exact ⟨m1.keep (ne1 k hk) p3, p4 _ m2⟩
    · intro k hk
      obtain ⟨m1, m2⟩ := right k (by simp [hk])
      exact ⟨m1.keep (ne2 k hk) q3, q4 _ m2⟩

theorem Pair.intermediateStep (h : Pair t u) {f : Tree → Nat → Option Str} (hf : ∀ a b n, Alike a b → f a n = f b n)
    (vis : Finset Nat) (n : Nat) :
    Rel (fun x y => x.2 = y.2 ∧ Pair x.1.1 y.1.1 ∧ x.1.2 = y.1.2) (intermediateStep f (t, vis) n) (intermediateStep f (u, vis) n) := by
  unfold Tree.intermediateStep
  simp only
  split
  · exact .ok ⟨rfl, h, rfl⟩
  · rcases (h.alike.parent n).cases with ⟨h1, h2⟩ | ⟨p, e, e', h1, h2⟩
    · rw [h1, h2]
      refine h.alike.bind_node n fun nd _ => ?_
      exact .ok ⟨rfl, h, rfl⟩
    · rw [h1, h2]
      simp only [hf t u p h.alike]
      cases f u p with
      | none => exact .ok ⟨rfl, h, rfl⟩
      | some label =>
        simp only
        have hk := h.termKids p
        have m1 := fun c => termKids_hasEdge (p := p) (t := t) (c := c)
        have m2 := fun c => termKids_hasEdge (p := p) (t := u) (c := c)
        have hs := termKids_sorted h.left p
        generalize t.termKids p = K at hk m1 hs
        generalize u.termKids p = L at hk m2
        cases K with
        | nil => exact .panic
        | cons c K =>
          cases L with
          | nil => cases hk
          | cons d L =>
            obtain ⟨c, e1⟩ := c
            obtain ⟨d, e2⟩ := d
            simp only [List.map_cons, List.cons.injEq] at hk
            obtain ⟨rfl, hk⟩ := hk
            simp only
            intro x y hx hy
            obtain ⟨⟨t1, i1⟩, g1, hx⟩ := Res.bind_eq_ok.1 hx
            obtain ⟨⟨u1, i2⟩, g2, hy⟩ := Res.bind_eq_ok.1 hy
            obtain ⟨l1, l2⟩ := m1 (c, e1) (by simp)
            obtain ⟨r1, r2⟩ := m2 (c, e2) (by simp)
            obtain ⟨k1, k2⟩ := h.insertUnaryAbove l2 label _ _ g1 g2
            simp only at k1 k2
            subst k2
            obtain ⟨p1, p2, p3, p4⟩ := insertUnaryAbove_edges h.left l1.isChild g1
            obtain ⟨q1, q2, q3, q4⟩ := insertUnaryAbove_edges h.right r1.isChild g2
            rw [List.pairwise_cons] at hs
            have nd : ((c :: K.map (·.1))).Nodup := by
              rw [List.nodup_cons]
              constructor
              · intro hm
                obtain ⟨k, hk, e⟩ := List.mem_map.1 hm
                have := hs.1 k hk
                simp only [e] at this
                omega
              · have hs2 : (K.map (·.1)).Pairwise fun a b => t.startOf a < t.startOf b := List.pairwise_map.2 hs.2
                refine hs2.imp fun {a b} hab => ?_
                rintro rfl; omega
            rw [List.nodup_cons] at nd
            simp only at hx hy
            rw [k1.alike.node] at hx
            obtain ⟨fn, g3, hx⟩ := Res.bind_eq_ok.1 hx
            rw [g3, Res.ok_bind] at hy
            obtain ⟨⟨s1, o1⟩, g4, hx⟩ := Res.bind_eq_ok.1 hx
            obtain ⟨⟨s2, o2⟩, g5, hy⟩ := Res.bind_eq_ok.1 hy
            have key := Rel.forE (f := intermediateInner label) (g := intermediateInner label) (Inner p)
              (fun x y => Pair x.1 y.1 ∧ x.2 = y.2) (fun _ _ h => ⟨h.pair, h.rest⟩)
              (fun _ _ _ _ h => by simpa using congrArg List.length h.same) (fun _ _ _ _ _ _ h => h.step) K L
              (t1, insert n vis, i1, fn.span.start) (u1, insert n vis, i1, fn.span.start)
              ⟨k1, rfl, hk, nd.2, ?_, ?_, p1, p2⟩ _ _ g4 g5
            · obtain ⟨z1, z2, z3⟩ := key
              simp only at z1 z2 z3
              simp only [Res.pure_eq, Res.ok.injEq] at hx hy
              subst hx hy
              exact ⟨z1, z2, by simp only [z3]⟩
            · intro k hk'
              obtain ⟨w1, w2⟩ := m1 k (by simp [hk'])
              exact ⟨w1.keep (fun e => nd.1 (List.mem_map.2 ⟨k, hk', e⟩)) p3, p4 _ w2⟩
            · intro k hk'
              obtain ⟨w1, w2⟩ := m2 k (by simp [hk'])
              exact ⟨w1.keep (fun e => nd.1 (by rw [hk]; exact List.mem_map.2 ⟨k, hk', e⟩)) q3, q4 _ w2⟩

theorem Pair.insertIntermediate (h : Pair t u) {f : Tree → Nat → Option Str} (hf : ∀ a b n, Alike a b → f a n = f b n) :
    Rel (Same Pair) (t.insertIntermediate f) (u.insertIntermediate f) := by
  unfold Tree.insertIntermediate
  rw [h.alike.terminals]
  refine (Rel.forE (f := Tree.intermediateStep f) (g := Tree.intermediateStep f) (fun l l' x y => l = l' ∧ Pair x.1 y.1 ∧ x.2 = y.2)
    (fun x y => Pair x.1 y.1 ∧ x.2 = y.2) (fun _ _ h => h.2) (fun _ _ _ _ h => by rw [h.1]) ?_ u.terminals u.terminals
    (t, ∅) (u, ∅) ⟨rfl, h, rfl⟩).bind ?_
  · rintro i is j js ⟨a, s⟩ ⟨b, s'⟩ ⟨hl, hab, hs⟩
    simp only [List.cons.injEq] at hl hab hs
    obtain ⟨rfl, rfl⟩ := hl
    subst hs
    exact (hab.intermediateStep hf s i).mono fun _ _ h => ⟨h.1, h.2, fun _ => ⟨rfl, h.2⟩⟩
  · rintro ⟨⟨a, _⟩, r⟩ ⟨⟨b, _⟩, r'⟩ ⟨h1, h2, _⟩
    exact .ok ⟨h2, h1⟩

/-! ### Moving terminals to the root -/

theorem removeNode_root {n : Nat} (hn : ¬ t.IsTerm n) (hr : n ≠ t.root) (S : t.Shape) {r : Except Err Node}
    (h : t.removeNode n = .ok (t', r)) : t'.root = t.root := by
  unfold removeNode at h
  obtain ⟨_, _, h⟩ := Res.bind_eq_ok.1 h
  obtain ⟨nd, h1, h⟩ := Res.bind_eq_ok.1 h
  rw [node_ok] at h1
  have h : t.removeNonterminal n = .ok (t', r) := by
    cases nd with
    | term x => exact absurd ⟨x, h1⟩ hn
    | nt x => exact h
  have fin : ∀ {s s' : Tree} {r : Except Err Node}, s.finishRemove n = .ok (s', r) → s'.root = s.root := by
    intro s s' r h
    unfold finishRemove at h
    obtain ⟨⟨g, nd⟩, h1, h⟩ := Res.bind_eq_ok.1 h
    simp only at h
    split at h
    · obtain ⟨k, _, h⟩ := Res.bind_eq_ok.1 h
      simp only [Res.pure_eq, Res.ok.injEq, Prod.mk.injEq] at h
      rw [← h.1]
    · simp only [Res.pure_eq, Res.ok.injEq, Prod.mk.injEq] at h
      rw [← h.1]
  unfold removeNonterminal at h
  obtain ⟨nd, _, h⟩ := Res.bind_eq_ok.1 h
  obtain ⟨_, _, h⟩ := Res.bind_eq_ok.1 h
  split at h
  · obtain ⟨g, _, h⟩ := Res.bind_eq_ok.1 h
    have := fin (s := { t with graph := g }) h
    exact this
  · rename_i hp
    exfalso
    have hreach := S.reach n ⟨_, h1⟩
    rcases Relation.ReflTransGen.cases_tail hreach with e | ⟨q, _, hq⟩
    · exact hr e
    · obtain ⟨e, he⟩ := S.parent_of_isChild hq
      rw [hp] at he; cases he

theorem removeNode_keeps (W : t.WF) {n k : Nat} (hn : ¬ t.IsTerm n) {r : Except Err Node} (h : t.removeNode n = .ok (t', r))
    (hk : t.IsTerm k) : t'.IsTerm k := by
  have S := (op_step W (.removeNode n) (t' := t') (v := none)
      (by simp only [Op.run, h, Res.ok_bind, Res.pure_eq])).1
  refine (isTerm_content (S.keep k hk.live ?_)).2 hk
  simp only [Op.target, ne_eq, Option.some.injEq]
  rintro rfl
  exact hn hk

theorem Pair.detachLoop (h : Pair t u) (fuel n : Nat) :
    Rel (fun x y => Pair x y ∧ x.root = t.root ∧ ∀ k, t.IsTerm k → x.IsTerm k)
      (detachLoop fuel t.root n t) (detachLoop fuel t.root n u) := by
  unfold Tree.detachLoop
  refine Rel.loop (R := fun (x y : Tree × Option (Nat × Nat)) =>
    (Pair x.1 y.1 ∧ x.1.root = t.root ∧ (∀ k, t.IsTerm k → x.1.IsTerm k) ∧ ∀ c ∈ x.2, ¬ x.1.IsTerm c.1) ∧ Cur x.2 y.2)
    ?_ _ _ _ ⟨⟨h, rfl, fun _ h => h, ?_⟩, h.alike.parent n⟩
  · rintro ⟨a, c⟩ ⟨b, c'⟩ ⟨⟨hab, hr, ht, hc⟩, hcc⟩
    simp only at hab hr ht hc hcc
    simp only [hab.alike.siblings_length n]
    split
    · rcases hab.alike.climberNext hcc with ⟨_, _, h3, h4⟩ | ⟨x, e, e', h1, _, h3, h4⟩
      · rw [h3, h4]
        exact .ok (.inl ⟨⟨hab, hr, ht, by simp⟩, rfl⟩)
      · rw [h3, h4]
        simp only
        have hx : ¬ a.IsTerm x := hc (x, e) (by rw [h1]; simp)
        have hpar : ∀ c ∈ a.parent x, ¬ a.IsTerm c.1 := by
          rintro ⟨q, e⟩ hq
          exact parent_not_term hab.left.shape hq
        rw [← hab.alike.root]
        split
        · rename_i hcond
          intro v w hv hw
          obtain ⟨⟨a1, o⟩, g1, hv⟩ := Res.bind_eq_ok.1 hv
          obtain ⟨⟨b1, o'⟩, g2, hw⟩ := Res.bind_eq_ok.1 hw
          obtain ⟨k1, k2⟩ := hab.removeNode hx _ _ g1 g2
          simp only at k1 k2 hv hw
          obtain ⟨_, _, hv⟩ := Res.bind_eq_ok.1 hv
          obtain ⟨_, _, hw⟩ := Res.bind_eq_ok.1 hw
          simp only [Res.pure_eq, Res.ok.injEq] at hv hw
          subst hv hw
          refine .inl ⟨⟨k1, (removeNode_root hx hcond.1 hab.left.shape g1).trans hr,
            fun k hk => removeNode_keeps hab.left hx g1 (ht k hk), ?_⟩, hab.alike.parent x⟩
          intro c hc hh
          exact hpar c hc (removeNode_isTerm hx g1 hh)
        · exact .ok (.inl ⟨⟨hab, hr, ht, hpar⟩, hab.alike.parent x⟩)
    · exact .ok (.inr ⟨hab, hr, ht⟩)
  · rintro ⟨q, e⟩ hq
    exact parent_not_term h.left.shape hq

theorem Pair.reattachTerminalStep (h : Pair t u) {f : Tree → Nat → Bool} (hf : ∀ a b n, Alike a b → f a n = f b n) (n : Nat)
    (hn : t.IsTerm n) :
    Rel (fun x y => Pair x y ∧ x.root = t.root ∧ ∀ k, t.IsTerm k → x.IsTerm k)
      (reattachTerminalStep t.root f t n) (reattachTerminalStep t.root f u n) := by
  unfold Tree.reattachTerminalStep
  rw [hf t u n h.alike]
  split
  · rw [h.alike.climbFuel]
    refine (h.detachLoop u.climbFuel n).bind ?_
    rintro a b ⟨hab, k1, k2⟩
    rw [parent_eq, parent_eq]
    cases h1 : a.graph.parentRec n with
    | none => exact .panic
    | some r =>
      obtain ⟨r', h2, _, _⟩ := hab.alike.graph.parent_some h1
      rw [h2]
      simp only [Option.map_some, Res.ofOption_some, Res.ok_bind]
      obtain ⟨m1, m2, m3⟩ := Graph.parentRec_mem h1
      have hch : a.IsChild r.src n := ⟨r, m1, rfl, m2, m3⟩
      have hq : a.IsNt a.root := by
        rcases live_iff.1 hab.left.shape.root_live with e | e
        · exfalso
          have := hab.left.shape.dom_term e (hab.left.shape.reach _ (isChild_live hab.left.graph hch).1)
          rw [← this] at e
          exact hab.left.shape.term_leaf _ _ e hch
        · exact e
      intro v w hv hw
      obtain ⟨⟨a1, o⟩, g1, hv⟩ := Res.bind_eq_ok.1 hv
      obtain ⟨⟨b1, o'⟩, g2, hw⟩ := Res.bind_eq_ok.1 hw
      obtain ⟨_, _, hv⟩ := Res.bind_eq_ok.1 hv
      obtain ⟨_, _, hw⟩ := Res.bind_eq_ok.1 hw
      simp only [Res.pure_eq, Res.ok.injEq] at hv hw
      subst hv hw
      rw [← k1] at g1 g2
      obtain ⟨l1, _⟩ := hab.reattachNode h1 h2 (k2 n hn) hq
        (.inl (hab.left.shape.reach _ (isChild_live hab.left.graph hch).1)) _ _ g1 g2
      have hroot := (reattachNode_edges hab.left h1 g1).1
      exact ⟨l1, hroot.trans k1, fun k hk => (isTerm_content (reattachNode_stays hab.left g1 k)).2 (k2 k hk)⟩
  · exact .ok ⟨h, rfl, fun _ h => h⟩

theorem Pair.reattachTerminals (h : Pair t u) {f : Tree → Nat → Bool} (hf : ∀ a b n, Alike a b → f a n = f b n) :
    Rel Pair (t.reattachTerminals t.root f) (u.reattachTerminals u.root f) := by
  unfold Tree.reattachTerminals
  rw [h.alike.terminals, ← h.alike.root]
  refine (Rel.forM (fun l x y => Pair x y ∧ x.root = t.root ∧ ∀ k ∈ l, x.IsTerm k) ?_ u.terminals t u
    ⟨h, rfl, ?_⟩).bind ?_
  · rintro i is a b ⟨hab, h1, h3⟩
    rw [← h1]
    exact (hab.reattachTerminalStep hf i (h3 i (by simp))).mono fun _ _ h =>
      ⟨h.1, h.2.1, fun k hk => h.2.2 k (h3 k (by simp [hk]))⟩
  · intro k hk
    exact (h.isTerm k).2 (mem_terminals.1 hk)
  · rintro a b ⟨hab, _⟩
    rw [resetNtSpans_id hab.left, resetNtSpans_id hab.right]
    exact .ok hab

/-! ### Unary chains -/

theorem Pair.pushChain (h : Pair t u) (delim : Str) (n : Nat) (label : Str) :
    Rel (fun x y => Pair x y ∧ ∀ k, x.IsTerm k → t.IsTerm k) (t.pushChain delim n label) (u.pushChain delim n label) := by
  unfold Tree.pushChain
  refine h.alike.bind_node n fun nd hn => ?_
  refine .ok ⟨h.setFeatures hn _, ?_⟩
  rintro k ⟨x, hx⟩
  unfold Tree.setNode at hx
  rw [Graph.node?_setNode ⟨_, hn⟩] at hx
  split at hx
  · rename_i e
    subst e
    cases nd with
    | term y => exact ⟨y, hn⟩
    | nt y => simp [Node.setFeatures] at hx
  · exact ⟨x, hx⟩

theorem Pair.collapseFrom (h : Pair t u) (delim : Str) (n : Nat) :
    Rel Pair (collapseFrom delim t n) (collapseFrom delim u n) := by
  unfold Tree.collapseFrom
  rw [h.alike.climbFuel]
  refine Rel.loop (R := fun (x y : Tree × Nat × Option (Nat × Nat)) =>
    (Pair x.1 y.1 ∧ x.2.1 = y.2.1 ∧ ∀ c ∈ x.2.2, ¬ x.1.IsTerm c.1) ∧ Cur x.2.2 y.2.2)
    ?_ _ _ _ ⟨⟨h, rfl, ?_⟩, h.alike.parent n⟩
  · rintro ⟨a, m, c⟩ ⟨b, m', c'⟩ ⟨⟨hab, hm, hc⟩, hcc⟩
    simp only at hab hm hc hcc
    subst hm
    simp only
    rcases hab.alike.climberNext hcc with ⟨_, _, h3, h4⟩ | ⟨x, e, e', h1, _, h3, h4⟩
    · rw [h3, h4]
      exact .ok (.inr hab)
    · rw [h3, h4]
      simp only
      have hx : ¬ a.IsTerm x := hc (x, e) (by rw [h1]; simp)
      have hpar : ∀ c ∈ a.parent x, ¬ a.IsTerm c.1 := by
        rintro ⟨q, e⟩ hq
        exact parent_not_term hab.left.shape hq
      refine hab.alike.bind_node x fun nn _ => ?_
      refine hab.alike.bind_node m fun cn _ => ?_
      split
      · intro v w hv hw
        obtain ⟨⟨a1, o⟩, g1, hv⟩ := Res.bind_eq_ok.1 hv
        obtain ⟨⟨b1, o'⟩, g2, hw⟩ := Res.bind_eq_ok.1 hw
        obtain ⟨k1, k2⟩ := hab.removeNode hx _ _ g1 g2
        simp only at k1 k2 hv hw
        subst k2
        obtain ⟨nd, g3, hv⟩ := Res.bind_eq_ok.1 hv
        rw [g3, Res.ok_bind] at hw
        obtain ⟨a2, g4, hv⟩ := Res.bind_eq_ok.1 hv
        obtain ⟨b2, g5, hw⟩ := Res.bind_eq_ok.1 hw
        obtain ⟨k3, k4⟩ := k1.pushChain delim m nd.label _ _ g4 g5
        simp only [Res.pure_eq, Res.ok.injEq] at hv hw
        subst hv hw
        refine .inl ⟨⟨k3, rfl, ?_⟩, hab.alike.parent x⟩
        intro c hc hh
        exact hpar c hc (removeNode_isTerm hx g1 (k4 _ hh))
      · exact .ok (.inl ⟨⟨hab, rfl, hpar⟩, hab.alike.parent x⟩)
  · rintro ⟨q, e⟩ hq
    exact parent_not_term h.left.shape hq

theorem Pair.collapseUnaryChains (h : Pair t u) (delim : Str) :
    Rel Pair (t.collapseUnaryChains delim) (u.collapseUnaryChains delim) := by
  unfold Tree.collapseUnaryChains
  rw [h.alike.terminals]
  exact Rel.forM (fun _ => Pair) (fun i _ a b hab => hab.collapseFrom delim i) _ _ _ h

/-! ### Recording moves -/

theorem addSecondaryEdge_wf (W : t.WF) {p c : Nat} {l : Option Str} {x : Nat} (h : t.addSecondaryEdge p c l = .ok (t', x)) :
    t'.WF := by
  exact (op_step W (.addSecondaryEdge p c l) (t' := t') (v := none)
      (by simp only [Op.run, h, Res.ok_bind, Res.pure_eq])).2.2 trivial

end Tree

namespace Convert

open Lumberjack.Tree

/-- What recording moves does to the edges into a node. -/
theorem addMoves_into : ∀ (log : List Move) {t t' : Tree}, t.WF → addMoves log t = .ok t' →
    t'.WF ∧ t'.graph.nodes = t.graph.nodes ∧ t'.graph.freeNodes = t.graph.freeNodes ∧ t'.root = t.root ∧
      t'.nTerminals = t.nTerminals ∧ t'.numDisc = t.numDisc ∧
      ∀ c, t'.graph.into c =
        ((log.filter (fun m => m.2.2 = c)).map fun m => (m.1, Edge.secondary (some (npLabel m.2.1)))).reverse ++ t.graph.into c := by
  intro log
  induction log with
  | nil =>
    intro t t' W h
    simp only [addMoves, Res.ok.injEq] at h
    subst h
    exact ⟨W, rfl, rfl, rfl, rfl, rfl, fun c => by simp⟩
  | cons m log ih =>
    intro t t' W h
    obtain ⟨p, e, c⟩ := m
    unfold addMoves at h
    obtain ⟨⟨t1, i⟩, h1, h⟩ := Res.bind_eq_ok.1 h
    have W1 := addSecondaryEdge_wf W h1
    unfold addSecondaryEdge at h1
    obtain ⟨⟨g, i'⟩, h2, h1⟩ := Res.bind_eq_ok.1 h1
    simp only [Res.pure_eq, Res.ok.injEq, Prod.mk.injEq] at h1
    obtain ⟨rfl, rfl⟩ := h1
    obtain ⟨a1, a2, a3, _, _, _, _, a4⟩ := Graph.addEdge_inv W.graph h2
    obtain ⟨b0, b1, b2, b3, b4, b5, b6⟩ := ih W1 h
    refine ⟨b0, b1.trans a1, b2.trans a2, b3, b4, b5, fun k => ?_⟩
    rw [b6, a4, List.filter_cons]
    by_cases hk : k = c
    · subst hk
      simp
    · simp [hk, Ne.symm hk]

theorem addMoves_pair {log log' : List Move} {t u t' u' : Tree} (h : Pair t u)
    (hl : ∀ c, log.filter (fun m => m.2.2 = c) = log'.filter (fun m => m.2.2 = c))
    (h1 : addMoves log t = .ok t') (h2 : addMoves log' u = .ok u') : Pair t' u' := by
  obtain ⟨a0, a1, a2, a3, a4, a5, a6⟩ := addMoves_into log h.left h1
  obtain ⟨b0, b1, b2, b3, b4, b5, b6⟩ := addMoves_into log' h.right h2
  refine ⟨⟨⟨a1.trans (h.alike.graph.nodes.trans b1.symm), a2.trans (h.alike.graph.free.trans b2.symm), fun c => ?_, a0.graph, b0.graph⟩,
    a3.trans (h.alike.root.trans b3.symm), a4.trans (h.alike.nTerminals.trans b4.symm), a5.trans (h.alike.numDisc.trans b5.symm)⟩, a0, b0⟩
  rw [a6, b6, hl, h.alike.graph.into]

end Convert
end Lumberjack
