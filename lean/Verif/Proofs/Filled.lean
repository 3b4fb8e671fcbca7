import Verif.Proofs.Undo

/-!
# Projectivization node by node
-/

namespace Lumberjack
namespace Tree

open Relation

variable {t t' u u' : Tree}

/-! ### Filling the gaps of one node -/

open Classical in
/-- The edges after a sequence of moves to `q`. -/
theorem MovesTo.edges {q : Nat} {l : List Move} (h : MovesTo q t l t') :
    (t'.graph.edges.map edgeKey).Perm (t.graph.edges.map fun r =>
      (if r.w.isPrimary = true ∧ r.tgt ∈ l.map (·.2.2) then q else r.src, r.tgt, r.w)) := by
  induction h with
  | nil =>
    simp only [List.map_nil, List.not_mem_nil, and_false, if_false]
    exact List.Perm.refl _
  | @snoc t1 t'' l m h W1 hm ih =>
    obtain ⟨id, id', e1, e2, e3, e4, e5, e6, e7, e8, _⟩ := hm
    have p1 := edges_perm W1.graph e1
    let g : Nat × Nat × Edge → Nat × Nat × Edge := fun x =>
      (if x.2.2.isPrimary = true ∧ x.2.1 = m.2.2 then q else x.1, x.2.1, x.2.2)
    have hg : (t''.graph.edges.map edgeKey).Perm ((t1.graph.edges.map edgeKey).map g) := by
      have p2 := (p1.map edgeKey).map g
      refine List.Perm.trans ?_ p2.symm
      rw [e8]
      simp only [List.map_cons, edgeKey, g, e2, and_self, if_true]
      refine List.Perm.cons _ ?_
      rw [List.map_map]
      refine List.Perm.of_eq (List.map_congr_left fun r hr => ?_)
      obtain ⟨hr, hid⟩ := List.mem_filter.1 hr
      have : ¬ (r.w.isPrimary = true ∧ r.tgt = m.2.2) := by
        rintro ⟨f1, f2⟩
        have := W1.shape.unique r hr _ e1 f2 f1 e2
        rw [this] at hid; simp at hid
      show edgeKey r = (if r.w.isPrimary = true ∧ r.tgt = m.2.2 then q else r.src, r.tgt, r.w)
      rw [if_neg this]; rfl
    refine hg.trans ((ih.map g).trans (List.Perm.of_eq ?_))
    rw [List.map_map]
    refine List.map_congr_left fun r _ => ?_
    simp only [Function.comp_apply, g, List.map_append, List.map_cons, List.map_nil, List.mem_append, List.mem_singleton]
    by_cases f1 : r.w.isPrimary = true
    · by_cases f2 : r.tgt = m.2.2
      · simp [f1, f2]
      · simp [f1, f2]
    · simp [f1]

/-- Every node covers something. -/
theorem WF.covers_some (W : t.WF) {n : Nat} (hn : t.Live n) : ∃ lo hi, t.Covers n lo ∧ t.Covers n hi ∧
    ∀ i, t.Covers n i → lo ≤ i ∧ i ≤ hi := by
  obtain ⟨nd, hnd⟩ := hn
  obtain ⟨hv, hc⟩ := W.span_spec hnd
  refine ⟨_, _, (hc _).1 hv.start_mem, (hc _).1 hv.last_mem, fun i hi => ?_⟩
  rw [← hc, Span.mem_indices] at hi
  omega

/-- Moves to `q` that leave it without gap have filled its gaps. -/
theorem MovesTo.filled (W : t.WF) (W' : t'.WF) {q : Nat} {l : List Move} (hq : t'.Live q) (h : MovesTo q t l t')
    (hg : t'.Gapless q) : Filled q t t' := by
  have S := h.segment
  obtain ⟨lo, hi, c1, c2, c3⟩ := W'.covers_some hq
  have hcov : ∀ i, t'.Covers q i ↔ lo ≤ i ∧ i ≤ hi := fun i => ⟨c3 i, fun h => hg lo hi i c1 c2 h.1 h.2⟩
  -- branches with a position in the range have been moved
  have hmoved : ∀ c, t.Side q c → ∀ i, t.Covers c i → lo ≤ i → i ≤ hi → ∃ m ∈ l, m.2.2 = c := by
    intro c hc i hi1 h1 h2
    rcases (S.covers i).1 ((hcov i).2 ⟨h1, h2⟩) with h | ⟨m, hm, hm'⟩
    · exact absurd h (hc.disjoint W hi1)
    · exact ⟨m, hm, (S.side m hm).eq W hc hm' hi1⟩
  have hmem : ∀ c, t.TakenIn q lo hi c ↔ c ∈ l.map (·.2.2) := by
    intro c
    rw [List.mem_map]
    constructor
    · rintro ⟨h1, i, h2, h3, h4⟩
      exact hmoved c h1 i h2 h3 h4
    · rintro ⟨m, hm, rfl⟩
      refine ⟨S.side m hm, ?_⟩
      have hlive : t.Live m.2.2 := by
        obtain ⟨p, hp, _⟩ := S.side m hm
        exact (isChild_live W.graph hp).2
      obtain ⟨i, _, hi, _⟩ := W.covers_some hlive
      exact ⟨i, hi, (hcov i).1 ((S.covers i).2 (.inr ⟨m, hm, hi⟩))⟩
  refine ⟨⟨lo, hi, ⟨⟨?_, ?_⟩, ?_⟩, hcov, ?_⟩, S.content, S.termAt, S.root, S.nTerm⟩
  · exact fun i hi => (hcov i).1 ((S.covers i).2 (.inl hi))
  · intro c hc i j hi1 hj h1 h2
    obtain ⟨m, hm, rfl⟩ := hmoved c hc i hi1 h1 h2
    exact (hcov j).1 ((S.covers j).2 (.inr ⟨m, hm, hj⟩))
  · -- all other ranges include everything `q` covers on the way
    intro lo' hi' ⟨b1, b2⟩
    have key : ∀ i, t'.Covers q i → lo' ≤ i ∧ i ≤ hi' := by
      clear hg hcov hmoved hmem c1 c2 c3 S hq W'
      induction h with
      | nil => exact b1
      | @snoc t1 t'' l m h W1 hm ih =>
        have S1 := h.segment
        have S2 := S1.snoc W1 hm
        obtain ⟨id, id', e1, e2, e3, e4, e5, e6, ⟨i, k, j, hik, hkj, hi, hj, _, hk⟩, _⟩ := hm
        have hside := S2.side m (by simp)
        have hk' : t.Covers m.2.2 k := by
          rwa [S1.other _ _ (fun h' => e6 ((S1.above _).2 h'))] at hk
        have g1 := ih i hi
        have g2 := ih j hj
        intro x hx
        rcases (S2.covers x).1 hx with hx | ⟨m', hm', hx⟩
        · exact b1 x hx
        · rcases List.mem_append.1 hm' with hm' | hm'
          · exact ih x ((S1.covers x).2 (.inr ⟨m', hm', hx⟩))
          · rw [List.mem_singleton.1 hm'] at hx
            exact b2 _ hside k x hk' hx (by omega) (by omega)
    exact ⟨(key lo c1).1, (key hi c2).2⟩
  · refine h.edges.trans (List.Perm.of_eq (List.map_congr_left fun r _ => ?_))
    classical
    have : (r.w.isPrimary = true ∧ r.tgt ∈ l.map (·.2.2)) ↔ (r.w.isPrimary = true ∧ t.TakenIn q lo hi r.tgt) := by
      rw [hmem]
    simp only [this]

/-- A node without gaps has none to fill. -/
theorem Gapless.filled (W : t.WF) {q : Nat} (hq : t.Live q) (hg : t.Gapless q) : Filled q t t :=
  (MovesTo.nil t).filled W W hq hg

theorem FilledAll.append {l l' : List Nat} {t1 : Tree} (h : FilledAll l t t1) (h' : FilledAll l' t1 t') :
    FilledAll (l ++ l') t t' := by
  induction h with
  | nil => exact h'
  | cons a b _ ih => exact .cons a b (ih h')

theorem FilledAll.gapless (W : t.WF) : ∀ (l : List Nat), (∀ q ∈ l, t.Live q ∧ t.Gapless q) → FilledAll l t t := by
  intro l
  induction l with
  | nil => intro _; exact .nil t
  | cons q l ih =>
    intro h
    exact .cons ((h q (by simp)).2.filled W (h q (by simp)).1) W (ih fun x hx => h x (by simp [hx]))

/-- The smallest range is determined by the tree. -/
theorem LeastRange.unique {q lo hi lo' hi' : Nat} (h : t.LeastRange q lo hi) (h' : t.LeastRange q lo' hi') :
    lo = lo' ∧ hi = hi' := by
  have := h.2 _ _ h'.1
  have := h'.2 _ _ h.1
  omega

theorem Regained.covers (h : Regained t u) (n i : Nat) : u.Covers n i ↔ t.Covers n i := by
  unfold Covers TermAt
  rw [h.dom]
  simp only [h.node]

theorem Regained.side (h : Regained t u) (q c : Nat) : u.Side q c ↔ t.Side q c := by
  unfold Side
  rw [h.dom, h.isChild]

theorem Regained.leastRange (h : Regained t u) {q lo hi : Nat} : u.LeastRange q lo hi ↔ t.LeastRange q lo hi := by
  unfold LeastRange WholeRange
  simp only [h.covers, h.side]

theorem Regained.content (h : Regained t u) (n : Nat) : u.content n = t.content n := by
  unfold Tree.content; rw [h.node]

/-- Filling the gaps of a node gives one result up to the indices and order of edges. -/
theorem Filled.unique (h0 : Regained t u) (W : t'.WF) (Wu : u'.WF) {q : Nat} (h : Filled q t t') (h' : Filled q u u') :
    Regained t' u' := by
  obtain ⟨lo, hi, a1, a2, a3⟩ := h.range
  obtain ⟨lo', hi', b1, b2, b3⟩ := h'.range
  obtain ⟨rfl, rfl⟩ := (h0.leastRange.1 b1).unique a1
  refine regained_of W Wu (fun n => by rw [h'.content, h.content, h0.content]) ?_ (fun n i => ?_) ?_ ?_
  · refine b3.trans (List.Perm.trans ?_ a3.symm)
    classical
    have := h0.edges.map fun (x : Nat × Nat × Edge) =>
      (if x.2.2.isPrimary = true ∧ t.TakenIn q lo' hi' x.2.1 then q else x.1, x.2.1, x.2.2)
    simp only [List.map_map] at this
    have hb : ∀ c, u.TakenIn q lo' hi' c ↔ t.TakenIn q lo' hi' c := fun c => by
      unfold TakenIn; simp only [h0.covers, h0.side]
    simp only [hb]
    exact this
  · rw [h'.termAt, h.termAt]; unfold TermAt; rw [h0.node]
  · rw [h'.root, h.root, h0.root]
  · rw [h'.nTerminals, h.nTerminals, h0.nTerminals]

theorem FilledAll.unique {l : List Nat} (h : FilledAll l t t') : ∀ {u u'}, Regained t u → FilledAll l u u' →
    Regained t' u' := by
  induction h with
  | nil => intro u u' h0 h'; cases h'; exact h0
  | cons a W _ ih =>
    intro u u' h0 h'
    cases h' with
    | cons b Wu h' => exact ih (a.unique h0 W Wu b) h'

/-! ### The order of the nodes -/

theorem PostOrder.unique {ns l l' : List Nat} (h : PostOrder t ns l) : PostOrder t ns l' → l = l' := by
  intro h'
  induction h generalizing l' with
  | nil => cases h'; rfl
  | cons _ _ ih1 ih2 =>
    cases h' with
    | cons h1 h2 => rw [ih1 h1, ih2 h2]

theorem neighbors_eq (t : Tree) (n : Nat) : t.graph.primaryNeighbors n = (t.children n).map (·.1) := by
  unfold Graph.primaryNeighbors children
  rw [List.map_map]; rfl

theorem mem_children_map {p c : Nat} : c ∈ (t.children p).map (·.1) ↔ t.IsChild p c := by
  unfold children Graph.outEdges IsChild Graph.IsChild
  simp only [List.mem_map, List.mem_filter, decide_eq_true_eq]
  constructor
  · rintro ⟨_, ⟨r, ⟨⟨h1, h2⟩, h3⟩, rfl⟩, rfl⟩
    exact ⟨r, h1, h2, rfl, h3⟩
  · rintro ⟨r, h1, h2, rfl, h3⟩
    exact ⟨_, ⟨r, ⟨⟨h1, h2⟩, h3⟩, rfl⟩, rfl⟩

theorem PostOrder.mem {ns l : List Nat} (h : PostOrder t ns l) (x : Nat) : x ∈ l ↔ ∃ n ∈ ns, t.Dom n x := by
  induction h with
  | nil => simp
  | @cons n ns l l' _ _ ih1 ih2 =>
    rw [List.mem_append, List.mem_cons, ih1, ih2]
    simp only [List.mem_reverse, mem_children_map, List.exists_mem_cons_iff]
    constructor
    · rintro (⟨c, hc, h⟩ | rfl | h)
      · exact .inl (Dom.head hc h)
      · exact .inl Dom.refl
      · exact .inr h
    · rintro (h | h)
      · rcases h.cases_child with rfl | ⟨c, hc, h⟩
        · exact .inr (.inl rfl)
        · exact .inl ⟨c, hc, h⟩
      · exact .inr (.inr h)

theorem child_not_above (W : t.WF) {n c : Nat} (hc : t.IsChild n c) : ¬ t.Dom c n := fun h => by
  have := W.shape.dom_antisymm W.graph h (.single hc)
  subst this
  exact W.shape.not_isChild_self W.graph _ hc

/-- No node is listed twice. -/
theorem PostOrder.nodup (W : t.WF) {ns l : List Nat} (h : PostOrder t ns l)
    (hns : ns.Pairwise fun a b => ∀ x, t.Dom a x → ¬ t.Dom b x) : l.Nodup := by
  induction h with
  | nil => simp
  | @cons n ns l l' h1 h2 ih1 ih2 =>
    rw [List.pairwise_cons] at hns
    rw [List.nodup_append]
    refine ⟨ih1 ?_, List.nodup_cons.2 ⟨?_, ih2 hns.2⟩, ?_⟩
    · have hnd : (((t.children n).map (·.1)).reverse).Nodup := List.nodup_reverse.2 (children_nodup W.graph W.shape n)
      refine hnd.imp_of_mem ?_
      intro a b ha hb hne x hax hbx
      rw [List.mem_reverse, mem_children_map] at ha hb
      have key : ∀ a b, t.IsChild n a → t.IsChild n b → a ≠ b → ¬ t.Dom a b := by
        intro a b ha hb hne h
        rcases h.cases_parent with rfl | ⟨e, he, heb⟩
        · exact hne rfl
        · rw [W.shape.isChild_unique heb hb] at he
          exact child_not_above W ha he
      rcases W.shape.dom_linear hax hbx with h | h
      · exact key a b ha hb hne h
      · exact key b a hb ha hne.symm h
    · intro hn
      obtain ⟨m, hm, h⟩ := (h2.mem n).1 hn
      exact hns.1 m hm n Dom.refl h
    · intro a ha b hb e
      subst e
      obtain ⟨c, hc, hca⟩ := (h1.mem a).1 ha
      rw [List.mem_reverse, mem_children_map] at hc
      rcases List.mem_cons.1 hb with rfl | hb
      · exact child_not_above W hc hca
      · obtain ⟨m, hm, h⟩ := (h2.mem a).1 hb
        exact hns.1 m hm a (.head hc hca) h

/-- Every list of nodes has a post-order. -/
theorem PostOrder.exists (W : t.WF) : ∀ (k : Nat) (ns : List Nat), (∀ n ∈ ns, t.Live n ∧ t.graph.nodes.length ≤ k + t.depth n) →
    ∃ l, PostOrder t ns l := by
  intro k
  induction k with
  | zero =>
    intro ns h
    cases ns with
    | nil => exact ⟨[], .nil⟩
    | cons n ns =>
      have h1 := h n (by simp)
      have := depth_lt W.graph W.shape h1.1
      omega
  | succ k ih =>
    intro ns
    induction ns with
    | nil => intro _; exact ⟨[], .nil⟩
    | cons n ns ihn =>
      intro h
      obtain ⟨l', hl'⟩ := ihn fun x hx => h x (by simp [hx])
      obtain ⟨l, hl⟩ := ih ((t.children n).map (·.1)).reverse fun c hc => by
        rw [List.mem_reverse, mem_children_map] at hc
        refine ⟨(isChild_live W.graph hc).2, ?_⟩
        have := (h n (by simp)).2
        have := depth_child W.graph W.shape hc
        omega
      exact ⟨_, .cons hl hl'⟩

/-- Children come before their parents. -/
theorem PostOrder.children_first {ns l : List Nat} (h : PostOrder t ns l) {n : Nat} {pre post : List Nat}
    (hl : l = pre ++ n :: post) (hnd : l.Nodup) {c : Nat} (hc : t.IsChild n c) : c ∈ pre := by
  induction h generalizing pre post with
  | nil => simp at hl
  | @cons m ns l l' h1 h2 ih1 ih2 =>
    have hn : n ∈ l ++ m :: l' := by rw [hl]; simp
    have key : ∀ {A B C D : List Nat}, A ++ n :: B = C ++ n :: D → (A ++ n :: B).Nodup → A = C := by
      intro A B C D e hnd
      have hA : n ∉ A := fun h => by
        rw [List.nodup_append] at hnd
        exact hnd.2.2 n h n (by simp) rfl
      have hC : n ∉ C := fun h => by
        rw [e, List.nodup_append] at hnd
        exact hnd.2.2 n h n (by simp) rfl
      have : (A ++ n :: B).takeWhile (· ≠ n) = (C ++ n :: D).takeWhile (· ≠ n) := by rw [e]
      rw [List.takeWhile_append_of_pos, List.takeWhile_append_of_pos] at this
      · simpa using this
      · intro x hx; simpa using fun (e : x = n) => hC (e ▸ hx)
      · intro x hx; simpa using fun (e : x = n) => hA (e ▸ hx)
    rcases List.mem_append.1 hn with hn | hn
    · obtain ⟨A, B, rfl⟩ := List.append_of_mem hn
      have hc' := ih1 rfl (List.nodup_append.1 hnd).1
      have := key (A := A) (B := B ++ m :: l') (by rw [← hl]; simp) (by simpa using hnd)
      rwa [← this]
    · rcases List.mem_cons.1 hn with rfl | hn
      · rw [← key hl hnd, h1.mem]
        exact ⟨c, by rw [List.mem_reverse, mem_children_map]; exact hc, Dom.refl⟩
      · obtain ⟨A, B, rfl⟩ := List.append_of_mem hn
        have hc' := ih2 rfl (List.nodup_cons.1 (List.nodup_append.1 hnd).2.1).2
        have := key (A := l ++ m :: A) (B := B) (by rw [← hl]; simp) (by simpa using hnd)
        rw [← this]
        simp [hc']

/-! ### The traversal follows that order -/

/-- The traversal of `g` in state `d` returns `l` and ends in state `d'`. -/
inductive Emits (g : Graph) : DfsPost → List Nat → DfsPost → Prop
  | done (d : DfsPost) : Emits g d [] d
  | step {d d1 d' : DfsPost} {l : List Nat} (h : d.step g = .ok (.inl d1)) (hs : Emits g d1 l d') : Emits g d l d'
  | emit {d d1 d' : DfsPost} {x : Nat} {l : List Nat} (h : d.step g = .ok (.inr (some x, d1))) (hs : Emits g d1 l d') :
      Emits g d (x :: l) d'

theorem Emits.append {g : Graph} {d d1 d2 : DfsPost} {l l' : List Nat} (h : Emits g d l d1) (h' : Emits g d1 l' d2) :
    Emits g d (l ++ l') d2 := by
  induction h with
  | done => exact h'
  | step a _ ih => exact .step a (ih h')
  | emit a _ ih => exact .emit a (ih h')

theorem Emits.next {g : Graph} {d e : DfsPost} {l : List Nat} (h : Emits g d l e) (he : e.stack = []) :
    ∀ {k : Nat} {r : Option Nat} {d' : DfsPost}, loopM (DfsPost.step g) k d = .ok (r, d') →
      (r = none ∧ l = []) ∨ ∃ x l', r = some x ∧ l = x :: l' ∧ Emits g d' l' e := by
  induction h with
  | done d =>
    intro k r d' h
    cases k with
    | zero => simp [loopM] at h
    | succ k =>
      have : DfsPost.step g d = .ok (.inr (none, d)) := by unfold DfsPost.step; rw [he]
      rw [loopM_succ_inr this] at h
      simp only [Res.ok.injEq, Prod.mk.injEq] at h
      exact .inl ⟨h.1.symm, rfl⟩
  | step a _ ih =>
    intro k r d' h
    cases k with
    | zero => simp [loopM] at h
    | succ k =>
      rw [loopM_succ_inl a] at h
      exact ih he h
  | @emit d d1 d' x l a hs ih =>
    intro k r d' h
    cases k with
    | zero => simp [loopM] at h
    | succ k =>
      rw [loopM_succ_inr a] at h
      simp only [Res.ok.injEq, Prod.mk.injEq] at h
      exact .inr ⟨x, l, h.1.symm, rfl, h.2 ▸ hs⟩

theorem PostOrder.emits {ns l : List Nat} (h : PostOrder t ns l) (hnd : l.Nodup) (d : DfsPost) (rest : List Nat)
    (hs : d.stack = ns ++ rest) (hd : ∀ x ∈ l, x ∉ d.discovered) (hf : ∀ x ∈ d.finished, x ∈ d.discovered) :
    ∃ d', Emits t.graph d l d' ∧ d'.stack = rest ∧ (∀ x, x ∈ d'.discovered ↔ x ∈ d.discovered ∨ x ∈ l) ∧
      ∀ x, x ∈ d'.finished ↔ x ∈ d.finished ∨ x ∈ l := by
  induction h generalizing d rest with
  | nil => exact ⟨d, .done d, by simpa using hs, by simp, by simp⟩
  | @cons n ns l l' h1 h2 ih1 ih2 =>
    have hn : n ∉ d.discovered := hd n (by simp)
    have hnl : n ∉ l := fun h => (List.nodup_append.1 hnd).2.2 n h n (by simp) rfl
    have hnl' := (List.nodup_cons.1 (List.nodup_append.1 hnd).2.1).1
    let d0 : DfsPost := { d with
      stack := ((t.graph.primaryNeighbors n).filter (· ∉ insert n d.discovered)).reverse ++ d.stack
      discovered := insert n d.discovered }
    have hstep : d.step t.graph = .ok (.inl d0) := by
      unfold DfsPost.step
      rw [hs]
      simp only [List.cons_append, hn, not_false_eq_true, if_true, d0, hs]
    have hstack : d0.stack = ((t.children n).map (·.1)).reverse ++ (n :: (ns ++ rest)) := by
      simp only [d0, hs, List.cons_append]
      rw [List.filter_eq_self.2, neighbors_eq]
      intro c hc
      rw [neighbors_eq] at hc
      have hcl : c ∈ l := (h1.mem c).2 ⟨c, by rw [List.mem_reverse]; exact hc, Dom.refl⟩
      have h1 : c ≠ n := fun e => hnl (e ▸ hcl)
      have h2 := hd c (by simp [hcl])
      simp [h1, h2]
    obtain ⟨d1, e1, e2, e3, e4⟩ := ih1 (List.nodup_append.1 hnd).1 d0 _ hstack
      (fun x hx => by
        have h1 : x ≠ n := fun e => hnl (e ▸ hx)
        have h2 := hd x (by simp [hx])
        simp [d0, h1, h2])
      (fun x hx => Finset.mem_insert_of_mem (hf x hx))
    let d2 : DfsPost := { d1 with stack := ns ++ rest, finished := insert n d1.finished }
    have hfin : n ∉ d1.finished := by
      rw [e4]
      rintro (h | h)
      · exact hn (hf n h)
      · exact hnl h
    have hstep1 : d1.step t.graph = .ok (.inr (some n, d2)) := by
      unfold DfsPost.step
      rw [e2]
      have : n ∈ d1.discovered := by rw [e3]; simp [d0]
      simp only [this, not_true_eq_false, if_false, hfin, not_false_eq_true, if_true, d2]
    obtain ⟨d3, f1, f2, f3, f4⟩ := ih2 (List.nodup_cons.1 (List.nodup_append.1 hnd).2.1).2 d2 rest rfl
      (fun x hx => by
        show x ∉ d1.discovered
        rw [e3]
        have h1 : x ≠ n := fun e => hnl' (e ▸ hx)
        have h2 := hd x (by simp [hx])
        have h3 : x ∉ l := fun h => (List.nodup_append.1 hnd).2.2 x h x (by simp [hx]) rfl
        simp [d0, h1, h2, h3])
      (fun x hx => by
        show x ∈ d1.discovered
        rw [e3]
        rcases Finset.mem_insert.1 hx with rfl | hx
        · simp [d0]
        · rcases (e4 x).1 hx with h | h
          · exact .inl (Finset.mem_insert_of_mem (hf x h))
          · exact .inr h)
    refine ⟨d3, .step hstep (e1.append (.emit hstep1 f1)), f2, fun x => ?_, fun x => ?_⟩
    · rw [f3]
      show x ∈ d1.discovered ∨ _ ↔ _
      rw [e3]
      simp only [d0, Finset.mem_insert, List.mem_append, List.mem_cons]
      tauto
    · rw [f4]
      show x ∈ insert n d1.finished ∨ _ ↔ _
      rw [Finset.mem_insert, e4]
      simp only [d0, List.mem_append, List.mem_cons]
      tauto

/-! ### The whole operation -/

theorem postOrder_root (W : t.WF) : ∃ l, PostOrder t [t.root] l ∧ l.Nodup ∧ ∀ n, n ∈ l ↔ t.Live n := by
  obtain ⟨l, hl⟩ := PostOrder.exists W t.graph.nodes.length [t.root] (by
    intro n hn
    rw [List.mem_singleton.1 hn]
    exact ⟨W.shape.root_live, by omega⟩)
  refine ⟨l, hl, hl.nodup W (by simp), fun n => ?_⟩
  rw [hl.mem]
  simp only [List.mem_singleton, exists_eq_left]
  exact ⟨fun h => h.live W.graph W.shape.root_live, fun h => W.shape.reach n h⟩

theorem projectivize_filled {pick : Tree → Finset Nat → Option Nat} (hpick : IsOrder pick) (W : t.WF)
    {log : Option (List Move)} (h : t.projectivize pick = .ok (t', log)) :
    ∃ l, PostOrder t [t.root] l ∧ FilledAll l t t' := by
  obtain ⟨l, hl, hnd, hmem⟩ := postOrder_root W
  refine ⟨l, hl, ?_⟩
  have hproj : ∀ {s : Tree}, s.WF → s.isProjective = true → ∀ n, s.Live n → s.Gapless n := by
    intro s Ws hs n hn
    have := (isProjective_iff Ws.count).1 hs n
    rw [disc_iff Ws] at this
    simp only [not_and, not_not] at this
    obtain ⟨nd, hnd⟩ := hn
    cases nd with
    | nt x => exact this ⟨x, hnd⟩
    | term x => exact gapless_term Ws ⟨x, hnd⟩
  have hterm : ∀ n i, t.TermAt n i → (t.sortIndices t.terminals)[i]? = some n := fun n i h =>
    sorted_terminals_get W.sentence h
  obtain ⟨dE, e1, e2, _⟩ := hl.emits hnd (DfsPost.new t.root) [] rfl (by simp [DfsPost.new]) (by simp [DfsPost.new])
  unfold projectivize at h
  by_cases hpr : t.isProjective = true
  · simp only [hpr, Bool.not_true, Res.pure_eq, Bool.false_eq_true, if_false, Res.ok.injEq, Prod.mk.injEq] at h
    obtain ⟨rfl, _⟩ := h
    exact FilledAll.gapless W l fun q hq => ⟨(hmem q).1 hq, hproj W hpr q ((hmem q).1 hq)⟩
  simp only [hpr, Bool.not_false, if_true] at h
  obtain ⟨⟨t1, l1⟩, h1, h⟩ := Res.bind_eq_ok.1 h
  simp only [Res.pure_eq, Res.ok.injEq, Prod.mk.injEq] at h
  obtain ⟨rfl, _⟩ := h
  refine loopM_sat (step := fun (s : (Tree × List Move) × DfsPost) => do
      let (item, d) ← s.2.next s.1.1.graph
      match item with
      | some ap => do
        let s' ← fillGaps pick (t.sortIndices t.terminals) ap (t.nTerminals + 1) s.1
        if s'.1.isProjective then return .inr s' else return .inl (s', d)
      | none => return .inr s.1)
    (fun s => Stage t s.1.1 s.1.2 s.2 ∧ (∀ x, x ∉ s.2.discovered → s.1.1.graph.outEdges x = t.graph.outEdges x) ∧
      ∃ l0 todo, l = l0 ++ todo ∧ FilledAll l0 t s.1.1 ∧ Emits t.graph s.2 todo dE)
    (fun s => FilledAll l t s.1) ?_
    ⟨⟨.nil t, W, PInv.new W.shape, rfl, rfl, fun _ _ => Iff.rfl, fun _ => Iff.rfl⟩, fun _ _ => rfl,
      [], l, rfl, .nil t, e1⟩ h1
  rintro ⟨⟨a, la⟩, d⟩ ⟨X, hout, l0, todo, hl0, hfill, hem⟩
  simp only at X hout hfill hem
  have Wa := X.wf
  have hloop : ∀ {r d'}, d.next a.graph = .ok (r, d') →
      (r = none ∧ todo = []) ∨ ∃ x l', r = some x ∧ todo = x :: l' ∧ Emits t.graph d' l' dE := by
    intro r d' h
    unfold DfsPost.next at h
    rw [dfsPost_loop_congr (g' := t.graph) _ d
      (fun x hx => by unfold Graph.primaryNeighbors; rw [hout x hx])] at h
    exact hem.next e2 h
  rcases X.inv.next Wa.graph Wa.shape with ⟨x, d', k1, k2, k3, k4, k5, k6⟩ | ⟨d', k1, k2⟩
  · rcases hloop k1 with ⟨h, _⟩ | ⟨y, l', h, rfl, hem'⟩
    · simp at h
    obtain rfl : x = y := by simpa using h
    have X' : Stage t a la d' := ⟨X.moves, Wa, k2, X.len, X.nterm, X.termAt, X.live⟩
    have hx : x ∈ d'.finished := by rw [k5]; simp
    obtain ⟨a', la', g1, g2, g3, g4, la1, hla, ga⟩ := fillGaps_spec hpick hterm X' hx
      (fuel := t.nTerminals + 1) (by have := X.nterm; omega)
    have hxl : a'.Live x := (g2.live x).2 ((X.live x).1 k3)
    have hf : FilledAll (l0 ++ [x]) t a' :=
      hfill.append (.cons (ga.filled Wa g2.wf hxl g3) g2.wf (.nil a'))
    by_cases hpr' : a'.isProjective = true
    · simp only [k1, Res.ok_bind, g1, hpr', if_true, Res.pure_eq]
      have := hf.append (FilledAll.gapless g2.wf l' fun q hq => by
        have : a'.Live q := (g2.live q).2 ((hmem q).1 (by rw [hl0]; simp [hq]))
        exact ⟨this, hproj g2.wf hpr' q this⟩)
      rw [hl0]
      simpa using this
    · simp only [k1, Res.ok_bind, g1, hpr', Res.pure_eq]
      refine ⟨g2, ?_, l0 ++ [x], l', by rw [hl0]; simp, hf, hem'⟩
      intro y hy
      simp only at hy ⊢
      have hup : ∀ z, a.Dom z x → z ∈ d'.discovered := by
        intro z hz
        induction hz using ReflTransGen.head_induction_on with
        | refl => exact k2.fin_sub x hx
        | @head a b hab _ ih => exact k2.above b (.inr ih) a hab
      rw [(ga.segment).out y (fun h => hy (hup y h))]
      exact hout y fun h => hy (dfsPost_next_sub k1 h)
  · rcases hloop k1 with ⟨_, rfl⟩ | ⟨y, l', h, _⟩
    · simp only [k1, Res.ok_bind, Res.pure_eq]
      rw [hl0]
      simpa using hfill
    · simp at h

end Tree
end Lumberjack
