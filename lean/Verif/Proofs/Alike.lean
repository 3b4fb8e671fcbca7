import Verif.Proofs.ProjectivizeOrder

/-!
# Computations on twins

`Rel R x y` says that whenever two computations both return, their results are related.
`Graph.Alike` and `Tree.Alike` are `Twin` together with the consistency of both graphs.  The operations that
change a tree keep it.
-/

namespace Lumberjack

/-! ### Related computations -/

/-- If both computations return, their results are related. -/
def Rel {α β : Type} (R : α → β → Prop) (x : Res α) (y : Res β) : Prop := ∀ a b, x = .ok a → y = .ok b → R a b

namespace Rel

variable {α β γ δ : Type} {R : α → β → Prop} {S : γ → δ → Prop}

theorem ok {a : α} {b : β} (h : R a b) : Rel R (.ok a) (.ok b) := by
  intro x y hx hy
  cases hx; cases hy; exact h

theorem panic {y : Res β} : Rel R .panic y := by intro a b h; cases h

theorem panic' {x : Res α} : Rel R x .panic := by intro a b _ h; cases h

theorem bind {x : Res α} {y : Res β} {f : α → Res γ} {g : β → Res δ} (h : Rel R x y)
    (hf : ∀ a b, R a b → Rel S (f a) (g b)) : Rel S (x >>= f) (y >>= g) := by
  intro c d hc hd
  obtain ⟨a, ha, hc⟩ := Res.bind_eq_ok.1 hc
  obtain ⟨b, hb, hd⟩ := Res.bind_eq_ok.1 hd
  exact hf a b (h a b ha hb) c d hc hd

theorem rfl {x : Res α} : Rel Eq x x := by
  intro a b ha hb
  rw [ha] at hb
  cases hb; rfl

theorem of_eq {x y : Res α} (h : x = y) : Rel Eq x y := h ▸ rfl

theorem mono {R' : α → β → Prop} {x : Res α} {y : Res β} (h : Rel R x y) (hR : ∀ a b, R a b → R' a b) : Rel R' x y :=
  fun a b ha hb => hR a b (h a b ha hb)

theorem ofOption {x : Option α} {y : Option β} (h : ∀ a b, x = some a → y = some b → R a b) :
    Rel R (Res.ofOption x) (Res.ofOption y) := by
  intro a b ha hb
  exact h a b (Res.ofOption_eq_ok.1 ha) (Res.ofOption_eq_ok.1 hb)

theorem loop {f : α → Res (α ⊕ γ)} {g : β → Res (β ⊕ δ)} (h : ∀ a b, R a b → Rel (Sum.LiftRel R S) (f a) (g b)) :
    ∀ (k : Nat) (a : α) (b : β), R a b → Rel S (loopM f k a) (loopM g k b) := by
  intro k
  induction k with
  | zero => intro a b _ x y hx; simp [loopM] at hx
  | succ k ih =>
    intro a b hab x y hx hy
    simp only [loopM] at hx hy
    cases hf : f a with
    | panic => rw [hf] at hx; simp at hx
    | diverge => rw [hf] at hx; simp at hx
    | ok r =>
      cases hg : g b with
      | panic => rw [hg] at hy; simp at hy
      | diverge => rw [hg] at hy; simp at hy
      | ok r' =>
        have := h a b hab r r' hf hg
        rw [hf] at hx
        rw [hg] at hy
        cases this with
        | inl hr => exact ih _ _ hr x y hx hy
        | inr hr =>
          simp only [Res.ok.injEq] at hx hy
          subst hx hy
          exact hr

theorem forM {σ τ ι : Type} {f : σ → ι → Res σ} {g : τ → ι → Res τ} (R : List ι → σ → τ → Prop)
    (h : ∀ i is a b, R (i :: is) a b → Rel (R is) (f a i) (g b i)) :
    ∀ (l : List ι) (a : σ) (b : τ), R l a b → Rel (R []) (forM' f l a) (forM' g l b) := by
  intro l
  induction l with
  | nil => intro a b hab; exact .ok hab
  | cons i is ih =>
    intro a b hab
    rw [forM'_cons, forM'_cons]
    exact (h i is a b hab).bind fun a' b' h' => ih a' b' h'

/-- Loops that may fail, over lists that correspond to each other. -/
theorem forE {σ τ ι κ ε : Type} {f : σ → ι → Res (σ × Except ε Unit)} {g : τ → κ → Res (τ × Except ε Unit)}
    (R : List ι → List κ → σ → τ → Prop) (P : σ → τ → Prop)
    (hn : ∀ a b, R [] [] a b → P a b)
    (hlen : ∀ l l' a b, R l l' a b → l.length = l'.length)
    (h : ∀ i is j js a b, R (i :: is) (j :: js) a b →
      Rel (fun x y => x.2 = y.2 ∧ P x.1 y.1 ∧ (x.2 = .ok () → R is js x.1 y.1)) (f a i) (g b j)) :
    ∀ (l : List ι) (l' : List κ) (a : σ) (b : τ), R l l' a b →
      Rel (fun x y => x.2 = y.2 ∧ P x.1 y.1) (Lumberjack.forE f l a) (Lumberjack.forE g l' b) := by
  intro l
  induction l with
  | nil =>
    intro l' a b hab
    cases l' with
    | nil => exact .ok ⟨Eq.refl _, hn a b hab⟩
    | cons j js => exact absurd (hlen _ _ _ _ hab) (by simp)
  | cons i is ih =>
    intro l' a b hab
    cases l' with
    | nil => exact absurd (hlen _ _ _ _ hab) (by simp)
    | cons j js =>
      simp only [Lumberjack.forE]
      refine (h i is j js a b hab).bind ?_
      rintro ⟨a', r⟩ ⟨b', r'⟩ ⟨h1, h2, h3⟩
      simp only at h1 h2 h3
      subst h1
      cases r with
      | ok v => exact ih js a' b' (h3 (by cases v; exact Eq.refl _))
      | error e => exact .ok ⟨Eq.refl _, h2⟩

end Rel

/-! ### Graphs -/

namespace Graph

/-- The source and content of the edges into a node. -/
def into (g : Graph) (c : Nat) : List (Nat × Edge) := (g.inEdges c).map fun r => (r.src, r.w)

/-- Two consistent graphs that differ at most in the indices of the edges and in the order of edges into different nodes. -/
structure Alike (g h : Graph) : Prop where
  nodes : g.nodes = h.nodes
  free : g.freeNodes = h.freeNodes
  into : ∀ c, g.into c = h.into c
  left : g.OK
  right : h.OK

variable {g h : Graph}

namespace Alike

theorem node? (A : Alike g h) (n : Nat) : g.node? n = h.node? n := by unfold Graph.node?; rw [A.nodes]

theorem contains (A : Alike g h) (n : Nat) : g.contains n = h.contains n := by unfold Graph.contains; rw [A.node?]

theorem live (A : Alike g h) (n : Nat) : g.Live n ↔ h.Live n := by unfold Live; rw [A.node?]

theorem nodeIndices (A : Alike g h) : g.nodeIndices = h.nodeIndices := by
  unfold Graph.nodeIndices
  rw [A.nodes]
  apply List.filter_congr
  intro n _
  exact A.contains n

theorem symm (A : Alike g h) : Alike h g :=
  ⟨A.nodes.symm, A.free.symm, fun c => (A.into c).symm, A.right, A.left⟩

theorem setNode (A : Alike g h) {n : Nat} (hn : g.Live n) (nd : Node) : Alike (g.setNode n nd) (h.setNode n nd) where
  nodes := by unfold Graph.setNode; simp only [A.nodes]
  free := A.free
  into := A.into
  left := A.left.setNode hn nd
  right := A.right.setNode ((A.live n).1 hn) nd

theorem addNode (A : Alike g h) (nd : Node) :
    Alike (g.addNode nd).1 (h.addNode nd).1 ∧ (g.addNode nd).2 = (h.addNode nd).2 := by
  have h1 := addNode_spec A.left nd
  have h2 := addNode_spec A.right nd
  simp only at h1 h2
  have key : (g.addNode nd).1.nodes = (h.addNode nd).1.nodes ∧
      (g.addNode nd).1.freeNodes = (h.addNode nd).1.freeNodes ∧ (g.addNode nd).2 = (h.addNode nd).2 := by
    unfold Graph.addNode
    rw [A.free]
    cases h.freeNodes with
    | nil => simp only [A.nodes, and_self]
    | cons i is => simp only [A.nodes, and_self]
  refine ⟨⟨key.1, key.2.1, ?_, h1.2.2.2.1, h2.2.2.2.1⟩, key.2.2⟩
  intro c
  have := A.into c
  unfold Graph.into Graph.inEdges at this ⊢
  rw [h1.2.2.1, h2.2.2.1, this]

end Alike

theorem addEdge_inv {a b : Nat} {w : Edge} {g' : Graph} {e : Nat} (G : g.OK) (hr : g.addEdge a b w = .ok (g', e)) :
    g'.nodes = g.nodes ∧ g'.freeNodes = g.freeNodes ∧ g'.OK ∧
      g'.edges = ⟨e, a, b, w⟩ :: g.edges ∧ (∀ r ∈ g.edges, r.id ≠ e) ∧ g.Live a ∧ g.Live b ∧
      ∀ c, g'.into c = if c = b then (a, w) :: g.into c else g.into c := by
  have hc : g.contains a = true ∧ g.contains b = true := by
    unfold addEdge at hr
    cases h1 : g.contains a <;> cases h2 : g.contains b <;> simp_all
  obtain ⟨g1, e1, h1, h2, h3, h4, h5, h6⟩ := addEdge_spec G (contains_iff.1 hc.1) (contains_iff.1 hc.2) w
  rw [hr] at h1
  cases h1
  refine ⟨h3, h4, h6, h2, h5, contains_iff.1 hc.1, contains_iff.1 hc.2, fun c => ?_⟩
  unfold into inEdges
  rw [h2]
  split
  · rename_i hcb; subst hcb
    rw [List.filter_cons_of_pos (by simp)]; rfl
  · rename_i hcb
    rw [List.filter_cons_of_neg (by simpa using Ne.symm hcb)]

theorem Alike.addEdge (A : Alike g h) (a b : Nat) (w : Edge) :
    Rel (fun x y => Alike x.1 y.1) (g.addEdge a b w) (h.addEdge a b w) := by
  rintro ⟨g', e⟩ ⟨h', e'⟩ h1 h2
  obtain ⟨a1, a2, a3, _, _, _, _, a4⟩ := addEdge_inv A.left h1
  obtain ⟨b1, b2, b3, _, _, _, _, b4⟩ := addEdge_inv A.right h2
  exact ⟨a1.trans (A.nodes.trans b1.symm), a2.trans (A.free.trans b2.symm), fun c => by rw [a4, b4, A.into], a3, b3⟩

theorem filter_eq_eraseP {l : List EdgeRec} (hn : (l.map (·.id)).Nodup) {p : EdgeRec → Bool} {r : EdgeRec}
    (hr : l.find? p = some r) : l.filter (fun s => s.id ≠ r.id) = l.eraseP p := by
  induction l with
  | nil => simp at hr
  | cons x l ih =>
    rw [List.map_cons, List.nodup_cons] at hn
    rw [List.find?_cons] at hr
    cases hp : p x with
    | true =>
      rw [hp] at hr
      simp only [Option.some.injEq] at hr
      subst hr
      rw [List.eraseP_cons_of_pos hp, List.filter_cons_of_neg (by simp), List.filter_eq_self]
      intro s hs
      simp only [ne_eq, decide_eq_true_eq]
      exact fun e => hn.1 (List.mem_map.2 ⟨s, hs, e⟩)
    | false =>
      rw [hp] at hr
      have hx : x.id ≠ r.id := fun e => hn.1 (List.mem_map.2 ⟨r, List.mem_of_find?_eq_some hr, e.symm⟩)
      rw [List.eraseP_cons_of_neg (by simp [hp]), List.filter_cons_of_pos (by simpa using hx), ih hn.2 hr]

/-- The record of the edge `Tree.parent` finds. -/
def parentRec (g : Graph) (c : Nat) : Option EdgeRec := (g.inEdges c).find? fun r => r.w.isPrimary

theorem parentRec_mem {c : Nat} {r : EdgeRec} (hr : g.parentRec c = some r) :
    r ∈ g.edges ∧ r.tgt = c ∧ r.w.isPrimary = true := by
  have h1 := List.mem_of_find?_eq_some hr
  have h2 := List.find?_some hr
  unfold inEdges at h1
  rw [List.mem_filter] at h1
  exact ⟨h1.1, by simpa using h1.2, h2⟩

theorem parentRec_into (c : Nat) :
    (g.parentRec c).map (fun r => (r.src, r.w)) = (g.into c).find? fun x => x.2.isPrimary := by
  unfold parentRec into
  rw [List.find?_map]
  rfl

/-- Removing the edge from a node's parent. -/
theorem removeParent (G : g.OK) {c : Nat} {r : EdgeRec} (hr : g.parentRec c = some r) :
    ∃ g', g.removeEdge r.id = some (g', r.w) ∧ g'.nodes = g.nodes ∧ g'.freeNodes = g.freeNodes ∧ g'.OK ∧
      g'.edges = g.edges.filter (fun s => s.id ≠ r.id) ∧
      ∀ b, g'.into b = if b = c then (g.into b).eraseP (fun x => x.2.isPrimary) else g.into b := by
  obtain ⟨h1, h2, _⟩ := parentRec_mem hr
  obtain ⟨g', k1, k2, k3, k4, k5⟩ := removeEdge_spec G h1 rfl
  refine ⟨g', k1, k3, k4, k5, k2, fun b => ?_⟩
  unfold into inEdges
  rw [k2, List.filter_filter]
  split
  · rename_i hb; subst hb
    have hn : ((g.inEdges b).map (·.id)).Nodup :=
      G.ids_nodup.sublist (List.Sublist.map _ List.filter_sublist)
    rw [List.eraseP_map]
    congr 1
    have := filter_eq_eraseP hn hr
    rw [show ((fun x : Nat × Edge => x.2.isPrimary) ∘ fun r : EdgeRec => (r.src, r.w)) = fun r => r.w.isPrimary from rfl]
    unfold inEdges at this
    rw [← this, List.filter_filter]
    apply List.filter_congr
    intro s _
    exact Bool.and_comm _ _
  · rename_i hb
    congr 1
    apply List.filter_congr
    intro s hs
    by_cases e : s.id = r.id
    · rw [G.edge_ext hs h1 e, h2]
      simp [Ne.symm hb]
    · simp [e]

theorem Alike.parentRec (A : Alike g h) (c : Nat) :
    (g.parentRec c).map (fun r => (r.src, r.w)) = (h.parentRec c).map fun r => (r.src, r.w) := by
  rw [parentRec_into, parentRec_into, A.into]

theorem Alike.parent_some (A : Alike g h) {c : Nat} {r : EdgeRec} (hr : g.parentRec c = some r) :
    ∃ r', h.parentRec c = some r' ∧ r'.src = r.src ∧ r'.w = r.w := by
  have := A.parentRec c
  rw [hr] at this
  cases hh : h.parentRec c with
  | none => rw [hh] at this; cases this
  | some r' =>
    rw [hh] at this
    simp only [Option.map_some, Option.some.injEq, Prod.mk.injEq] at this
    exact ⟨r', rfl, this.1.symm, this.2.symm⟩

/-- Removing the edges from the parents of the same node. -/
theorem Alike.removeParent (A : Alike g h) {c : Nat} {r r' : EdgeRec} (hr : g.parentRec c = some r)
    (hr' : h.parentRec c = some r') {x : Graph × Edge} {y : Graph × Edge} (h1 : g.removeEdge r.id = some x)
    (h2 : h.removeEdge r'.id = some y) : Alike x.1 y.1 ∧ x.2 = y.2 := by
  obtain ⟨g', a1, a2, a3, a4, _, a5⟩ := Graph.removeParent A.left hr
  obtain ⟨h', b1, b2, b3, b4, _, b5⟩ := Graph.removeParent A.right hr'
  rw [h1] at a1
  rw [h2] at b1
  cases a1; cases b1
  obtain ⟨r'', k1, k2, k3⟩ := A.parent_some hr
  rw [hr'] at k1
  cases k1
  exact ⟨⟨a2.trans (A.nodes.trans b2.symm), a3.trans (A.free.trans b3.symm), fun c => by rw [a5, b5, A.into], a4, b4⟩,
    k3.symm⟩

theorem Alike.removeNode (A : Alike g h) {n : Nat} {x y : Graph × Node} (h1 : g.removeNode n = some x)
    (h2 : h.removeNode n = some y) : Alike x.1 y.1 ∧ x.2 = y.2 := by
  have hn : ∃ nd, g.node? n = some nd := by
    unfold Graph.removeNode at h1
    cases hg : g.node? n with
    | none => rw [hg] at h1; cases h1
    | some nd => exact ⟨nd, rfl⟩
  obtain ⟨nd, hn⟩ := hn
  have hm := hn
  rw [A.node?] at hm
  obtain ⟨g', a1, a2, _, _, a3⟩ := removeNode_spec A.left hn
  obtain ⟨h', b1, b2, _, _, b3⟩ := removeNode_spec A.right hm
  have ha : g'.nodes = g.nodes.set n none ∧ g'.freeNodes = n :: g.freeNodes := by
    unfold Graph.removeNode at a1
    rw [hn] at a1
    simp only [Option.some.injEq, Prod.mk.injEq] at a1
    rw [← a1.1]
    exact ⟨rfl, rfl⟩
  have hb : h'.nodes = h.nodes.set n none ∧ h'.freeNodes = n :: h.freeNodes := by
    unfold Graph.removeNode at b1
    rw [hm] at b1
    simp only [Option.some.injEq, Prod.mk.injEq] at b1
    rw [← b1.1]
    exact ⟨rfl, rfl⟩
  rw [h1] at a1
  rw [h2] at b1
  cases a1; cases b1
  refine ⟨⟨by rw [ha.1, hb.1, A.nodes], by rw [ha.2, hb.2, A.free], ?_, a3, b3⟩, rfl⟩
  have key : ∀ {g g' : Graph}, g'.edges = g.edges.filter (fun r => r.src ≠ n ∧ r.tgt ≠ n) → ∀ c,
      g'.into c = if c = n then [] else (g.into c).filter (fun x => x.1 ≠ n) := by
    intro g g' he c
    unfold Graph.into Graph.inEdges
    rw [he, List.filter_filter]
    split
    · rename_i hc; subst hc
      rw [List.map_eq_nil_iff, List.filter_eq_nil_iff]
      intro r _
      simp only [Bool.and_eq_true, decide_eq_true_eq]
      rintro ⟨e, _, e'⟩
      exact e' e
    · rename_i hc
      rw [List.filter_map, List.filter_filter]
      congr 1
      apply List.filter_congr
      intro r _
      by_cases e : r.tgt = c
      · simp [e, hc]
      · simp [e]
  intro c
  rw [key a2, key b2, A.into]

/-- The children lists agree up to their order and the indices of the edges. -/
theorem Alike.out_perm (A : Alike g h) (n : Nat) :
    (((g.outEdges n).filter (fun r => r.w.isPrimary)).map (·.tgt)).Perm
      (((h.outEdges n).filter (fun r => r.w.isPrimary)).map (·.tgt)) := by
  have key : ∀ (g : Graph) (c : Nat), (((g.outEdges n).filter (fun r => r.w.isPrimary)).map (·.tgt)).count c =
      (g.into c).countP fun x => x.1 = n ∧ x.2.isPrimary = true := by
    intro g c
    unfold Graph.into inEdges outEdges
    rw [List.count_eq_countP, List.countP_map, List.countP_filter, List.countP_filter, List.countP_map, List.countP_filter]
    apply List.countP_congr
    intro r _
    simp only [Function.comp, Bool.and_eq_true, decide_eq_true_eq, beq_iff_eq]
    tauto
  rw [List.perm_iff_count]
  intro c
  rw [key, key, A.into]

end Graph

end Lumberjack
