import Verif.Proofs.Release
import Verif.Proofs.DecodeTree

/-!
# Decoding in release builds
-/

namespace Lumberjack
namespace Machine

open Lumberjack.Tree Lumberjack.Decoding

/-- No features, or only a chain. -/
def OnlyChain (f : Option Features) : Prop := f = none ∨ ∃ c, f = some ⟨[(Forest.chainKey, some c)]⟩

theorem OnlyChain.insert {f : Option Features} (h : OnlyChain f) (c : Str) :
    OnlyChain (some ((f.getD Features.empty).insert Forest.chainKey (some c)).1) := by
  right
  refine ⟨c, ?_⟩
  rcases h with rfl | ⟨d, rfl⟩
  · rfl
  · rfl

/-- A graph that grows from the nonterminal `r`: every node but `r` and those in `ex` hangs below a nonterminal,
and the terminals are `pre`. Nonterminals may have no children yet. -/
structure Grow (g : Graph) (r : Nat) (ex : List Nat) (pre : List Terminal) : Prop where
  ok : g.OK
  free : g.freeNodes = []
  prim : ∀ e ∈ g.edges, e.w.isPrimary = true
  tgt : (g.edges.map (·.tgt)).Nodup
  root : ∃ x, g.node? r = some (.nt x)
  top : ∀ e ∈ g.edges, e.tgt ≠ r
  src : ∀ e ∈ g.edges, ∃ x, g.node? e.src = some (.nt x)
  loose : ∀ e ∈ g.edges, e.tgt ∉ ex
  reach : ∀ n, g.Live n → n ∉ ex → Relation.ReflTransGen g.IsChild r n
  terms : ∃ ids : List Nat, ids.Nodup ∧ (∀ n, (∃ x, g.node? n = some (.term x)) → n ∈ ids) ∧
    List.Forall₂ (fun n x => g.node? n = some (.term x)) ids pre
  feats : ∀ n x, g.node? n = some (.nt x) → OnlyChain x.features

namespace Grow

variable {g : Graph} {r : Nat} {ex : List Nat} {pre : List Terminal}

/-- A fresh terminal. -/
theorem addTerm (G : Grow g r [] pre) (x : Terminal) :
    ∃ g1, g.addNode (.term x) = (g1, g.nodes.length) ∧ Grow g1 r [g.nodes.length] (pre ++ [x]) := by
  obtain ⟨g1, h1, h2, h3, h4, h5, h6⟩ := Ptb.addNode_free G.ok G.free (.term x)
  have old : ∀ {n : Nat} {nd : Node}, g.node? n = some nd → g1.node? n = some nd := by
    intro n nd h
    rw [h5, if_neg (by have := Graph.lt_of_node? h; omega), h]
  have hch : g1.IsChild = g.IsChild := by
    funext a b; unfold Graph.IsChild; rw [h6]
  refine ⟨g1, h1, h2, h3, by rw [h6]; exact G.prim, by rw [h6]; exact G.tgt, ?_, by rw [h6]; exact G.top, ?_, ?_, ?_, ?_, ?_⟩
  · obtain ⟨y, hy⟩ := G.root; exact ⟨y, old hy⟩
  · intro e he; rw [h6] at he; obtain ⟨y, hy⟩ := G.src e he; exact ⟨y, old hy⟩
  · intro e he; rw [h6] at he; have := Ptb.OK.tgt_lt G.ok he; simp; omega
  · rintro n ⟨nd, hn⟩ hx
    rw [h5, if_neg (by simpa using hx)] at hn
    rw [hch]
    exact G.reach n ⟨nd, hn⟩ (by simp)
  · obtain ⟨ids, i1, i2, i3⟩ := G.terms
    have hlt : ∀ n ∈ ids, n < g.nodes.length := by
      intro n hn
      obtain ⟨i, hi, rfl⟩ := List.mem_iff_getElem.1 hn
      have := (List.forall₂_iff_get.1 i3).2 i hi (by rw [← i3.length_eq]; exact hi)
      exact Graph.lt_of_node? this
    refine ⟨ids ++ [g.nodes.length], ?_, ?_, ?_⟩
    · rw [List.nodup_append]
      refine ⟨i1, by simp, ?_⟩
      intro a ha b hb
      have := hlt a ha
      simp at hb; omega
    · rintro n ⟨y, hy⟩
      rw [h5] at hy
      split at hy
      · rename_i h; simp [h]
      · simp [i2 n ⟨y, hy⟩]
    · refine List.rel_append (i3.imp fun a b h => old h) (.cons ?_ .nil)
      rw [h5, if_pos rfl]
  · intro n y hy
    rw [h5] at hy
    split at hy
    · simp at hy
    · exact G.feats n y hy

/-- Attaching a loose node. -/
theorem attach {n p : Nat} (G : Grow g r [n] pre) (hn : g.Live n) (hr : r ≠ n) (hp : ∃ x, g.node? p = some (.nt x))
    (hpn : p ≠ n) :
    ∃ g' e, g.addEdge p n (.primary none) = .ok (g', e) ∧ Grow g' r [] pre ∧ g'.nodes = g.nodes := by
  obtain ⟨g', e, h1, h2, h3, h4, h5, h6⟩ := Graph.addEdge_spec G.ok ⟨_, hp.choose_spec⟩ hn (.primary none)
  have hnode : ∀ k, g'.node? k = g.node? k := fun k => by unfold Graph.node?; rw [h3]
  have mono : ∀ a b, g.IsChild a b → g'.IsChild a b := by
    rintro a b ⟨q, hq, q1⟩
    exact ⟨q, by rw [h2]; exact List.mem_cons_of_mem _ hq, q1⟩
  refine ⟨g', e, h1, ⟨h6, by rw [h4]; exact G.free, ?_, ?_, ?_, ?_, ?_, by simp, ?_, ?_, by simp only [hnode]; exact G.feats⟩, h3⟩
  · intro q hq
    rw [h2] at hq
    rcases List.mem_cons.1 hq with rfl | hq
    · rfl
    · exact G.prim q hq
  · rw [h2, List.map_cons, List.nodup_cons]
    refine ⟨?_, G.tgt⟩
    intro hm
    obtain ⟨q, hq, hq'⟩ := List.mem_map.1 hm
    exact G.loose q hq (by simp only at hq'; simp [hq'])
  · simp only [hnode]; exact G.root
  · intro q hq
    rw [h2] at hq
    rcases List.mem_cons.1 hq with rfl | hq
    · exact hr.symm
    · exact G.top q hq
  · intro q hq
    rw [h2] at hq
    rw [hnode]
    rcases List.mem_cons.1 hq with rfl | hq
    · exact hp
    · exact G.src q hq
  · rintro m ⟨nd, hm⟩ _
    rw [hnode] at hm
    have up : ∀ m, g.Live m → m ≠ n → Relation.ReflTransGen g'.IsChild r m := fun m h1 h2 =>
      Relation.ReflTransGen.mono mono _ _ (G.reach m h1 (by simpa using h2))
    by_cases hmn : m = n
    · subst hmn
      refine (up p ⟨_, hp.choose_spec⟩ hpn).tail ?_
      exact ⟨_, by rw [h2]; exact List.mem_cons_self, rfl, rfl, rfl⟩
    · exact up m ⟨nd, hm⟩ hmn
  · obtain ⟨ids, i1, i2, i3⟩ := G.terms
    exact ⟨ids, i1, by simp only [hnode]; exact i2, by simp only [hnode]; exact i3⟩

/-- A fresh nonterminal below another, while a node waits to be attached. -/
theorem addNt {p : Nat} (G : Grow g r ex pre) (hex : ∀ n ∈ ex, g.Live n ∧ n ≠ p ∧ n ≠ r) (hp : ∃ x, g.node? p = some (.nt x))
    (y : NonTerminal) (hy : OnlyChain y.features) :
    ∃ g1 g2 e, g.addNode (.nt y) = (g1, g.nodes.length) ∧ g1.addEdge p g.nodes.length (.primary none) = .ok (g2, e) ∧
      Grow g2 r ex pre ∧ (∃ x, g2.node? g.nodes.length = some (.nt x)) ∧
      ∀ n nd, g.node? n = some nd → g2.node? n = some nd := by
  obtain ⟨g1, h1, h2, h3, h4, h5, h6⟩ := Ptb.addNode_free G.ok G.free (.nt y)
  have old : ∀ {n : Nat} {nd : Node}, g.node? n = some nd → g1.node? n = some nd := by
    intro n nd h
    rw [h5, if_neg (by have := Graph.lt_of_node? h; omega), h]
  obtain ⟨px, hpx⟩ := hp
  obtain ⟨g2, e, k1, k2, k3, k4, k5, k6⟩ := Graph.addEdge_spec h2 (a := p) (b := g.nodes.length) ⟨_, old hpx⟩
    ⟨.nt y, by rw [h5, if_pos rfl]⟩ (.primary none)
  have hnode : ∀ k, g2.node? k = g1.node? k := fun k => by unfold Graph.node?; rw [k3]
  have mono : ∀ a b, g.IsChild a b → g2.IsChild a b := by
    rintro a b ⟨q, hq, q1⟩
    exact ⟨q, by rw [k2, h6]; exact List.mem_cons_of_mem _ hq, q1⟩
  have hplt := Graph.lt_of_node? hpx
  refine ⟨g1, g2, e, h1, k1, ⟨k6, by rw [k4]; exact h3, ?_, ?_, ?_, ?_, ?_, ?_, ?_, ?_, ?_⟩,
    ⟨y, by rw [hnode, h5, if_pos rfl]⟩, fun n nd h => by rw [hnode]; exact old h⟩
  · intro q hq
    rw [k2, h6] at hq
    rcases List.mem_cons.1 hq with rfl | hq
    · rfl
    · exact G.prim q hq
  · rw [k2, h6, List.map_cons, List.nodup_cons]
    refine ⟨?_, G.tgt⟩
    intro hm
    obtain ⟨q, hq, hq'⟩ := List.mem_map.1 hm
    have := Ptb.OK.tgt_lt G.ok hq
    simp only at hq'; omega
  · obtain ⟨x, hx⟩ := G.root; exact ⟨x, by rw [hnode]; exact old hx⟩
  · intro q hq
    rw [k2, h6] at hq
    rcases List.mem_cons.1 hq with rfl | hq
    · have := Graph.lt_of_node? G.root.choose_spec
      simp only; omega
    · exact G.top q hq
  · intro q hq
    rw [k2, h6] at hq
    rw [hnode]
    rcases List.mem_cons.1 hq with rfl | hq
    · exact ⟨px, old hpx⟩
    · obtain ⟨x, hx⟩ := G.src q hq; exact ⟨x, old hx⟩
  · intro q hq
    rw [k2, h6] at hq
    rcases List.mem_cons.1 hq with rfl | hq
    · intro hm
      have := (hex _ hm).1.lt
      simp only at this; omega
    · exact G.loose q hq
  · rintro m ⟨nd, hm⟩ hmx
    rw [hnode, h5] at hm
    split at hm
    · rename_i e'; subst e'
      refine (Relation.ReflTransGen.mono mono _ _ (G.reach p ⟨_, hpx⟩ (fun h => (hex _ h).2.1 rfl))).tail ?_
      exact ⟨_, by rw [k2]; exact List.mem_cons_self, rfl, rfl, rfl⟩
    · exact Relation.ReflTransGen.mono mono _ _ (G.reach m ⟨nd, hm⟩ hmx)
  · obtain ⟨ids, i1, i2, i3⟩ := G.terms
    refine ⟨ids, i1, ?_, i3.imp fun a b h => by rw [hnode]; exact old h⟩
    rintro n ⟨x, hx⟩
    rw [hnode, h5] at hx
    split at hx
    · simp at hx
    · exact i2 n ⟨x, hx⟩
  · intro n x hx
    rw [hnode, h5] at hx
    split at hx
    · simp only [Option.some.injEq, Node.nt.injEq] at hx
      exact hx ▸ hy
    · exact G.feats n x hx

/-- Changing a nonterminal. -/
theorem setNt {n : Nat} (G : Grow g r ex pre) {x : NonTerminal} (hn : g.node? n = some (.nt x)) (y : NonTerminal)
    (hy : OnlyChain y.features) : Grow (g.setNode n (.nt y)) r ex pre := by
  have hnode := Graph.node?_setNode (g := g) ⟨_, hn⟩ (.nt y)
  have isNt : ∀ k, (∃ x, g.node? k = some (.nt x)) → ∃ x, (g.setNode n (.nt y)).node? k = some (.nt x) := by
    rintro k ⟨z, hz⟩
    rw [hnode]
    split
    · exact ⟨y, rfl⟩
    · exact ⟨z, hz⟩
  have isTerm : ∀ k z, (g.setNode n (.nt y)).node? k = some (.term z) ↔ g.node? k = some (.term z) := by
    intro k z
    rw [hnode]
    split
    · rename_i h; subst h; rw [hn]; simp
    · rfl
  refine ⟨G.ok.setNode ⟨_, hn⟩ _, G.free, G.prim, G.tgt, isNt _ G.root, G.top, fun e he => isNt _ (G.src e he), G.loose, ?_, ?_, ?_⟩
  · rintro m ⟨nd, hm⟩ hx
    rw [hnode] at hm
    split at hm
    · rename_i h; subst h; exact G.reach m ⟨_, hn⟩ hx
    · exact G.reach m ⟨nd, hm⟩ hx
  · obtain ⟨ids, i1, i2, i3⟩ := G.terms
    simp only [isTerm]
    exact ⟨ids, i1, i2, i3⟩
  · intro k z hz
    rw [hnode] at hz
    split at hz
    · simp only [Option.some.injEq, Node.nt.injEq] at hz
      exact hz ▸ hy
    · exact G.feats k z hz

end Grow

theorem outNeighbors_mem {g : Graph} {n c : Nat} (h : c ∈ outNeighbors g n) : ∃ e ∈ g.edges, e.src = n ∧ e.tgt = c := by
  unfold outNeighbors Graph.outEdges at h
  obtain ⟨e, he, rfl⟩ := List.mem_map.1 h
  simp only [List.mem_filter, decide_eq_true_eq] at he
  exact ⟨e, he.1, he.2, rfl⟩

theorem not_terminal {g : Graph} {n : Nat} (h : (g.node? n).any (fun x => !x.isTerminal) = true) :
    ∃ x, g.node? n = some (.nt x) := by
  cases hn : g.node? n with
  | none => rw [hn] at h; simp at h
  | some nd =>
    cases nd with
    | term x => rw [hn] at h; simp [Node.isTerminal] at h
    | nt x => exact ⟨x, rfl⟩

theorem descend_nt {g : Graph} : ∀ (k cur : Nat), (∃ x, g.node? cur = some (.nt x)) →
    ∃ x, g.node? (descend g k cur) = some (.nt x) := by
  intro k
  induction k with
  | zero => intro cur h; exact h
  | succ k ih =>
    intro cur h
    rw [descend]
    split
    · rename_i n hf
      exact ih n (not_terminal (by simpa using List.find?_some hf))
    · exact h

theorem Grow.descendOrInsert {r n : Nat} {pre : List Terminal} (idx prevN : Nat) :
    ∀ (left i : Nat) {g : Graph} {cur : Nat}, Grow g r [n] pre → g.Live n → r ≠ n → cur ≠ n →
    (∃ x, g.node? n = some (.term x)) →
    (∃ x, g.node? cur = some (.nt x)) →
    ∃ g' cur', Tree.descendOrInsert idx prevN left i g cur = .ok (g', cur') ∧ Grow g' r [n] pre ∧
      (∃ x, g'.node? cur' = some (.nt x)) ∧ ∀ m nd, g.node? m = some nd → g'.node? m = some nd := by
  intro left
  induction left with
  | zero => intro i g cur G _ _ _ _ hc; exact ⟨g, cur, by rw [Tree.descendOrInsert], G, hc, fun _ _ h => h⟩
  | succ left ih =>
    intro i g cur G hn hr hcn ht hc
    have new : ∃ g' cur', (do
          let (g2, _) ← (g.addNode (.nt (NonTerminal.new dummy (Span.ofIdx idx)))).1.addEdge cur
            (g.addNode (.nt (NonTerminal.new dummy (Span.ofIdx idx)))).2 (.primary none)
          Tree.descendOrInsert idx prevN left (i + 1) g2
            (g.addNode (.nt (NonTerminal.new dummy (Span.ofIdx idx)))).2) = .ok (g', cur') ∧ Grow g' r [n] pre ∧
        (∃ x, g'.node? cur' = some (.nt x)) ∧ ∀ m nd, g.node? m = some nd → g'.node? m = some nd := by
      obtain ⟨g1, g2, e, h1, h2, h3, h4, h5⟩ := G.addNt (p := cur)
        (by intro m hm; simp only [List.mem_singleton] at hm; subst hm; exact ⟨hn, hcn.symm, hr.symm⟩) hc
        (NonTerminal.new dummy (Span.ofIdx idx)) (.inl rfl)
      have hlt := hn.lt
      obtain ⟨tx, htx⟩ := ht
      obtain ⟨g', cur', k1, k2, k3, k4⟩ := ih (i + 1) h3 ⟨_, h5 n _ hn.choose_spec⟩ hr (by omega) ⟨tx, h5 _ _ htx⟩ h4
      refine ⟨g', cur', ?_, k2, k3, fun m nd hm => k4 m nd (h5 m nd hm)⟩
      rw [h1]
      simp only [h2, Res.ok_bind]
      exact k1
    rw [Tree.descendOrInsert]
    simp only []
    split
    · rename_i m hm
      split
      · exact new
      · split at hm
        · rename_i m' hh
          split at hm
          · rename_i hany
            simp only [Option.some.injEq] at hm
            subst hm
            have hnt := not_terminal hany
            exact ih (i + 1) G hn hr (by
              rintro rfl
              obtain ⟨x, hx⟩ := ht
              obtain ⟨y, hy⟩ := hnt
              rw [hx] at hy; simp at hy) ht hnt
          · simp at hm
        · simp at hm
    · exact new

theorem Grow.setCommonLabel {g : Graph} {r cur : Nat} {ex : List Nat} {pre : List Terminal} (G : Grow g r ex pre)
    (hc : ∃ x, g.node? cur = some (.nt x)) (l : Str) :
    ∃ g', Tree.setCommonLabel g cur l = .ok g' ∧ Grow g' r ex pre ∧
      (∀ m, (∃ x, g.node? m = some (.nt x)) → ∃ x, g'.node? m = some (.nt x)) ∧
      ∀ m, g.Live m → g'.Live m := by
  obtain ⟨x, hx⟩ := hc
  have key : ∀ y : NonTerminal, OnlyChain y.features → Grow (g.setNode cur (.nt y)) r ex pre ∧
      (∀ m, (∃ x, g.node? m = some (.nt x)) → ∃ x, (g.setNode cur (.nt y)).node? m = some (.nt x)) ∧
      ∀ m, g.Live m → (g.setNode cur (.nt y)).Live m := by
    intro y hy
    refine ⟨G.setNt hx y hy, ?_, ?_⟩
    · rintro m ⟨z, hz⟩
      rw [Graph.node?_setNode ⟨_, hx⟩]
      split
      · exact ⟨y, rfl⟩
      · exact ⟨z, hz⟩
    · rintro m ⟨z, hz⟩
      unfold Graph.Live
      rw [Graph.node?_setNode ⟨_, hx⟩]
      split
      · exact ⟨_, rfl⟩
      · exact ⟨z, hz⟩
  unfold Tree.setCommonLabel
  rw [hx]
  simp only [Res.ofOption_some, Res.ok_bind]
  split
  · exact ⟨_, rfl, key _ ((G.feats cur x hx).insert _)⟩
  · exact ⟨_, rfl, key _ (G.feats cur x hx)⟩

theorem decodeLoop_none {b : Build} {n idx : Nat} {c : Option Str} {x : Terminal} {rest} {s : DecState} {g1 : Graph}
    {ti : Nat} (h : s.graph.addNode (.term (chained c x)) = (g1, ti)) (hn : n ≠ 1) :
    decodeLoop b n ((((none, c), x), idx) :: rest) s =
      g1.addEdge (descend g1 s.prevN s.root) ti (.primary none) >>= fun r =>
        decodeLoop b n rest { s with graph := r.1 } := by
  obtain ⟨rfl, rfl⟩ : (s.graph.addNode (.term (chained c x))).1 = g1 ∧
      (s.graph.addNode (.term (chained c x))).2 = ti := by rw [h]; exact ⟨rfl, rfl⟩
  cases c <;> exact if_neg hn

theorem decodeLoop_some {b : Build} {n idx : Nat} {a : AbsAncestor} {c : Option Str} {x : Terminal} {rest} {s : DecState}
    {g1 : Graph} {ti : Nat} (h : s.graph.addNode (.term (chained c x)) = (g1, ti)) :
    decodeLoop b n ((((some a, c), x), idx) :: rest) s =
      Tree.descendOrInsert idx s.prevN (a.common - 1) 1 g1 s.root >>= fun r =>
      Tree.setCommonLabel r.1 r.2 a.label >>= fun g3 =>
      g3.addEdge (match s.prev with | none => r.2 | some p => if a.common > s.prevN then r.2 else p) ti
        (.primary none) >>= fun q =>
      usize b ((a.common : Int) - 1) >>= fun k =>
      decodeLoop b n rest { s with graph := q.1, prev := some r.2, prevN := k } := by
  obtain ⟨rfl, rfl⟩ : (s.graph.addNode (.term (chained c x))).1 = g1 ∧
      (s.graph.addNode (.term (chained c x))).2 = ti := by rw [h]; exact ⟨rfl, rfl⟩
  cases c <;> rfl

/-- The loop of `decode` in a release build. -/
theorem decodeLoop_grow {n : Nat} : ∀ (l : List ((Option AbsAncestor × Option Str) × Terminal)) (i : Nat) {s : DecState}
    {pre : List Terminal}, (n = 1 → ∀ p ∈ l, p.1.1 ≠ none) → Grow s.graph s.root [] pre →
    (∀ p, s.prev = some p → ∃ x, s.graph.node? p = some (.nt x)) →
    ∃ s', decodeLoop .wrapping n (l.zipIdx i) s = .ok s' ∧
      Grow s'.graph s'.root [] (pre ++ l.map fun p => chained p.1.2 p.2) := by
  intro l
  induction l with
  | nil => intro i s pre _ G _; exact ⟨s, rfl, by simpa using G⟩
  | cons a l ih =>
    obtain ⟨⟨anc, c⟩, x⟩ := a
    intro i s pre h1 G hp
    obtain ⟨g1, a1, G1⟩ := G.addTerm (chained c x)
    have old : ∀ m, (∃ x, s.graph.node? m = some (.nt x)) → ∃ x, g1.node? m = some (.nt x) := by
      rintro m ⟨z, hz⟩
      obtain ⟨g1', b1, -, -, -, b5, -⟩ := Ptb.addNode_free G.ok G.free (.term (chained c x))
      rw [a1] at b1
      simp only [Prod.mk.injEq, and_true] at b1
      subst b1
      exact ⟨z, by rw [b5, if_neg (by have := Graph.lt_of_node? hz; omega), hz]⟩
    have hnew : ∃ z, g1.node? s.graph.nodes.length = some (.term z) := by
      obtain ⟨g1', b1, -, -, -, b5, -⟩ := Ptb.addNode_free G.ok G.free (.term (chained c x))
      rw [a1] at b1
      simp only [Prod.mk.injEq, and_true] at b1
      subst b1
      exact ⟨_, by rw [b5, if_pos rfl]⟩
    have ne : ∀ {g : Graph} {m : Nat}, (∃ z, g.node? s.graph.nodes.length = some (.term z)) →
        (∃ z, g.node? m = some (.nt z)) → m ≠ s.graph.nodes.length := by
      rintro g m ⟨z, hz⟩ ⟨y, hy⟩ rfl
      rw [hz] at hy; simp at hy
    have happ : pre ++ ((((anc, c), x) :: l).map fun p => chained p.1.2 p.2) =
        (pre ++ [chained c x]) ++ l.map fun p => chained p.1.2 p.2 := by simp
    rw [happ, List.zipIdx_cons]
    have hroot1 := old _ G.root
    cases anc with
    | none =>
      have hn1 : n ≠ 1 := fun h => h1 h _ List.mem_cons_self rfl
      rw [decodeLoop_none a1 hn1]
      obtain ⟨g2, e, k1, k2, k3⟩ := G1.attach (p := descend g1 s.prevN s.root) ⟨_, hnew.choose_spec⟩ (ne hnew hroot1)
        (descend_nt _ _ hroot1) (ne hnew (descend_nt _ _ hroot1))
      simp only [k1, Res.ok_bind]
      refine ih (i + 1) (s := { s with graph := g2 }) (fun h p hm => h1 h p (List.mem_cons_of_mem _ hm)) k2 ?_
      intro p hpp
      have := old p (hp p hpp)
      show ∃ x, g2.node? p = _
      unfold Graph.node? at this ⊢
      rw [k3]
      exact this
    | some a =>
      rw [decodeLoop_some a1]
      obtain ⟨g2, cur, d1, d2, d3, d4⟩ := G1.descendOrInsert i s.prevN (a.common - 1) 1 (cur := s.root)
        ⟨_, hnew.choose_spec⟩ (ne hnew hroot1) (ne hnew hroot1) hnew hroot1
      have hnew2 : ∃ z, g2.node? s.graph.nodes.length = some (.term z) := ⟨_, d4 _ _ hnew.choose_spec⟩
      obtain ⟨g3, e1, e2, e3, e4⟩ := d2.setCommonLabel d3 a.label
      have htarget : ∃ z, g2.node? (match s.prev with
          | none => cur
          | some p => if a.common > s.prevN then cur else p) = some (.nt z) := by
        split
        · exact d3
        · rename_i p hpp
          split
          · exact d3
          · obtain ⟨z, hz⟩ := old p (hp p hpp)
            exact ⟨z, d4 _ _ hz⟩
      obtain ⟨g4, e, k1, k2, k3⟩ := e2.attach (e4 _ ⟨_, hnew2.choose_spec⟩) (ne hnew hroot1) (e3 _ htarget)
        (ne hnew2 htarget)
      obtain ⟨k, hk⟩ : ∃ k, usize .wrapping ((a.common : Int) - 1) = .ok k := by
        unfold usize
        split
        · exact ⟨_, rfl⟩
        · exact ⟨_, rfl⟩
      simp only [d1, Res.ok_bind, e1, k1, hk]
      refine ih (i + 1) (s := { s with graph := g4, prev := some cur, prevN := k })
        (fun h p hm => h1 h p (List.mem_cons_of_mem _ hm)) k2 ?_
      intro p hpp
      simp only [Option.some.injEq] at hpp
      subst hpp
      obtain ⟨z, hz⟩ := e3 _ d3
      exact ⟨z, by rw [← hz]; unfold Graph.node?; rw [k3]⟩

/-! ## Spans of a tree that may have nonterminals without children -/

theorem loopM_ends {σ β : Type} {step : σ → Res (σ ⊕ β)} (Inv : σ → Prop) (m : σ → Nat) (Post : β → Prop)
    (h : ∀ s, Inv s → step s = .panic ∨ (∃ s', step s = .ok (.inl s') ∧ Inv s' ∧ m s' < m s) ∨
      (∃ b, step s = .ok (.inr b) ∧ Post b)) :
    ∀ fuel s, Inv s → m s < fuel → loopM step fuel s = .panic ∨ ∃ b, loopM step fuel s = .ok b ∧ Post b := by
  intro fuel
  induction fuel with
  | zero => intro s _ hm; omega
  | succ k ih =>
    intro s hs hm
    rcases h s hs with h1 | ⟨s', h1, h2, h3⟩ | ⟨b, h1, h2⟩
    · left; simp only [loopM, h1]
    · simp only [loopM, h1]
      exact ih s' h2 (by omega)
    · right; exact ⟨b, by simp only [loopM, h1], h2⟩

theorem next_congr {g h : Graph} (he : g.edges = h.edges) (hl : g.nodes.length = h.nodes.length) (d : DfsPost) :
    d.next g = d.next h := by
  have : DfsPost.step g = DfsPost.step h := by
    funext d
    unfold DfsPost.step Graph.primaryNeighbors Graph.outEdges
    rw [he]
  unfold DfsPost.next DfsPost.fuel
  rw [this, he, hl]

/-- The tree with every node that has no children made a terminal. -/
def leafed (t : Tree) : Tree :=
  let f (i : Nat) (nd : Node) : Node :=
    if t.graph.edges.any (fun e => e.src = i) then nd else .term (Terminal.new [] [] 0)
  { t with graph := { t.graph with nodes := t.graph.nodes.mapIdx fun i o => o.map (f i) } }

theorem leafed_node (t : Tree) (n : Nat) : (leafed t).graph.node? n = (t.graph.node? n).map fun nd =>
    if t.graph.edges.any (fun e => e.src = n) then nd else .term (Terminal.new [] [] 0) := by
  unfold leafed Graph.node?
  simp only [List.getElem?_mapIdx]
  cases t.graph.nodes[n]? with
  | none => rfl
  | some o => rfl

theorem leafed_live (t : Tree) (n : Nat) : (leafed t).Live n ↔ t.Live n := by
  unfold Tree.Live Graph.Live
  rw [leafed_node]
  cases t.graph.node? n <;> simp

theorem leafed_child (t : Tree) : (leafed t).IsChild = t.IsChild := rfl

theorem resetNode_cases {t : Tree} {n : Nat} (G : t.graph.OK) (hn : t.Live n) :
    (t.resetNode n = .panic) ∨
    ∃ t', t.resetNode n = .ok t' ∧ SpanEdit t t' ∧ (t.IsNt n → ∃ c, t.IsChild n c) := by
  obtain ⟨nd, hnd⟩ := hn
  unfold resetNode
  rw [node_eq hnd]
  simp only [Res.ok_bind]
  cases nd with
  | term x => exact .inr ⟨t, rfl, SpanEdit.refl t, by rintro ⟨y, hy⟩; rw [hnd] at hy; simp at hy⟩
  | nt x =>
    simp only []
    obtain ⟨v, hv, hv2⟩ := foldl_toVec (t := t) (t.children n) []
      (fun c hcm => (isChild_live G (isChild_of_mem_children hcm)).2)
    rw [hv]
    simp only [Res.ok_bind]
    by_cases hne : v = []
    · left; rw [hne, Span.fromVec_nil]; rfl
    · right
      obtain ⟨sp, h1, h2, h3⟩ := Span.fromVec_spec hne
      rw [h1]
      simp only [Res.ok_bind, Res.unwrap_ok]
      refine ⟨_, rfl, SpanEdit.setNt hnd sp _, fun _ => ?_⟩
      obtain ⟨i, hi⟩ := List.exists_mem_of_ne_nil v hne
      rcases (hv2 i).1 hi with h | ⟨c, hc, -⟩
      · simp at h
      · exact ⟨c.1, isChild_of_mem_children hc⟩

/-- `reset_nt_spans` panics if a nonterminal has no children. -/
theorem reset_cases {t : Tree} (G : t.graph.OK) (S : (leafed t).Shape) :
    t.resetNtSpans = .panic ∨ ∃ t', t.resetNtSpans = .ok t' ∧ ∀ n, t.IsNt n → ∃ c, t.IsChild n c := by
  have G0 : (leafed t).graph.OK := by
    have hl := leafed_live t
    refine ⟨G.ids_nodup, G.ids_lt, G.freeEdges_nodup, G.freeEdges, G.freeNodes_nodup, ?_, ?_⟩
    · intro i hi
      obtain ⟨h1, h2⟩ := G.freeNodes i hi
      exact ⟨by simpa [leafed] using h1, by rw [leafed_node, h2]; rfl⟩
    · intro r hr
      obtain ⟨h1, h2⟩ := G.ends r hr
      exact ⟨(hl _).2 h1, (hl _).2 h2⟩
  unfold resetNtSpans
  refine loopM_ends
    (fun (s : Tree × DfsPost) => SpanEdit t s.1 ∧ PInv (leafed t) s.2 ∧
      ∀ n ∈ s.2.finished, t.IsNt n → ∃ c, t.IsChild n c)
    (fun s => t.graph.nodes.length + 1 - s.2.finished.card) _ ?_ _ _ ?_ ?_
  · rintro ⟨t1, d⟩ ⟨hE, hP, hR⟩
    simp only at hE hP hR
    have hn : d.next t1.graph = d.next (leafed t).graph :=
      next_congr (by rw [hE.edges]; rfl) (by rw [hE.len]; simp [leafed]) d
    rcases hP.next G0 S with ⟨x, d', h1, h2, h3, h4, h5, h6⟩ | ⟨d', h1, h2⟩
    · rcases resetNode_cases (hE.ok G) ((hE.live x).2 ((leafed_live t x).1 h3)) with g1 | ⟨t2, g1, g2, g3⟩
      · left
        simp only [hn, h1, Res.ok_bind, g1]
        rfl
      · right; left
        refine ⟨(t2, d'), ?_, ⟨hE.trans g2, h2, ?_⟩, ?_⟩
        · simp only [hn, h1, Res.ok_bind, g1]; rfl
        · intro n hn' hnt
          simp only at hn'
          rw [h5] at hn'
          rcases Finset.mem_insert.1 hn' with rfl | hn'
          · rw [← hE.isChild]; exact g3 ((hE.isNt n).2 hnt)
          · exact hR n hn' hnt
        · simp only
          rw [h5, Finset.card_insert_of_notMem h4]
          have hcard : d.finished.card ≤ t.graph.nodes.length := by
            have := (Finset.card_le_card (fun y hy => hP.fin_sub y hy)).trans hP.card_le
            simpa [leafed] using this
          omega
    · right; right
      refine ⟨t1, ?_, ?_⟩
      · simp only [hn, h1, Res.ok_bind]; rfl
      · exact fun n hnt => hR n (h2 n ((leafed_live t n).2 hnt.live)) hnt
  · refine ⟨SpanEdit.withDisc t 0, PInv.new S, by simp [DfsPost.new]⟩
  · simp [DfsPost.new]

namespace Grow

variable {g : Graph} {r : Nat} {pre : List Terminal}

theorem leafed_shape (G : Grow g r [] pre) (k j : Nat) :
    (leafed ⟨g, k, r, j⟩).Shape where
  root_live := by
    obtain ⟨x, hx⟩ := G.root
    exact (leafed_live _ _).2 ⟨_, hx⟩
  root_top := by
    rintro p ⟨e, he, -, h, -⟩
    exact G.top e he h
  unique := by
    intro e he f hf h _ _
    exact List.inj_on_of_nodup_map G.tgt he hf h
  reach := by
    intro n hn
    exact G.reach n ((leafed_live _ _).1 hn) (by simp)
  term_leaf := by
    rintro n c ⟨x, hx⟩ ⟨e, he, rfl, -, -⟩
    rw [leafed_node] at hx
    obtain ⟨y, hy⟩ := G.src e he
    have : g.edges.any (fun f => decide (f.src = e.src)) = true := List.any_eq_true.2 ⟨e, he, by simp⟩
    rw [show (Tree.mk g k r j).graph.node? e.src = some (.nt y) from hy] at hx
    simp only [Option.map_some, Option.some.injEq] at hx
    rw [if_pos this] at hx
    simp at hx
  nt_child := by
    rintro n ⟨x, hx⟩
    rw [leafed_node] at hx
    cases hn : g.node? n with
    | none => rw [show (Tree.mk g k r j).graph.node? n = none from hn] at hx; simp at hx
    | some nd =>
      rw [show (Tree.mk g k r j).graph.node? n = some nd from hn] at hx
      simp only [Option.map_some, Option.some.injEq] at hx
      split at hx
      · rename_i h
        obtain ⟨e, he, h⟩ := List.any_eq_true.1 h
        exact ⟨e.tgt, e, he, by simpa using h, rfl, G.prim e he⟩
      · simp at hx

theorem shape (G : Grow g r [] pre) (k j : Nat)
    (hc : ∀ n, (Tree.mk g k r j).IsNt n → ∃ c, (Tree.mk g k r j).IsChild n c) : (Tree.mk g k r j).Shape where
  root_live := ⟨_, G.root.choose_spec⟩
  root_top := by
    rintro p ⟨e, he, -, h, -⟩
    exact G.top e he h
  unique := by
    intro e he f hf h _ _
    exact List.inj_on_of_nodup_map G.tgt he hf h
  reach := fun n hn => G.reach n hn (by simp)
  term_leaf := by
    rintro n c ⟨x, hx⟩ ⟨e, he, rfl, -, -⟩
    obtain ⟨y, hy⟩ := G.src e he
    rw [show (Tree.mk g k r j).graph.node? e.src = some (.nt y) from hy] at hx
    simp at hx
  nt_child := hc

end Grow

/-- The words of a sentence stand at the positions `0, 1, ...`. -/
theorem Grow.sentence {g : Graph} {r : Nat} {pre : List Terminal} (G : Grow g r [] pre) (j : Nat)
    (hs : ∀ i x, pre[i]? = some x → x.span = Span.ofIdx i) :
    (Tree.mk g pre.length r j).Sentence ∧ (Tree.mk g pre.length r j).Terminals pre := by
  obtain ⟨ids, i1, i2, i3⟩ := G.terms
  have hlen := i3.length_eq
  have hget : ∀ i (hi : i < ids.length), g.node? ids[i] = some (.term (pre[i]'(by omega))) := by
    intro i hi
    exact (List.forall₂_iff_get.1 i3).2 i hi (by omega)
  have key : ∀ n x, g.node? n = some (.term x) → ∃ i, ∃ hi : i < ids.length, n = ids[i] ∧ pre[i]? = some x := by
    intro n x hx
    obtain ⟨i, hi, rfl⟩ := List.mem_iff_getElem.1 (i2 n ⟨x, hx⟩)
    refine ⟨i, hi, rfl, ?_⟩
    rw [hget i hi] at hx
    simp only [Option.some.injEq, Node.term.injEq] at hx
    rw [← hx, List.getElem?_eq_getElem]
  have key' : ∀ n i, (Tree.mk g pre.length r j).TermAt n i → ∃ hi : i < ids.length, n = ids[i] := by
    rintro n i ⟨x, hx, hsp⟩
    obtain ⟨i', hi, rfl, hp⟩ := key n x hx
    have := hs i' x hp
    rw [hsp] at this
    have := ofIdx_inj this
    subst this
    exact ⟨hi, rfl⟩
  refine ⟨⟨?_, ?_, ?_⟩, rfl, ?_⟩
  · rintro n ⟨x, hx⟩
    obtain ⟨i, hi, rfl, hp⟩ := key n x hx
    exact ⟨i, by simp only; omega, x, hx, hs i x hp⟩
  · intro i hi
    simp only at hi
    exact ⟨ids[i]'(by omega), _, hget i (by omega), hs i _ (List.getElem?_eq_getElem hi)⟩
  · intro n m i h1 h2
    obtain ⟨_, rfl⟩ := key' n i h1
    obtain ⟨_, rfl⟩ := key' m i h2
    rfl
  · intro n x i hx hat
    obtain ⟨hi, rfl⟩ := key' n i hat
    have := hget i hi
    rw [show g.node? ids[i] = some (.term x) from hx] at this
    simp only [Option.some.injEq, Node.term.injEq] at this
    rw [this, List.getElem?_eq_getElem]

theorem start_grow : ∃ g0, Graph.empty.addNode (.nt (NonTerminal.new dummy (Span.ofIdx 0))) = (g0, 0) ∧
    Grow g0 0 [] [] := by
  obtain ⟨g0, a1, a2, a3, a4, a5, a6⟩ := Ptb.addNode_free (g := Graph.empty) empty_ok rfl
    (.nt (NonTerminal.new dummy (Span.ofIdx 0)))
  have hed : g0.edges = [] := a6
  have hn : ∀ n nd, g0.node? n = some nd → n = 0 ∧ nd = .nt (NonTerminal.new dummy (Span.ofIdx 0)) := by
    intro n nd h
    rw [a5] at h
    split at h
    · rename_i hn; exact ⟨hn, by simpa using h.symm⟩
    · simp [Graph.empty, Graph.node?] at h
  refine ⟨g0, a1, ?_⟩
  constructor
  · exact a2
  · exact a3
  · simp [hed]
  · simp [hed]
  · exact ⟨_, by rw [a5]; rfl⟩
  · simp [hed]
  · simp [hed]
  · simp
  · rintro n ⟨nd, h⟩ _
    rw [(hn n nd h).1]
  · refine ⟨[], List.nodup_nil, ?_, .nil⟩
    rintro n ⟨x, h⟩
    have := (hn n _ h).2
    simp at this
  · intro n x h
    have := (hn n _ h).2
    simp only [Node.nt.injEq] at this
    rw [this]; exact .inl rfl

/-- A release build decodes every encoding of the right length to a well-formed tree over the given words, or
panics. -/
theorem decode_release (e : AbsEncoding) (ts : List Terminal) (hl : e.length = ts.length)
    (hs : ∀ i x, ts[i]? = some x → x.span = Span.ofIdx i) (h1 : ¬ (ts.length = 1 ∧ ∃ p ∈ e.zip ts, p.1.1 = none)) :
    decode .wrapping e ts = .panic ∨ ∃ t, decode .wrapping e ts = .ok t ∧ t.WF ∧
      t.Terminals ((e.zip ts).map fun p => chained p.1.2 p.2) ∧
      ∀ n x, t.graph.node? n = some (.nt x) → OnlyChain x.features := by
  obtain ⟨g0, a1, G0⟩ := start_grow
  obtain ⟨s', d1, d2⟩ := decodeLoop_grow (n := ts.length) (e.zip ts) 0 (s := ⟨g0, 0, none, 0⟩)
    (fun h p hp hn => h1 ⟨h, p, hp, hn⟩) G0 (by simp)
  have hd : decode .wrapping e ts = (⟨s'.graph, ts.length, s'.root, 0⟩ : Tree).resetNtSpans := by
    unfold decode
    rw [a1]
    simp only [d1, Res.ok_bind]
  rw [hd]
  simp only [List.nil_append] at d2
  have hlen : ((e.zip ts).map fun p => chained p.1.2 p.2).length = ts.length := by
    rw [List.length_map, List.length_zip, hl, Nat.min_self]
  have hsp : ∀ i x, ((e.zip ts).map fun p => chained p.1.2 p.2)[i]? = some x → x.span = Span.ofIdx i := by
    intro i x hx
    rw [List.getElem?_map, List.zip, List.getElem?_zipWith] at hx
    cases he : e[i]? with
    | none => simp [he] at hx
    | some u =>
      cases hy : ts[i]? with
      | none => simp [hy] at hx
      | some y =>
        simp only [he, hy, Option.map_some, Option.some.injEq] at hx
        rw [← hs i y hy, ← hx]
        unfold chained
        cases u.2 <;> rfl
  obtain ⟨z1, z2⟩ := d2.sentence 0 hsp
  rw [hlen] at z1 z2
  rcases reset_cases d2.ok (d2.leafed_shape ts.length 0) with h | ⟨t', h, hc⟩
  · exact .inl h
  · obtain ⟨t, g1, g2, g3⟩ := resetNtSpans_wf d2.ok (d2.shape ts.length 0 hc) z1
    refine .inr ⟨t, g1, g3, ⟨by rw [g2.nTerm]; exact z2.1, fun n x i hx hat => ?_⟩, fun n x hx => ?_⟩
    · obtain ⟨y, hy, hys⟩ := hat
      rw [hx] at hy
      simp only [Option.some.injEq, Node.term.injEq] at hy
      subst hy
      have hx' : s'.graph.node? n = some (.term x) := by
        cases hn : s'.graph.node? n with
        | none => rw [g2.none n hn] at hx; cases hx
        | some nd =>
          cases nd with
          | term z => rw [g2.term n z hn] at hx; simpa using hx
          | nt z => obtain ⟨sp, h⟩ := g2.nt n z hn; rw [h] at hx; simp at hx
      exact z2.2 n x i hx' ⟨x, hx', hys⟩
    · cases hn : s'.graph.node? n with
      | none => rw [g2.none n hn] at hx; cases hx
      | some nd =>
        cases nd with
        | term z => rw [g2.term n z hn] at hx; simp at hx
        | nt z =>
          obtain ⟨sp, h⟩ := g2.nt n z hn
          rw [h] at hx
          simp only [Option.some.injEq, Node.nt.injEq] at hx
          rw [← hx]; exact d2.feats n z hn

end Machine
end Lumberjack
