import Verif.Proofs.PtbParse
import Verif.Spec.Convert

/-!
# Trees parsed from text store their words in order and have no secondary edges
-/

namespace Lumberjack

/-- Words are stored in order; the next word has position `k`; all edges are primary. -/
structure Ordered (g : Graph) (k : Nat) : Prop where
  free : g.freeNodes = []
  below : ∀ n x, g.node? n = some (.term x) → x.span.start < k
  order : ∀ n m x y, g.node? n = some (.term x) → g.node? m = some (.term y) → n < m → x.span.start < y.span.start
  prim : ∀ r ∈ g.edges, r.w.isPrimary = true

namespace Ordered

variable {g : Graph} {k : Nat}

theorem addNode_eq (O : Ordered g k) (nd : Node) :
    g.addNode nd = ({ g with nodes := g.nodes ++ [some nd] }, g.nodes.length) := by
  unfold Graph.addNode; rw [O.free]

theorem node?_append (nd : Node) (n : Nat) :
    ({ g with nodes := g.nodes ++ [some nd] } : Graph).node? n = if n = g.nodes.length then some nd else g.node? n := by
  unfold Graph.node?
  simp only
  rcases Nat.lt_trichotomy n g.nodes.length with h | h | h
  · rw [List.getElem?_append_left h, if_neg (by omega)]
  · subst h; simp
  · rw [if_neg (by omega), List.getElem?_eq_none (by simp; omega), List.getElem?_eq_none (by omega)]

theorem addTerm (O : Ordered g k) (form pos : Str) :
    Ordered { g with nodes := g.nodes ++ [some (.term (Terminal.new form pos k))] } (k + 1) := by
  refine ⟨O.free, fun n x hn => ?_, fun n m x y hn hm hlt => ?_, O.prim⟩
  · rw [node?_append] at hn
    split at hn
    · cases hn; simp [Terminal.new, Span.ofIdx]
    · have := O.below n x hn; omega
  · rw [node?_append] at hn hm
    split at hn <;> split at hm
    · omega
    · have := Graph.lt_of_node? hm; omega
    · cases hm
      simp only [Terminal.new, Span.ofIdx]
      exact O.below n x hn
    · exact O.order n m x y hn hm hlt

theorem addNt (O : Ordered g k) (x : NonTerminal) : Ordered { g with nodes := g.nodes ++ [some (.nt x)] } k := by
  have : ∀ n y, ({ g with nodes := g.nodes ++ [some (.nt x)] } : Graph).node? n = some (.term y) → g.node? n = some (.term y) := by
    intro n y hn
    rw [node?_append] at hn
    split at hn
    · cases hn
    · exact hn
  exact ⟨O.free, fun n y hn => O.below n y (this n y hn),
    fun n m y z hn hm => O.order n m y z (this n y hn) (this m z hm), O.prim⟩

theorem addEdge (O : Ordered g k) {a b e : Nat} {l : Option Str} {g' : Graph} (h : g.addEdge a b (.primary l) = .ok (g', e)) :
    Ordered g' k := by
  unfold Graph.addEdge at h
  cases hc : (g.contains a && g.contains b) with
  | false => rw [hc] at h; cases h
  | true =>
    rw [hc, Res.assert_true, Res.ok_bind] at h
    split at h
    all_goals
      simp only [Res.pure_eq, Res.ok.injEq, Prod.mk.injEq] at h
      obtain ⟨rfl, _⟩ := h
      refine ⟨O.free, O.below, O.order, fun r hr => ?_⟩
      rcases List.mem_cons.1 hr with rfl | hr
      · rfl
      · exact O.prim r hr

theorem setNt (O : Ordered g k) {i : Nat} (hi : g.Live i) (x : NonTerminal) : Ordered (g.setNode i (.nt x)) k := by
  have : ∀ n y, (g.setNode i (.nt x)).node? n = some (.term y) → g.node? n = some (.term y) := by
    intro n y hn
    rw [Graph.node?_setNode hi] at hn
    split at hn
    · cases hn
    · exact hn
  exact ⟨O.free, fun n y hn => O.below n y (this n y hn),
    fun n m y z hn hm => O.order n m y z (this n y hn) (this m z hm), O.prim⟩

end Ordered

namespace Ptb

mutual
theorem parseValue_ordered (f : Format) : ∀ (p : Pair) (g : Graph) (k : Nat) (r : Span × Nat × Edge) (g' : Graph) (k' : Nat),
    Ordered g k → parseValue f p (g, k) = .ok (r, (g', k')) → Ordered g' k' ∧ ∃ l, r.2.2 = .primary l
  | .pre label form, g, k, r, g', k', O, h => by
    unfold parseValue at h
    simp only [O.addNode_eq, Res.ok.injEq, Prod.mk.injEq] at h
    obtain ⟨rfl, rfl, rfl⟩ := h
    exact ⟨O.addTerm _ _, _, rfl⟩
  | .nont label children, g, k, r, g', k', O, h => by
    unfold parseValue at h
    simp only [O.addNode_eq] at h
    obtain ⟨⟨⟨lo, up⟩, g2, k2⟩, h1, h⟩ := Res.bind_eq_ok.1 h
    obtain ⟨sp, h2, h⟩ := Res.bind_eq_ok.1 h
    obtain ⟨nd, h3, h⟩ := Res.bind_eq_ok.1 h
    obtain ⟨x, h4, h⟩ := Res.bind_eq_ok.1 h
    simp only [Res.pure_eq, Res.ok.injEq, Prod.mk.injEq] at h
    obtain ⟨rfl, rfl, rfl⟩ := h
    have O2 := parseValues_ordered f _ children true (0, 0) _ _ _ _ _ (O.addNt _) h1
    exact ⟨O2.setNt ⟨nd, Res.ofOption_eq_ok.1 h3⟩ _, _, rfl⟩
theorem parseValues_ordered (f : Format) (parent : Nat) : ∀ (ps : List Pair) (first : Bool) (bounds : Nat × Nat) (g : Graph)
    (k : Nat) (b : Nat × Nat) (g' : Graph) (k' : Nat), Ordered g k →
    parseValues f parent ps first bounds (g, k) = .ok (b, (g', k')) → Ordered g' k'
  | [], first, bounds, g, k, b, g', k', O, h => by
    simp only [parseValues, Res.ok.injEq, Prod.mk.injEq] at h
    obtain ⟨_, rfl, rfl⟩ := h
    exact O
  | p :: ps, first, bounds, g, k, b, g', k', O, h => by
    unfold parseValues at h
    obtain ⟨⟨⟨sp, c, e⟩, g1, k1⟩, h1, h⟩ := Res.bind_eq_ok.1 h
    obtain ⟨⟨g2, i⟩, h2, h3⟩ := Res.bind_eq_ok.1 h
    obtain ⟨O1, l, hl⟩ := parseValue_ordered f p g k _ _ _ O h1
    simp only at hl
    subst hl
    exact parseValues_ordered f parent ps false _ g2 k1 _ _ _ (O1.addEdge h2) h3
end

theorem stringToTree_order {f : Format} {s : Str} {t : Tree} (h : stringToTree f s = .ok (.ok t)) :
    t.InOrder ∧ t.SecondaryNt := by
  unfold stringToTree at h
  split at h
  · cases h
  · rename_i p _
    obtain ⟨⟨⟨sp, root, e⟩, g, k⟩, h1, h⟩ := Res.bind_eq_ok.1 h
    simp only [Res.pure_eq, Res.ok.injEq, Except.ok.injEq] at h
    subst h
    have O0 : Ordered Graph.empty 0 := by
      constructor <;> simp [Graph.empty, Graph.node?]
    obtain ⟨O, _⟩ := parseValue_ordered f p Graph.empty 0 _ _ _ O0 h1
    constructor
    · rintro n m i j ⟨x, hx, hi⟩ ⟨y, hy, hj⟩
      have e1 : x.span.start = i := by rw [hi]; rfl
      have e2 : y.span.start = j := by rw [hj]; rfl
      constructor
      · intro hlt; have := O.order n m x y hx hy hlt; omega
      · intro hlt
        rcases Nat.lt_trichotomy n m with h | h | h
        · exact h
        · subst h; simp only at hx hy; rw [hx] at hy; cases hy; omega
        · have := O.order m n y x hy hx h; omega
    · intro r hr hw
      have := O.prim r hr
      rw [hw] at this; cases this

end Ptb
end Lumberjack
