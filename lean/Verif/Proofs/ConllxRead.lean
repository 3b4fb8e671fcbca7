import Verif.Proofs.ConllxTrip
import Verif.Proofs.PtbOrder
import Verif.Spec.ConllxRead

/-!
# The trees read from tagged sentences
-/

namespace Lumberjack

open Lumberjack.Tree

/-! ## Decoding -/

/-- No features but a chain. -/
def ChainOnly (nd : Node) : Prop := nd.features.getD Features.empty = Features.empty ∨
  ∃ c, nd.features.getD Features.empty = ⟨[(Forest.chainKey, some c)]⟩

/-- All edges are primary, and nodes have no features but a chain. -/
structure Plain (g : Graph) : Prop where
  prim : ∀ r ∈ g.edges, r.w.isPrimary = true
  chain : ∀ n nd, g.node? n = some nd → ChainOnly nd

namespace Decoding

variable {g g' : Graph} {k : Nat}

theorem Ordered.addTerm' (O : Ordered g k) {x : Terminal} (hx : x.span = Span.ofIdx k) :
    Ordered { g with nodes := g.nodes ++ [some (.term x)] } (k + 1) := by
  have hs : x.span.start = k := by rw [hx]; rfl
  refine ⟨O.free, fun n y hn => ?_, fun n m y z hn hm hlt => ?_, O.prim⟩
  · rw [Ordered.node?_append] at hn
    split at hn
    · cases hn; omega
    · have := O.below n y hn; omega
  · rw [Ordered.node?_append] at hn hm
    split at hn <;> split at hm
    · omega
    · have := Graph.lt_of_node? hm; omega
    · cases hm
      rw [hs]
      exact O.below n y hn
    · exact O.order n m y z hn hm hlt

theorem plain_append (P : Plain g) {nd : Node} (h : ChainOnly nd) : Plain { g with nodes := g.nodes ++ [some nd] } := by
  refine ⟨P.prim, fun n y hn => ?_⟩
  rw [Ordered.node?_append] at hn
  split at hn
  · cases hn; exact h
  · exact P.chain n y hn

theorem plain_addEdge (P : Plain g) {a b e : Nat} {l : Option Str} (h : g.addEdge a b (.primary l) = .ok (g', e)) :
    Plain g' := by
  unfold Graph.addEdge at h
  cases hc : (g.contains a && g.contains b) with
  | false => rw [hc] at h; cases h
  | true =>
    rw [hc, Res.assert_true, Res.ok_bind] at h
    split at h
    all_goals
      simp only [Res.pure_eq, Res.ok.injEq, Prod.mk.injEq] at h
      obtain ⟨rfl, _⟩ := h
      refine ⟨fun r hr => ?_, P.chain⟩
      rcases List.mem_cons.1 hr with rfl | hr
      · rfl
      · exact P.prim r hr

theorem plain_remove (P : Plain g) {n : Nat} {nd : Node} (h : g.removeNode n = some (g', nd)) : Plain g' := by
  unfold Graph.removeNode at h
  split at h
  · rename_i nd' hn
    simp only [Option.some.injEq, Prod.mk.injEq] at h
    obtain ⟨rfl, _⟩ := h
    refine ⟨fun r hr => P.prim r (List.mem_of_mem_filter hr), fun m y hm => ?_⟩
    have : ({ g with nodes := g.nodes.set n none } : Graph).node? m = some y := hm
    rw [Graph.node?_set (Graph.lt_of_node? hn)] at this
    split at this
    · cases this
    · exact P.chain m y this
  · cases h

theorem chainOnly_insert {nd : Node} (h : ChainOnly nd) (c : Str) :
    ChainOnly (nd.setFeatures (some (nd.featuresMut.insert unaryKey (some c)).1)) := by
  refine .inr ⟨c, ?_⟩
  have e : (nd.setFeatures (some (nd.featuresMut.insert unaryKey (some c)).1)).features =
      some (nd.featuresMut.insert unaryKey (some c)).1 := by cases nd <;> rfl
  rw [e, Option.getD_some, show unaryKey = Forest.chainKey from rfl]
  unfold Node.featuresMut
  rcases h with h | ⟨d, h⟩ <;> rw [h] <;> generalize Forest.chainKey = key
  · rfl
  · simp [Features.insert, Features.insertEntry]

theorem ordered_setNode (O : Ordered g k) {n : Nat} {nd nd' : Node} (hn : g.node? n = some nd)
    (h : ∀ x, nd' = .term x → ∃ y, nd = .term y ∧ y.span = x.span) : Ordered (g.setNode n nd') k := by
  have key : ∀ m x, (g.setNode n nd').node? m = some (.term x) → ∃ y, g.node? m = some (.term y) ∧ y.span = x.span := by
    intro m x hm
    rw [Graph.node?_setNode ⟨_, hn⟩] at hm
    split at hm
    · rename_i e
      subst e
      obtain ⟨y, rfl, hy⟩ := h x (Option.some.inj hm)
      exact ⟨y, hn, hy⟩
    · exact ⟨x, hm, rfl⟩
  refine ⟨O.free, fun m x hm => ?_, fun m m' x x' hm hm' hlt => ?_, O.prim⟩
  · obtain ⟨y, h1, h2⟩ := key m x hm
    rw [← h2]; exact O.below m y h1
  · obtain ⟨y, h1, h2⟩ := key m x hm
    obtain ⟨y', h1', h2'⟩ := key m' x' hm'
    rw [← h2, ← h2']; exact O.order m m' y y' h1 h1' hlt

theorem setCommonLabel_keeps {n : Nat} {l : Str} (h : setCommonLabel g n l = .ok g') :
    (∀ k, Ordered g k → Ordered g' k) ∧ (Plain g → Plain g') := by
  unfold setCommonLabel at h
  obtain ⟨nd, h1, h⟩ := Res.bind_eq_ok.1 h
  have hn := Res.ofOption_eq_ok.1 h1
  have hlab : ∀ l' x, nd.setLabel l' = .term x → ∃ y, nd = .term y ∧ y.span = x.span := by
    intro l' x hx
    cases nd with
    | nt y => cases hx
    | term y => cases hx; exact ⟨y, rfl, rfl⟩
  have hch : ∀ l', ChainOnly nd → ChainOnly (nd.setLabel l') := by
    intro l' hc; cases nd <;> exact hc
  split at h
  · rename_i chain label _
    simp only [Res.pure_eq, Res.ok.injEq] at h
    subst h
    refine ⟨fun k O => ordered_setNode O hn fun x hx => ?_, fun P => ⟨P.prim, fun m y hm => ?_⟩⟩
    · cases nd with
      | nt y => cases hx
      | term y => cases hx; exact ⟨y, rfl, rfl⟩
    · rw [Graph.node?_setNode ⟨_, hn⟩] at hm
      split at hm
      · cases hm; exact chainOnly_insert (hch _ (P.chain _ _ hn)) _
      · exact P.chain m y hm
  · simp only [Res.pure_eq, Res.ok.injEq] at h
    subst h
    refine ⟨fun k O => ordered_setNode O hn (hlab _), fun P => ⟨P.prim, fun m y hm => ?_⟩⟩
    rw [Graph.node?_setNode ⟨_, hn⟩] at hm
    split at hm
    · cases hm; exact hch _ (P.chain _ _ hn)
    · exact P.chain m y hm

theorem descendOrInsert_keeps {idx prevN : Nat} : ∀ {left i : Nat} {g g' : Graph} {cur n : Nat}, Ordered g k → Plain g →
    descendOrInsert idx prevN left i g cur = .ok (g', n) → Ordered g' k ∧ Plain g' := by
  intro left
  induction left with
  | zero =>
    intro i g g' cur n O P h
    simp only [descendOrInsert, Res.ok.injEq, Prod.mk.injEq] at h
    rw [← h.1]; exact ⟨O, P⟩
  | succ left ih =>
    intro i g g' cur n O P h
    have hnew : ∀ {g2 e new}, (g.addNode (.nt (NonTerminal.new dummy (Span.ofIdx idx)))).1.addEdge cur new (.primary none) = .ok (g2, e) →
        Ordered g2 k ∧ Plain g2 := by
      intro g2 e new h2
      rw [O.addNode_eq] at h2
      exact ⟨(O.addNt _).addEdge h2, plain_addEdge (plain_append P (.inl rfl)) h2⟩
    unfold descendOrInsert at h
    simp only at h
    split at h
    · split at h
      · obtain ⟨⟨g2, e⟩, h2, h3⟩ := Res.bind_eq_ok.1 h
        obtain ⟨O2, P2⟩ := hnew h2
        exact ih O2 P2 h3
      · exact ih O P h
    · obtain ⟨⟨g2, e⟩, h2, h3⟩ := Res.bind_eq_ok.1 h
      obtain ⟨O2, P2⟩ := hnew h2
      exact ih O2 P2 h3

theorem decodeLoop_keeps {N : Nat} : ∀ (l : List ((Option AbsAncestor × Option Str) × Terminal)) (k : Nat) (s s' : DecState),
    Ordered s.graph k → Plain s.graph → (∀ i p, l[i]? = some p → p.2.span = Span.ofIdx (k + i) ∧ p.2.features = none) →
    decodeLoop N (l.zipIdx k) s = .ok s' →
    Plain s'.graph ∧ (N ≠ 1 → Ordered s'.graph (k + l.length)) := by
  intro l
  induction l with
  | nil =>
    intro k s s' O P _ h
    simp only [List.zipIdx_nil, decodeLoop, Res.ok.injEq] at h
    subst h
    exact ⟨P, fun _ => O⟩
  | cons p l ih =>
    intro k s s' O P hl h
    obtain ⟨⟨a, c⟩, x⟩ := p
    obtain ⟨hx1, hx2⟩ := hl 0 _ rfl
    simp only [Nat.add_zero] at hx1 hx2
    have hl' : ∀ i p, l[i]? = some p → p.2.span = Span.ofIdx (k + 1 + i) ∧ p.2.features = none := by
      intro i p hp
      have := hl (i + 1) p hp
      rwa [← Nat.add_assoc, Nat.add_right_comm] at this
    have hend : k + 1 + l.length = k + (l.length + 1) := by omega
    rw [List.zipIdx_cons] at h
    have hy : (chained c x).span = Span.ofIdx k := by cases c <;> exact hx1
    have hch : ChainOnly (.term (chained c x)) := by
      have hx : ChainOnly (.term x) := .inl (by simp only [Node.features, hx2]; rfl)
      cases c with
      | none => exact hx
      | some c => exact chainOnly_insert hx c
    have hadd := O.addNode_eq (.term (chained c x))
    have O1 := Ordered.addTerm' O hy
    have P1 := plain_append P hch
    cases a with
    | none =>
      by_cases hN : N = 1
      · subst hN
        have hrem : ∃ g2, Plain g2 ∧ s'.graph = g2 := by
          have he : decodeLoop 1 ((((none, c), x), k) :: l.zipIdx (k + 1)) s =
              match (s.graph.addNode (.term (chained c x))).1.removeNode s.root with
              | some (g2, _) => .ok { s with graph := g2, root := (s.graph.addNode (.term (chained c x))).2 }
              | none => .ok { s with graph := (s.graph.addNode (.term (chained c x))).1,
                                     root := (s.graph.addNode (.term (chained c x))).2 } := by
            cases c <;> rfl
          rw [he, hadd] at h
          split at h
          · rename_i g2 nd2 h2
            simp only [Res.ok.injEq] at h
            exact ⟨g2, plain_remove P1 h2, by rw [← h]⟩
          · simp only [Res.ok.injEq] at h
            exact ⟨_, P1, by rw [← h]⟩
        obtain ⟨g2, h1, h2⟩ := hrem
        exact ⟨h2 ▸ h1, fun hn => absurd rfl hn⟩
      · rw [decodeLoop_none hadd hN] at h
        obtain ⟨⟨g2, e⟩, h2, h3⟩ := Res.bind_eq_ok.1 h
        have := ih (k + 1) _ _ (O1.addEdge h2) (plain_addEdge P1 h2) hl' h3
        rwa [hend] at this
    | some a =>
      rw [decodeLoop_some hadd] at h
      obtain ⟨⟨g2, cur⟩, h2, h⟩ := Res.bind_eq_ok.1 h
      obtain ⟨g3, h3, h⟩ := Res.bind_eq_ok.1 h
      obtain ⟨⟨g4, e⟩, h4, h⟩ := Res.bind_eq_ok.1 h
      obtain ⟨j, h5, h⟩ := Res.bind_eq_ok.1 h
      obtain ⟨O2, P2⟩ := descendOrInsert_keeps O1 P1 h2
      obtain ⟨O3, P3⟩ := setCommonLabel_keeps h3
      have := ih (k + 1) _ _ ((O3 _ O2).addEdge h4) (plain_addEdge (P3 P2) h4) hl' h
      rwa [hend] at this

theorem _root_.Lumberjack.Ordered.inOrder {t : Tree} {k : Nat} (O : Ordered t.graph k) : t.InOrder := by
  rintro n m i j ⟨x, hx, hi⟩ ⟨y, hy, hj⟩
  have e1 : x.span.start = i := by rw [hi]; rfl
  have e2 : y.span.start = j := by rw [hj]; rfl
  constructor
  · intro hlt; have := O.order n m x y hx hy hlt; omega
  · intro hlt
    rcases Nat.lt_trichotomy n m with h | h | h
    · exact h
    · subst h; rw [hx] at hy; cases hy; omega
    · have := O.order m n y x hy hx h; omega

/-- Decoded trees store their words in order, have only primary edges, and no features but chains. -/
theorem decode_order {e : AbsEncoding} {ts : List Terminal} (hl : e.length = ts.length) (hne : ts ≠ [])
    (hp : ∀ p ∈ e, ∀ a, p.1 = some a → 1 ≤ a.common) (hs : ∀ i x, ts[i]? = some x → x.span = Span.ofIdx i ∧ x.features = none) :
    ∃ t, decode e ts = .ok t ∧ t.WF ∧ t.isProjective = true ∧ t.nTerminals = ts.length ∧ t.Is ((forest e ts).respan 0) ∧
      t.InOrder ∧ Plain t.graph := by
  obtain ⟨t, h1, W, h3, h4, g0, s, h5, h6, E⟩ := decode_spec' hl hne hp (by
    refine List.ext_getElem? (fun i => ?_)
    rw [List.getElem?_map, List.getElem?_map]
    cases hx : ts[i]? with
    | none =>
      rw [List.getElem?_eq_none_iff] at hx
      rw [List.getElem?_eq_none (by simpa using hx)]; rfl
    | some x =>
      have hi := (List.getElem?_eq_some_iff.1 hx).1
      rw [List.getElem?_range hi]
      simp [(hs i x hx).1])
  have O0 : Ordered Graph.empty 0 := by constructor <;> simp [Graph.empty, Graph.node?]
  have P0 : Plain Graph.empty := by constructor <;> simp [Graph.empty, Graph.node?]
  rw [O0.addNode_eq] at h5
  simp only [Prod.mk.injEq] at h5
  have O1 : Ordered g0 0 := by rw [← h5.1]; exact O0.addNt _
  have P1 : Plain g0 := by rw [← h5.1]; exact plain_append P0 (.inl rfl)
  obtain ⟨P2, O2⟩ := decodeLoop_keeps (e.zip ts) 0 ⟨g0, 0, none, 0⟩ s O1 P1 (by
    intro i p hp'
    rw [List.getElem?_zip_eq_some] at hp'
    rw [Nat.zero_add]
    exact hs i p.2 hp'.2) h6
  have hterm : ∀ n x, t.graph.node? n = some (.term x) → s.graph.node? n = some (.term x) := by
    intro n x hn
    cases hc : s.graph.node? n with
    | none => rw [E.none n hc] at hn; cases hn
    | some y =>
      cases y with
      | nt y =>
        obtain ⟨sp, hy⟩ := E.nt n y hc
        rw [hy] at hn; cases hn
      | term y => rw [E.term n y hc] at hn; cases hn; rfl
  refine ⟨t, h1, W, h3, E.nTerm, h4, ?_, ⟨?_, ?_⟩⟩
  · by_cases hN : ts.length = 1
    · intro n m i j hn hm
      obtain ⟨i', hi', hi2⟩ := W.sentence.pos n hn.isTerm
      obtain ⟨j', hj', hj2⟩ := W.sentence.pos m hm.isTerm
      have hnt : t.nTerminals = 1 := E.nTerm.trans hN
      have e1 : i' = 0 := by omega
      have e2 : j' = 0 := by omega
      subst e1 e2
      have := W.sentence.inj n m 0 hi2 hj2
      subst this
      have pos : ∀ i, t.TermAt n i → i = 0 := by
        rintro i ⟨x, hx, hs⟩
        obtain ⟨y, hy, hs'⟩ := hi2
        rw [hx] at hy; cases hy
        rw [hs] at hs'
        simpa [Span.ofIdx] using congrArg Span.start hs'
      have := pos i hn
      have := pos j hm
      omega
    · rintro n m i j ⟨x, hx, hi⟩ ⟨y, hy, hj⟩
      exact Ordered.inOrder (t := ⟨s.graph, 0, 0, 0⟩) (O2 hN) n m i j ⟨x, hterm n x hx, hi⟩ ⟨y, hterm m y hy, hj⟩
  · intro r hr
    rw [E.graph] at hr
    exact P2.prim r hr
  · intro n nd hn
    cases hc : s.graph.node? n with
    | none => rw [E.none n hc] at hn; cases hn
    | some y =>
      have := P2.chain n y hc
      cases y with
      | nt y =>
        obtain ⟨sp, hy⟩ := E.nt n y hc
        rw [hy] at hn; cases hn; exact this
      | term y => rw [E.term n y hc] at hn; cases hn; exact this

end Decoding

/-! ## Restoring chains -/

namespace Tree

variable {t t' : Tree}

/-- Same words at the same places, with other features perhaps; no new gaps and no new secondary edges. -/
structure Kept (t t' : Tree) : Prop where
  ok : t'.graph.OK
  terms : ∀ n x, t'.graph.node? n = some (.term x) → ∃ y, t.graph.node? n = some (.term y) ∧
    x.form = y.form ∧ x.pos = y.pos ∧ x.lem = y.lem ∧ x.span = y.span
  skips : (∀ n nd, t.graph.node? n = some nd → nd.span.skips = none) → ∀ n nd, t'.graph.node? n = some nd → nd.span.skips = none
  prim : (∀ r ∈ t.graph.edges, r.w.isPrimary = true) → ∀ r ∈ t'.graph.edges, r.w.isPrimary = true

theorem Kept.refl (G : t.graph.OK) : Kept t t :=
  ⟨G, fun _ x h => ⟨x, h, rfl, rfl, rfl, rfl⟩, fun h => h, fun h => h⟩

theorem Kept.trans {t'' : Tree} (h : Kept t t') (h' : Kept t' t'') : Kept t t'' := by
  refine ⟨h'.ok, fun n x hn => ?_, fun hs => h'.skips (h.skips hs), fun hp => h'.prim (h.prim hp)⟩
  obtain ⟨y, h1, h2, h3, h4, h5⟩ := h'.terms n x hn
  obtain ⟨z, g1, g2, g3, g4, g5⟩ := h.terms n y h1
  exact ⟨z, g1, h2.trans g2, h3.trans g3, h4.trans g4, h5.trans g5⟩

theorem addEdge_ok {g g' : Graph} {a b e : Nat} {w : Edge} (G : g.OK) (h : g.addEdge a b w = .ok (g', e)) :
    g'.OK ∧ g'.nodes = g.nodes ∧ g'.edges = ⟨e, a, b, w⟩ :: g.edges := by
  by_cases hl : g.Live a ∧ g.Live b
  · obtain ⟨g2, e2, h1, h2, h3, _, _, h4⟩ := Graph.addEdge_spec G hl.1 hl.2 w
    rw [h1] at h
    simp only [Res.ok.injEq, Prod.mk.injEq] at h
    obtain ⟨rfl, rfl⟩ := h
    exact ⟨h4, h3, h2⟩
  · rw [Graph.addEdge_panic hl] at h; cases h

theorem removeEdge_ok {g g' : Graph} {e : Nat} {w : Edge} (G : g.OK) (h : g.removeEdge e = some (g', w)) :
    g'.OK ∧ g'.nodes = g.nodes ∧ (∀ r ∈ g'.edges, r ∈ g.edges) ∧ ∃ r ∈ g.edges, r.w = w := by
  cases he : g.edge? e with
  | none => unfold Graph.removeEdge at h; rw [he] at h; cases h
  | some r =>
    obtain ⟨h1, h2⟩ := (Graph.edge?_eq G).1 he
    obtain ⟨g2, h3, h4, h5, _, h6⟩ := Graph.removeEdge_spec G h1 h2
    rw [h3] at h
    simp only [Option.some.injEq, Prod.mk.injEq] at h
    obtain ⟨rfl, rfl⟩ := h
    exact ⟨h6, h5, fun r hr => by rw [h4] at hr; exact List.mem_of_mem_filter hr, r, h1, rfl⟩

theorem insertUnaryAbove_kept (G : t.graph.OK) {c i : Nat} {l : Str} (h : t.insertUnaryAbove c l = .ok (t', i)) : Kept t t' := by
  unfold insertUnaryAbove at h
  obtain ⟨cn, h1, h⟩ := Res.bind_eq_ok.1 h
  have hc : t.graph.node? c = some cn := Res.ofOption_eq_ok.1 h1
  obtain ⟨a1, a2, a3, a4, _⟩ := Graph.addNode_spec G (.nt (NonTerminal.new l cn.span))
  have hnodes : ∀ {g' : Graph}, g'.nodes = (t.graph.addNode (.nt (NonTerminal.new l cn.span))).1.nodes →
      ∀ n, g'.node? n = if n = (t.graph.addNode (.nt (NonTerminal.new l cn.span))).2 then
        some (.nt (NonTerminal.new l cn.span)) else t.graph.node? n := by
    intro g' hg n
    rw [← a2 n]
    unfold Graph.node?
    rw [hg]
  have fin : ∀ {g' : Graph}, g'.OK → g'.nodes = (t.graph.addNode (.nt (NonTerminal.new l cn.span))).1.nodes →
      ((∀ r ∈ t.graph.edges, r.w.isPrimary = true) → ∀ r ∈ g'.edges, r.w.isPrimary = true) → t'.graph = g' → Kept t t' := by
    intro g' G' hg hp ht
    refine ⟨ht ▸ G', fun n x hn => ?_, fun hs n nd hn => ?_, fun h => ht ▸ hp h⟩
    · rw [ht, hnodes hg] at hn
      split at hn
      · cases hn
      · exact ⟨x, hn, rfl, rfl, rfl, rfl⟩
    · rw [ht, hnodes hg] at hn
      split at hn
      · cases hn; exact hs c cn hc
      · exact hs n nd hn
  simp only at h
  split at h
  · rename_i p e _
    obtain ⟨⟨g2, old⟩, h2, h⟩ := Res.bind_eq_ok.1 h
    obtain ⟨⟨g3, e3⟩, h3, h⟩ := Res.bind_eq_ok.1 h
    obtain ⟨⟨g4, e4⟩, h4, h⟩ := Res.bind_eq_ok.1 h
    simp only [Res.pure_eq, Res.ok.injEq, Prod.mk.injEq] at h
    obtain ⟨G2, n2, s2, r2, hr2, hw2⟩ := removeEdge_ok a4 (Res.ofOption_eq_ok.1 h2)
    obtain ⟨G3, n3, s3⟩ := addEdge_ok G2 h3
    obtain ⟨G4, n4, s4⟩ := addEdge_ok G3 h4
    refine fin G4 (n4.trans (n3.trans n2)) (fun hp r hr => ?_) (by rw [← h.1])
    rw [s4, s3] at hr
    rw [a3] at s2 hr2
    rcases List.mem_cons.1 hr with rfl | hr
    · have := hp r2 hr2
      rw [hw2] at this; exact this
    · rcases List.mem_cons.1 hr with rfl | hr
      · rfl
      · exact hp _ (s2 _ hr)
  · obtain ⟨⟨g2, e2⟩, h2, h⟩ := Res.bind_eq_ok.1 h
    simp only [Res.pure_eq, Res.ok.injEq, Prod.mk.injEq] at h
    obtain ⟨G2, n2, s2⟩ := addEdge_ok a4 h2
    refine fin G2 n2 (fun hp r hr => ?_) (by rw [← h.1])
    rw [s2, a3] at hr
    rcases List.mem_cons.1 hr with rfl | hr
    · rfl
    · exact hp _ hr

theorem restoreNode_kept (G : t.graph.OK) {d : Str} {n : Nat} {r : Except Err Unit} (h : t.restoreNode d n = .ok (t', r)) :
    Kept t t' := by
  unfold restoreNode at h
  obtain ⟨nd, h1, h⟩ := Res.bind_eq_ok.1 h
  have hn : t.graph.node? n = some nd := Res.ofOption_eq_ok.1 h1
  have hset : ∀ fs : Features, Kept t (t.setNode n (nd.setFeatures (some fs))) := by
    intro fs
    have hnode : ∀ m, (t.setNode n (nd.setFeatures (some fs))).graph.node? m =
        if m = n then some (nd.setFeatures (some fs)) else t.graph.node? m := fun m => Graph.node?_setNode ⟨_, hn⟩ _ m
    refine ⟨?_, fun m x hm => ?_, fun hs m x hm => ?_, fun h => h⟩
    · have e : withFeats (fun _ => some fs) nd = nd.setFeatures (some fs) := by cases nd <;> rfl
      rw [← e]; exact (setFeats_edit hn (fun _ => some fs)).ok G
    · rw [hnode] at hm
      split at hm
      · rename_i e; subst e
        cases nd with
        | nt y => cases hm
        | term y => cases hm; exact ⟨y, hn, rfl, rfl, rfl, rfl⟩
      · exact ⟨x, hm, rfl, rfl, rfl, rfl⟩
    · rw [hnode] at hm
      split at hm
      · cases hm
        have := hs n nd hn
        cases nd <;> exact this
      · exact hs m x hm
  simp only at h
  split at h
  · rename_i chain _
    obtain ⟨⟨t2, i⟩, h2, h⟩ := Res.bind_eq_ok.1 h
    simp only [Res.pure_eq, Res.ok.injEq, Prod.mk.injEq] at h
    have := forM'_partial (f := fun (s : Tree × Nat) label => s.1.insertUnaryAbove s.2 label)
      (fun _ s => Kept t s.1) (fun a as s s' hs he =>
        hs.trans (insertUnaryAbove_kept hs.ok he)) _ _ _ (hset _) h2
    rw [← h.1]; exact this
  · simp only [Res.pure_eq, Res.ok.injEq, Prod.mk.injEq] at h
    rw [← h.1]; exact hset _
  · simp only [Res.pure_eq, Res.ok.injEq, Prod.mk.injEq] at h
    rw [← h.1]; exact hset _

theorem restoreUnaryChains_kept (G : t.graph.OK) {d : Str} {r : Except Err Unit} (h : t.restoreUnaryChains d = .ok (t', r)) :
    Kept t t' := by
  unfold restoreUnaryChains at h
  have key : ∀ (as : List Nat) (s : Tree), Kept t s → forE (restoreNode d) as s = .ok (t', r) → Kept t t' := by
    intro as
    induction as with
    | nil =>
      intro s hs h
      simp only [forE, Res.ok.injEq, Prod.mk.injEq] at h
      rw [← h.1]; exact hs
    | cons a as ih =>
      intro s hs h
      unfold forE at h
      obtain ⟨⟨s', r'⟩, h1, h⟩ := Res.bind_eq_ok.1 h
      have := hs.trans (restoreNode_kept hs.ok h1)
      cases r' with
      | ok u => exact ih s' this h
      | error e =>
        simp only [Res.ok.injEq, Prod.mk.injEq] at h
        rw [← h.1]; exact this
  exact key _ t (Kept.refl G) h

end Tree

namespace Conllx

theorem finishDecode_total {e : AbsEncoding} {ts : List Terminal} (hl : e.length = ts.length) (hne : ts ≠ [])
    (hp : ∀ p ∈ e, ∀ a, p.1 = some a → 1 ≤ a.common) (hs : ∀ i x, ts[i]? = some x → x.span = Span.ofIdx i ∧ x.features = none) :
    ∃ t, finishDecode e ts = .ok (.ok t) ∧ t.WF ∧ t.isProjective = true ∧ t.nTerminals = ts.length ∧ t.InOrder ∧
      (∀ r ∈ t.graph.edges, r.w.isPrimary = true) ∧
      (∀ n x i, t.graph.node? n = some (.term x) → x.span = Span.ofIdx i → ∃ y, ts[i]? = some y ∧
        x.form = y.form ∧ x.pos = y.pos ∧ x.lem = y.lem ∧ x.features = some Features.empty) ∧
      ∃ f, t.Is f ∧ f.norm = (((Decoding.forest e ts).respan 0).restore ['_']).norm := by
  obtain ⟨t1, h1, W1, p1, s1, f1, o1, P1⟩ := Decoding.decode_order hl hne hp hs
  have hc : ∀ n nd, t1.graph.node? n = some nd → (nd.features.getD Features.empty).Sorted ∧
      (nd.features.getD Features.empty).getVal Forest.chainKey ≠ some none := by
    intro n nd hn
    rcases P1.chain n nd hn with h | ⟨c, h⟩ <;> rw [h]
    · exact ⟨List.Pairwise.nil, by simp [Features.getVal, Features.lookupEntry, Features.empty]⟩
    · exact ⟨List.pairwise_singleton _ _, by simp [Features.getVal, Features.lookupEntry]⟩
  obtain ⟨t, h2, C, c2, s2, _, ⟨f, hf, hfn⟩, hex⟩ := restoreUnaryChains_exact W1.core ['_'] f1
    (fun n nd hn => (hc n nd hn).1) (fun n nd hn => (hc n nd hn).2)
  have K := restoreUnaryChains_kept W1.graph h2
  have hskip := K.skips (projective_skips W1 p1)
  have hd : ∀ n, ¬ t.Disc n := by
    rintro n ⟨x, hx, hs⟩
    have := hskip n _ hx
    simp only [Node.span] at this
    rw [this] at hs; simp at hs
  have W : t.WF := by
    refine C.wf ?_
    unfold CountOK
    rw [c2, Finset.filter_false_of_mem (fun n _ => hd n)]
    simpa [isProjective] using p1
  have hterms : t1.Terminals ((e.zip ts).map fun p => Decoding.chained p.1.2 p.2) := by
    have := terminals_leaves W1 p1 f1
    rwa [Forest.leaves_respan, (Decoding.forest_inv hl hne hp).2.2.1] at this
  refine ⟨t, ?_, W, (isProjective_iff W.count).2 hd, s2.trans s1, ?_, K.prim P1.prim, ?_, f, hf, hfn⟩
  · unfold finishDecode
    rw [h1]
    simp only [Res.ok_bind, h2]
    rfl
  · rintro n m i j ⟨x, hx, hi⟩ ⟨y, hy, hj⟩
    obtain ⟨x', a1, _, _, _, a2⟩ := K.terms n x hx
    obtain ⟨y', b1, _, _, _, b2⟩ := K.terms m y hy
    exact o1 n m i j ⟨x', a1, a2 ▸ hi⟩ ⟨y', b1, b2 ▸ hj⟩
  · intro n x i hx hi
    obtain ⟨x', a1, a2, a3, a4, a5⟩ := K.terms n x hx
    have := hterms.2 n x' i a1 ⟨x', a1, a5 ▸ hi⟩
    rw [List.getElem?_map, Option.map_eq_some_iff] at this
    obtain ⟨⟨q, y⟩, g1, g2⟩ := this
    rw [List.getElem?_zip_eq_some] at g1
    refine ⟨y, g1.2, ?_, ?_, ?_, ?_⟩
    · rw [a2, ← g2]; unfold Decoding.chained; cases q.2 <;> rfl
    · rw [a3, ← g2]; unfold Decoding.chained; cases q.2 <;> rfl
    · rw [a4, ← g2]; unfold Decoding.chained; cases q.2 <;> rfl
    · have := hex n _ a1
      rw [hx] at this
      simp only [Option.some.injEq, withFeats, Node.term.injEq] at this
      rw [this]
      rcases P1.chain n _ a1 with h | ⟨c, h⟩
      · simp only [Node.features] at h
        simp only [strip, h]
        rfl
      · simp only [Node.features] at h
        simp only [strip, h]
        simp [Features.remove, Features.removeEntry, Features.empty]


theorem ancestorStr_iff {key : Str} {tok : Token} {s : Str} : ancestorStr key tok = .ok s ↔ TagOf key tok s := by
  unfold ancestorStr TagOf
  cases hf : tok.features with
  | none => simp
  | some fs =>
    simp only [Option.bind_some, Option.some.injEq, exists_eq_left']
    cases hl : featLookup key fs with
    | none => simp
    | some v => cases v <;> simp

theorem splitAncestor_iff {α : Type} {parse : Str → Except Err α} {s : Str} {e : Option α × Option Str} :
    splitAncestor parse s = .ok e ↔ ReadsAs parse s e := by
  unfold splitAncestor ReadsAs
  obtain ⟨e1, e2⟩ := e
  cases hs : splitOn '~' s with
  | nil => simp
  | cons a rest =>
    simp only [List.cons.injEq]
    have hN : noneMarker = "NONE".toList := rfl
    constructor
    · intro h
      refine ⟨a, rest, ⟨rfl, rfl⟩, ?_⟩
      rw [hN] at h
      split at h
      · rename_i ha
        simp only [Except.ok.injEq, Prod.mk.injEq] at h
        exact ⟨h.2.symm, .inl ⟨ha, h.1.symm⟩⟩
      · rename_i ha
        cases hp : parse a with
        | error e => rw [hp] at h; cases h
        | ok x =>
          rw [hp] at h
          simp only [Except.ok.injEq, Prod.mk.injEq] at h
          exact ⟨h.2.symm, .inr ⟨ha, x, rfl, h.1.symm⟩⟩
    · rintro ⟨_, _, ⟨rfl, rfl⟩, h2, ⟨ha, h1⟩ | ⟨ha, x, hp, h1⟩⟩
      · rw [hN, if_pos ha, h1, h2]
      · rw [hN, if_neg ha, hp, h1, h2]

theorem readTokens_tags {α : Type} {key : Str} {parse : Str → Except Err α} : ∀ {toks : List Token}
    {es : List (Option α × Option Str)} {k : Nat}, List.Forall₂ (Tag key parse) toks es →
    readTokens key parse toks k = .ok (es, (toks.zipIdx k).map fun p => wordOf p.1 p.2) := by
  intro toks
  induction toks with
  | nil => intro es k h; cases h; rfl
  | cons tok toks ih =>
    intro es k h
    cases h with
    | cons h1 h2 =>
      obtain ⟨s, g1, g2⟩ := h1
      unfold readTokens
      rw [ancestorStr_iff.2 g1]
      simp only [splitAncestor_iff.2 g2, ih (k := k + 1) h2]
      rfl

theorem readTokens_error {α : Type} {key : Str} {parse : Str → Except Err α} : ∀ {toks : List Token} {k : Nat} {tok : Token},
    tok ∈ toks → (∀ e, ¬ Tag key parse tok e) → ∃ err, readTokens key parse toks k = .error err := by
  intro toks
  induction toks with
  | nil => intro k tok h; simp at h
  | cons t toks ih =>
    intro k tok h hn
    unfold readTokens
    cases h1 : ancestorStr key t with
    | error e => exact ⟨e, rfl⟩
    | ok s =>
      simp only
      cases h2 : splitAncestor parse s with
      | error e => exact ⟨e, rfl⟩
      | ok e =>
        simp only
        rcases List.mem_cons.1 h with rfl | h
        · exact absurd ⟨s, ancestorStr_iff.1 h1, splitAncestor_iff.1 h2⟩ (hn e)
        · obtain ⟨err, h3⟩ := ih (k := k + 1) h hn
          rw [h3]
          exact ⟨err, rfl⟩

theorem tags_total {α : Type} (key : Str) (parse : Str → Except Err α) (toks : List Token) :
    (∃ es, List.Forall₂ (Tag key parse) toks es) ∨ ∃ tok ∈ toks, ∀ e, ¬ Tag key parse tok e := by
  induction toks with
  | nil => exact .inl ⟨[], .nil⟩
  | cons tok toks ih =>
    by_cases h : ∃ e, Tag key parse tok e
    · obtain ⟨e, he⟩ := h
      rcases ih with ⟨es, h⟩ | ⟨x, h1, h2⟩
      · exact .inl ⟨e :: es, .cons he h⟩
      · exact .inr ⟨x, by simp [h1], h2⟩
    · push Not at h
      exact .inr ⟨tok, by simp, h⟩

theorem words_get {toks : List Token} {i : Nat} {x : Terminal}
    (h : (toks.zipIdx.map fun p => wordOf p.1 p.2)[i]? = some x) : ∃ tok, toks[i]? = some tok ∧ x = wordOf tok i := by
  rw [List.getElem?_map, Option.map_eq_some_iff] at h
  obtain ⟨⟨tok, j⟩, h1, h2⟩ := h
  rw [List.getElem?_zipIdx, Option.map_eq_some_iff] at h1
  obtain ⟨tok', h3, h4⟩ := h1
  simp only [Prod.mk.injEq, Nat.zero_add] at h4
  obtain ⟨rfl, rfl⟩ := h4
  exact ⟨_, h3, h2.symm⟩

theorem decoded_total {e : AbsEncoding} {toks : List Token} (hl : e.length = toks.length) (hne : toks ≠ [])
    (hp : ∀ p ∈ e, ∀ a, p.1 = some a → 1 ≤ a.common) :
    ∃ t, finishDecode e (toks.zipIdx.map fun p => wordOf p.1 p.2) = .ok (.ok t) ∧ Decoded e toks t := by
  obtain ⟨t, h1, h2, h3, h4, h5, h6, h7, h8⟩ := finishDecode_total (e := e)
    (ts := toks.zipIdx.map fun p => wordOf p.1 p.2) (by simpa using hl) (by simpa using hne) hp (by
      intro i x hx
      obtain ⟨tok, _, rfl⟩ := words_get hx
      exact ⟨rfl, rfl⟩)
  refine ⟨t, h1, h2, h3, by simpa using h4, fun n x i hx hi => ?_, h5, h6, h8⟩
  obtain ⟨y, g1, g2, g3, g4, g6⟩ := h7 n x i hx hi
  obtain ⟨tok, g5, rfl⟩ := words_get g1
  exact ⟨tok, g5, g2, g3, g4, g6⟩

end Conllx
end Lumberjack
