import Verif.Proofs.Decode
import Verif.Proofs.PtbParse
import Verif.Proofs.Reset

/-!
# The graph built by `decode`
-/

namespace Lumberjack
namespace Decoding

open Lumberjack.Tree

/-- The forest `f` below the nodes `tops` of a graph, using the nodes `ids`; children are attached from left
to right.  Spans of inner nodes are arbitrary. -/
def Built (g : Graph) : Forest → List Nat → List Nat → Prop
  | .nil, tops, ids => tops = [] ∧ ids = []
  | .leaf e x r, tops, ids => ∃ n ns is, tops = n :: ns ∧ ids = n :: is ∧ e = none ∧
      g.node? n = some (.term x) ∧ outNeighbors g n = [] ∧ Built g r ns is
  | .node e x k r, tops, ids => ∃ n ns ks ik is s, tops = n :: ns ∧ ids = n :: (ik ++ is) ∧ e = none ∧
      g.node? n = some (.nt { x with span := s }) ∧ outNeighbors g n = ks.reverse ∧
      Built g k ks ik ∧ Built g r ns is

theorem Built.mono {g g' : Graph} {F : Forest} : ∀ {tops ids : List Nat}, Built g F tops ids →
    (∀ n ∈ ids, g'.node? n = g.node? n ∧ outNeighbors g' n = outNeighbors g n) → Built g' F tops ids := by
  induction F with
  | nil => intro tops ids h _; exact h
  | leaf e x r ih =>
    rintro tops ids ⟨n, ns, is, rfl, rfl, he, h1, h2, h3⟩ h
    obtain ⟨a, b⟩ := h n (by simp)
    exact ⟨n, ns, is, rfl, rfl, he, by rw [a, h1], by rw [b, h2], ih h3 (fun m hm => h m (by simp [hm]))⟩
  | node e x k r ihk ih =>
    rintro tops ids ⟨n, ns, ks, ik, is, s, rfl, rfl, he, h1, h2, h3, h4⟩ h
    obtain ⟨a, b⟩ := h n (by simp)
    exact ⟨n, ns, ks, ik, is, s, rfl, rfl, he, by rw [a, h1], by rw [b, h2],
      ihk h3 (fun m hm => h m (by simp [hm])), ih h4 (fun m hm => h m (by simp [hm]))⟩

theorem Built.append {g : Graph} {F G : Forest} : ∀ {ts is ts' is' : List Nat}, Built g F ts is →
    Built g G ts' is' → Built g (F.append G) (ts ++ ts') (is ++ is') := by
  induction F with
  | nil => rintro ts is ts' is' ⟨rfl, rfl⟩ h; exact h
  | leaf e x r ih =>
    rintro ts is ts' is' ⟨n, ns, is, rfl, rfl, he, h1, h2, h3⟩ h
    exact ⟨n, _, _, rfl, rfl, he, h1, h2, ih h3 h⟩
  | node e x k r _ ih =>
    rintro ts is ts' is' ⟨n, ns, ks, ik, is, s, rfl, rfl, he, h1, h2, h3, h4⟩ h
    exact ⟨n, _, ks, ik, _, s, rfl, by simp, he, h1, h2, h3, ih h4 h⟩

/-- A stack in a graph: `ps` are its nodes, topmost first; `q` is the node started below the topmost. -/
def Open (g : Graph) : Option Nat → Stack → List Nat → List Nat → Prop
  | _, [], ps, ids => ps = [] ∧ ids = []
  | q, (x, d) :: Z, ps, ids => ∃ p ps' ks ik is s, ps = p :: ps' ∧ ids = p :: (ik ++ is) ∧
      g.node? p = some (.nt { x with span := s }) ∧ outNeighbors g p = q.toList ++ ks.reverse ∧
      Built g d ks ik ∧ Open g (some p) Z ps' is

theorem Open.mono {g g' : Graph} {Z : Stack} : ∀ {q : Option Nat} {ps ids : List Nat}, Open g q Z ps ids →
    (∀ n ∈ ids, g'.node? n = g.node? n ∧ outNeighbors g' n = outNeighbors g n) → Open g' q Z ps ids := by
  induction Z with
  | nil => intro q ps ids h _; exact h
  | cons f Z ih =>
    obtain ⟨x, d⟩ := f
    rintro q ps ids ⟨p, ps', ks, ik, is, s, rfl, rfl, h1, h2, h3, h4⟩ h
    obtain ⟨a, b⟩ := h p (by simp)
    exact ⟨p, ps', ks, ik, is, s, rfl, rfl, by rw [a, h1], by rw [b, h2],
      h3.mono (fun m hm => h m (by simp [hm])), ih h4 (fun m hm => h m (by simp [hm]))⟩

theorem Open.length {g : Graph} {Z : Stack} : ∀ {q : Option Nat} {ps ids : List Nat}, Open g q Z ps ids →
    ps.length = Z.length := by
  induction Z with
  | nil => rintro q ps ids ⟨rfl, rfl⟩; rfl
  | cons f Z ih =>
    obtain ⟨x, d⟩ := f
    rintro q ps ids ⟨p, ps', ks, ik, is, s, rfl, rfl, h1, h2, h3, h4⟩
    simp [ih h4]

theorem Open.sub {g : Graph} {Z : Stack} : ∀ {q : Option Nat} {ps ids : List Nat}, Open g q Z ps ids →
    ∀ p ∈ ps, p ∈ ids := by
  induction Z with
  | nil => rintro q ps ids ⟨rfl, rfl⟩; simp
  | cons f Z ih =>
    obtain ⟨x, d⟩ := f
    rintro q ps ids ⟨p, ps', ks, ik, is, s, rfl, rfl, h1, h2, h3, h4⟩ p' hp
    rcases List.mem_cons.1 hp with rfl | hp
    · simp
    · simp [ih h4 p' hp]

/-- The state of the graph: a stack laid out, and nodes `ex` not yet attached. -/
structure Inv (g : Graph) (Z : Stack) (ps ex : List Nat) : Prop where
  ok : g.OK
  free : g.freeNodes = []
  plain : ∀ r ∈ g.edges, r.w = .primary none
  tgt : (g.edges.map (·.tgt)).Nodup
  loose : ∀ r ∈ g.edges, r.tgt ∉ ex ∧ r.src ∉ ex
  lay : ∃ ids, (ids ++ ex).Perm (List.range g.nodes.length) ∧ Open g none Z ps ids

theorem outNeighbors_cons {g g' : Graph} {e a b : Nat} {w : Edge} (h : g'.edges = ⟨e, a, b, w⟩ :: g.edges) (n : Nat) :
    outNeighbors g' n = if n = a then b :: outNeighbors g n else outNeighbors g n := by
  unfold outNeighbors Graph.outEdges
  rw [h, List.filter_cons]
  by_cases hn : n = a
  · subst hn; simp
  · simp [hn, Ne.symm hn]

theorem outNeighbors_edges {g g' : Graph} (h : g'.edges = g.edges) (n : Nat) :
    outNeighbors g' n = outNeighbors g n := by
  unfold outNeighbors Graph.outEdges; rw [h]

theorem outNeighbors_nil {g : Graph} {n : Nat} (h : ∀ r ∈ g.edges, r.src ≠ n) : outNeighbors g n = [] := by
  unfold outNeighbors Graph.outEdges
  rw [List.filter_eq_nil_iff.2 (by intro r hr; simpa using h r hr)]; rfl

theorem Inv.addTerm {g : Graph} {Z : Stack} {ps : List Nat} (I : Inv g Z ps []) (nd : Node) :
    ∃ g1, g.addNode nd = (g1, g.nodes.length) ∧ Inv g1 Z ps [g.nodes.length] ∧
      g1.node? g.nodes.length = some nd := by
  obtain ⟨g1, h1, h2, h3, h4, h5, h6⟩ := Ptb.addNode_free I.ok I.free nd
  obtain ⟨ids, p, L⟩ := I.lay
  rw [List.append_nil] at p
  refine ⟨g1, h1, ⟨h2, h3, by rw [h6]; exact I.plain, by rw [h6]; exact I.tgt, ?_, ids, ?_, ?_⟩, by rw [h5, if_pos rfl]⟩
  · intro r hr
    rw [h6] at hr
    have := Ptb.OK.src_lt I.ok hr
    have := Ptb.OK.tgt_lt I.ok hr
    simp; omega
  · rw [h4, List.range_succ]
    exact p.append_right _
  · refine L.mono (fun n hn => ?_)
    have := p.mem_iff.1 hn
    rw [List.mem_range] at this
    rw [h5, if_neg (by omega)]
    exact ⟨rfl, outNeighbors_edges h6 n⟩

theorem Inv.range {g : Graph} {ex ids : List Nat} (p : (ids ++ ex).Perm (List.range g.nodes.length)) :
    (ids ++ ex).Nodup ∧ ∀ n ∈ ids ++ ex, n < g.nodes.length :=
  ⟨p.nodup_iff.2 List.nodup_range, fun n hn => by simpa using p.mem_iff.1 hn⟩

theorem Inv.push1 {g : Graph} {x : NonTerminal} {d : Forest} {Z : Stack} {p : Nat} {ps ex : List Nat}
    (I : Inv g ((x, d) :: Z) (p :: ps) ex) (idx : Nat) :
    ∃ g1 g2 e, g.addNode (.nt (NonTerminal.new dummy (Span.ofIdx idx))) = (g1, g.nodes.length) ∧
      g1.addEdge p g.nodes.length (.primary none) = .ok (g2, e) ∧
      Inv g2 ((fresh, .nil) :: (x, d) :: Z) (g.nodes.length :: p :: ps) ex ∧
      ∀ n ∈ ex, g2.node? n = g.node? n := by
  obtain ⟨ids, P, L⟩ := I.lay
  obtain ⟨hnd, hlt⟩ := Inv.range P
  obtain ⟨p', ps', ks, ik, is, s, h0, rfl, l1, l2, l3, l4⟩ := L
  injection h0 with h0 h0'
  subst h0 h0'
  have hpl := hlt p (by simp)
  obtain ⟨g1, h1, h2, h3, h4, h5, h6⟩ := Ptb.addNode_free I.ok I.free (.nt (NonTerminal.new dummy (Span.ofIdx idx)))
  obtain ⟨g2, e, q1, q2, q3, q4, -, q6⟩ := Graph.addEdge_spec h2 (a := p) (b := g.nodes.length)
    ⟨_, by rw [h5, if_neg (by omega)]; exact l1⟩ ⟨_, by rw [h5, if_pos rfl]⟩ (.primary none)
  have n2 : ∀ n, g2.node? n = g1.node? n := fun n => by unfold Graph.node?; rw [q3]
  have o2 : ∀ n, outNeighbors g2 n = if n = p then g.nodes.length :: outNeighbors g n else outNeighbors g n := by
    intro n
    rw [outNeighbors_cons q2, outNeighbors_edges h6]
  have keep : ∀ n, n < g.nodes.length → g2.node? n = g.node? n := fun n hn => by
    rw [n2, h5, if_neg (by omega)]
  have hnd' := (List.nodup_append.1 hnd).1
  rw [List.nodup_cons] at hnd'
  have agree : ∀ n ∈ ik ++ is, g2.node? n = g.node? n ∧ outNeighbors g2 n = outNeighbors g n := by
    intro n hn
    have hnp : n ≠ p := by rintro rfl; exact hnd'.1 hn
    exact ⟨keep n (hlt n (by simp at hn ⊢; tauto)), by rw [o2, if_neg hnp]⟩
  refine ⟨g1, g2, e, h1, q1, ⟨q6, by rw [q4, h3], ?_, ?_, ?_, g.nodes.length :: (p :: (ik ++ is)), ?_, ?_⟩, ?_⟩
  · intro r hr
    rw [q2, h6] at hr
    rcases List.mem_cons.1 hr with rfl | hr
    · rfl
    · exact I.plain r hr
  · rw [q2, h6, List.map_cons, List.nodup_cons]
    refine ⟨?_, I.tgt⟩
    intro h
    obtain ⟨r, hr, he⟩ := List.mem_map.1 h
    have := Ptb.OK.tgt_lt I.ok hr
    simp only at he; omega
  · intro r hr
    rw [q2, h6] at hr
    rcases List.mem_cons.1 hr with rfl | hr
    · constructor
      · intro h; have := hlt _ (List.mem_append_right _ h); simp at this
      · intro h; exact (List.nodup_append.1 hnd).2.2 _ (by simp) _ h rfl
    · exact I.loose r hr
  · rw [q3, h4, List.range_succ]
    refine List.Perm.trans ?_ (P.append_right [g.nodes.length])
    rw [List.cons_append]
    exact List.perm_append_singleton _ _ |>.symm
  · refine ⟨g.nodes.length, p :: ps, [], [], p :: (ik ++ is), Span.ofIdx idx, rfl, rfl, ?_, ?_, ⟨rfl, rfl⟩, ?_⟩
    · rw [n2, h5, if_pos rfl]; rfl
    · rw [o2, if_neg (by omega)]
      rw [outNeighbors_nil]; rfl
      intro r hr
      have := Ptb.OK.src_lt I.ok hr
      omega
    · refine ⟨p, ps, ks, ik, is, s, rfl, rfl, by rw [keep _ hpl, l1], ?_, ?_, ?_⟩
      · rw [o2, if_pos rfl, l2]; rfl
      · exact l3.mono (fun n hn => agree n (by simp [hn]))
      · exact l4.mono (fun n hn => agree n (by simp [hn]))
  · intro n hn
    exact keep n (hlt n (List.mem_append_right _ hn))

theorem Inv.attach {g : Graph} {x : NonTerminal} {d : Forest} {Z : Stack} {p ti : Nat} {ps : List Nat}
    (I : Inv g ((x, d) :: Z) (p :: ps) [ti]) {y : Terminal} (hy : g.node? ti = some (.term y)) :
    ∃ g' e, g.addEdge p ti (.primary none) = .ok (g', e) ∧ (∀ n, g'.node? n = g.node? n) ∧
      Inv g' (app (.leaf none y .nil) ((x, d) :: Z)) (p :: ps) [] := by
  obtain ⟨ids, P, L⟩ := I.lay
  obtain ⟨hnd, hlt⟩ := Inv.range P
  obtain ⟨p', ps', ks, ik, is, s, h0, rfl, l1, l2, l3, l4⟩ := L
  injection h0 with h0 h0'
  subst h0 h0'
  obtain ⟨g2, e, q1, q2, q3, q4, -, q6⟩ := Graph.addEdge_spec I.ok (a := p) (b := ti) ⟨_, l1⟩ ⟨_, hy⟩ (.primary none)
  have n2 : ∀ n, g2.node? n = g.node? n := fun n => by unfold Graph.node?; rw [q3]
  have o2 := outNeighbors_cons q2
  have hdis := (List.nodup_append.1 hnd).2.2
  have hnd' := (List.nodup_append.1 hnd).1
  rw [List.nodup_cons] at hnd'
  have htp : ti ≠ p := fun h => hdis p (by simp) ti (by simp) h.symm
  have agree : ∀ n ∈ ik ++ is, g2.node? n = g.node? n ∧ outNeighbors g2 n = outNeighbors g n := by
    intro n hn
    have hnp : n ≠ p := by rintro rfl; exact hnd'.1 hn
    exact ⟨n2 n, by rw [o2, if_neg hnp]⟩
  refine ⟨g2, e, q1, n2, ⟨q6, by rw [q4, I.free], ?_, ?_, by simp, p :: ((ik ++ [ti]) ++ is), ?_, ?_⟩⟩
  · intro r hr
    rw [q2] at hr
    rcases List.mem_cons.1 hr with rfl | hr
    · rfl
    · exact I.plain r hr
  · rw [q2, List.map_cons, List.nodup_cons]
    refine ⟨?_, I.tgt⟩
    intro h
    obtain ⟨r, hr, he⟩ := List.mem_map.1 h
    exact (I.loose r hr).1 (by simp [he])
  · rw [q3]
    refine List.Perm.trans ?_ P
    rw [List.perm_iff_count]
    intro a
    simp only [List.count_append, List.count_cons, List.count_nil]
    omega
  · refine ⟨p, ps, ks ++ [ti], ik ++ [ti], is, s, rfl, rfl, by rw [n2, l1], ?_, ?_, ?_⟩
    · rw [o2, if_pos rfl, l2]; simp
    · refine (l3.mono (fun n hn => agree n (by simp [hn]))).append ⟨ti, [], [], rfl, rfl, rfl, by rw [n2, hy], ?_, rfl, rfl⟩
      rw [o2, if_neg htp]
      exact outNeighbors_nil (fun r hr h => (I.loose r hr).2 (by simp [h]))
    · exact l4.mono (fun n hn => agree n (by simp [hn]))

theorem Inv.setTop {g : Graph} {x x' : NonTerminal} {d : Forest} {Z : Stack} {p : Nat} {ps ex : List Nat}
    (I : Inv g ((x, d) :: Z) (p :: ps) ex) (s' : Span) :
    Inv (g.setNode p (.nt { x' with span := s' })) ((x', d) :: Z) (p :: ps) ex := by
  obtain ⟨ids, P, L⟩ := I.lay
  obtain ⟨hnd, hlt⟩ := Inv.range P
  obtain ⟨p', ps', ks, ik, is, s, h0, rfl, l1, l2, l3, l4⟩ := L
  injection h0 with h0 h0'
  subst h0 h0'
  have hnd' := (List.nodup_append.1 hnd).1
  rw [List.nodup_cons] at hnd'
  have hN := Graph.node?_setNode (g := g) (n := p) ⟨_, l1⟩ (.nt { x' with span := s' })
  have agree : ∀ n ∈ ik ++ is, (g.setNode p (.nt { x' with span := s' })).node? n = g.node? n ∧
      outNeighbors (g.setNode p (.nt { x' with span := s' })) n = outNeighbors g n := by
    intro n hn
    have hnp : n ≠ p := by rintro rfl; exact hnd'.1 hn
    exact ⟨by rw [hN, if_neg hnp], rfl⟩
  refine ⟨I.ok.setNode ⟨_, l1⟩ _, I.free, I.plain, I.tgt, I.loose, _, ?_, p, ps, ks, ik, is, s', rfl, rfl, ?_, l2, ?_, ?_⟩
  · rw [Graph.setNode_length]; exact P
  · rw [hN, if_pos rfl]
  · exact l3.mono (fun n hn => agree n (by simp [hn]))
  · exact l4.mono (fun n hn => agree n (by simp [hn]))

theorem Inv.pop1 {g : Graph} {x y : NonTerminal} {d e : Forest} {Z : Stack} {p q : Nat} {ps ex : List Nat}
    (I : Inv g ((x, d) :: (y, e) :: Z) (p :: q :: ps) ex) :
    Inv g ((y, e.append (.node none x d .nil)) :: Z) (q :: ps) ex := by
  obtain ⟨ids, P, L⟩ := I.lay
  obtain ⟨p', ps', ks, ik, is, s, h0, rfl, l1, l2, l3, q', ps'', ks', ik', is', s', h1, rfl, m1, m2, m3, m4⟩ := L
  simp only [List.cons.injEq] at h0
  obtain ⟨rfl, rfl⟩ := h0
  simp only [List.cons.injEq] at h1
  obtain ⟨rfl, rfl⟩ := h1
  refine ⟨I.ok, I.free, I.plain, I.tgt, I.loose, q :: ((ik' ++ (p :: (ik ++ []))) ++ is'), ?_,
    q, ps, ks' ++ [p], _, _, s', rfl, rfl, m1, ?_, ?_, m4⟩
  · refine List.Perm.trans ?_ P
    rw [List.perm_iff_count]
    intro a
    simp only [List.count_append, List.count_cons, List.count_nil]
    omega
  · rw [m2]; simp
  · exact m3.append ⟨p, [], ks, ik, [], s, rfl, rfl, rfl, l1, by rw [l2]; rfl, l3, rfl, rfl⟩

theorem Inv.pop {g : Graph} {ex : List Nat} (k : Nat) : ∀ {Z : Stack} {ps : List Nat}, Inv g Z ps ex →
    k < Z.length → Inv g (pop k Z) (ps.drop k) ex := by
  induction k with
  | zero => intro Z ps I _; exact I
  | succ k ih =>
    intro Z ps I hk
    have hl : ps.length = Z.length := by obtain ⟨ids, -, L⟩ := I.lay; exact L.length
    rcases Z with _ | ⟨⟨x, d⟩, _ | ⟨⟨y, e⟩, Z⟩⟩
    · simp at hk
    · simp at hk
    rcases ps with _ | ⟨p, _ | ⟨q, ps⟩⟩
    · simp at hl
    · simp at hl
    exact ih I.pop1 (by simp at hk ⊢; omega)

theorem Inv.length {g : Graph} {Z : Stack} {ps ex : List Nat} (I : Inv g Z ps ex) : ps.length = Z.length := by
  obtain ⟨ids, -, L⟩ := I.lay; exact L.length

theorem Inv.top {g : Graph} {x : NonTerminal} {d : Forest} {Z : Stack} {p : Nat} {ps ex : List Nat}
    (I : Inv g ((x, d) :: Z) (p :: ps) ex) : ∃ s, g.node? p = some (.nt { x with span := s }) := by
  obtain ⟨ids, -, p', ps', ks, ik, is, s, h0, rfl, l1, -⟩ := I.lay
  injection h0 with h0 h0'
  subst h0
  exact ⟨s, l1⟩

/-! ## Walking down -/

/-- From each node of the list the newest edge leads to the next, an inner node. -/
def Down (g : Graph) : List Nat → Prop
  | [] => True
  | [_] => True
  | a :: b :: l => (outNeighbors g a).head? = some b ∧ (∃ x, g.node? b = some (.nt x)) ∧ Down g (b :: l)

theorem Down.snoc {g : Graph} {l : List Nat} : ∀ {a b : Nat}, Down g (l ++ [a]) →
    (outNeighbors g a).head? = some b → (∃ x, g.node? b = some (.nt x)) → Down g (l ++ [a] ++ [b]) := by
  induction l with
  | nil => intro a b _ h1 h2; exact ⟨h1, h2, trivial⟩
  | cons c l ih =>
    intro a b h h1 h2
    cases l with
    | nil => exact ⟨h.1, h.2.1, h1, h2, trivial⟩
    | cons c' l => exact ⟨h.1, h.2.1, ih h.2.2 h1 h2⟩

theorem Open.down {g : Graph} {Z : Stack} : ∀ {q : Option Nat} {ps ids : List Nat}, Open g q Z ps ids →
    (∀ b, q = some b → ∃ x, g.node? b = some (.nt x)) → Down g (ps.reverse ++ q.toList) := by
  induction Z with
  | nil =>
    rintro q ps ids ⟨rfl, rfl⟩ _
    cases q <;> trivial
  | cons f Z ih =>
    obtain ⟨x, d⟩ := f
    rintro q ps ids ⟨p, ps', ks, ik, is, s, rfl, rfl, l1, l2, l3, l4⟩ hq
    have h1 := ih l4 (by rintro b hb; injection hb with hb; subst hb; exact ⟨_, l1⟩)
    rw [List.reverse_cons]
    cases q with
    | none => simpa using h1
    | some b => exact Down.snoc h1 (by rw [l2]; rfl) (hq b rfl)

theorem Inv.down {g : Graph} {Z : Stack} {ps ex : List Nat} (I : Inv g Z ps ex) : Down g ps.reverse := by
  obtain ⟨ids, -, L⟩ := I.lay
  simpa using L.down (by simp)

theorem descend_down {g : Graph} {l : List Nat} : ∀ {cur : Nat}, Down g (cur :: l) →
    descend g l.length cur = (cur :: l).getLast (by simp) := by
  induction l with
  | nil => intro cur _; rfl
  | cons b l ih =>
    intro cur ⟨h1, ⟨x, hx⟩, h3⟩
    rw [List.length_cons, descend]
    have : (outNeighbors g cur).find? (fun n => (g.node? n).any (fun x => !x.isTerminal)) = some b := by
      cases ho : outNeighbors g cur with
      | nil => rw [ho] at h1; simp at h1
      | cons c o =>
        rw [ho] at h1
        simp only [List.head?_cons, Option.some.injEq] at h1
        subst h1
        rw [List.find?_cons, hx]; rfl
    rw [this]
    simp only
    rw [ih h3]; simp

theorem walk_down {g : Graph} {idx prevN : Nat} {l : List Nat} : ∀ {cur i left : Nat}, Down g (cur :: l) →
    i + l.length = prevN + 1 →
    (∀ h : left < (cur :: l).length, descendOrInsert idx prevN left i g cur = .ok (g, (cur :: l)[left])) ∧
    (l.length ≤ left → descendOrInsert idx prevN left i g cur =
      descendOrInsert idx prevN (left - l.length) (prevN + 1) g ((cur :: l).getLast (by simp))) := by
  induction l with
  | nil =>
    intro cur i left _ hi
    have : i = prevN + 1 := by simpa using hi
    subst this
    refine ⟨fun h => ?_, fun _ => rfl⟩
    have : left = 0 := by simpa using h
    subst this
    rfl
  | cons b l ih =>
    rintro cur i left ⟨h1, ⟨x, hx⟩, h3⟩ hi
    have step : ∀ k, descendOrInsert idx prevN (k + 1) i g cur = descendOrInsert idx prevN k (i + 1) g b := by
      intro k
      rw [descendOrInsert]
      simp only [h1, hx]
      rw [show ((some (Node.nt x)).any fun x => !x.isTerminal) = true from rfl]
      simp only [if_true]
      rw [if_neg (by simp at hi; omega)]
    cases left with
    | zero => exact ⟨fun _ => rfl, fun h => by simp at h⟩
    | succ k =>
      obtain ⟨j1, j2⟩ := ih (i := i + 1) (left := k) h3 (by simp at hi; omega)
      refine ⟨fun h => ?_, fun h => ?_⟩
      · rw [step, j1 (by simpa using h)]; simp
      · rw [step, j2 (by simpa using h)]; simp

theorem insert_down {idx prevN : Nat} {ex : List Nat} (k : Nat) : ∀ {g : Graph} {Z : Stack} {i p : Nat} {ps : List Nat},
    prevN < i → Inv g Z (p :: ps) ex →
    ∃ g' p' ps', descendOrInsert idx prevN k i g p = .ok (g', p') ∧ Inv g' (push k Z) (p' :: ps') ex ∧
      (∀ n ∈ ex, g'.node? n = g.node? n) ∧ (p' :: ps').getLast (by simp) = (p :: ps).getLast (by simp) := by
  induction k with
  | zero =>
    intro g Z i p ps _ I
    exact ⟨g, p, ps, rfl, I, fun _ _ => rfl, rfl⟩
  | succ k ih =>
    intro g Z i p ps hi I
    have hl := I.length
    rcases Z with _ | ⟨⟨x, d⟩, Z⟩
    · simp at hl
    obtain ⟨g1, g2, e, h1, h2, I2, h3⟩ := I.push1 idx
    obtain ⟨g3, p', ps', k1, k2, k3, k4⟩ := ih (i := i + 1) (by omega) I2
    refine ⟨g3, p', ps', ?_, k2, fun n hn => by rw [k3 n hn, h3 n hn], by rw [k4]; simp⟩
    rw [descendOrInsert]
    simp only [h1]
    split
    · rw [if_pos hi, h2]; exact k1
    · rw [h2]; exact k1

theorem addEdge_setNode {g g' : Graph} {a b e n : Nat} {w : Edge} (hn : g.Live n) (nd : Node)
    (h : g.addEdge a b w = .ok (g', e)) : (g.setNode n nd).addEdge a b w = .ok (g'.setNode n nd, e) := by
  have hc : ∀ k, (g.setNode n nd).contains k = g.contains k := by
    intro k
    unfold Graph.contains
    rw [Graph.node?_setNode hn]
    split
    · rename_i h; subst h; obtain ⟨x, hx⟩ := hn; rw [hx]; rfl
    · rfl
  unfold Graph.addEdge at h ⊢
  rw [hc, hc]
  cases hab : (g.contains a && g.contains b) with
  | false => rw [hab] at h; simp at h
  | true =>
    rw [hab] at h
    simp only [Res.assert_true, Res.ok_bind] at h ⊢
    show (match g.freeEdges with | i :: rest => _ | [] => _) = _
    cases hf : g.freeEdges with
    | nil =>
      rw [hf] at h
      simp only [Res.pure_eq, Res.ok.injEq, Prod.mk.injEq] at h ⊢
      obtain ⟨rfl, rfl⟩ := h
      refine ⟨?_, rfl⟩
      simp [Graph.setNode, hf]
    | cons i rest =>
      rw [hf] at h
      simp only [Res.pure_eq, Res.ok.injEq, Prod.mk.injEq] at h ⊢
      obtain ⟨rfl, rfl⟩ := h
      exact ⟨rfl, rfl⟩

theorem setCommonLabel_nt {g : Graph} {n : Nat} {x : NonTerminal} {s : Span} (l : Str)
    (h : g.node? n = some (.nt { x with span := s })) :
    setCommonLabel g n l = .ok (g.setNode n (.nt { relabel l x with span := s })) := by
  unfold setCommonLabel relabel
  rw [h]
  simp only [Res.ofOption_some, Res.ok_bind]
  cases rsplitOnce '_' l with
  | none => rfl
  | some p => rfl

theorem Inv.finish {g g' : Graph} {Z : Stack} {p ti cur e : Nat} {ps : List Nat} (l : Str)
    (h1 : g.addEdge p ti (.primary none) = .ok (g', e)) (h2 : ∀ n, g'.node? n = g.node? n)
    (I : Inv g' Z (cur :: ps) []) :
    ∃ g3 g4, setCommonLabel g cur l = .ok g3 ∧ g3.addEdge p ti (.primary none) = .ok (g4, e) ∧
      Inv g4 (rel l Z) (cur :: ps) [] := by
  have hl := I.length
  rcases Z with _ | ⟨⟨x, d⟩, Z⟩
  · simp at hl
  obtain ⟨s, hs⟩ := I.top
  rw [h2] at hs
  exact ⟨_, _, setCommonLabel_nt l hs, addEdge_setNode ⟨_, hs⟩ _ h1, I.setTop s⟩

theorem drop_cons {α : Type} {l : List α} {k : Nat} (h : k < l.length) : l.drop k = l[k] :: l.drop (k + 1) :=
  List.drop_eq_getElem_cons h

theorem decodeLoop_none {n idx : Nat} {c : Option Str} {x : Terminal} {rest} {s : DecState} {g1 : Graph} {ti : Nat}
    (h : s.graph.addNode (.term (chained c x)) = (g1, ti)) (hn : n ≠ 1) :
    decodeLoop n ((((none, c), x), idx) :: rest) s =
      g1.addEdge (descend g1 s.prevN s.root) ti (.primary none) >>= fun r =>
        decodeLoop n rest { s with graph := r.1 } := by
  obtain ⟨rfl, rfl⟩ : (s.graph.addNode (.term (chained c x))).1 = g1 ∧
      (s.graph.addNode (.term (chained c x))).2 = ti := by rw [h]; exact ⟨rfl, rfl⟩
  cases c <;> exact if_neg hn

theorem decodeLoop_some {n idx : Nat} {a : AbsAncestor} {c : Option Str} {x : Terminal} {rest} {s : DecState}
    {g1 : Graph} {ti : Nat} (h : s.graph.addNode (.term (chained c x)) = (g1, ti)) :
    decodeLoop n ((((some a, c), x), idx) :: rest) s =
      descendOrInsert idx s.prevN (a.common - 1) 1 g1 s.root >>= fun r =>
      setCommonLabel r.1 r.2 a.label >>= fun g3 =>
      g3.addEdge (match s.prev with | none => r.2 | some p => if a.common > s.prevN then r.2 else p) ti
        (.primary none) >>= fun q =>
      Res.sub a.common 1 >>= fun k =>
      decodeLoop n rest { s with graph := q.1, prev := some r.2, prevN := k } := by
  obtain ⟨rfl, rfl⟩ : (s.graph.addNode (.term (chained c x))).1 = g1 ∧
      (s.graph.addNode (.term (chained c x))).2 = ti := by rw [h]; exact ⟨rfl, rfl⟩
  cases c <;> rfl

/-- The state of the loop of `decode`. -/
structure Loop (s : DecState) (Z : Stack) (ps : List Nat) : Prop where
  inv : Inv s.graph Z ps []
  root : ps.getLast? = some s.root
  num : s.prevN + 1 = Z.length
  prev : s.prev = ps.head? ∨ s.prev = none ∧ Z.length = 1

theorem Loop.step {s : DecState} {Z : Stack} {ps : List Nat} (L : Loop s Z ps) {n idx : Nat} {a : Option AbsAncestor}
    {c : Option Str} {x : Terminal} (ha : ∀ b, a = some b → 1 ≤ b.common) (hn : n = 1 → a ≠ none)
    (rest : List (((Option AbsAncestor × Option Str) × Terminal) × Nat)) :
    ∃ s' ps', decodeLoop n ((((a, c), x), idx) :: rest) s = decodeLoop n rest s' ∧
      Loop s' (step Z a (chained c x)) ps' := by
  obtain ⟨I, hr, hnum, hprev⟩ := L
  obtain ⟨g1, e1, I1, ht⟩ := I.addTerm (.term (chained c x))
  have hl := I.length
  rcases ps with _ | ⟨p, ps⟩
  · simp at hr
  rcases Z with _ | ⟨⟨y, d⟩, Z⟩
  · simp at hl
  -- the path from the root to the topmost node
  obtain ⟨l, hl'⟩ : ∃ l, (p :: ps).reverse = s.root :: l := by
    have : (p :: ps).reverse.head? = some s.root := by rw [List.head?_reverse, hr]
    cases h : (p :: ps).reverse with
    | nil => rw [h] at this; simp at this
    | cons a b => rw [h] at this; simp at this; exact ⟨b, by rw [this]⟩
  have hD : Down g1 (s.root :: l) := by rw [← hl']; exact I1.down
  have hlen : l.length = s.prevN := by
    have := congrArg List.length hl'
    simp at this hl hnum
    omega
  have hlast : (s.root :: l).getLast (by simp) = p := by
    have : (s.root :: l).getLast? = some p := by rw [← hl', List.getLast?_reverse]; rfl
    rw [List.getLast?_eq_some_getLast (by simp)] at this
    exact Option.some.inj this
  cases a with
  | none =>
    obtain ⟨g2, e, a1, a2, a3⟩ := I1.attach ht
    refine ⟨{ s with graph := g2 }, p :: ps, ?_, ⟨a3, hr, ?_, ?_⟩⟩
    · rw [decodeLoop_none e1 (fun h => hn h rfl)]
      have := descend_down hD
      rw [hlen, hlast] at this
      rw [this, a1]; rfl
    · simpa [Decoding.step, app] using hnum
    · simpa [Decoding.step, app] using hprev
  | some b =>
    have hb := ha b rfl
    obtain ⟨w1, w2⟩ := walk_down (idx := idx) (prevN := s.prevN) (i := 1) (left := b.common - 1) hD (by omega)
    by_cases hc : ((y, d) :: Z).length ≤ b.common
    · -- new nodes are started
      rw [hlast, hlen] at w2
      obtain ⟨g2, cur, ps', k1, k2, k3, k4⟩ := insert_down (idx := idx) (prevN := s.prevN) (i := s.prevN + 1)
        (b.common - 1 - s.prevN) (by omega) I1
      have hk : b.common - 1 - s.prevN = b.common - ((y, d) :: Z).length := by omega
      have k2' : Inv g2 (pushTo b.common ((y, d) :: Z)) (cur :: ps') [s.graph.nodes.length] := by
        unfold pushTo; rw [← hk]; exact k2
      have hpl : (pushTo b.common ((y, d) :: Z)).length = b.common := length_pushTo hc
      obtain ⟨⟨y', d'⟩, Z', hZ'⟩ : ∃ f Z', pushTo b.common ((y, d) :: Z) = f :: Z' := by
        cases h : pushTo b.common ((y, d) :: Z) with
        | nil => rw [h] at hpl; simp at hpl; omega
        | cons f Z' => exact ⟨f, Z', rfl⟩
      rw [hZ'] at k2' hpl
      obtain ⟨g3, e, a1, a2, a3⟩ := k2'.attach (by rw [k3 _ (by simp)]; exact ht)
      obtain ⟨g4, g5, f1, f2, f3⟩ := a3.finish b.label a1 a2
      refine ⟨{ s with graph := g5, prev := some cur, prevN := b.common - 1 }, cur :: ps', ?_, ?_, ?_, ?_, .inl rfl⟩
      · rw [decodeLoop_some e1, w2 (by omega), k1]
        simp only [Res.ok_bind, f1]
        have : (match s.prev with | none => cur | some p => if b.common > s.prevN then cur else p) = cur := by
          cases s.prev with
          | none => rfl
          | some q => simp only; rw [if_pos (by omega)]
        rw [this, f2]
        simp only [Res.ok_bind, Res.sub_of_le hb]
      · unfold Decoding.step
        simp only
        rw [hZ', popTo_ge (by simp only [app, List.length_cons] at hpl ⊢; omega)]
        exact f3
      · rw [← hr, List.getLast?_eq_some_getLast (by simp), k4, List.getLast?_eq_some_getLast (by simp)]
      · unfold Decoding.step
        simp only
        rw [hZ', popTo_ge (by simp only [app, List.length_cons] at hpl ⊢; omega)]
        simp only [app, rel, List.length_cons] at hpl ⊢
        omega
    · -- nodes are finished
      have hc' : b.common < ((y, d) :: Z).length := by omega
      have w1' := w1 (by simp only [List.length_cons] at hnum hc' ⊢; omega)
      obtain ⟨g3, e, a1, a2, a3⟩ := I1.attach ht
      have hk : ((y, d) :: Z).length - b.common < (p :: ps).length := by rw [hl]; omega
      have a4 := a3.pop (((y, d) :: Z).length - b.common) (by simp only [app, List.length_cons] at hc' ⊢; omega)
      rw [drop_cons hk] at a4
      have hcur : (s.root :: l)[b.common - 1]'(by simp only [List.length_cons] at hnum hc' ⊢; omega) =
          (p :: ps)[((y, d) :: Z).length - b.common] := by
        simp only [← hl', List.getElem_reverse]
        congr 1
        rw [hl]; omega
      rw [hcur] at w1'
      obtain ⟨g4, g5, f1, f2, f3⟩ := a4.finish b.label a1 a2
      refine ⟨{ s with graph := g5, prev := some (p :: ps)[((y, d) :: Z).length - b.common], prevN := b.common - 1 },
        (p :: ps)[((y, d) :: Z).length - b.common] :: (p :: ps).drop (((y, d) :: Z).length - b.common + 1),
        ?_, ⟨?_, ?_, ?_, .inl rfl⟩⟩
      · rw [decodeLoop_some e1, w1']
        simp only [Res.ok_bind, f1]
        have : (match s.prev with
            | none => (p :: ps)[((y, d) :: Z).length - b.common]
            | some q => if b.common > s.prevN then (p :: ps)[((y, d) :: Z).length - b.common] else q) = p := by
          rcases hprev with h | ⟨-, h⟩
          · rw [h]
            simp only [List.head?_cons]
            rw [if_neg (by omega)]
          · omega
        rw [this, f2]
        simp only [Res.ok_bind, Res.sub_of_le hb]
      · unfold Decoding.step
        simp only
        rw [pushTo_le (by omega)]
        exact f3
      · rw [← drop_cons hk, List.getLast?_drop, if_neg (by omega), hr]
      · unfold Decoding.step
        simp only
        rw [pushTo_le (by omega)]
        have : ∀ Z : Stack, (rel b.label Z).length = Z.length := by
          intro Z; cases Z <;> rfl
        rw [this, length_popTo hb (by simp only [app, List.length_cons] at hc' ⊢; omega)]
        show b.common - 1 + 1 = _
        omega

theorem decodeLoop_run {n : Nat} (l : List ((Option AbsAncestor × Option Str) × Terminal)) :
    ∀ {s : DecState} {Z : Stack} {ps : List Nat} {i : Nat}, Loop s Z ps →
    (∀ e ∈ l, ∀ b, e.1.1 = some b → 1 ≤ b.common) → (n = 1 → ∀ e ∈ l, e.1.1 ≠ none) →
    ∃ s' ps', decodeLoop n (l.zipIdx i) s = .ok s' ∧ Loop s' (run l Z) ps' := by
  induction l with
  | nil => intro s Z ps i L _ _; exact ⟨s, ps, rfl, L⟩
  | cons f l ih =>
    intro s Z ps i L h1 h2
    obtain ⟨⟨a, c⟩, x⟩ := f
    obtain ⟨s1, ps1, k1, L1⟩ := L.step (n := n) (idx := i) (a := a) (c := c) (x := x)
      (h1 ((a, c), x) (by simp)) (fun h => h2 h ((a, c), x) (by simp)) (l.zipIdx (i + 1))
    obtain ⟨s2, ps2, k2, L2⟩ := ih (i := i + 1) L1 (fun e he => h1 e (by simp [he])) (fun h e he => h2 h e (by simp [he]))
    exact ⟨s2, ps2, by rw [List.zipIdx_cons, k1, k2], L2⟩

end Decoding
end Lumberjack
