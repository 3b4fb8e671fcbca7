import Verif.Spec.Negra
import Verif.Proofs.Span
import Verif.Proofs.Str

/-!
# The NEGRA reader, row by row

The functions of the reader working on text lines are shown to be total functions of the rows.
-/

namespace Lumberjack
namespace Negra

/-! ## Rows added to a builder -/

/-- One more edge. -/
def pushEdge (g : Graph) (p n : Nat) (w : Edge) : Graph where
  nodes := g.nodes
  freeNodes := g.freeNodes
  edges := ⟨g.edgeSlots, p, n, w⟩ :: g.edges
  edgeSlots := g.edgeSlots + 1
  freeEdges := g.freeEdges

/-- One more node. -/
def pushNode (g : Graph) (nd : Node) : Graph where
  nodes := g.nodes ++ [some nd]
  freeNodes := g.freeNodes
  edges := g.edges
  edgeSlots := g.edgeSlots
  freeEdges := g.freeEdges

/-- The node made for a parent not seen before. -/
def fresh (b : Builder) : Node := .nt (NonTerminal.new [] (Span.ofIdx b.nTerminals))

/-- What a secondary edge adds. -/
def secOf (n : Nat) (a : Attach) : List (Nat × Str × Nat) :=
  match a.sec with
  | some (l, k) => [(k, l, n)]
  | none => []

/-- The builder after making sure that the node of number `k` exists. -/
def withParent (b : Builder) (k : Nat) : Builder :=
  match lookupIdx b.ntIndices k with
  | some _ => b
  | none => { b with
      graph := pushNode b.graph (fresh b)
      ntIndices := b.ntIndices ++ [(k, b.graph.nodes.length)] }

/-- The index of the node of number `k`. -/
def idx (b : Builder) (k : Nat) : Nat := (lookupIdx b.ntIndices k).getD b.graph.nodes.length

/-- The builder after attaching node `n`. -/
def attach (b : Builder) (n : Nat) (a : Attach) : Builder :=
  { withParent b a.parent with
    graph := pushEdge (withParent b a.parent).graph (idx b a.parent) n (.primary a.edge)
    secEdges := b.secEdges ++ secOf n a }

/-- The builder after a terminal. -/
def addTerm (b : Builder) (r : TermRow) : Builder :=
  let b1 := { b with graph := pushNode b.graph (.term (r.terminal b.nTerminals)) }
  { attach b1 b.graph.nodes.length r.att with nTerminals := b.nTerminals + 1 }

/-- A nonterminal after its label and annotation have been read. -/
def named (r : NtRow) (x : NonTerminal) : NonTerminal :=
  { x with
    label := r.label
    features := match r.ann with
      | some a => some ((x.features.getD Features.empty).insert Ptb.annotationKey (some a)).1
      | none => x.features }

/-- The builder after the label and attachment of a nonterminal. -/
def addNt1 (b : Builder) (r : NtRow) (self : Nat) (x : NonTerminal) : Builder :=
  attach { b with
    finishedTerminals := true
    processedNts := b.processedNts + 1
    graph := b.graph.setNode self (.nt (named r x)) } self r.att

/-- The builder after the span of a nonterminal. -/
def addNt2 (b : Builder) (self : Nat) (x : NonTerminal) (s : Span) : Builder :=
  { b with
    graph := b.graph.setNode self (.nt { x with span := s })
    numNonProjective := if s.skips.isSome then b.numNonProjective + 1 else b.numNonProjective }

/-! ## Invariants of a builder -/

/-- The graph has no holes. -/
structure Good (b : Builder) : Prop where
  freeNodes : b.graph.freeNodes = []
  freeEdges : b.graph.freeEdges = []
  live : ∀ i, i < b.graph.nodes.length → ∃ nd, b.graph.node? i = some nd ∧ nd.span.Valid
  nts : ∀ k n, lookupIdx b.ntIndices k = some n → ∃ x, b.graph.node? n = some (.nt x)
  ends : ∀ r ∈ b.graph.edges, r.tgt < b.graph.nodes.length
  root : ∃ n, lookupIdx b.ntIndices 0 = some n

theorem node?_append {g : Graph} {nd : Node} {i : Nat} (h : i < g.nodes.length) :
    (pushNode g nd).node? i = g.node? i := by
  unfold Graph.node? pushNode
  simp only
  rw [List.getElem?_append_left h]

theorem node?_last {g : Graph} {nd : Node} :
    (pushNode g nd).node? g.nodes.length = some nd := by
  unfold Graph.node? pushNode
  simp

theorem node?_lt {g : Graph} {i : Nat} {nd : Node} (h : g.node? i = some nd) : i < g.nodes.length := by
  unfold Graph.node? at h
  by_contra hc
  rw [List.getElem?_eq_none (by omega)] at h
  simp at h

theorem contains_of {g : Graph} {i : Nat} {nd : Node} (h : g.node? i = some nd) : g.contains i = true := by
  simp [Graph.contains, h]

theorem Good.contains {b : Builder} (h : Good b) {i : Nat} (hi : i < b.graph.nodes.length) :
    b.graph.contains i = true := by
  obtain ⟨nd, hnd, _⟩ := h.live i hi
  exact contains_of hnd

theorem ofIdx_valid (i : Nat) : (Span.ofIdx i).Valid :=
  ⟨by simp [Span.ofIdx], by simp [Span.ofIdx], by simp [Span.ofIdx]⟩

theorem lookupIdx_append (m : List (Nat × Nat)) (k p j : Nat) :
    lookupIdx (m ++ [(k, p)]) j = match lookupIdx m j with
      | some q => some q
      | none => if k = j then some p else none := by
  unfold lookupIdx
  rw [List.find?_append]
  cases h : m.find? (fun p => decide (p.1 = j)) with
  | some x => simp
  | none =>
    by_cases e : k = j
    · subst e; simp
    · simp [List.find?_cons_of_neg, e]

theorem withParent_good {b : Builder} (h : Good b) (k : Nat) :
    Good (withParent b k) ∧ lookupIdx (withParent b k).ntIndices k = some (idx b k) ∧
      b.graph.nodes.length ≤ (withParent b k).graph.nodes.length := by
  unfold withParent idx
  cases hl : lookupIdx b.ntIndices k with
  | some p => exact ⟨h, by simpa using hl, le_refl _⟩
  | none =>
    refine ⟨⟨h.freeNodes, h.freeEdges, ?_, ?_, ?_, ?_⟩, ?_, ?_⟩
    · intro i hi
      simp only [pushNode, List.length_append, List.length_singleton] at hi
      by_cases e : i < b.graph.nodes.length
      · obtain ⟨nd, h1, h2⟩ := h.live i e
        exact ⟨nd, by rw [← h1]; exact node?_append e, h2⟩
      · have : i = b.graph.nodes.length := by omega
        subst this
        exact ⟨_, node?_last, ofIdx_valid _⟩
    · intro j n hj
      dsimp only at hj ⊢
      rw [lookupIdx_append] at hj
      cases hj' : lookupIdx b.ntIndices j with
      | some q =>
        rw [hj'] at hj
        simp only [Option.some.injEq] at hj
        subst hj
        obtain ⟨x, hx⟩ := h.nts j _ hj'
        exact ⟨x, by rw [node?_append (node?_lt hx)]; exact hx⟩
      | none =>
        rw [hj'] at hj
        by_cases e : k = j
        · simp only [e, if_true, Option.some.injEq] at hj
          subst hj
          exact ⟨_, node?_last⟩
        · simp [e] at hj
    · intro r hr
      have := h.ends r hr
      simp only [pushNode, List.length_append, List.length_singleton]
      omega
    · obtain ⟨n, hn⟩ := h.root
      exact ⟨n, by simp [lookupIdx_append, hn]⟩
    · simp [lookupIdx_append, hl]
    · simp [pushNode]

theorem attach_good {b : Builder} (h : Good b) {n : Nat} (hn : n < b.graph.nodes.length) (a : Attach) :
    Good (attach b n a) := by
  obtain ⟨h1, h2, h3⟩ := withParent_good h a.parent
  refine ⟨h1.freeNodes, h1.freeEdges, h1.live, h1.nts, ?_, h1.root⟩
  intro r hr
  simp only [attach, pushEdge, List.mem_cons] at hr
  show r.tgt < (withParent b a.parent).graph.nodes.length
  rcases hr with rfl | hr
  · dsimp only; omega
  · exact h1.ends r hr

/-! ## Attachments -/

theorem optionalFields_ok {fs : List Str} {s : Option (Str × Nat)} (h : readSec fs = some s) :
    optionalFields fs = .ok s := by
  match fs with
  | [] => simp only [readSec, Option.some.injEq] at h; subst h; rfl
  | [l] =>
    simp only [readSec] at h
    split at h
    · rename_i hl
      simp only [Option.some.injEq] at h
      subst h
      simp [optionalFields, startsWith, hl]
    · simp at h
  | l :: p :: more =>
    simp only [readSec] at h
    split at h
    · rename_i hl
      simp only [Option.some.injEq] at h
      subst h
      simp [optionalFields, startsWith, hl]
    · rename_i hl
      rw [Option.map_eq_some_iff] at h
      obtain ⟨k, hk, rfl⟩ := h
      simp [optionalFields, startsWith, hl, numField, hk]

theorem optionalFields_err {fs : List Str} (h : readSec fs = none) : ∃ e, optionalFields fs = .error e := by
  match fs with
  | [] => simp [readSec] at h
  | [l] =>
    simp only [readSec] at h
    split at h
    · simp at h
    · rename_i hl
      simp [optionalFields, startsWith, hl, numField]
  | l :: p :: more =>
    simp only [readSec] at h
    split at h
    · simp at h
    · rename_i hl
      rw [Option.map_eq_none_iff] at h
      simp [optionalFields, startsWith, hl, numField, h]

theorem addEdge_good {b : Builder} (h : Good b) {p n : Nat} (hp : p < b.graph.nodes.length)
    (hn : n < b.graph.nodes.length) (w : Edge) :
    b.graph.addEdge p n w = .ok (pushEdge b.graph p n w, b.graph.edgeSlots) := by
  unfold Graph.addEdge
  rw [h.contains hp, h.contains hn, h.freeEdges]
  simp [pushEdge, h.freeEdges]

theorem addNode_good {b : Builder} (h : Good b) (nd : Node) :
    b.graph.addNode nd = (pushNode b.graph nd, b.graph.nodes.length) := by
  unfold Graph.addNode pushNode
  rw [h.freeNodes]

/-- The attachment once its label and parent are known. -/
theorem processEdges_eq {b : Builder} (h : Good b) {n : Nat} (hn : n < b.graph.nodes.length) {e p : Str}
    {more : List Str} {k : Nat} (hk : parseUsize p = some k) :
    processEdges b n (e :: p :: more) = match optionalFields more with
      | .error e => .ok (.error e)
      | .ok s => .ok (.ok (attach b n ⟨undash e, k, s⟩)) := by
  obtain ⟨g1, g2, g3⟩ := withParent_good h k
  obtain ⟨x, hx⟩ := g1.nts _ _ g2
  have hp := node?_lt hx
  have he := addEdge_good g1 hp (Nat.lt_of_lt_of_le hn g3) (.primary (undash e))
  unfold processEdges
  simp only [List.getElem?_cons_zero, strField, List.getElem?_cons_succ, numField, hk, List.drop_succ_cons,
    List.drop_zero]
  have hu : (if e = Ptb.dashes then none else some e) = undash e := rfl
  rw [hu]
  have hsec : (withParent b k).secEdges = b.secEdges := by unfold withParent; split <;> rfl
  have key : ∀ (b1 : Builder) (q : Nat), b1 = withParent b k → q = idx b k →
      (do
        let (g, _) ← b1.graph.addEdge q n (.primary (undash e))
        match optionalFields more with
        | .error e => return .error e
        | .ok none => return .ok { b1 with graph := g }
        | .ok (some (label, id)) =>
          return .ok { { b1 with graph := g } with
            secEdges := { b1 with graph := g }.secEdges ++ [(id, label, n)] } : Res (Except Err Builder)) =
      match optionalFields more with
      | .error e => .ok (.error e)
      | .ok s => .ok (.ok (attach b n ⟨undash e, k, s⟩)) := by
    rintro _ _ rfl rfl
    rw [he]
    simp only [Res.ok_bind]
    cases optionalFields more with
    | error e => rfl
    | ok s =>
      cases s with
      | none => simp only [Res.pure_eq, attach, secOf, List.append_nil, ← hsec]
      | some y => obtain ⟨l, i⟩ := y; simp only [Res.pure_eq, attach, secOf, hsec]
  cases hl : lookupIdx b.ntIndices k with
  | some q =>
    exact key b q (by simp [withParent, hl]) (by simp [idx, hl])
  | none =>
    simp only [addNode_good h]
    have hk' := key (withParent b k) b.graph.nodes.length rfl (by simp [idx, hl])
    have hw : withParent b k = { b with
        graph := pushNode b.graph (.nt (NonTerminal.new [] (Span.ofIdx b.nTerminals)))
        ntIndices := b.ntIndices ++ [(k, b.graph.nodes.length)] } := by
      simp [withParent, hl, fresh]
    rw [hw] at hk'
    exact hk'

theorem processEdges_ok {b : Builder} (h : Good b) {n : Nat} (hn : n < b.graph.nodes.length) {fs : List Str}
    {a : Attach} (ha : Attach.read fs = some a) : processEdges b n fs = .ok (.ok (attach b n a)) := by
  match fs with
  | [] => simp [Attach.read] at ha
  | [_] => simp [Attach.read] at ha
  | e :: p :: more =>
    simp only [Attach.read, Option.bind_eq_bind, Option.bind_eq_some_iff, Option.some.injEq] at ha
    obtain ⟨k, hk, s, hs, rfl⟩ := ha
    rw [processEdges_eq h hn hk, optionalFields_ok hs]

theorem processEdges_err {b : Builder} (h : Good b) {n : Nat} (hn : n < b.graph.nodes.length) {fs : List Str}
    (ha : Attach.read fs = none) : ∃ e, processEdges b n fs = .ok (.error e) := by
  match fs with
  | [] => exact ⟨_, rfl⟩
  | [_] => exact ⟨_, rfl⟩
  | e :: p :: more =>
    cases hk : parseUsize p with
    | none => exact ⟨.parse 21, by simp [processEdges, strField, numField, hk]⟩
    | some k =>
      simp only [Attach.read, hk, Option.bind_eq_bind, Option.bind_some, Option.bind_eq_none_iff] at ha
      have hs : readSec more = none := by
        cases hr : readSec more with
        | none => rfl
        | some s => exact absurd (ha s hr) (by simp)
      obtain ⟨e', he'⟩ := optionalFields_err hs
      exact ⟨e', by rw [processEdges_eq h hn hk, he']⟩

/-! ## Terminals -/

theorem pushNode_good {b : Builder} (h : Good b) {nd : Node} (hnd : nd.span.Valid) :
    Good { b with graph := pushNode b.graph nd } := by
  refine ⟨h.freeNodes, h.freeEdges, ?_, ?_, ?_, h.root⟩
  · intro i hi
    simp only [pushNode, List.length_append, List.length_singleton] at hi
    by_cases e : i < b.graph.nodes.length
    · obtain ⟨nd, h1, h2⟩ := h.live i e
      exact ⟨nd, by rw [← h1]; exact node?_append e, h2⟩
    · have : i = b.graph.nodes.length := by omega
      subst this
      exact ⟨_, node?_last, hnd⟩
  · intro k n hk
    obtain ⟨x, hx⟩ := h.nts k n hk
    exact ⟨x, by rw [← hx]; exact node?_append (node?_lt hx)⟩
  · intro r hr
    have := h.ends r hr
    simp only [pushNode, List.length_append, List.length_singleton]
    omega

theorem Good.congr {b b' : Builder} (h : Good b) (h1 : b'.graph = b.graph) (h2 : b'.ntIndices = b.ntIndices) :
    Good b' := by
  refine ⟨?_, ?_, ?_, ?_, ?_, ?_⟩
  · rw [h1]; exact h.freeNodes
  · rw [h1]; exact h.freeEdges
  · rw [h1]; exact h.live
  · rw [h1, h2]; exact h.nts
  · rw [h1]; exact h.ends
  · rw [h2]; exact h.root

theorem addTerm_good {b : Builder} (h : Good b) (r : TermRow) : Good (addTerm b r) := by
  have h1 := pushNode_good h (nd := .term (r.terminal b.nTerminals)) (ofIdx_valid b.nTerminals)
  exact (attach_good h1 (n := b.graph.nodes.length) (by simp [pushNode]) r.att).congr rfl rfl

theorem terminal_eq (form lem pos morph : Str) (a : Attach) (i : Nat) :
    (let tm := Terminal.new form pos i
     let tm := if lem ≠ Ptb.dashes then { tm with lem := some lem } else tm
     if morph ≠ Ptb.dashes then
        { tm with features := some (Features.empty.insert morphKey (some morph)).1 } else tm) =
      TermRow.terminal ⟨form, undash lem, pos, undash morph, a⟩ i := by
  have e : Ptb.dashes = "--".toList := rfl
  unfold undash
  rw [← e]
  by_cases h1 : lem = Ptb.dashes <;> by_cases h2 : morph = Ptb.dashes <;>
    simp [h1, h2, TermRow.terminal, Terminal.new, Features.empty, Features.insert, Features.insertEntry, morphKey]

theorem terminalLine_ok {b : Builder} (h : Good b) (hf : b.finishedTerminals = false) {line : Str} {r : TermRow}
    (hr : TermRow.read (splitWs line) = some r) : terminalLine b line = .ok (.ok (addTerm b r)) := by
  unfold terminalLine
  rw [if_neg (by simp [hf])]
  match hs : splitWs line, hr with
  | form :: lem :: pos :: morph :: rest, hr =>
    simp only [TermRow.read, Option.map_eq_some_iff] at hr
    obtain ⟨a, ha, rfl⟩ := hr
    have ht := terminal_eq form lem pos morph a b.nTerminals
    dsimp only at ht ⊢
    rw [ht, addNode_good h]
    have h1 := pushNode_good h (nd := .term (TermRow.terminal ⟨form, undash lem, pos, undash morph, a⟩ b.nTerminals))
      (ofIdx_valid b.nTerminals)
    dsimp only
    rw [processEdges_ok h1 (by simp [pushNode]) ha]
    simp only [Res.ok_bind, Res.pure_eq, addTerm]
    congr 2
    simp only [attach]
    unfold withParent
    split <;> rfl

theorem terminalLine_err {b : Builder} (h : Good b) {line : Str}
    (hr : TermRow.read (splitWs line) = none) : ∃ e, terminalLine b line = .ok (.error e) := by
  unfold terminalLine
  split
  · exact ⟨_, rfl⟩
  · match hs : splitWs line, hr with
    | form :: lem :: pos :: morph :: rest, hr =>
      simp only [TermRow.read, Option.map_eq_none_iff] at hr
      dsimp only
      rw [addNode_good h]
      have h1 := pushNode_good h (nd := .term (TermRow.terminal ⟨form, undash lem, pos, undash morph, ⟨none, 0, none⟩⟩ b.nTerminals))
        (ofIdx_valid b.nTerminals)
      rw [← terminal_eq] at h1
      obtain ⟨e, he⟩ := processEdges_err h1 (n := b.graph.nodes.length) (by simp [pushNode]) hr
      dsimp only at he ⊢
      rw [he]
      exact ⟨e, rfl⟩
    | [], _ => exact ⟨_, rfl⟩
    | [_], _ => exact ⟨_, rfl⟩
    | [_, _], _ => exact ⟨_, rfl⟩
    | [_, _, _], _ => exact ⟨_, rfl⟩

/-! ## Nonterminals -/

theorem setNode_good {b : Builder} (h : Good b) {n : Nat} {x y : NonTerminal}
    (hx : b.graph.node? n = some (.nt x)) (hy : y.span.Valid) :
    Good { b with graph := b.graph.setNode n (.nt y) } := by
  have hn := node?_lt hx
  have hnode : ∀ i, (b.graph.setNode n (.nt y)).node? i = if i = n then some (.nt y) else b.graph.node? i := by
    intro i
    unfold Graph.node? Graph.setNode
    by_cases e : i = n
    · subst e; simp [hn]
    · simp [e, Ne.symm e]
  refine ⟨h.freeNodes, h.freeEdges, ?_, ?_, ?_, h.root⟩
  · intro i hi
    simp only [Graph.setNode, List.length_set] at hi
    dsimp only
    rw [hnode]
    by_cases e : i = n
    · exact ⟨.nt y, by simp [e], hy⟩
    · obtain ⟨nd, h1, h2⟩ := h.live i hi
      exact ⟨nd, by simp [e, h1], h2⟩
  · intro k m hm
    dsimp only
    rw [hnode]
    by_cases e : m = n
    · exact ⟨y, by simp [e]⟩
    · obtain ⟨z, hz⟩ := h.nts k m hm
      exact ⟨z, by simp [e, hz]⟩
  · intro r hr
    simpa [Graph.setNode] using h.ends r hr

theorem Good.span {b : Builder} (h : Good b) {n : Nat} {x : NonTerminal}
    (hx : b.graph.node? n = some (.nt x)) : x.span.Valid := by
  obtain ⟨nd, h1, h2⟩ := h.live n (node?_lt hx)
  rw [hx, Option.some.injEq] at h1
  subst h1
  exact h2

theorem named_span (r : NtRow) (x : NonTerminal) : (named r x).span = x.span := rfl

theorem addNt1_good {b : Builder} (h : Good b) (r : NtRow) {n : Nat} {x : NonTerminal}
    (hx : b.graph.node? n = some (.nt x)) : Good (addNt1 b r n x) := by
  have h1 := setNode_good h hx (y := named r x) (by rw [named_span]; exact h.span hx)
  have h2 : Good { b with
      finishedTerminals := true
      processedNts := b.processedNts + 1
      graph := b.graph.setNode n (.nt (named r x)) } := h1.congr rfl rfl
  exact attach_good h2 (by simpa [Graph.setNode] using node?_lt hx) r.att

theorem node?_setNode {g : Graph} {n i : Nat} {nd : Node} (hn : n < g.nodes.length) :
    (g.setNode n nd).node? i = if i = n then some nd else g.node? i := by
  unfold Graph.node? Graph.setNode
  by_cases e : i = n
  · subst e; simp [hn]
  · simp [e, Ne.symm e]

theorem node?_withParent {b : Builder} {k i : Nat} {nd : Node} (h : b.graph.node? i = some nd) :
    (withParent b k).graph.node? i = some nd := by
  unfold withParent
  split
  · exact h
  · dsimp only; rw [node?_append (node?_lt h)]; exact h

theorem node?_attach {b : Builder} {a : Attach} {n i : Nat} {nd : Node} (h : b.graph.node? i = some nd) :
    (attach b n a).graph.node? i = some nd := node?_withParent (k := a.parent) h

theorem node?_addNt1 {b : Builder} {r : NtRow} {n : Nat} {x : NonTerminal}
    (hx : b.graph.node? n = some (.nt x)) : (addNt1 b r n x).graph.node? n = some (.nt (named r x)) := by
  refine node?_attach ?_
  dsimp only
  rw [node?_setNode (node?_lt hx), if_pos rfl]

theorem addNt2_good {b : Builder} (h : Good b) {n : Nat} {x : NonTerminal} {s : Span}
    (hx : b.graph.node? n = some (.nt x)) (hs : s.Valid) : Good (addNt2 b n x s) :=
  (setNode_good h hx (y := { x with span := s }) hs).congr rfl rfl

/-- Outcome of a line whose number is known. -/
theorem nonterminalLine_eq {b : Builder} (h : Good b) (hT : b.nTerminals ≠ 0) {line : Str} {r : NtRow}
    (hr : NtRow.read (splitWs line) = some r) {self : Nat} (hs : lookupIdx b.ntIndices r.id = some self)
    {x : NonTerminal} (hx : b.graph.node? self = some (.nt x)) :
    (childCoverage (addNt1 b r self x).graph self = [] ∧ ∃ e, nonterminalLine b line = .ok (.error e)) ∨
    ∃ s, Span.fromVec (childCoverage (addNt1 b r self x).graph self) = .ok (.ok s) ∧ s.Valid ∧
      s.indices = (childCoverage (addNt1 b r self x).graph self).toFinset ∧
      nonterminalLine b line = .ok (.ok (addNt2 (addNt1 b r self x) self (named r x) s)) := by
  match hsp : splitWs line, hr with
  | first :: c2 :: label :: c4 :: more, hr =>
    simp only [NtRow.read, Option.bind_eq_bind, Option.bind_eq_some_iff, Option.some.injEq] at hr
    obtain ⟨id, hid, a, ha, rfl⟩ := hr
    obtain ⟨l, anns, hl⟩ : ∃ l anns, splitOn '=' label = l :: anns := by
      cases hso : splitOn '=' label with
      | nil => exact absurd hso (splitOn_ne_nil _ _)
      | cons l anns => exact ⟨l, anns, rfl⟩
    generalize hrow : (⟨id, (splitOn '=' label).headD [], (splitOn '=' label)[1]?, a⟩ : NtRow) = r at *
    have r1 : r.id = id := by rw [← hrow]
    have r2 : r.att = a := by rw [← hrow]
    have r3 : r.label = l := by rw [← hrow, hl]; rfl
    have r4 : r.ann = anns.head? := by rw [← hrow, hl]; cases anns <;> rfl
    have hG1 : Good { b with
        finishedTerminals := true
        processedNts := b.processedNts + 1
        graph := b.graph.setNode self (.nt (named r x)) } :=
      (setNode_good h hx (y := named r x) (by rw [named_span]; exact h.span hx)).congr rfl rfl
    have hpe := processEdges_ok hG1 (n := self) (by simpa [Graph.setNode] using node?_lt hx) ha
    have hrun : nonterminalLine b line = (do
        let sp ← Span.fromVec (childCoverage (addNt1 b r self x).graph self)
        match sp with
        | .error e => return .error e
        | .ok span => return .ok (addNt2 (addNt1 b r self x) self (named r x) span)) := by
      have hset : ∀ s, (Node.nt (named r x)).setSpan s = .ok (.nt { named r x with span := s }) := fun _ => rfl
      have hn1 := node?_addNt1 (r := r) hx
      unfold nonterminalLine
      rw [if_neg hT]
      dsimp only
      rw [hsp]
      dsimp only
      simp only [numField, hid]
      rw [r1] at hs
      rw [hs]
      dsimp only
      rw [hl]
      dsimp only
      rw [hx]
      simp only [Res.ofOption_some, Res.ok_bind]
      have hnd : named r x = { x with
          label := l
          features := match anns.head? with
            | some a => some ((x.features.getD Features.empty).insert Ptb.annotationKey (some a)).1
            | none => x.features } := by unfold named; rw [r3, r4]
      have step : ∀ nd : Node, nd = .nt (named r x) → processEdges { b with
          finishedTerminals := true
          processedNts := b.processedNts + 1
          graph := b.graph.setNode self nd } self more = .ok (.ok (addNt1 b r self x)) := by
        rintro _ rfl
        rw [hpe, ← r2]
        rfl
      rw [step _ (by cases anns <;> rw [hnd] <;> rfl)]
      simp only [Res.ok_bind]
      show (do
        let sp ← Span.fromVec (childCoverage (addNt1 b r self x).graph self)
        _ : Res (Except Err Builder)) = _
      congr 1
      funext sp
      cases sp with
      | error e => rfl
      | ok span =>
        show (do
          let nd ← Res.ofOption ((addNt1 b r self x).graph.node? self)
          _ : Res (Except Err Builder)) = _
        rw [hn1]
        rfl
    by_cases hc : childCoverage (addNt1 b r self x).graph self = []
    · left
      refine ⟨hc, ?_⟩
      rw [hrun, hc, Span.fromVec_nil]
      exact ⟨_, rfl⟩
    · right
      obtain ⟨s, g1, g2, g3⟩ := Span.fromVec_spec hc
      refine ⟨s, g1, g2, g3, ?_⟩
      rw [hrun, g1]
      rfl

/-- Lines that are not of a nonterminal, or of an unknown one, give an error. -/
theorem nonterminalLine_err {b : Builder} (h : Good b) {line : Str}
    (hr : b.nTerminals = 0 ∨ NtRow.read (splitWs line) = none ∨
      ∃ r, NtRow.read (splitWs line) = some r ∧ lookupIdx b.ntIndices r.id = none) :
    ∃ e, nonterminalLine b line = .ok (.error e) := by
  unfold nonterminalLine
  by_cases hT : b.nTerminals = 0
  · rw [if_pos hT]; exact ⟨_, rfl⟩
  have hr := hr.resolve_left hT
  rw [if_neg hT]
  dsimp only
  cases hsp : splitWs line with
  | nil => exact ⟨_, rfl⟩
  | cons first rest =>
    dsimp only
    rw [hsp] at hr
    cases hid : parseUsize (first.drop 1) with
    | none => simp only [numField, hid]; exact ⟨_, rfl⟩
    | some id =>
      simp only [numField, hid]
      cases hs : lookupIdx b.ntIndices id with
      | none => exact ⟨_, rfl⟩
      | some self =>
        dsimp only
        match rest, hr with
        | [], _ => exact ⟨_, rfl⟩
        | [_], _ => exact ⟨_, rfl⟩
        | c2 :: label :: more, hr =>
          obtain ⟨l, anns, hl⟩ : ∃ l anns, splitOn '=' label = l :: anns := by
            cases hso : splitOn '=' label with
            | nil => exact absurd hso (splitOn_ne_nil _ _)
            | cons l anns => exact ⟨l, anns, rfl⟩
          obtain ⟨x, hx⟩ := h.nts _ _ hs
          simp only [hl, hx, Res.ofOption_some, Res.ok_bind]
          cases more with
          | nil => exact ⟨_, rfl⟩
          | cons c4 edges =>
            have ha : Attach.read edges = none := by
              cases ha : Attach.read edges with
              | none => rfl
              | some a =>
                exfalso
                simp only [NtRow.read, hid, ha, Option.bind_eq_bind, Option.bind_some] at hr
                rcases hr with hr | ⟨r, hr, hr'⟩
                · simp at hr
                · simp only [Option.some.injEq] at hr
                  subst hr
                  simp [hs] at hr'
            dsimp only
            have hG : ∀ y : NonTerminal, y.span = x.span → Good { b with
                finishedTerminals := true
                processedNts := b.processedNts + 1
                graph := b.graph.setNode self (.nt y) } := fun y hy =>
              (setNode_good h hx (y := y) (hy ▸ h.span hx)).congr rfl rfl
            have herr := fun y hy => processEdges_err (hG y hy) (n := self)
              (by simpa [Graph.setNode] using node?_lt hx) ha
            cases anns with
            | nil =>
              obtain ⟨e, he⟩ := herr { x with label := l } rfl
              refine ⟨e, ?_⟩
              simp only [Node.setLabel]
              rw [he]
              rfl
            | cons an _ =>
              obtain ⟨e, he⟩ := herr { x with
                label := l
                features := some ((x.features.getD Features.empty).insert Ptb.annotationKey (some an)).1 } rfl
              refine ⟨e, ?_⟩
              simp only [Node.setLabel, Node.setFeatures, Node.featuresMut, Node.features]
              rw [he]
              rfl

end Negra
end Lumberjack
