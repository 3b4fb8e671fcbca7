import Verif.Proofs.NegraRead

/-!
# Contents and spans of the nodes the NEGRA reader builds
-/

namespace Lumberjack
namespace Negra

open Span

/-- The node has a gap. -/
def gapAt (g : Graph) (n : Nat) : Bool := match g.node? n with
  | some (.nt x) => x.span.skips.isSome
  | _ => false

structure Marks (id : Nat) (info : Option Str) (b : Builder) (N : List NtRow) : Prop where
  root : b.graph.node? (idx b 0) = some (.nt ⟨vroot, some (headFeatures id info), Span.ofIdx 0⟩)
  done : ∀ r ∈ N, ∃ s, b.graph.node? (idx b r.id) = some (.nt (r.nonterminal s))
  todo : ∀ k ∈ keys b, k ≠ 0 → k ∉ N.map (·.id) → ∃ s, b.graph.node? (idx b k) = some (.nt ⟨[], none, s⟩)
  disc : b.numNonProjective = N.countP (fun r => gapAt b.graph (idx b r.id))

def Spanned (b : Builder) (N : List NtRow) : Prop :=
  ∀ r ∈ N, ∀ x, b.graph.node? (idx b r.id) = some (.nt x) →
    x.span.indices = (childCoverage b.graph (idx b r.id)).toFinset

/-! ## Adding a row -/

theorem attach_fresh {b : Builder} {n : Nat} {a : Attach} (h : a.parent ∉ keys b) :
    (attach b n a).graph.node? (idx (attach b n a) a.parent) = some (fresh b) ∧
      idx (attach b n a) a.parent = b.graph.nodes.length := by
  have hl := lookup_none_iff.2 h
  have e1 : idx (attach b n a) a.parent = b.graph.nodes.length := by
    refine idx_of_lookup ?_
    show lookupIdx (withParent b a.parent).ntIndices a.parent = _
    unfold withParent
    rw [hl]
    dsimp only
    rw [lookupIdx_append, hl]
    simp
  refine ⟨?_, e1⟩
  rw [e1]
  show (withParent b a.parent).graph.node? _ = _
  unfold withParent
  rw [hl]
  exact node?_last

theorem addTerm_idx {b : Builder} {r : TermRow} {k : Nat} (h : k ∈ keys b) : idx (addTerm b r) k = idx b k := by
  have hl : lookupIdx ({ b with graph := pushNode b.graph (.term (r.terminal b.nTerminals)) } : Builder).ntIndices k =
      some (idx b k) := lookup_of_mem h
  have := lookup_withParent (k := r.att.parent) hl
  exact idx_of_lookup (b := addTerm b r) this

theorem addTerm_node {b : Builder} {r : TermRow} {n : Nat} {nd : Node} (h : b.graph.node? n = some nd) :
    (addTerm b r).graph.node? n = some nd := by
  show (attach { b with graph := pushNode b.graph (.term (r.terminal b.nTerminals)) } b.graph.nodes.length
      r.att).graph.node? n = _
  refine node?_attach ?_
  dsimp only
  rw [node?_append (node?_lt h)]
  exact h

theorem addTerm_new {b : Builder} {r : TermRow} {k : Nat} (h : k ∈ keys (addTerm b r)) (hk : k ∉ keys b) :
    ∃ s, (addTerm b r).graph.node? (idx (addTerm b r) k) = some (.nt ⟨[], none, s⟩) := by
  have h' : k ∈ keys (attach { b with graph := pushNode b.graph (.term (r.terminal b.nTerminals)) }
    b.graph.nodes.length r.att) := h
  rw [attach_keys] at h'
  have hb : keys { b with graph := pushNode b.graph (.term (r.terminal b.nTerminals)) } = keys b := rfl
  rw [hb] at h'
  split at h'
  · exact absurd h' hk
  · rw [List.mem_append, List.mem_singleton] at h'
    have e := h'.resolve_left hk
    subst e
    exact ⟨_, (attach_fresh (b := { b with graph := pushNode b.graph (.term (r.terminal b.nTerminals)) })
      (n := b.graph.nodes.length) (a := r.att) hk).1⟩

theorem addTerm_marks {id : Nat} {info : Option Str} {b : Builder} (h0 : 0 ∈ keys b) (h : Marks id info b [])
    (r : TermRow) : Marks id info (addTerm b r) [] := by
  refine ⟨?_, by simp, ?_, ?_⟩
  · rw [addTerm_idx h0]; exact addTerm_node h.root
  · intro k hk h1 _
    by_cases hkb : k ∈ keys b
    · obtain ⟨s, hs⟩ := h.todo k hkb h1 (by simp)
      exact ⟨s, by rw [addTerm_idx hkb]; exact addTerm_node hs⟩
    · exact addTerm_new hk hkb
  · rw [List.countP_nil, ← List.countP_nil (p := fun r : NtRow => gapAt b.graph (idx b r.id)), ← h.disc]
    simp only [addTerm, attach]; unfold withParent; split <;> rfl

/-- The builder after a nonterminal. -/
abbrev addNt (b : Builder) (r : NtRow) (self : Nat) (x : NonTerminal) (s : Span) : Builder :=
  addNt2 (addNt1 b r self x) self (named r x) s

/-- Number and index of a nonterminal are not changed by its span. -/
theorem addNt_idx1 {b : Builder} {r : NtRow} {self : Nat} {x : NonTerminal} {s : Span} {k : Nat}
    (h : k ∈ keys (addNt1 b r self x)) : idx (addNt b r self x s) k = idx (addNt1 b r self x) k :=
  idx_of_lookup (b := addNt b r self x s) (lookup_of_mem h)

theorem addNt_idx {b : Builder} {r : NtRow} {self : Nat} {x : NonTerminal} {s : Span} {k : Nat} (h : k ∈ keys b) :
    idx (addNt b r self x s) k = idx b k := by
  have hl : lookupIdx ({ b with
    finishedTerminals := true
    processedNts := b.processedNts + 1
    graph := b.graph.setNode self (.nt (named r x)) } : Builder).ntIndices k = some (idx b k) := lookup_of_mem h
  have := lookup_withParent (k := r.att.parent) hl
  exact idx_of_lookup (b := addNt b r self x s) this

theorem addNt1_idx {b : Builder} {r : NtRow} {self : Nat} {x : NonTerminal} {k : Nat} (h : k ∈ keys b) :
    idx (addNt1 b r self x) k = idx b k := by
  have hl : lookupIdx ({ b with
    finishedTerminals := true
    processedNts := b.processedNts + 1
    graph := b.graph.setNode self (.nt (named r x)) } : Builder).ntIndices k = some (idx b k) := lookup_of_mem h
  have := lookup_withParent (k := r.att.parent) hl
  exact idx_of_lookup (b := addNt1 b r self x) this

theorem addNt1_node {b : Builder} {r : NtRow} {self : Nat} {x : NonTerminal} (hx : b.graph.node? self = some (.nt x))
    {n : Nat} (hn : n ≠ self) {nd : Node} (h : b.graph.node? n = some nd) :
    (addNt1 b r self x).graph.node? n = some nd := by
  refine node?_attach ?_
  dsimp only
  rw [node?_setNode (node?_lt hx), if_neg hn]
  exact h

theorem addNt_other {b : Builder} {r : NtRow} {self : Nat} {x : NonTerminal} (hx : b.graph.node? self = some (.nt x))
    {s : Span} {n : Nat} (hn : n ≠ self) :
    (addNt b r self x s).graph.node? n = (addNt1 b r self x).graph.node? n := by
  simp only [addNt, addNt2]
  rw [node?_setNode (node?_lt (node?_addNt1 (r := r) hx)), if_neg hn]

theorem addNt_node {b : Builder} {r : NtRow} {self : Nat} {x : NonTerminal} (hx : b.graph.node? self = some (.nt x))
    {s : Span} {n : Nat} (hn : n ≠ self) {nd : Node} (h : b.graph.node? n = some nd) :
    (addNt b r self x s).graph.node? n = some nd := by
  rw [addNt_other hx hn]
  exact addNt1_node hx hn h

theorem addNt_self {b : Builder} {r : NtRow} {self : Nat} {x : NonTerminal} (hx : b.graph.node? self = some (.nt x))
    {s : Span} : (addNt b r self x s).graph.node? self = some (.nt { named r x with span := s }) := by
  simp only [addNt, addNt2]
  rw [node?_setNode (node?_lt (node?_addNt1 (r := r) hx)), if_pos rfl]

theorem addNt_new {b : Builder} {r : NtRow} {self : Nat} {x : NonTerminal} (hx : b.graph.node? self = some (.nt x))
    {s : Span} {k : Nat} (h : k ∈ keys (addNt b r self x s)) (hk : k ∉ keys b) :
    ∃ s', (addNt b r self x s).graph.node? (idx (addNt b r self x s) k) = some (.nt ⟨[], none, s'⟩) := by
  have h' : k ∈ keys (attach { b with
    finishedTerminals := true
    processedNts := b.processedNts + 1
    graph := b.graph.setNode self (.nt (named r x)) } self r.att) := h
  rw [attach_keys] at h'
  have hb : keys { b with
    finishedTerminals := true
    processedNts := b.processedNts + 1
    graph := b.graph.setNode self (.nt (named r x)) } = keys b := rfl
  rw [hb] at h'
  split at h'
  · exact absurd h' hk
  · rw [List.mem_append, List.mem_singleton] at h'
    have e := h'.resolve_left hk
    subst e
    obtain ⟨g1, g2⟩ := attach_fresh (b := { b with
      finishedTerminals := true
      processedNts := b.processedNts + 1
      graph := b.graph.setNode self (.nt (named r x)) }) (n := self) (a := r.att) hk
    have g3 : idx (addNt1 b r self x) r.att.parent = b.graph.nodes.length := by
      refine Eq.trans g2 ?_
      simp [Graph.setNode]
    have hne : b.graph.nodes.length ≠ self := by
      have := node?_lt hx
      omega
    rw [addNt_idx1 (s := s) h, g3, addNt_other hx hne, ← g3]
    exact ⟨_, g1⟩

theorem named_fresh (r : NtRow) (s : Span) : named r ⟨[], none, s⟩ = r.nonterminal s := by
  unfold named NtRow.nonterminal
  cases r.ann with
  | none => rfl
  | some a => rfl

theorem addNt_marks {id : Nat} {info : Option Str} {b : Builder} {T : List TermRow} {N : List NtRow} {τ : List Nat}
    (hi : Inv id b T N τ) (h : Marks id info b N) {r : NtRow} {self : Nat}
    (hs : lookupIdx b.ntIndices r.id = some self) {x : NonTerminal} (hx : b.graph.node? self = some (.nt x)) (s : Span)
    (ho : OwnNumbers (N ++ [r])) : Marks id info (addNt b r self x s) (N ++ [r]) := by
  obtain ⟨ho1, ho2⟩ := ho
  have hkey : r.id ∈ keys b := lookup_iff_keys.1 ⟨_, hs⟩
  have hself : idx b r.id = self := idx_of_lookup hs
  have hr0 : r.id ≠ 0 := fun h => ho2 (by simp [h])
  have hrN : r.id ∉ N.map (·.id) := by
    intro hm
    rw [List.map_append, List.nodup_append] at ho1
    exact ho1.2.2 _ hm r.id (by simp) rfl
  have h0 : 0 ∈ keys b := (hi.mem_keys 0).2 (.inl rfl)
  have hne : ∀ k ∈ keys b, k ≠ r.id → idx b k ≠ self := by
    intro k hk hkr he
    exact hkr (idx_inj hi.core.vals_nodup hk hkey (he.trans hself.symm))
  obtain ⟨s0, hs0⟩ := h.todo r.id hkey hr0 hrN
  rw [hself, hx] at hs0
  injection hs0 with hs0
  injection hs0 with hs0
  have hgap : ∀ q ∈ N, gapAt (addNt b r self x s).graph (idx (addNt b r self x s) q.id) = gapAt b.graph (idx b q.id) := by
    intro q hq
    have hqk := hi.ids q hq
    have hqr : q.id ≠ r.id := fun he => hrN (he ▸ List.mem_map_of_mem hq)
    obtain ⟨s', hs'⟩ := h.done q hq
    unfold gapAt
    rw [addNt_idx hqk, addNt_node hx (hne _ hqk hqr) hs', hs']
  refine ⟨?_, ?_, ?_, ?_⟩
  · rw [addNt_idx h0]; exact addNt_node hx (hne 0 h0 (Ne.symm hr0)) h.root
  · intro q hq
    rw [List.mem_append, List.mem_singleton] at hq
    rcases hq with hq | rfl
    · have hqk := hi.ids q hq
      obtain ⟨s', hs'⟩ := h.done q hq
      refine ⟨s', ?_⟩
      rw [addNt_idx hqk]
      exact addNt_node hx (hne _ hqk (fun he => hrN (he ▸ List.mem_map_of_mem hq))) hs'
    · refine ⟨s, ?_⟩
      rw [addNt_idx hkey, hself, addNt_self hx, hs0, named_fresh]
      rfl
  · intro k hk hk0 hkN
    rw [List.map_append, List.mem_append, not_or] at hkN
    by_cases hkb : k ∈ keys b
    · obtain ⟨s', hs'⟩ := h.todo k hkb hk0 hkN.1
      refine ⟨s', ?_⟩
      rw [addNt_idx hkb]
      exact addNt_node hx (hne _ hkb (fun he => hkN.2 (by simp [he]))) hs'
    · exact addNt_new hx hk hkb
  · rw [List.countP_append, List.countP_cons, List.countP_nil]
    have e1 : N.countP (fun q => gapAt (addNt b r self x s).graph (idx (addNt b r self x s) q.id)) =
        N.countP (fun q => gapAt b.graph (idx b q.id)) := by
      refine List.countP_congr fun q hq => ?_
      rw [hgap q hq]
    have e2 : gapAt (addNt b r self x s).graph (idx (addNt b r self x s) r.id) = s.skips.isSome := by
      unfold gapAt
      rw [addNt_idx hkey, hself, addNt_self hx]
    rw [e1, e2, ← h.disc]
    have e3 : (addNt1 b r self x).numNonProjective = b.numNonProjective := by
      simp only [addNt1, attach]; unfold withParent; split <;> rfl
    simp only [addNt, addNt2, e3]
    cases s.skips.isSome <;> simp

theorem edge_target {id : Nat} {b : Builder} {T : List TermRow} {N : List NtRow} {τ : List Nat} (h : Inv id b T N τ)
    {e : EdgeRec} (he : e ∈ b.graph.edges) : e.tgt ∈ τ ∨ ∃ q ∈ N, e.tgt = idx b q.id := by
  have hm : (e.src, e.tgt, e.w) ∈ b.graph.edges.map (fun r => (r.src, r.tgt, r.w)) := List.mem_map.2 ⟨e, he, rfl⟩
  rw [h.core.edges, List.mem_reverse, List.mem_map] at hm
  obtain ⟨x, hx, hxe⟩ := hm
  simp only [Prod.mk.injEq] at hxe
  unfold atts at hx
  rw [List.mem_append] at hx
  rcases hx with hx | hx
  · left
    rw [← hxe.2.1]
    obtain ⟨i, hi, hxi⟩ := List.mem_iff_getElem.1 hx
    rw [← hxi, List.getElem_zipWith]
    exact List.getElem_mem _
  · right
    obtain ⟨q, hq, rfl⟩ := List.mem_map.1 hx
    exact ⟨q, hq, hxe.2.1.symm⟩

theorem tau_term {id : Nat} {b : Builder} {T : List TermRow} {N : List NtRow} {τ : List Nat} (h : Inv id b T N τ)
    {n : Nat} (hn : n ∈ τ) : ∃ (i : Nat) (r : TermRow), T[i]? = some r ∧ τ[i]? = some n ∧ b.graph.node? n = some (.term (r.terminal i)) := by
  obtain ⟨i, hi, rfl⟩ := List.mem_iff_getElem.1 hn
  have hiT : i < T.length := by rw [← h.len]; exact hi
  exact ⟨i, T[i], by simp [hiT], by simp [hi], h.term i T[i] τ[i] (by simp [hiT]) (by simp [hi])⟩

theorem coverage_congr {g g' : Graph} {n : Nat} (h1 : ∀ e : EdgeRec, e.src = n → (e ∈ g'.edges ↔ e ∈ g.edges))
    (h2 : ∀ e ∈ g.edges, e.src = n → g'.node? e.tgt = g.node? e.tgt) :
    (childCoverage g' n).toFinset = (childCoverage g n).toFinset := by
  ext i
  rw [List.mem_toFinset, List.mem_toFinset, mem_coverage, mem_coverage]
  constructor
  · rintro ⟨e, g1, g2, g3, nd, g4, g5⟩
    have := (h1 e g2).1 g1
    rw [h2 e this g2] at g4
    exact ⟨e, this, g2, g3, nd, g4, g5⟩
  · rintro ⟨e, g1, g2, g3, nd, g4, g5⟩
    refine ⟨e, (h1 e g2).2 g1, g2, g3, nd, ?_, g5⟩
    rw [h2 e g1 g2]
    exact g4

theorem addNt_spanned {id : Nat} {b : Builder} {T : List TermRow} {N : List NtRow} {τ : List Nat}
    (hi : Inv id b T N τ) (h : Spanned b N) {r : NtRow} {self : Nat}
    (hs : lookupIdx b.ntIndices r.id = some self) {x : NonTerminal} (hx : b.graph.node? self = some (.nt x)) {s : Span}
    (hv : s.Valid) (hsi : s.indices = (childCoverage (addNt1 b r self x).graph self).toFinset)
    (ho : OwnNumbers (N ++ [r])) (hc : ChildrenFirst (N ++ [r])) : Spanned (addNt b r self x s) (N ++ [r]) := by
  have hi' := addNt_inv hi r hs hx hv
  obtain ⟨ho1, ho2⟩ := ho
  have hkey : r.id ∈ keys b := lookup_iff_keys.1 ⟨_, hs⟩
  have hself : idx b r.id = self := idx_of_lookup hs
  have hrN : r.id ∉ N.map (·.id) := by
    intro hm
    rw [List.map_append, List.nodup_append] at ho1
    exact ho1.2.2 _ hm r.id (by simp) rfl
  have hne : ∀ k ∈ keys b, k ≠ r.id → idx b k ≠ self := by
    intro k hk hkr he
    exact hkr (idx_inj hi.core.vals_nodup hk hkey (he.trans hself.symm))
  have hp := hc N r [] rfl
  have hpk : r.att.parent ∈ keys (addNt b r self x s) := by
    rw [hi'.mem_keys]
    exact .inr (mem_parents.2 (.inr ⟨r, by simp, rfl⟩))
  have hidp : idx (addNt b r self x s) r.att.parent = idx { b with
      finishedTerminals := true
      processedNts := b.processedNts + 1
      graph := b.graph.setNode self (.nt (named r x)) } r.att.parent := by
    rw [addNt_idx1 (s := s) hpk]
    exact attach_idx_parent (b := { b with
      finishedTerminals := true
      processedNts := b.processedNts + 1
      graph := b.graph.setNode self (.nt (named r x)) }) ((setNode_good hi.good hx (y := named r x)
      (by rw [named_span]; exact hi.good.span hx)).congr rfl rfl) self r.att
  have hedges : ∃ k, (addNt b r self x s).graph.edges =
      ⟨k, idx (addNt b r self x s) r.att.parent, self, .primary r.att.edge⟩ :: b.graph.edges := by
    rw [hidp]
    have hw : (withParent { b with
      finishedTerminals := true
      processedNts := b.processedNts + 1
      graph := b.graph.setNode self (.nt (named r x)) } r.att.parent).graph.edges = b.graph.edges := by
      unfold withParent; split <;> rfl
    refine ⟨(withParent { b with
      finishedTerminals := true
      processedNts := b.processedNts + 1
      graph := b.graph.setNode self (.nt (named r x)) } r.att.parent).graph.edgeSlots, ?_⟩
    rw [← hw]
    rfl
  obtain ⟨ek, hedges⟩ := hedges
  have hedges1 : (addNt1 b r self x).graph.edges = (addNt b r self x s).graph.edges := rfl
  -- no edge of `b` leads to `self`
  have htgt : ∀ e ∈ b.graph.edges, e.tgt ≠ self := by
    intro e he hte
    rcases edge_target hi he with h1 | ⟨q, hq, h1⟩
    · obtain ⟨i, row, _, _, h2⟩ := tau_term hi h1
      rw [hte, hx] at h2
      simp at h2
    · rw [hte] at h1
      exact hne _ (hi.ids q hq) (fun he => hrN (he ▸ List.mem_map_of_mem hq)) h1.symm
  have hnot : ∀ q ∈ N ++ [r], idx (addNt b r self x s) r.att.parent ≠ idx (addNt b r self x s) q.id := by
    intro q hq he
    have := idx_inj hi'.core.vals_nodup hpk (hi'.ids q hq) he
    exact hp (this ▸ List.mem_map_of_mem hq)
  intro q hq y hy
  have hsrc : ∀ e : EdgeRec, e.src = idx (addNt b r self x s) q.id →
      (e ∈ (addNt b r self x s).graph.edges ↔ e ∈ b.graph.edges) := by
    intro e he
    rw [hedges, List.mem_cons]
    constructor
    · rintro (rfl | h1)
      · exact absurd he (hnot q hq)
      · exact h1
    · exact .inr
  have hq' := hq
  rw [List.mem_append, List.mem_singleton] at hq
  rcases hq with hq | rfl
  · have hqk := hi.ids q hq
    have hqr : q.id ≠ r.id := fun he => hrN (he ▸ List.mem_map_of_mem hq)
    rw [addNt_idx hqk] at hy hsrc ⊢
    obtain ⟨z, hz⟩ := hi.good.nts _ _ (lookup_of_mem hqk)
    have hz' := addNt_node (r := r) (s := s) hx (hne _ hqk hqr) hz
    rw [hz'] at hy
    injection hy with hy
    injection hy with hy
    subst hy
    rw [h q hq z hz]
    refine (coverage_congr hsrc ?_).symm
    intro e he _
    obtain ⟨nd, hnd, _⟩ := hi.good.live _ (hi.good.ends e he)
    rw [hnd]
    exact addNt_node hx (htgt e he) hnd
  · rw [addNt_idx hkey, hself] at hy hsrc ⊢
    rw [addNt_self hx] at hy
    injection hy with hy
    injection hy with hy
    subst hy
    dsimp only
    rw [hsi]
    refine (coverage_congr (fun e _ => ?_) ?_).symm
    · rw [hedges1]
    · intro e he hes
      rw [hedges1] at he
      exact addNt_other hx (htgt e ((hsrc e hes).1 he))

/-! ## All rows -/

theorem nextFrom_body_inv {id : Nat} {Q : Builder → List NtRow → Prop}
    (hterm : ∀ b T τ r, Inv id b T [] τ → Q b [] → Q (addTerm b r) [])
    (hnt : ∀ b T N τ r self x s, Inv id b T N τ → Q b N → lookupIdx b.ntIndices r.id = some self →
      b.graph.node? self = some (.nt x) → s.Valid →
      s.indices = (childCoverage (addNt1 b r self x).graph self).toFinset → Q (addNt b r self x s) (N ++ [r]))
    {body : List Str} :
    ∀ {b : Builder} {T : List TermRow} {N : List NtRow} {τ : List Nat}, Inv id b T N τ → Q b N → ∀ {T' N'},
    Acc T N body T' N' → ∃ b' τ', Inv id b' T' N' τ' ∧ Q b' N' ∧
      ∀ rest, nextFrom (body ++ rest) (some b) = nextFrom rest (some b') := by
  induction body with
  | nil => intro b T N τ h hq T' N' ha; cases ha; exact ⟨b, τ, h, hq, fun _ => rfl⟩
  | cons l body ih =>
    intro b T N τ h hq T' N' ha
    have hrun : ∀ b1, ¬ IsFrame l → processLine b (trim l) = .ok (.ok b1) → ∀ rest,
        nextFrom (l :: body ++ rest) (some b) = nextFrom (body ++ rest) (some b1) := by
      intro b1 hl hp rest
      have h1 : ¬ startsWith bos (trim l) = true := fun h => hl (.inl h)
      have h2 : ¬ startsWith eos (trim l) = true := fun h => hl (.inr h)
      rw [List.cons_append, nextFrom]
      rw [if_neg h1, if_neg h2]
      simp only [hp, Res.ok_bind]
    cases ha with
    | term h1 h2 =>
      rename_i r
      have hp : processLine b (trim l) = .ok (.ok (addTerm b r)) := by
        unfold processLine startsWith
        rw [if_neg (by simp [h1.1])]
        exact terminalLine_ok h.good h.fin h1.2
      obtain ⟨b', τ', g1, g2, g3⟩ := ih (addTerm_inv h r) (hterm b T τ r h hq) h2
      exact ⟨b', τ', g1, g2, fun rest => (hrun _ (not_frame_of_term h1) hp rest).trans (g3 rest)⟩
    | nt h1 h2 h3 h4 =>
      rename_i r
      have hkey : r.id ∈ keys b := by
        rw [h.mem_keys]
        rcases h3 with h3 | h3
        · exact .inr h3
        · exact .inl h3.1
      have hs := lookup_of_mem hkey
      obtain ⟨x, hx⟩ := h.good.nts _ _ hs
      have hT : b.nTerminals ≠ 0 := by
        rw [h.nterm]
        intro he
        exact h2 (List.length_eq_zero_iff.1 he)
      rcases step h l with ⟨T2, N2, b1, τ1, g1, g2, g3⟩ | hbad
      · rcases nonterminalLine_eq h.good hT h1.2.2 hs hx with ⟨_, e, herr⟩ | ⟨s, _, hv, hsi, hok⟩
        · have hp : processLine b (trim l) = nonterminalLine b (trim l) := by
            unfold processLine startsWith
            rw [if_pos h1.2.1]
          rw [hp, herr] at g2
          cases g2
        · have hp : processLine b (trim l) = .ok (.ok (addNt b r (idx b r.id) x s)) := by
            unfold processLine startsWith
            rw [if_pos h1.2.1]
            exact hok
          obtain ⟨b', τ', g1, g2, g3⟩ := ih (addNt_inv h r hs hx hv) (hnt b T N τ r _ x s h hq hs hx hv hsi) h4
          exact ⟨b', τ', g1, g2, fun rest => (hrun _ h1.1 hp rest).trans (g3 rest)⟩
      · exact absurd (.nt h1 h2 h3 (.nil _ _)) ((hbad h1.1).1 _ _)

theorem OwnNumbers.init {N : List NtRow} {r : NtRow} (h : OwnNumbers (N ++ [r])) : OwnNumbers N := by
  obtain ⟨h1, h2⟩ := h
  rw [List.map_append] at h1 h2
  exact ⟨(List.nodup_append.1 h1).1, fun h => h2 (List.mem_append_left _ h)⟩

theorem ChildrenFirst.init {N : List NtRow} {r : NtRow} (h : ChildrenFirst (N ++ [r])) : ChildrenFirst N := by
  intro pre q post he
  exact h pre q (post ++ [r]) (by rw [he]; simp)

/-- The builder at the end of a sentence. -/
theorem sentence_inv {id : Nat} {info : Option Str} {body : List Str} {T : List TermRow} {N : List NtRow}
    (hR : Rows body T N) (hP : Processable T N) : ∃ b τ, Inv id b T N τ ∧ (OwnNumbers N → Marks id info b N) ∧
      (OwnNumbers N → ChildrenFirst N → Spanned b N) ∧
      ∀ rest, nextFrom (body ++ rest) (some (begun id info)) = nextFrom rest (some b) := by
  have := nextFrom_body_inv (id := id) (Q := fun b N => (OwnNumbers N → Marks id info b N) ∧
      (OwnNumbers N → ChildrenFirst N → Spanned b N))
    (fun b T τ r hi hq => ⟨fun ho => addTerm_marks ((hi.mem_keys 0).2 (.inl rfl)) (hq.1 ho) r,
      fun _ _ => by intro r hr; cases hr⟩)
    (fun b T N τ r self x s hi hq h1 h2 h3 h4 => ⟨fun ho => addNt_marks hi (hq.1 ho.init) h1 h2 s ho,
      fun ho hc => addNt_spanned hi (hq.2 ho.init hc.init) h1 h2 h3 h4 ho hc⟩)
    (body := body) (begun_inv id info) ⟨?_, ?_⟩ (acc_rows.2 ⟨hR, hP⟩)
  · obtain ⟨b, τ, h1, h2, h3⟩ := this
    exact ⟨b, τ, h1, h2.1, h2.2, h3⟩
  · intro _
    refine ⟨rfl, by simp, ?_, rfl⟩
    intro k hk h0
    have : keys (begun id info) = [0] := rfl
    rw [this, List.mem_singleton] at hk
    exact absurd hk h0
  · intro _ _ r hr
    cases hr

end Negra
end Lumberjack
