import Verif.Proofs.NegraRows

/-!
# What the builder of the NEGRA reader holds after some rows
-/

namespace Lumberjack
namespace Negra

/-- The numbers with a node. -/
def keys (b : Builder) : List Nat := b.ntIndices.map (·.1)

theorem lookup_iff_keys {b : Builder} {k : Nat} : (∃ n, lookupIdx b.ntIndices k = some n) ↔ k ∈ keys b := by
  unfold lookupIdx keys
  rw [List.mem_map]
  constructor
  · rintro ⟨n, h⟩
    rw [Option.map_eq_some_iff] at h
    obtain ⟨a, h1, _⟩ := h
    exact ⟨a, List.mem_of_find?_eq_some h1, by simpa using List.find?_some h1⟩
  · rintro ⟨a, h1, h2⟩
    cases hf : b.ntIndices.find? (fun p => decide (p.1 = k)) with
    | none => exact absurd h2 (by simpa using List.find?_eq_none.1 hf a h1)
    | some x => exact ⟨x.2, rfl⟩

theorem lookup_none_iff {b : Builder} {k : Nat} : lookupIdx b.ntIndices k = none ↔ k ∉ keys b := by
  rw [← lookup_iff_keys]
  cases lookupIdx b.ntIndices k <;> simp

theorem lookup_mem {b : Builder} {k n : Nat} (h : lookupIdx b.ntIndices k = some n) : (k, n) ∈ b.ntIndices := by
  unfold lookupIdx at h
  rw [Option.map_eq_some_iff] at h
  obtain ⟨a, h1, rfl⟩ := h
  have h2 := List.mem_of_find?_eq_some h1
  have h3 : a.1 = k := by simpa using List.find?_some h1
  rw [← h3]; exact h2

theorem idx_of_lookup {b : Builder} {k n : Nat} (h : lookupIdx b.ntIndices k = some n) : idx b k = n := by
  simp [idx, h]

theorem lookup_of_mem {b : Builder} {k : Nat} (h : k ∈ keys b) : lookupIdx b.ntIndices k = some (idx b k) := by
  obtain ⟨n, hn⟩ := lookup_iff_keys.2 h
  rw [hn, idx_of_lookup hn]

/-- Distinct numbers have distinct nodes. -/
theorem idx_inj {b : Builder} (hv : (b.ntIndices.map (·.2)).Nodup) {j k : Nat} (hj : j ∈ keys b)
    (hk : k ∈ keys b) (h : idx b j = idx b k) : j = k := by
  have h1 := lookup_mem (lookup_of_mem hj)
  have h2 := lookup_mem (lookup_of_mem hk)
  rw [h] at h1
  have := List.inj_on_of_nodup_map hv h1 h2 rfl
  exact (Prod.mk.injEq _ _ _ _ ▸ this).1

/-- What holds after the attachments `A`. -/
structure Core (b : Builder) (A : List (Nat × Attach)) : Prop where
  keys_nodup : (keys b).Nodup
  vals_nodup : (b.ntIndices.map (·.2)).Nodup
  mem_keys : ∀ k, k ∈ keys b ↔ k = 0 ∨ ∃ x ∈ A, x.2.parent = k
  edges : b.graph.edges.map (fun r => (r.src, r.tgt, r.w)) =
    (A.map fun x => (idx b x.2.parent, x.1, Edge.primary x.2.edge)).reverse
  ids : b.graph.edges.map (·.id) = (List.range b.graph.edgeSlots).reverse
  sec : b.secEdges = A.flatMap fun x => secOf x.1 x.2

theorem keys_withParent (b : Builder) (k : Nat) :
    keys (withParent b k) = if k ∈ keys b then keys b else keys b ++ [k] := by
  unfold withParent
  split
  · rename_i p h
    rw [if_pos (lookup_iff_keys.1 ⟨p, h⟩)]
  · rename_i h
    rw [if_neg (lookup_none_iff.1 h)]
    simp [keys]

theorem lookup_withParent {b : Builder} {k j n : Nat} (h : lookupIdx b.ntIndices j = some n) :
    lookupIdx (withParent b k).ntIndices j = some n := by
  unfold withParent
  split
  · exact h
  · simp [lookupIdx_append, h]

theorem idx_withParent {b : Builder} {k j : Nat} (h : j ∈ keys b) : idx (withParent b k) j = idx b j :=
  idx_of_lookup (lookup_withParent (lookup_of_mem h))

theorem attach_keys (b : Builder) (n : Nat) (a : Attach) :
    keys (attach b n a) = if a.parent ∈ keys b then keys b else keys b ++ [a.parent] := keys_withParent b a.parent

theorem attach_idx {b : Builder} {n : Nat} {a : Attach} {j : Nat} (h : j ∈ keys b) :
    idx (attach b n a) j = idx b j := by
  have := lookup_withParent (k := a.parent) (lookup_of_mem h)
  exact idx_of_lookup this

theorem attach_idx_parent {b : Builder} (h : Good b) (n : Nat) (a : Attach) :
    idx (attach b n a) a.parent = idx b a.parent := idx_of_lookup (withParent_good h a.parent).2.1

theorem attach_core {b : Builder} (h : Good b) {A : List (Nat × Attach)} (c : Core b A) (n : Nat) (a : Attach) :
    Core (attach b n a) (A ++ [(n, a)]) := by
  have hw : (withParent b a.parent).graph.edges = b.graph.edges := by unfold withParent; split <;> rfl
  have hs : (withParent b a.parent).graph.edgeSlots = b.graph.edgeSlots := by unfold withParent; split <;> rfl
  constructor
  · rw [attach_keys]
    split
    · exact c.keys_nodup
    · rename_i hk
      refine List.nodup_append.2 ⟨c.keys_nodup, List.nodup_singleton _, ?_⟩
      rintro x hx y hy rfl
      simp only [List.mem_singleton] at hy
      exact hk (hy ▸ hx)
  · show ((withParent b a.parent).ntIndices.map (·.2)).Nodup
    unfold withParent
    split
    · exact c.vals_nodup
    · dsimp only
      rw [List.map_append]
      refine List.nodup_append.2 ⟨c.vals_nodup, List.nodup_singleton _, ?_⟩
      rintro x hx y hy rfl
      simp only [List.mem_singleton, List.map_cons, List.map_nil] at hy
      obtain ⟨p, hp, rfl⟩ := List.mem_map.1 hx
      have hk : p.1 ∈ keys b := List.mem_map.2 ⟨p, hp, rfl⟩
      have hl := lookup_of_mem hk
      have : idx b p.1 = p.2 := by
        have := lookup_mem hl
        have h2 := List.inj_on_of_nodup_map c.keys_nodup this hp rfl
        rw [← h2]
      rw [this] at hl
      obtain ⟨x, hx⟩ := h.nts _ _ hl
      have := node?_lt hx
      omega
  · intro k
    rw [attach_keys]
    simp only [List.mem_append, List.mem_singleton, or_and_right, exists_or, exists_eq_left]
    split
    · rename_i hk
      rw [c.mem_keys]
      constructor
      · rintro (h | h)
        · exact .inl h
        · exact .inr (.inl h)
      · rintro (h | h | h)
        · exact .inl h
        · exact .inr h
        · subst h; exact (c.mem_keys _).1 hk
    · rw [List.mem_append, c.mem_keys, List.mem_singleton]
      constructor
      · rintro ((h | h) | h)
        · exact .inl h
        · exact .inr (.inl h)
        · exact .inr (.inr h.symm)
      · rintro (h | h | h)
        · exact .inl (.inl h)
        · exact .inl (.inr h)
        · exact .inr h.symm
  · show ((⟨_, _, _, _⟩ : EdgeRec) :: (withParent b a.parent).graph.edges).map _ = _
    rw [hw, List.map_cons, c.edges, List.map_append, List.reverse_append]
    simp only [List.map_cons, List.map_nil, List.reverse_cons, List.reverse_nil, List.nil_append,
      List.cons_append, attach_idx_parent h]
    congr 2
    refine List.map_congr_left fun x hx => ?_
    rw [attach_idx ((c.mem_keys _).2 (.inr ⟨x, hx, rfl⟩))]
  · show ((⟨(withParent b a.parent).graph.edgeSlots, _, _, _⟩ : EdgeRec) :: (withParent b a.parent).graph.edges).map _ = _
    rw [hw, hs, List.map_cons, c.ids]
    show _ = (List.range ((withParent b a.parent).graph.edgeSlots + 1)).reverse
    rw [hs, List.range_succ, List.reverse_append]
    rfl
  · simp [attach, c.sec]

theorem Core.congr {b b' : Builder} {A : List (Nat × Attach)} (c : Core b A) (h1 : b'.ntIndices = b.ntIndices)
    (h2 : b'.graph.edges = b.graph.edges) (h3 : b'.graph.edgeSlots = b.graph.edgeSlots)
    (h4 : b'.secEdges = b.secEdges) : Core b' A := by
  have hk : keys b' = keys b := by unfold keys; rw [h1]
  constructor
  · rw [hk]; exact c.keys_nodup
  · rw [h1]; exact c.vals_nodup
  · rw [hk]; exact c.mem_keys
  · rw [h2, c.edges]
    congr 1
    refine List.map_congr_left fun x hx => ?_
    have hm := (c.mem_keys x.2.parent).2 (.inr ⟨x, hx, rfl⟩)
    have := lookup_of_mem hm
    rw [← h1] at this
    rw [idx_of_lookup this]
  · rw [h2, h3]; exact c.ids
  · rw [h4]; exact c.sec

/-! ## Rows -/

/-- The attachments of some rows, `τ` being the nodes of the terminals. -/
def atts (b : Builder) (T : List TermRow) (N : List NtRow) (τ : List Nat) : List (Nat × Attach) :=
  List.zipWith (fun n r => (n, r.att)) τ T ++ N.map fun r => (idx b r.id, r.att)

theorem atts_congr {b b' : Builder} {T : List TermRow} {N : List NtRow} {τ : List Nat}
    (h : ∀ r ∈ N, idx b' r.id = idx b r.id) : atts b' T N τ = atts b T N τ := by
  unfold atts
  congr 1
  exact List.map_congr_left fun r hr => by rw [h r hr]

theorem mem_zipWith_att {T : List TermRow} {τ : List Nat} (hl : τ.length = T.length) {k : Nat} :
    (∃ x ∈ List.zipWith (fun n (r : TermRow) => (n, r.att)) τ T, x.2.parent = k) ↔ ∃ r ∈ T, r.att.parent = k := by
  induction T generalizing τ with
  | nil => simp
  | cons r T ih =>
    cases τ with
    | nil => simp at hl
    | cons n τ =>
      simp only [List.length_cons, Nat.add_right_cancel_iff] at hl
      simp only [List.zipWith_cons_cons, List.mem_cons, exists_eq_or_imp, ih hl]

theorem mem_parents {T : List TermRow} {N : List NtRow} {k : Nat} :
    k ∈ parents T N ↔ (∃ r ∈ T, r.att.parent = k) ∨ ∃ r ∈ N, r.att.parent = k := by
  simp [parents]

theorem mem_atts {b : Builder} {T : List TermRow} {N : List NtRow} {τ : List Nat} (hl : τ.length = T.length)
    {k : Nat} : (∃ x ∈ atts b T N τ, x.2.parent = k) ↔ k ∈ parents T N := by
  unfold atts
  simp only [List.mem_append, or_and_right, exists_or, mem_zipWith_att hl, mem_parents]
  simp

/-- What holds after the rows `T` and `N` of sentence `id`. -/
structure Inv (id : Nat) (b : Builder) (T : List TermRow) (N : List NtRow) (τ : List Nat) : Prop where
  good : Good b
  sid : b.sentenceId = Tree.natToStr id
  nterm : b.nTerminals = T.length
  fin : b.finishedTerminals = !N.isEmpty
  proc : b.processedNts = N.length + 1
  len : τ.length = T.length
  sorted : τ.Pairwise (· < ·)
  cover : ∀ n, n < b.graph.nodes.length ↔ (∃ k ∈ keys b, n = idx b k) ∨ n ∈ τ
  term : ∀ (i : Nat) r n, T[i]? = some r → τ[i]? = some n → b.graph.node? n = some (.term (r.terminal i))
  ids : ∀ r ∈ N, r.id ∈ keys b
  core : Core b (atts b T N τ)

theorem Inv.mem_keys {id : Nat} {b : Builder} {T : List TermRow} {N : List NtRow} {τ : List Nat}
    (h : Inv id b T N τ) (k : Nat) : k ∈ keys b ↔ k = 0 ∨ k ∈ parents T N := by
  rw [h.core.mem_keys, mem_atts h.len]

theorem cover_attach {b : Builder} (hg : Good b) {n : Nat} {a : Attach} {P : Nat → Prop}
    (h : ∀ m, m < b.graph.nodes.length ↔ (∃ k ∈ keys b, m = idx b k) ∨ P m) :
    ∀ m, m < (attach b n a).graph.nodes.length ↔ (∃ k ∈ keys (attach b n a), m = idx (attach b n a) k) ∨ P m := by
  intro m
  by_cases hk : a.parent ∈ keys b
  · have e1 : (attach b n a).graph.nodes = b.graph.nodes := by
      show (withParent b a.parent).graph.nodes = _
      unfold withParent
      rw [lookup_of_mem hk]
    rw [e1, h m, attach_keys, if_pos hk]
    refine or_congr_left (exists_congr fun k => and_congr_right fun hk => ?_)
    rw [attach_idx hk]
  · have e1 : (attach b n a).graph.nodes.length = b.graph.nodes.length + 1 := by
      show (withParent b a.parent).graph.nodes.length = _
      unfold withParent
      rw [lookup_none_iff.2 hk]
      simp [pushNode]
    have e2 : idx b a.parent = b.graph.nodes.length := by unfold idx; rw [lookup_none_iff.2 hk]; rfl
    rw [e1, attach_keys, if_neg hk]
    simp only [List.mem_append, List.mem_singleton, or_and_right, exists_or, exists_eq_left,
      attach_idx_parent hg, e2]
    have hh := h m
    have : (∃ k ∈ keys b, m = idx (attach b n a) k) ↔ ∃ k ∈ keys b, m = idx b k :=
      exists_congr fun k => and_congr_right fun hk => by rw [attach_idx hk]
    rw [this]
    constructor
    · intro hm
      by_cases e : m < b.graph.nodes.length
      · rcases hh.1 e with h1 | h1
        · exact .inl (.inl h1)
        · exact .inr h1
      · exact .inl (.inr (by omega))
    · rintro ((h1 | h1) | h1)
      · have := hh.2 (.inl h1); omega
      · omega
      · have := hh.2 (.inr h1); omega

theorem addTerm_inv {id : Nat} {b : Builder} {T : List TermRow} {τ : List Nat} (h : Inv id b T [] τ) (r : TermRow) :
    Inv id (addTerm b r) (T ++ [r]) [] (τ ++ [b.graph.nodes.length]) := by
  have hg1 := pushNode_good h.good (nd := .term (r.terminal b.nTerminals)) (ofIdx_valid b.nTerminals)
  have hc1 : Core { b with graph := pushNode b.graph (.term (r.terminal b.nTerminals)) } (atts b T [] τ) :=
    h.core.congr rfl rfl rfl rfl
  have hc2 := attach_core hg1 hc1 b.graph.nodes.length r.att
  have hτlt : ∀ n ∈ τ, n < b.graph.nodes.length := fun n hn => (h.cover n).2 (.inr hn)
  refine ⟨addTerm_good h.good r, ?_, ?_, ?_, ?_, ?_, ?_, ?_, ?_, by simp, ?_⟩
  · rw [← h.sid]; simp only [addTerm, attach]; unfold withParent; split <;> rfl
  · simp [addTerm, h.nterm]
  · have := h.fin
    rw [← this]; simp only [addTerm, attach]; unfold withParent; split <;> rfl
  · rw [← h.proc]; simp only [addTerm, attach]; unfold withParent; split <;> rfl
  · simp [h.len]
  · refine List.pairwise_append.2 ⟨h.sorted, List.pairwise_singleton _ _, ?_⟩
    intro m hm n hn
    rw [List.mem_singleton] at hn
    rw [hn]
    exact (h.cover m).2 (.inr hm)
  · have hcov : ∀ m, m < (pushNode b.graph (.term (r.terminal b.nTerminals))).nodes.length ↔
        (∃ k ∈ keys b, m = idx b k) ∨ m ∈ τ ++ [b.graph.nodes.length] := by
      intro m
      have := h.cover m
      simp only [pushNode, List.length_append, List.length_singleton, List.mem_append, List.mem_singleton]
      rw [← or_assoc, ← this]
      omega
    have hidx : ∀ k ∈ keys b, idx b k = idx { b with graph := pushNode b.graph (.term (r.terminal b.nTerminals)) } k := by
      intro k hk
      have := lookup_of_mem hk
      exact (idx_of_lookup (b := { b with graph := pushNode b.graph (.term (r.terminal b.nTerminals)) }) this).symm
    refine cover_attach hg1 (n := b.graph.nodes.length) (a := r.att) (P := fun m => m ∈ τ ++ [b.graph.nodes.length]) ?_
    intro m
    refine (hcov m).trans (or_congr_left (exists_congr fun k => and_congr_right fun hk => ?_))
    rw [hidx k hk]
  · intro i s n hi hn
    have hlen := h.len
    show (attach { b with graph := pushNode b.graph (.term (r.terminal b.nTerminals)) } b.graph.nodes.length
      r.att).graph.node? n = _
    refine node?_attach ?_
    dsimp only
    by_cases e : i < T.length
    · rw [List.getElem?_append_left e] at hi
      rw [List.getElem?_append_left (by omega)] at hn
      have := h.term i s n hi hn
      rw [node?_append (node?_lt this)]
      exact this
    · have hi' : i = T.length := by
        have := (List.getElem?_eq_some_iff.1 hi).1
        simp at this
        omega
      subst hi'
      rw [List.getElem?_append_right (le_refl _)] at hi
      rw [List.getElem?_append_right (by omega)] at hn
      simp only [Nat.sub_self, List.getElem?_cons_zero, Option.some.injEq] at hi
      rw [hlen, Nat.sub_self] at hn
      simp only [List.getElem?_cons_zero, Option.some.injEq] at hn
      subst hi hn
      rw [node?_last, h.nterm]
  · have e : atts (addTerm b r) (T ++ [r]) [] (τ ++ [b.graph.nodes.length]) =
        atts b T [] τ ++ [(b.graph.nodes.length, r.att)] := by
      unfold atts
      rw [List.zipWith_append h.len]
      simp
    rw [e]
    exact hc2.congr rfl rfl rfl rfl

theorem addNt1_cover {b : Builder} (h : Good b) {r : NtRow} {self : Nat} {x : NonTerminal}
    (hx : b.graph.node? self = some (.nt x)) {P : Nat → Prop}
    (hc : ∀ m, m < b.graph.nodes.length ↔ (∃ k ∈ keys b, m = idx b k) ∨ P m) :
    ∀ m, m < (addNt1 b r self x).graph.nodes.length ↔
      (∃ k ∈ keys (addNt1 b r self x), m = idx (addNt1 b r self x) k) ∨ P m := by
  have h1 := setNode_good h hx (y := named r x) (by rw [named_span]; exact h.span hx)
  have h2 : Good { b with
      finishedTerminals := true
      processedNts := b.processedNts + 1
      graph := b.graph.setNode self (.nt (named r x)) } := h1.congr rfl rfl
  refine cover_attach h2 ?_
  intro m
  have := hc m
  simp only [Graph.setNode, List.length_set]
  rw [this]
  refine or_congr_left (exists_congr fun k => and_congr_right fun hk => ?_)
  simp [idx]

theorem addNt_inv {id : Nat} {b : Builder} {T : List TermRow} {N : List NtRow} {τ : List Nat}
    (h : Inv id b T N τ) (r : NtRow) {self : Nat} (hs : lookupIdx b.ntIndices r.id = some self) {x : NonTerminal}
    (hx : b.graph.node? self = some (.nt x)) {s : Span} (hv : s.Valid) :
    Inv id (addNt2 (addNt1 b r self x) self (named r x) s) T (N ++ [r]) τ := by
  have hg := addNt1_good h.good r hx
  have hg2 := addNt2_good hg (node?_addNt1 (r := r) hx) hv
  have hcov := addNt1_cover h.good (r := r) hx h.cover
  have hb : Good { b with
      finishedTerminals := true
      processedNts := b.processedNts + 1
      graph := b.graph.setNode self (.nt (named r x)) } :=
    (setNode_good h.good hx (y := named r x) (by rw [named_span]; exact h.good.span hx)).congr rfl rfl
  have hid : ∀ k ∈ keys b, idx (addNt2 (addNt1 b r self x) self (named r x) s) k = idx b k := by
    intro k hk
    have hl : lookupIdx ({ b with
      finishedTerminals := true
      processedNts := b.processedNts + 1
      graph := b.graph.setNode self (.nt (named r x)) } : Builder).ntIndices k = some (idx b k) := lookup_of_mem hk
    have := lookup_withParent (k := r.att.parent) hl
    exact idx_of_lookup (b := addNt2 (addNt1 b r self x) self (named r x) s) this
  have hkey : ∀ k ∈ keys b, k ∈ keys (addNt2 (addNt1 b r self x) self (named r x) s) := by
    intro k hk
    have hk' : k ∈ keys (attach { b with
      finishedTerminals := true
      processedNts := b.processedNts + 1
      graph := b.graph.setNode self (.nt (named r x)) } self r.att) := by
      rw [attach_keys]
      split
      · exact hk
      · exact List.mem_append_left _ hk
    exact hk'
  have hself : idx b r.id = self := idx_of_lookup hs
  have hmem : r.id ∈ keys b := lookup_iff_keys.1 ⟨_, hs⟩
  refine ⟨hg2, ?_, ?_, ?_, ?_, h.len, h.sorted, ?_, ?_, ?_, ?_⟩
  · rw [← h.sid]; simp only [addNt2, addNt1, attach]; unfold withParent; split <;> rfl
  · rw [← h.nterm]; simp only [addNt2, addNt1, attach]; unfold withParent; split <;> rfl
  · have : (!(N ++ [r]).isEmpty) = true := by simp
    rw [this]; simp only [addNt2, addNt1, attach]; unfold withParent; split <;> rfl
  · rw [List.length_append, List.length_singleton, ← h.proc]
    simp only [addNt2, addNt1, attach]; unfold withParent; split <;> rfl
  · intro m
    have hlen : (addNt2 (addNt1 b r self x) self (named r x) s).graph.nodes.length =
        (addNt1 b r self x).graph.nodes.length := by simp only [addNt2, Graph.setNode, List.length_set]
    rw [hlen, hcov m]
    refine or_congr_left (exists_congr fun k => and_congr_right fun hk => ?_)
    have hl := lookup_of_mem hk
    rw [idx_of_lookup hl, idx_of_lookup (b := addNt2 (addNt1 b r self x) self (named r x) s) hl]
  · intro i q n hi hn
    have h1 := h.term i q n hi hn
    have hne : n ≠ self := by
      rintro rfl
      rw [hx] at h1
      simp at h1
    simp only [addNt2]
    rw [node?_setNode (node?_lt (node?_addNt1 (r := r) hx)), if_neg hne]
    refine node?_attach ?_
    dsimp only
    rw [node?_setNode (node?_lt hx), if_neg hne]
    exact h1
  · intro q hq
    simp only [List.mem_append, List.mem_singleton] at hq
    rcases hq with hq | rfl
    · exact hkey _ (h.ids q hq)
    · exact hkey _ hmem
  · have e : atts (addNt2 (addNt1 b r self x) self (named r x) s) T (N ++ [r]) τ =
        atts b T N τ ++ [(self, r.att)] := by
      unfold atts
      rw [List.map_append, ← List.append_assoc]
      congr 1
      · congr 1
        exact List.map_congr_left fun q hq => by rw [hid _ (h.ids q hq)]
      · simp [hid _ hmem, hself]
    rw [e]
    exact (attach_core hb (h.core.congr rfl rfl rfl rfl) self r.att).congr rfl rfl rfl rfl

end Negra
end Lumberjack
