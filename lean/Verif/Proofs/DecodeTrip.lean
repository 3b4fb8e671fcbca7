import Verif.Proofs.DecodeTree
import Verif.Proofs.Encode
import Verif.Proofs.ChainTrip

/-!
# Decoding inverts encoding
-/

namespace Lumberjack

theorem rsplitOnce_none {c : Char} {l : Str} (h : c ∉ l) : rsplitOnce c l = none := by
  induction l with
  | nil => rfl
  | cons x xs ih =>
    rw [rsplitOnce, ih (fun hc => h (by simp [hc]))]
    simp only
    rw [if_neg (fun hx => h (by simp [hx]))]

theorem rsplitOnce_last {c : Char} {l : Str} (h : c ∉ l) : ∀ a : Str, rsplitOnce c (a ++ c :: l) = some (a, l) := by
  intro a
  induction a with
  | nil => rw [List.nil_append, rsplitOnce, rsplitOnce_none h]; simp
  | cons x xs ih => rw [List.cons_append, rsplitOnce, ih]

theorem insertEntry_present {k : Str} {v : Option Str} {l : List (Str × Option Str)}
    (hs : l.Pairwise (fun a b => a.1 < b.1)) (h : Features.lookupEntry k l = some v) : Features.insertEntry k v l = l := by
  induction l with
  | nil => simp [Features.lookupEntry] at h
  | cons e l ih =>
    obtain ⟨k', v'⟩ := e
    rw [Features.lookupEntry] at h
    rw [List.pairwise_cons] at hs
    by_cases hk : k = k'
    · subst hk
      simp at h
      subst h
      simp [Features.insertEntry]
    · rw [if_neg hk] at h
      have hlt : k' < k := by
        by_contra hcon
        have hnone : Features.lookupEntry k l = none := by
          refine Features.lookup_eq_none (fun e he hek => ?_)
          have := hs.1 e he
          rw [hek] at this
          exact hcon this
        rw [hnone] at h; simp at h
      rw [Features.insertEntry, if_neg hk, if_neg (not_lt_of_gt hlt), ih hs.2 h]

namespace Forest

theorem Seq.leaf_span {f : Forest} : ∀ {k i : Nat} {x : Terminal}, f.Seq k → f.leaves[i]? = some x →
    x.span = Span.ofIdx (k + i) := by
  induction f with
  | nil => intro k i x _ h; simp [leaves] at h
  | leaf e y r ih =>
    intro k i x hs h
    cases i with
    | zero => simp [leaves] at h; subst h; exact hs.1
    | succ i => simp [leaves] at h; rw [ih hs.2 h]; congr 1; omega
  | node e y ks r ihk ih =>
    intro k i x hs h
    simp only [leaves, List.getElem?_append] at h
    split at h
    · exact ihk hs.2.2.1 h
    · rename_i hlt
      rw [ih hs.2.2.2 h]; congr 1; omega

theorem all_mem {P : Node → Prop} {f : Forest} (h : ∀ x ∈ f.leaves, P (.term x)) (h2 : ∀ x, P (.nt x)) : f.All P := by
  induction f with
  | nil => trivial
  | leaf e y r ih => exact ⟨h y (by simp [leaves]), ih (fun x hx => h x (by simp [leaves, hx]))⟩
  | node e y ks r ihk ih =>
    exact ⟨h2 y, ihk (fun x hx => h x (by simp [leaves, hx])), ih (fun x hx => h x (by simp [leaves, hx]))⟩

theorem leaves_redecode {f : Forest} (h : ∀ x ∈ f.leaves, (x.features.getD Features.empty).Sorted) :
    f.redecode.leaves = f.leaves := by
  induction f with
  | nil => rfl
  | leaf e x r ih =>
    simp only [redecode, leaves]
    rw [ih (fun y hy => h y (by simp [leaves, hy]))]
    congr 1
    have hs := h x (by simp [leaves])
    unfold Decoding.chained Terminal.chain
    cases hv : (x.features.getD Features.empty).getVal chainKey with
    | none => rfl
    | some v =>
      cases v with
      | none => rfl
      | some c =>
        simp only
        cases hf : x.features with
        | none => rw [hf] at hv; simp [Features.getVal, Features.empty, Features.lookupEntry] at hv
        | some fs =>
          rw [hf] at hv hs
          simp only [Option.getD_some] at hv hs ⊢
          unfold Features.insert
          simp only
          rw [insertEntry_present hs hv]
          obtain ⟨_, _, _, _, _⟩ := x
          simp only at hf
          subst hf
          rfl
  | node e x k r ihk ih =>
    simp only [redecode, leaves]
    rw [ih (fun y hy => h y (by simp [leaves, hy])), ihk (fun y hy => h y (by simp [leaves, hy]))]

end Forest

namespace Tree

variable {t : Tree}

theorem Rep.leaf_mem (S : t.Shape) {f : Forest} (h : t.Is f) {n : Nat} {x : Terminal}
    (hn : t.graph.node? n = some (.term x)) : x ∈ f.leaves := by
  have := h.all_conv S (P := fun nd => ∀ x, nd = .term x → x ∈ f.leaves)
    (Forest.all_mem (fun x hx y hy => by cases hy; exact hx) (fun x y hy => by cases hy)) hn
  exact this x rfl

theorem mem_leaf {f : Forest} : ∀ {ids : List Nat}, t.Rep ids f → ∀ x ∈ f.leaves, ∃ n, t.graph.node? n = some (.term x) := by
  induction f with
  | nil => intro ids _ x hx; simp [Forest.leaves] at hx
  | leaf e y r ih =>
    rintro ids ⟨n, ns, rfl, h4, h5, h6⟩ x hx
    rcases List.mem_cons.1 hx with rfl | hx
    · exact ⟨n, h4⟩
    · exact ih h6 x hx
  | node e y k r ihk ih =>
    rintro ids ⟨n, ns, ks, rfl, h4, h5, h6, h7, h8⟩ x hx
    rcases List.mem_append.1 hx with hx | hx
    · exact ihk h7 x hx
    · exact ih h8 x hx

theorem terminals_leaves (W : t.WF) (hp : t.isProjective = true) {f : Forest} (h : t.Is f) : t.Terminals f.leaves := by
  obtain ⟨hs, hl⟩ := W.is_seq hp h
  refine ⟨hl, fun n x i hx hi => ?_⟩
  obtain ⟨j, hj⟩ := List.mem_iff_getElem?.1 (Rep.leaf_mem W.shape h hx)
  have := hs.leaf_span hj
  obtain ⟨y, hy, hyi⟩ := hi
  rw [hx] at hy
  simp only [Option.some.injEq, Node.term.injEq] at hy
  subst hy
  rw [this] at hyi
  have : 0 + j = i := congrArg Span.start hyi
  rw [← this, Nat.zero_add]; exact hj

theorem Terminals.unique (W : t.WF) {ts ts' : List Terminal} (h : t.Terminals ts) (h' : t.Terminals ts') : ts = ts' := by
  refine List.ext_getElem? (fun i => ?_)
  by_cases hi : i < t.nTerminals
  · obtain ⟨n, hn⟩ := W.sentence.occupied i hi
    obtain ⟨x, hx⟩ := hn.isTerm
    rw [h.2 n x i hx hn, h'.2 n x i hx hn]
  · rw [List.getElem?_eq_none (by rw [h.1]; omega), List.getElem?_eq_none (by rw [h'.1]; omega)]

theorem inLabel_plain (S : t.Shape) (he : ∀ r ∈ t.graph.edges, r.w.isPrimary = true → r.w.label = none) (n : Nat) :
    t.inLabel n = none := by
  unfold inLabel
  by_cases h : ∃ p, t.IsChild p n
  · obtain ⟨p, r, hr, h1, h2, h3⟩ := h
    rw [← h2, S.edgeLabel_of_edge hr h3]
    exact he r hr h3
  · rw [edgeLabel_none (fun p hp => h ⟨p, hp⟩)]; rfl

theorem relabel_full {x : NonTerminal} (hl : '_' ∉ x.label)
    (hf : x.features.getD Features.empty = Features.empty ∨
      ∃ c, x.features.getD Features.empty = ⟨[(Forest.chainKey, some c)]⟩) :
    (Decoding.relabel x.fullLabel Decoding.fresh).label = x.label ∧
    (Decoding.relabel x.fullLabel Decoding.fresh).features.getD Features.empty = x.features.getD Features.empty := by
  rcases hf with hf | ⟨c, hf⟩
  · have : x.fullLabel = x.label := by
      unfold NonTerminal.fullLabel; rw [hf]; rfl
    rw [this, Decoding.relabel, rsplitOnce_none hl, hf]
    exact ⟨rfl, rfl⟩
  · have : x.fullLabel = c ++ '_' :: x.label := by
      unfold NonTerminal.fullLabel; rw [hf]; simp [Features.getVal, Features.lookupEntry]
    rw [this, Decoding.relabel, rsplitOnce_last hl, hf]
    exact ⟨rfl, rfl⟩

theorem Encodable.norm (S : t.Shape) (H : t.Encodable) {f : Forest} : ∀ {k : Nat} {ids : List Nat}, t.Rep ids f →
    f.Seq k → (f.redecode.respan k).norm = f.norm := by
  induction f with
  | nil => intro k ids _ _; rfl
  | leaf e x r ih =>
    rintro k ids ⟨n, ns, rfl, h4, h5, h6⟩ hs
    have h1 : (Forest.leaf none x .nil).redecode.leaves = [x] :=
      Forest.leaves_redecode (f := .leaf none x .nil) (by simp [Forest.leaves]; exact H.sorted n x h4)
    simp only [Forest.redecode, Forest.leaves, List.cons.injEq, and_true] at h1
    simp only [Forest.redecode, Forest.respan, Forest.norm, h1]
    rw [ih h6 hs.2, ← h5, inLabel_plain S H.edges]
  | node e x ks r ihk ih =>
    rintro k ids ⟨n, ns, is, rfl, h4, h5, h6, h7, h8⟩ hs
    have hl : ks.redecode.leaves.length = ks.leaves.length := by
      rw [Forest.leaves_redecode (fun x hx => by obtain ⟨m, hm⟩ := mem_leaf h7 x hx; exact H.sorted m x hm)]
    obtain ⟨q1, q2⟩ := relabel_full (H.label n x h4) (H.features n x h4)
    simp only [Forest.redecode, Forest.respan, Forest.norm, q1, q2, hl]
    rw [ih h8 hs.2.2.2, ihk h7 hs.2.2.1, ← h5, inLabel_plain S H.edges, ← hs.2.1]

theorem encoding_positive {f : Forest} : ∀ {d : Nat} {lab : Str} {after : Option AbsAncestor}, (1 ≤ d ∨ f.width ≤ 1) →
    (∀ a, after = some a → 1 ≤ a.common) → ∀ p ∈ f.encoding d lab after, ∀ a, p.1 = some a → 1 ≤ a.common := by
  induction f with
  | nil => intro d lab after _ _ p hp; simp [Forest.encoding] at hp
  | leaf e x r ih =>
    intro d lab after hd ha p hp a hpa
    have hor : r = .nil ∨ 1 ≤ d := by
      rcases hd with h | h
      · exact .inr h
      · left; cases r <;> simp [Forest.width] at h ⊢
    rcases List.mem_cons.1 hp with rfl | hp
    · simp only at hpa
      rcases hor with h | h
      · rw [if_pos h] at hpa; exact ha a hpa
      · split at hpa
        · exact ha a hpa
        · injection hpa with hpa; subst hpa; exact h
    · rcases hor with h | h
      · subst h; simp [Forest.encoding] at hp
      · exact ih (.inl h) ha p hp a hpa
  | node e x ks r ihk ih =>
    intro d lab after hd ha p hp a hpa
    have hor : r = .nil ∨ 1 ≤ d := by
      rcases hd with h | h
      · exact .inr h
      · left; cases r <;> simp [Forest.width] at h ⊢
    rcases List.mem_append.1 hp with hp | hp
    · refine ihk (.inl (by omega)) ?_ p hp a hpa
      intro b hb
      rcases hor with h | h
      · rw [if_pos h] at hb; exact ha b hb
      · split at hb
        · exact ha b hb
        · injection hb with hb; subst hb; exact h
    · rcases hor with h | h
      · subst h; simp [Forest.encoding] at hp
      · exact ih (.inl h) ha p hp a hpa

theorem decode_encode (W : t.WF) (hp : t.isProjective = true) (H : t.Encodable) {f : Forest} (hf : t.Is f) :
    ∃ t', decode (f.encoding 0 [] none) f.leaves = .ok t' ∧ t'.WF ∧ t'.isProjective = true ∧
      t'.Is (f.redecode.respan 0) ∧ (f.redecode.respan 0).norm = f.norm := by
  obtain ⟨hs, hl⟩ := W.is_seq hp hf
  have hw : f.width = 1 := by rw [Rep.width hf]; rfl
  have hne : f ≠ .nil := by rintro rfl; simp [Forest.width] at hw
  have hpos := hs.leaves_pos hne
  obtain ⟨t', h1, h2, h3, h4⟩ := Decoding.decode_spec (e := f.encoding 0 [] none) (ts := f.leaves)
    Forest.length_encoding (List.length_pos_iff.1 hpos)
    (encoding_positive (.inr (by omega)) (by simp)) (by
      refine List.ext_getElem? (fun i => ?_)
      rw [List.getElem?_map, List.getElem?_map]
      cases hx : f.leaves[i]? with
      | none =>
        rw [List.getElem?_eq_none_iff] at hx
        rw [List.getElem?_eq_none (by simpa using hx)]; rfl
      | some x =>
        have hi := (List.getElem?_eq_some_iff.1 hx).1
        rw [List.getElem?_range hi]
        simp [hs.leaf_span hx])
  rw [Decoding.forest_encoding hw hs.full (Rep.noUnary H.unary hf)] at h4
  exact ⟨t', h1, h2, h3, h4, H.norm W.shape hf hs⟩

end Tree
end Lumberjack
