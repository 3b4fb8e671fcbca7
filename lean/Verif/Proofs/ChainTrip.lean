import Verif.Proofs.Restore
import Verif.Proofs.Equality

/-!
# Restoring after collapsing
-/

namespace Lumberjack

namespace Tree

/-! ## Splitting -/

theorem stripPrefix_append (d s : Str) : stripPrefix d (d ++ s) = some s := by
  induction d with
  | nil => rfl
  | cons c d ih => simp [stripPrefix, ih]

theorem splitStrAux_label {d : Str} (hd : d ≠ []) {l : Str} (hl : ∀ c ∈ d, c ∉ l) : ∀ (fuel : Nat) (acc rest : Str),
    splitStrAux d (l.length + fuel) acc (l ++ rest) = splitStrAux d fuel (l.reverse ++ acc) rest := by
  induction l with
  | nil => intro fuel acc rest; simp
  | cons x l ih =>
    intro fuel acc rest
    obtain ⟨p, ps, rfl⟩ := List.exists_cons_of_ne_nil hd
    have hx : p ≠ x := fun h => hl p (by simp) (by simp [h])
    rw [List.length_cons, show l.length + 1 + fuel = l.length + fuel + 1 by omega, List.cons_append, splitStrAux,
      stripPrefix, if_neg hx]
    simp only
    rw [ih (fun c hc h => hl c hc (by simp [h]))]
    simp

theorem splitStrAux_end (d : Str) (fuel : Nat) (acc : Str) : splitStrAux d fuel acc [] = [acc.reverse] := by
  cases fuel <;> rfl

theorem splitStrAux_join {d : Str} (hd : d ≠ []) {ls : List Str} (hls : ls ≠ []) (h : ∀ l ∈ ls, ∀ c ∈ d, c ∉ l) :
    ∀ fuel, (join d ls).length < fuel → splitStrAux d fuel [] (join d ls) = ls := by
  induction ls with
  | nil => exact absurd rfl hls
  | cons l ls ih =>
    intro fuel hfuel
    cases ls with
    | nil =>
      simp only [join] at hfuel ⊢
      obtain ⟨k, rfl⟩ := Nat.exists_eq_add_of_le hfuel.le
      have := splitStrAux_label hd (h l (by simp)) k [] []
      rw [List.append_nil] at this
      rw [this, splitStrAux_end]; simp
    | cons l' ls =>
      rw [join] at hfuel ⊢
      simp only [List.length_append] at hfuel
      obtain ⟨k, rfl⟩ := Nat.exists_eq_add_of_le (show l.length ≤ fuel by omega)
      rw [List.append_assoc, splitStrAux_label hd (h l (by simp))]
      obtain ⟨k, rfl⟩ := Nat.exists_eq_add_of_le (show 1 ≤ k by have := List.length_pos_iff.2 hd; omega)
      have hne : d ++ join d (l' :: ls) = d.head hd :: (d.tail ++ join d (l' :: ls)) := by
        rw [← List.cons_append, List.cons_head_tail]
      rw [Nat.add_comm 1 k, hne, splitStrAux, ← hne, stripPrefix_append]
      simp only [List.append_nil, List.reverse_reverse]
      rw [ih (by simp) (fun l hl => h l (by simp [hl])) k (by have := List.length_pos_iff.2 hd; omega)]

theorem splitStr_join {d : Str} (hd : d ≠ []) {ls : List Str} (hls : ls ≠ []) (h : ∀ l ∈ ls, ∀ c ∈ d, c ∉ l) :
    splitStr d (join d ls) = ls := by
  unfold splitStr
  rw [if_neg hd]
  exact splitStrAux_join hd hls h _ (Nat.lt_succ_self _)

end Tree

theorem join_snoc (d : Str) {ls : List Str} (hls : ls ≠ []) (l : Str) : join d (ls ++ [l]) = join d ls ++ d ++ l := by
  induction ls with
  | nil => exact absurd rfl hls
  | cons a ls ih =>
    cases ls with
    | nil => simp [join]
    | cons b ls =>
      have := ih (by simp)
      simp only [List.cons_append] at this ⊢
      rw [join, this, join]
      simp

theorem Features.remove_insert {k : Str} {v : Option Str} {l : List (Str × Option Str)}
    (hs : l.Pairwise (fun a b => a.1 < b.1)) : removeEntry k (insertEntry k v l) = removeEntry k l := by
  induction l with
  | nil => simp [insertEntry, removeEntry]
  | cons e l ih =>
    rw [List.pairwise_cons] at hs
    simp only [insertEntry]
    split
    · rename_i h; simp [removeEntry, h]
    · rename_i h
      split
      · rename_i hlt
        have : lookupEntry k (e :: l) = none := by
          have hl : ∀ m : List (Str × Option Str), (∀ b ∈ m, k < b.1) → lookupEntry k m = none := by
            intro m
            induction m with
            | nil => intro _; rfl
            | cons b m ih =>
              intro hb
              have := hb b (by simp)
              simp only [lookupEntry]
              rw [if_neg (fun h => absurd (h ▸ this) (lt_irrefl _)), ih (fun c hc => hb c (by simp [hc]))]
          refine hl _ ?_
          intro b hb
          rcases List.mem_cons.1 hb with rfl | hb
          · exact hlt
          · exact lt_trans hlt (hs.1 b hb)
        have h2 := Forest.remove_absent this
        rw [removeEntry, if_pos rfl]
        exact h2.symm
      · simp only [removeEntry]
        rw [if_neg h, if_neg h, ih hs.2]

namespace Forest

/-! ## The chain feature -/

/-- The feature set is sorted and its chain, if any, is a list of labels without delimiter. -/
def ChainOk (d : Str) (fs : Option Features) : Prop :=
  (fs.getD Features.empty).Sorted ∧ (ChainFree fs ∨ ∃ ls, ls ≠ [] ∧ (∀ l ∈ ls, ∀ c ∈ d, c ∉ l) ∧
    (fs.getD Features.empty).getVal chainKey = some (some (join d ls)))

theorem ChainOk.chainOf {d : Str} (hd : d ≠ []) {fs : Option Features} (h : ChainOk d fs) {l : Str}
    (hl : ∀ c ∈ d, c ∉ l) : ChainOk d (addChain d l fs) ∧
      Forest.chainOf d (addChain d l fs) = Forest.chainOf d fs ++ [l] ∧
      some ((Forest.unchain (addChain d l fs)).getD Features.empty) = some ((Forest.unchain fs).getD Features.empty) := by
  obtain ⟨hs, h⟩ := h
  have hu : some ((Forest.unchain (addChain d l fs)).getD Features.empty) = some ((Forest.unchain fs).getD Features.empty) := by
    have : Features.remove ((addChain d l fs).getD Features.empty) chainKey =
        ⟨⟨Features.removeEntry chainKey (fs.getD Features.empty).entries⟩,
          ((addChain d l fs).getD Features.empty).getVal chainKey⟩ := by
      simp only [addChain, Option.getD_some, Features.insert, Features.remove, Features.remove_insert hs]
      rfl
    have h2 : (Forest.unchain (addChain d l fs)) =
      some (Features.remove ((addChain d l fs).getD Features.empty) chainKey).1 := rfl
    rw [h2, this]
    cases fs <;> rfl
  have hso : ((addChain d l fs).getD Features.empty).Sorted := Features.insert_sorted hs
  have key : ∀ ls, ls ≠ [] → (∀ l ∈ ls, ∀ c ∈ d, c ∉ l) →
      ((addChain d l fs).getD Features.empty).getVal chainKey = some (some (join d ls)) →
      ChainOk d (addChain d l fs) ∧ Forest.chainOf d (addChain d l fs) = ls := by
    intro ls h1 h2 h3
    refine ⟨⟨hso, .inr ⟨ls, h1, h2, h3⟩⟩, ?_⟩
    unfold Forest.chainOf
    rw [h3]
    exact Tree.splitStr_join hd h1 h2
  have hget : ∀ v, (match (fs.getD Features.empty).getVal chainKey with
      | some (some chain) => chain ++ d ++ l
      | _ => l) = v → ((addChain d l fs).getD Features.empty).getVal chainKey = some (some v) := by
    rintro v rfl
    have := Features.lookup_insert chainKey chainKey (some (match (fs.getD Features.empty).getVal chainKey with
      | some (some chain) => chain ++ d ++ l
      | _ => l)) (fs.getD Features.empty).entries
    rw [if_pos rfl] at this
    exact this
  rcases h with h | ⟨ls, h1, h2, h3⟩
  · obtain ⟨k1, k2⟩ := key [l] (by simp) (by simpa using hl) (by
      refine hget _ ?_
      unfold ChainFree at h
      rw [h]; rfl)
    exact ⟨k1, by rw [k2, h.chainOf]; rfl, hu⟩
  · obtain ⟨k1, k2⟩ := key (ls ++ [l]) (by simp) (by
        intro a ha
        rcases List.mem_append.1 ha with ha | ha
        · exact h2 a ha
        · simp only [List.mem_singleton] at ha; subst ha; exact hl) (by
      refine hget _ ?_
      rw [h3, join_snoc d h1])
    refine ⟨k1, ?_, hu⟩
    rw [k2]
    congr 1
    unfold Forest.chainOf
    rw [h3]
    exact (Tree.splitStr_join hd h1 h2).symm

/-! ## Forests that survive collapsing -/

/-- The edge label of a forest with a single tree. -/
def topEdge : Forest → Option Str
  | nil => none
  | leaf e _ _ => e
  | node e _ _ _ => e

/-- The span of the first tree. -/
def topSpan : Forest → Option Span
  | nil => none
  | leaf _ x _ => some x.span
  | node _ x _ _ => some x.span

/-- `Collapsible` for forests. -/
def Coll (d : Str) : Forest → Prop
  | nil => True
  | leaf _ x r => (x.features.getD Features.empty).Sorted ∧ ChainFree x.features ∧ r.Coll d
  | node e x k r => (x.features.getD Features.empty).Sorted ∧ ChainFree x.features ∧
      (k.width = 1 → (∀ c ∈ d, c ∉ x.label) ∧ x.features.getD Features.empty = Features.empty ∧
        e = none ∧ k.topEdge = none) ∧ k.Coll d ∧ r.Coll d

theorem width_one {f : Forest} (h : f.width = 1) : (∃ e x, f = leaf e x nil) ∨ ∃ e x k, f = node e x k nil := by
  cases f with
  | nil => simp [width] at h
  | leaf e x r => cases r <;> simp [width] at h ⊢
  | node e x k r => cases r <;> simp [width] at h ⊢

theorem Good.topSpan {e : Option Str} {x : NonTerminal} {k r : Forest} (h : (node e x k r).Good) (hw : k.width = 1) :
    k.topSpan = some x.span := by
  obtain ⟨_, hv, hc, _, hk, _⟩ := h
  rcases width_one hw with ⟨e, y, rfl⟩ | ⟨e, y, k', rfl⟩
  · refine congrArg some (Span.Valid.ext ?_ hv ?_)
    · rw [hk.1]; exact Span.ofIdx_valid _
    · ext i
      rw [← Span.contains_iff (s := x.span), hc i, hk.1, Span.ofIdx_indices]
      simp [cov]
  · refine congrArg some (Span.Valid.ext hk.2.1 hv ?_)
    ext i
    rw [← Span.contains_iff, ← Span.contains_iff, hc i, hk.2.2.1 i]
    simp [cov]

theorem topEdge_collapse {d : Str} {f : Forest} (hw : f.width = 1) (h : f.topEdge = none) : (f.collapse d).topEdge = none := by
  rcases width_one hw with ⟨e, y, rfl⟩ | ⟨e, y, k', rfl⟩
  · exact h
  · rw [collapse]
    split
    · rfl
    · rfl
    · exact h

theorem topSpan_collapse {d : Str} {f : Forest} (hg : f.Good) (hw : f.width = 1) : (f.collapse d).topSpan = f.topSpan := by
  induction f with
  | nil => simp [width] at hw
  | leaf e x r => rfl
  | node e x k r ihk _ =>
    by_cases hk : k.width = 1
    · have h1 := hg.topSpan hk
      have h2 := ihk hg.2.2.2.2.1 hk
      rw [h1] at h2
      have hwc : (k.collapse d).width = 1 := by rw [width_collapse, hk]
      rw [collapse]
      rcases width_one hwc with ⟨e', y, he⟩ | ⟨e', y, k', he⟩
      · rw [he] at h2 ⊢; exact h2
      · rw [he] at h2 ⊢; exact h2
    · rw [collapse_node_many _ _ _ _ _ hk]; rfl

theorem restore_collapse {d : Str} (hd : d ≠ []) {f : Forest} (hg : f.Good) (hc : f.Coll d) :
    ((f.collapse d).restore d).norm = f.norm ∧ (f.collapse d).AllFeats (ChainOk d) := by
  induction f with
  | nil => exact ⟨rfl, trivial⟩
  | leaf e x r ih =>
    obtain ⟨h1, h2, h3⟩ := hc
    obtain ⟨i1, i2⟩ := ih hg.2.2 h3
    refine ⟨?_, ⟨h1, .inl h2⟩, i2⟩
    rw [collapse, restore, h2.chainOf, h2.unchain, norm_append, i1]
    rfl
  | node e x k r ihk ih =>
    obtain ⟨h1, h2, h3, h4, h5⟩ := hc
    obtain ⟨i1, i2⟩ := ih hg.2.2.2.2.2 h5
    obtain ⟨j1, j2⟩ := ihk hg.2.2.2.2.1 h4
    by_cases hk : k.width = 1
    · obtain ⟨u1, u2, u3, u4⟩ := h3 hk
      subst u3
      have hwc : (k.collapse d).width = 1 := by rw [width_collapse, hk]
      have hsp := topSpan_collapse (d := d) hg.2.2.2.2.1 hk
      rw [hg.topSpan hk] at hsp
      have htop := topEdge_collapse (d := d) hk u4
      have hx : ({ NonTerminal.new x.label x.span with features := some ((NonTerminal.new x.label x.span).features.getD Features.empty) } : NonTerminal)
          = { x with features := some (x.features.getD Features.empty) } := by
        rw [u2]; rfl
      rw [collapse]
      rcases width_one hwc with ⟨e', y, he⟩ | ⟨e', y, k', he⟩
      · rw [he] at hsp htop j1 j2 ⊢
        simp only [topEdge] at htop
        subst htop
        simp only [topSpan, Option.some.injEq] at hsp
        obtain ⟨c1, c2, c3⟩ := ChainOk.chainOf hd (show ChainOk d y.features from j2.1) u1
        refine ⟨?_, c1, i2⟩
        simp only [restore, append_nil] at j1 ⊢
        rw [c2, wrap_append_labels, norm_append, i1]
        simp only [append, norm, hsp, hx]
        congr 1
        rw [← j1, ← hsp]
        exact norm_wrap _ _ _ _ (by simp only [norm, c3])
      · rw [he] at hsp htop j1 j2 ⊢
        simp only [topEdge] at htop
        subst htop
        simp only [topSpan, Option.some.injEq] at hsp
        obtain ⟨c1, c2, c3⟩ := ChainOk.chainOf hd (show ChainOk d y.features from j2.1) u1
        refine ⟨?_, c1, j2.2.1, i2⟩
        simp only [restore, append_nil] at j1 ⊢
        rw [c2, wrap_append_labels, norm_append, i1]
        simp only [append, norm, hsp, hx]
        congr 1
        rw [← j1, ← hsp]
        exact norm_wrap _ _ _ _ (by simp only [norm, c3])
    · rw [collapse_node_many _ _ _ _ _ hk]
      refine ⟨?_, ⟨h1, .inl h2⟩, j2, i2⟩
      rw [restore, h2.chainOf, h2.unchain, norm_append, i1]
      simp only [wrap, norm, j1, append]

theorem same_of_norm {f g : Forest} (h : f.norm = g.norm) : Same f g := by
  induction f generalizing g with
  | nil => cases g <;> simp [norm] at h ⊢; trivial
  | leaf e x r ih =>
    cases g with
    | leaf e' x' r' =>
      simp only [norm, leaf.injEq, Terminal.mk.injEq, Option.some.injEq] at h
      obtain ⟨h1, ⟨_, h3, h4, h5, h6⟩, h7⟩ := h
      exact ⟨h1, h3, h6, h4, h5, ih h7⟩
    | _ => simp [norm] at h
  | node e x k r ihk ih =>
    cases g with
    | node e' x' k' r' =>
      simp only [norm, node.injEq, NonTerminal.mk.injEq, Option.some.injEq] at h
      obtain ⟨h1, ⟨h3, h4, h5⟩, h6, h7⟩ := h
      exact ⟨h1, h3, h5, h4, ihk h6, ih h7⟩
    | _ => simp [norm] at h

/-- The spans of a forest only depend on its normal form. -/
theorem All.of_norm {P : Span → Prop} {f g : Forest} (h : f.norm = g.norm) (hf : f.All (fun nd => P nd.span)) :
    g.All (fun nd => P nd.span) := by
  induction f generalizing g with
  | nil => cases g <;> simp [norm] at h ⊢; trivial
  | leaf e x r ih =>
    cases g with
    | leaf e' x' r' =>
      simp only [norm, leaf.injEq, Terminal.mk.injEq, Option.some.injEq] at h
      obtain ⟨h1, ⟨_, h3, h4, h5, h6⟩, h7⟩ := h
      refine ⟨?_, ih h7 hf.2⟩
      have := hf.1
      simp only [Node.span] at this ⊢
      rwa [← h6]
    | _ => simp [norm] at h
  | node e x k r ihk ih =>
    cases g with
    | node e' x' k' r' =>
      simp only [norm, node.injEq, NonTerminal.mk.injEq, Option.some.injEq] at h
      obtain ⟨h1, ⟨h3, h4, h5⟩, h6, h7⟩ := h
      refine ⟨?_, ihk h6 hf.2.1, ih h7 hf.2.2⟩
      have := hf.1
      simp only [Node.span] at this ⊢
      rwa [← h5]
    | _ => simp [norm] at h

end Forest

namespace Tree

variable {t : Tree}

theorem Rep.topEdge {ids : List Nat} {f : Forest} (h : t.Rep ids f) {c : Nat} (hc : ids = [c]) : f.topEdge = t.inLabel c := by
  subst hc
  cases f with
  | nil => simp [Rep] at h
  | leaf e x r =>
    obtain ⟨n, ns, h1, h4, h5, h6⟩ := h
    simp only [List.cons.injEq] at h1
    rw [h1.1, h5]; rfl
  | node e x k r =>
    obtain ⟨n, ns, ks, h1, h4, h5, h6⟩ := h
    simp only [List.cons.injEq] at h1
    rw [h1.1, h5]; rfl

theorem Collapsible.coll {d : Str} (H : t.Collapsible d) {f : Forest} : ∀ {ids : List Nat}, t.Rep ids f → f.Coll d := by
  induction f with
  | nil => intro ids _; trivial
  | leaf e x r ih =>
    rintro ids ⟨n, ns, rfl, h4, h5, h6⟩
    exact ⟨H.sorted n _ h4, H.free n _ h4, ih h6⟩
  | node e x k r ihk ih =>
    rintro ids ⟨n, ns, ks, rfl, h4, h5, h6, h7, h8⟩
    refine ⟨H.sorted n _ h4, H.free n _ h4, ?_, ihk h7, ih h8⟩
    intro hw
    rw [h7.width] at hw
    obtain ⟨c, rfl⟩ := List.length_eq_one_iff.1 hw
    have ho : t.OnlyChild n c := ⟨(h6.1 c).1 (by simp), fun c' hc' => by simpa using (h6.1 c').2 hc'⟩
    refine ⟨H.label n c x ho h4, H.features n c x ho h4, ?_, ?_⟩
    · rw [← h5]; exact (H.edges n c ho).1
    · rw [h7.topEdge rfl]; exact (H.edges n c ho).2

/-- The counter of discontinuous nodes is not part of what a tree stands for ... -/
theorem rep_numDisc (t : Tree) (k : Nat) {f : Forest} : ∀ {ids : List Nat},
    ({ t with numDisc := k } : Tree).Rep ids f ↔ t.Rep ids f := by
  induction f with
  | nil => intro ids; exact Iff.rfl
  | leaf e x r ih => intro ids; simp only [Rep]; simp only [ih]; exact Iff.rfl
  | node e x k r ihk ih => intro ids; simp only [Rep]; simp only [ih, ihk]; exact Iff.rfl

/-- ... and equality does not look at it. -/
theorem eq_numDisc (t1 t : Tree) (k : Nat) : t1.eq { t with numDisc := k } = t1.eq t := by
  have key : ∀ fuel i j, subtreeEq t1 { t with numDisc := k } fuel i j = subtreeEq t1 t fuel i j := by
    intro fuel
    induction fuel with
    | zero => intro i j; rfl
    | succ fuel ih =>
      intro i j
      simp only [subtreeEq]
      have : ∀ i j, subtreeEq t1 { t with numDisc := k } fuel i j = subtreeEq t1 t fuel i j := ih
      simp only [this]
      rfl
  unfold eq
  simp only [key]

theorem roundtrip (W : t.WF) {d : Str} (H : t.Collapsible d) :
    ∃ t1 t2, t.collapseUnaryChains d = .ok t1 ∧ t1.restoreUnaryChains d = .ok (t2, .ok ()) ∧
      t2.Core ∧ t.eq t2 = .ok true ∧ (t.isProjective = true → t2.WF) ∧
      ∃ f f2, t.Is f ∧ t2.Is f2 ∧ f2.norm = f.norm := by
  obtain ⟨f, hf⟩ := W.is_exists
  obtain ⟨t1, h1, I, hno⟩ := collapseUnaryChains_spec W d hf
  obtain ⟨f1, hf1, hc⟩ := I.is
  have hf1' : f1 = f.collapse d := by
    have hnu : f1.NoUnary := Rep.noUnary hno hf1
    rw [← hc, hnu.collapse]
  subst hf1'
  have hg := (W.is_good hf).1
  obtain ⟨r1, r2⟩ := Forest.restore_collapse H.delim_ne hg (H.coll hf)
  have hall : ∀ n nd, t1.graph.node? n = some nd → Forest.ChainOk d nd.features :=
    fun n nd hn => hf1.all_conv I.wf.shape r2 hn
  obtain ⟨t2, h2, C2, g1, g2, g3, f2, hf2, hn2⟩ := restoreUnaryChains_spec I.wf.core d hf1
    (fun n nd hn => (hall n nd hn).1) (by
      intro n nd hn
      rcases (hall n nd hn).2 with h | ⟨ls, _, _, h⟩
      · unfold Forest.ChainFree at h; rw [h]; simp
      · rw [h]; simp)
  have hnorm : f2.norm = f.norm := hn2.trans r1
  -- the tree with the right counter
  have heq : t.eq t2 = .ok true := by
    obtain ⟨k, hk⟩ : ∃ k, ({ t2 with numDisc := k } : Tree).CountOK := ⟨((Finset.range t2.graph.nodes.length).filter t2.Disc).card, rfl⟩
    have W2 : ({ t2 with numDisc := k } : Tree).WF :=
      Core.wf ⟨C2.graph, ⟨C2.shape.1, C2.shape.2, C2.shape.3, C2.shape.4, C2.shape.5, C2.shape.6⟩,
        ⟨C2.sentence.1, C2.sentence.2, C2.sentence.3⟩, C2.spans⟩ hk
    have hi : ({ t2 with numDisc := k } : Tree).Is f2 := (rep_numDisc t2 k).2 hf2
    obtain ⟨b, hb, hb'⟩ := eq_spec W W2 hf hi
    have : b = true := hb'.2 (.inr (Forest.same_of_norm hnorm.symm))
    rw [this, eq_numDisc] at hb
    exact hb
  refine ⟨t1, t2, h1, h2, C2, heq, ?_, f, f2, hf, hf2, hnorm⟩
  intro hp
  rw [isProjective_iff W.count] at hp
  have hP : ∀ n nd, t.graph.node? n = some nd → nd.span.skips = none := by
    intro n nd hn
    cases nd with
    | term x =>
      obtain ⟨i, _, y, hy, hs⟩ := W.sentence.pos n ⟨x, hn⟩
      rw [hn] at hy
      simp only [Option.some.injEq, Node.term.injEq] at hy
      subst hy
      simp only [Node.span, hs]; rfl
    | nt x =>
      have := hp n
      cases hs : x.span.skips with
      | none => exact hs
      | some sk => exact absurd ⟨x, hn, by rw [hs]; rfl⟩ this
  have hspan : f2.All (fun nd => nd.span.skips = none) := Forest.All.of_norm (P := fun s => s.skips = none) hnorm.symm (Rep.all hf hP)
  have hd0 : ∀ (t : Tree), (∀ n nd, t.graph.node? n = some nd → nd.span.skips = none) → ∀ n, ¬ t.Disc n := by
    rintro t h n ⟨x, hx, hs⟩
    have := h n _ hx
    simp only [Node.span] at this
    rw [this] at hs; simp at hs
  have hd1 : t1.isProjective = true := (isProjective_iff I.wf.count).2 (hd0 t1 (by
    intro n nd hn
    obtain ⟨nd0, g, k1, rfl⟩ := I.kept n nd hn
    rw [withFeats_span]; exact hP n nd0 k1))
  have hd2 : ∀ n, ¬ t2.Disc n := hd0 t2 (fun n nd hn => hf2.all_conv C2.shape hspan hn)
  refine C2.wf ?_
  unfold CountOK
  rw [g1, Finset.filter_false_of_mem (fun n _ => hd2 n)]
  simpa [isProjective] using hd1

end Tree
end Lumberjack
