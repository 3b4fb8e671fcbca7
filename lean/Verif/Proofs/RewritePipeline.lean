import Verif.Proofs.RewriteRuns
import Verif.Proofs.Convert
import Verif.Proofs.ConvertRead
import Verif.Proofs.Iso

/-!
# Editing steps as rewriting: words, features and the whole pipeline
-/

namespace Lumberjack
namespace Forest

theorem mapLeaves_id : ∀ f : Forest, f.mapLeaves id = f
  | .nil => rfl
  | .leaf e x r => by simp [mapLeaves, mapLeaves_id r]
  | .node e x k r => by simp [mapLeaves, mapLeaves_id r, mapLeaves_id k]

theorem leaves_mapLeaves (h : Terminal → Terminal) : ∀ f : Forest, (f.mapLeaves h).leaves = f.leaves.map h
  | .nil => rfl
  | .leaf e x r => by simp [mapLeaves, leaves, leaves_mapLeaves h r]
  | .node e x k r => by simp [mapLeaves, leaves, leaves_mapLeaves h r, leaves_mapLeaves h k]

end Forest

namespace Tree

open Lumberjack.Convert

variable {t t' : Tree}

/-- New tags. -/
theorem pos_is {tags : List Str} (h : PosTagged tags t t') {F : Forest} (hF : t.Is F) : t'.Is (F.retagged tags) := by
  obtain ⟨f', h1, h2⟩ := TermEdit.rep h (fun _ _ => rfl) (h := id) (fun _ _ _ => rfl) hF
  rw [Forest.mapLeaves_id] at h2
  unfold Is
  rw [h.root]
  rw [show F.retagged tags = f' from h2.symm]
  exact h1

/-- The closest node with `P` at or above `a` has the label `above`. -/
def AboveIs (t : Tree) (P : NonTerminal → Bool) (above : Option Str) (n : Nat) : Prop :=
  match above with
  | some l => ∃ a x, a ≠ n ∧ t.Dom a n ∧ t.graph.node? a = some (.nt x) ∧ P x = true ∧ x.label = l ∧
      ∀ b y, b ≠ n → t.Dom b n → t.graph.node? b = some (.nt y) → P y = true → t.Dom b a
  | none => ∀ b y, b ≠ n → t.Dom b n → t.graph.node? b = some (.nt y) → P y = false

theorem AboveIs.child (W : t.WF) {P : NonTerminal → Bool} {above : Option Str} {p c : Nat} {x : NonTerminal} (h : t.AboveIs P above p)
    (hx : t.graph.node? p = some (.nt x)) (hc : t.IsChild p c) : t.AboveIs P (if P x then some x.label else above) c := by
  have hne : p ≠ c := fun e => W.shape.acyclic W.graph p (transGen_iff.2 ⟨p, .refl, e ▸ hc⟩)
  have up : ∀ b, b ≠ c → t.Dom b c → t.Dom b p := by
    intro b h1 h2
    rcases h2.cases_parent with e | ⟨q, h3, h4⟩
    · exact absurd e.symm h1
    · rw [W.shape.isChild_unique hc h4]; exact h3
  by_cases hP : P x = true
  · rw [if_pos hP]
    exact ⟨p, x, hne, .single hc, hx, hP, rfl, fun b y h1 h2 _ _ => up b h1 h2⟩
  · rw [if_neg hP]
    have other : ∀ b y, t.graph.node? b = some (.nt y) → P y = true → b ≠ p := by
      rintro b y hb hy rfl
      rw [hx] at hb; simp only [Option.some.injEq, Node.nt.injEq] at hb
      exact hP (hb ▸ hy)
    cases above with
    | some l =>
      obtain ⟨a, y, h1, h2, h3, h4, h5, h6⟩ := h
      refine ⟨a, y, ?_, h2.trans (.single hc), h3, h4, h5, fun b z k1 k2 k3 k4 => h6 b z (other b z k3 k4) (up b k1 k2) k3 k4⟩
      rintro rfl
      exact W.shape.acyclic W.graph a (transGen_iff.2 ⟨p, h2, hc⟩)
    | none =>
      intro b y k1 k2 k3
      by_contra hy
      rw [Bool.not_eq_false] at hy
      have := h b y (other b y k3 hy) (up b k1 k2) k3
      rw [hy] at this; cases this

/-- Labels given to the words below. -/
theorem projected_rep (W : t.WF) {name : Str} {P : NonTerminal → Bool} {val : Nat → Option Str}
    (E : TermEdit t t' (fun n x => match val n with
      | some v => withFeature name v x
      | none => x)) {f : Forest} : ∀ {ids : List Nat} {above : Option Str}, t.Rep ids f → (∀ n ∈ ids, t.AboveIs P above n) →
    (∀ n above, t.IsTerm n → t.AboveIs P above n → val n = above) → t'.Rep ids (f.projected name P above) := by
  have hl : ∀ n, t'.inLabel n = t.inLabel n := fun n => by unfold inLabel edgeLabel; rw [E.edges]
  have hc : ∀ p n, t'.IsChild p n ↔ t.IsChild p n := fun p n => by unfold IsChild Graph.IsChild; rw [E.edges]
  have hst : ∀ n, t'.startOf n = t.startOf n := by
    intro n
    cases hn : t.graph.node? n with
    | none => unfold startOf; rw [hn, E.none n hn]
    | some nd =>
      cases nd with
      | term x => rw [startOf_of_node? hn, startOf_of_node? (E.term n x hn)]; cases val n <;> rfl
      | nt x => rw [startOf_of_node? hn, startOf_of_node? (E.nt n x hn)]
  induction f with
  | nil => intro ids above h _ _; exact h
  | leaf e x r ih =>
    rintro ids above ⟨n, ns, rfl, h4, h5, h6⟩ hA hv
    refine ⟨n, ns, rfl, ?_, by rw [hl, h5], ih h6 (fun m hm => hA m (List.mem_cons_of_mem _ hm)) hv⟩
    rw [E.term n x h4, hv n above ⟨x, h4⟩ (hA n List.mem_cons_self)]
    cases above <;> rfl
  | node e x k r ihk ih =>
    rintro ids above ⟨n, ns, ks, rfl, h4, h5, h6, h7, h8⟩ hA hv
    refine ⟨n, ns, ks, rfl, E.nt n x h4, by rw [hl, h5], ⟨fun c => by rw [h6.1, hc], ?_⟩, ihk h7 ?_ hv,
      ih h8 (fun m hm => hA m (List.mem_cons_of_mem _ hm)) hv⟩
    · refine h6.2.imp fun h => ?_
      rwa [hst, hst]
    · intro c hcm
      exact (hA n List.mem_cons_self).child W h4 ((h6.1 c).1 hcm)

theorem aboveIs_root (W : t.WF) (P : NonTerminal → Bool) : t.AboveIs P none t.root := by
  intro b y h1 h2
  exact absurd (dom_top W.shape h2) h1

/-- Labels given to the words below, for a whole tree. -/
theorem projected_is (W : t.WF) {name : Str} {P : NonTerminal → Bool} {val : Nat → Option Str}
    (E : TermEdit t t' (fun n x => match val n with
      | some v => withFeature name v x
      | none => x)) {F : Forest} (hF : t.Is F) (hv : ∀ n above, t.IsTerm n → t.AboveIs P above n → val n = above) :
    t'.Is (F.projected name P none) := by
  unfold Is
  rw [E.root]
  exact projected_rep W E hF (fun n hn => by rw [List.mem_singleton.1 hn]; exact aboveIs_root W P) hv

/-- The labels of parents. -/
theorem parented_is (W : t.WF) (hroot : t.IsNt t.root) {name : Str} (h : ParentTagged name t t') {F : Forest} (hF : t.Is F) :
    t'.Is (F.parented name) := by
  obtain ⟨val, E, hval⟩ := h
  refine projected_is W (val := fun n => some (val n)) E hF ?_
  intro n above hn hA
  have hr : n ≠ t.root := by
    rintro rfl
    obtain ⟨x, hx⟩ := hn
    obtain ⟨y, hy⟩ := hroot
    rw [hx] at hy; cases hy
  obtain ⟨p, hp⟩ := W.shape.exists_parent hn.live hr
  obtain ⟨y, hy⟩ := W.shape.parent_isNt W.graph hp
  have hne : p ≠ n := fun e => W.shape.acyclic W.graph p (transGen_iff.2 ⟨p, .refl, e ▸ hp⟩)
  cases above with
  | none => have := hA p y hne (.single hp) hy; cases this
  | some l =>
    obtain ⟨a, x, h1, h2, h3, h4, h5, h6⟩ := hA
    have hpa := h6 p y hne (.single hp) hy rfl
    have : t.Dom a p := by
      rcases h2.cases_parent with e | ⟨q, k3, k4⟩
      · exact absurd e.symm h1
      · rw [W.shape.isChild_unique hp k4]; exact k3
    have : a = p := W.shape.dom_antisymm W.graph this hpa
    subst this
    rw [hy] at h3; simp only [Option.some.injEq, Node.nt.injEq] at h3
    rw [hval n a y hn hp hy, h3, h5]

theorem filtered_is {s : LabelSet} (W : t.WF) (hp : t.isProjective = true) (h : Filtered s t t') {F : Forest} (hF : t.Is F) :
    t'.Is (F.filtered fun x => !s.matches x.label) := by
  refine Removed.is_filtered h.2 W h.1 (fun n => ?_) hp hF
  refine and_congr_right fun _ => exists_congr fun x => and_congr_right fun _ => ?_
  rw [Bool.not_eq_true', matches_false]

theorem runs_is {s : LabelSet} {l : Str} (W : t.WF) (hp : t.isProjective = true) (h : RunsInserted s l t t') {F : Forest} (hF : t.Is F) :
    t'.Is (F.grouped (fun x => !s.matches x.label) l) := by
  refine Inserted.is_grouped (Inserted.congr h fun p c => ?_) W hp hF
  refine and_congr_left fun _ => exists_congr fun x => and_congr_right fun _ => ?_
  rw [Bool.not_eq_true', matches_false]

section numbers
variable {q : Tree → Nat → Bool} {P : NonTerminal → Bool} {num : Nat → Nat}

/-- The numbers below `next` are those of the words before `k`. -/
def Used (t : Tree) (num : Nat → Nat) (next k : Nat) : Prop := ∀ j, j < next ↔ ∃ m i, t.TermAt m i ∧ i < k ∧ num m = j

/-- `cur` is the number of the words before `k` with the closest node `a`. -/
def Current (t : Tree) (q : Tree → Nat → Bool) (num : Nat → Nat) (a : Nat) (cur : Option Nat) (k : Nat) : Prop :=
  match cur with
  | some v => ∃ m i, t.TermAt m i ∧ i < k ∧ t.Closest q m a ∧ num m = v
  | none => ∀ m i, t.TermAt m i → i < k → ¬ t.Closest q m a

theorem closest_child (W : t.WF) {p c a : Nat} (h : t.Closest q p a) (hc : t.IsChild p c) :
    if q t p then t.Closest q c p else t.Closest q c a := by
  have hne : p ≠ c := fun e => W.shape.acyclic W.graph p (transGen_iff.2 ⟨p, .refl, e ▸ hc⟩)
  have up : ∀ b, b ≠ c → t.Dom b c → t.Dom b p := by
    intro b h1 h2
    rcases h2.cases_parent with e | ⟨q, h3, h4⟩
    · exact absurd e.symm h1
    · rw [W.shape.isChild_unique hc h4]; exact h3
  split
  · rename_i hi
    exact ⟨⟨hne, .single hc, hi⟩, fun b h1 h2 _ => up b h1 h2⟩
  · rename_i hi
    obtain ⟨⟨h1, h2, h3⟩, h4⟩ := h
    refine ⟨⟨?_, h2.trans (.single hc), h3⟩, fun b k1 k2 k3 => h4 b (fun e => hi (e ▸ k3)) (up b k1 k2) k3⟩
    rintro rfl
    exact W.shape.acyclic W.graph a (transGen_iff.2 ⟨p, h2, hc⟩)

theorem closest_unique (W : t.WF) {n a b : Nat} (h : t.Closest q n a) (h' : t.Closest q n b) : a = b :=
  W.shape.dom_antisymm W.graph (h'.2 a h.1.1 h.1.2.1 h.1.2.2) (h.2 b h'.1.1 h'.1.2.1 h'.1.2.2)

theorem numbers_rep (W : t.WF) (hroot : t.IsNt t.root) (hq0 : q t t.root = true)
    (hP : ∀ n x, n ≠ t.root → t.graph.node? n = some (.nt x) → q t n = P x)
    (hnum : ∀ n m a b, t.IsTerm n → t.IsTerm m → t.Closest q n a → t.Closest q m b → (num n = num m ↔ a = b))
    (hup : CountsUp t num) {f : Forest} : ∀ {ids : List Nat} {k a next : Nat} {cur : Option Nat} {l : List Nat} {cur' : Option Nat} {next' : Nat},
    t.Rep ids f → f.Seq k → (∀ c ∈ ids, t.Closest q c a) → t.Used num next k → t.Current q num a cur k →
    f.numbers P cur next = (l, cur', next') →
    l.length = f.leaves.length ∧ (∀ j m, j < f.leaves.length → t.TermAt m (k + j) → l[j]? = some (num m)) ∧
      t.Used num next' (k + f.leaves.length) ∧ t.Current q num a cur' (k + f.leaves.length) := by
  have hclosest : ∀ m, t.IsTerm m → ∃ a, t.Closest q m a := by
    intro m hm
    refine exists_closest W hm.live ?_ hq0
    rintro rfl
    obtain ⟨x, hx⟩ := hm
    obtain ⟨y, hy⟩ := hroot
    rw [hx] at hy; cases hy
  induction f with
  | nil =>
    intro ids k a next cur l cur' next' _ _ _ hU hC he
    simp only [Forest.numbers, Prod.mk.injEq] at he
    obtain ⟨rfl, rfl, rfl⟩ := he
    exact ⟨rfl, by simp [Forest.leaves], hU, hC⟩
  | leaf e x r ih =>
    rintro ids k a next cur l cur' next' ⟨n, ns, rfl, h4, h5, h6⟩ hq ho hU hC he
    have hn : t.TermAt n k := ⟨x, h4, hq.1⟩
    have hT : t.IsTerm n := ⟨x, h4⟩
    have hcl := ho n List.mem_cons_self
    have ho' : ∀ c ∈ ns, t.Closest q c a := fun c hc => ho c (List.mem_cons_of_mem _ hc)
    have only : ∀ m, t.TermAt m k → m = n := fun m hm => W.sentence.inj m n k hm hn
    have fin : ∀ {v : Nat} {l0 : List Nat}, num n = v → l0.length = r.leaves.length →
        (∀ j m, j < r.leaves.length → t.TermAt m (k + 1 + j) → l0[j]? = some (num m)) →
        (v :: l0).length = (Forest.leaf e x r).leaves.length ∧
        ∀ j m, j < (Forest.leaf e x r).leaves.length → t.TermAt m (k + j) → (v :: l0)[j]? = some (num m) := by
      intro v l0 hv hl hj
      refine ⟨by simp [Forest.leaves, hl], fun j m hlt hm => ?_⟩
      cases j with
      | zero => rw [only m hm]; simp [hv]
      | succ j =>
        rw [List.getElem?_cons_succ]
        refine hj j m ?_ ?_
        · simpa [Forest.leaves] using hlt
        · rwa [show k + 1 + j = k + (j + 1) by omega]
    have hlen : k + 1 + r.leaves.length = k + (Forest.leaf e x r).leaves.length := by simp [Forest.leaves]; omega
    cases cur with
    | some v =>
      simp only [Forest.numbers, Prod.mk.injEq] at he
      obtain ⟨rfl, rfl, rfl⟩ := he
      obtain ⟨m, i, m1, m2, m3, m4⟩ := id hC
      have hv : num n = v := by rw [← m4]; exact (hnum n m a a hT m1.isTerm hcl m3).2 rfl
      obtain ⟨i1, i2, i3, i4⟩ := ih (k := k + 1) (a := a) (next := next) (cur := some v) h6 hq.2 ho' (fun j => by
          rw [hU j]
          constructor
          · rintro ⟨m', i', q1, q2, q3⟩; exact ⟨m', i', q1, by omega, q3⟩
          · rintro ⟨m', i', q1, q2, q3⟩
            by_cases hi : i' < k
            · exact ⟨m', i', q1, hi, q3⟩
            · obtain rfl : i' = k := by omega
              rw [only m' q1, hv] at q3
              exact ⟨m, i, m1, m2, by rw [m4, q3]⟩) ⟨m, i, m1, by omega, m3, m4⟩ rfl
      rw [hlen] at i3 i4
      obtain ⟨f1, f2⟩ := fin hv i1 i2
      exact ⟨f1, f2, i3, i4⟩
    | none =>
      simp only [Forest.numbers, Prod.mk.injEq] at he
      obtain ⟨rfl, rfl, rfl⟩ := he
      have hfirst : ∀ m j, t.TermAt m j → j < k → num m ≠ num n := by
        intro m j hm hj e
        obtain ⟨b, hb⟩ := hclosest m hm.isTerm
        rw [(hnum m n b a hm.isTerm hT hb hcl).1 e] at hb
        exact hC m j hm hj hb
      have hv : num n = next := by
        have hcu := hup n k hn hfirst
        have h1 : ¬ num n < next := by
          intro hlt
          obtain ⟨m, i, q1, q2, q3⟩ := (hU _).1 hlt
          exact hfirst m i q1 q2 q3
        have h2 : ¬ next < num n := by
          intro hlt
          obtain ⟨m, i, q1, q2, q3⟩ := (hcu _).1 hlt
          exact absurd ((hU next).2 ⟨m, i, q1, q2, q3⟩) (Nat.lt_irrefl _)
        omega
      obtain ⟨i1, i2, i3, i4⟩ := ih (k := k + 1) (a := a) (next := next + 1) (cur := some next) h6 hq.2 ho' (fun j => by
          constructor
          · intro hj
            rcases Nat.lt_or_eq_of_le (Nat.le_of_lt_succ hj) with hj | rfl
            · obtain ⟨m', i', q1, q2, q3⟩ := (hU j).1 hj
              exact ⟨m', i', q1, by omega, q3⟩
            · exact ⟨n, k, hn, by omega, hv⟩
          · rintro ⟨m', i', q1, q2, q3⟩
            by_cases hi : i' < k
            · have := (hU j).2 ⟨m', i', q1, hi, q3⟩; omega
            · obtain rfl : i' = k := by omega
              rw [only m' q1, hv] at q3
              omega) ⟨n, k, hn, by omega, hcl, hv⟩ rfl
      rw [hlen] at i3 i4
      obtain ⟨f1, f2⟩ := fin hv i1 i2
      exact ⟨f1, f2, i3, i4⟩
  | node e x ks r ihk ih =>
    rintro ids k a next cur l cur' next' ⟨n, ns, kk, rfl, h4, h5, h6, h7, h8⟩ hq ho hU hC he
    have hcl := ho n List.mem_cons_self
    have hnr : n ≠ t.root := by
      rintro rfl
      exact hcl.1.1 (dom_top W.shape hcl.1.2.1)
    have hid : q t n = P x := hP n x hnr h4
    have hcov : ∀ m i, t.TermAt m i → (t.Dom n m ↔ k ≤ i ∧ i < k + ks.leaves.length) := by
      intro m i hm
      have := (W.spans n x h4).2 i
      rw [hq.2.1, Forest.contains_interval] at this
      rw [this]
      constructor
      · intro h; exact ⟨m, h, hm⟩
      · rintro ⟨m', h, hm'⟩; rw [W.sentence.inj m m' i hm hm']; exact h
    obtain ⟨l1, c1, n1, e1⟩ : ∃ l1 c1 n1, ks.numbers P (if P x then none else cur) next = (l1, c1, n1) :=
      ⟨_, _, _, rfl⟩
    obtain ⟨l2, c2, n2, e2⟩ : ∃ l2 c2 n2, r.numbers P (if P x then cur else c1) n1 = (l2, c2, n2) :=
      ⟨_, _, _, rfl⟩
    simp only [Forest.numbers, e1, e2, Prod.mk.injEq] at he
    obtain ⟨rfl, rfl, rfl⟩ := he
    have kids : l1.length = ks.leaves.length ∧ (∀ j m, j < ks.leaves.length → t.TermAt m (k + j) → l1[j]? = some (num m)) ∧
        t.Used num n1 (k + ks.leaves.length) ∧
        t.Current q num a (if P x then cur else c1) (k + ks.leaves.length) := by
      by_cases hm : P x = true
      · rw [if_pos hm] at e1 ⊢
        obtain ⟨i1, i2, i3, _⟩ := ihk (a := n) (cur := none) h7 hq.2.2.1 (fun c hc => by
            have := closest_child W hcl ((h6.1 c).1 hc)
            rwa [hid, if_pos hm] at this) hU (fun m i q1 q2 q3 => by
              have := (hcov m i q1).1 q3.1.2.1
              omega) e1
        refine ⟨i1, i2, i3, ?_⟩
        cases cur with
        | some v =>
          obtain ⟨m, i, q1, q2, q3⟩ := hC
          exact ⟨m, i, q1, by omega, q3⟩
        | none =>
          intro m i q1 q2 q3
          by_cases hi : i < k
          · exact hC m i q1 hi q3
          · have hd := (hcov m i q1).2 ⟨by omega, q2⟩
            have hne : n ≠ m := by
              rintro rfl
              obtain ⟨y, hy, _⟩ := q1
              rw [h4] at hy; cases hy
            exact hcl.1.1 (W.shape.dom_antisymm W.graph hcl.1.2.1 (q3.2 n hne hd (by rw [hid, hm])))
      · rw [if_neg hm] at e1 ⊢
        exact ihk (a := a) h7 hq.2.2.1 (fun c hc => by
            have := closest_child W hcl ((h6.1 c).1 hc)
            rwa [hid, if_neg hm] at this) hU hC e1
    obtain ⟨i1, i2, i3, i4⟩ := kids
    obtain ⟨j1, j2, j3, j4⟩ := ih h8 hq.2.2.2 (fun c hc => ho c (List.mem_cons_of_mem _ hc)) i3 i4 e2
    have hlen : k + ks.leaves.length + r.leaves.length = k + (Forest.node e x ks r).leaves.length := by simp [Forest.leaves]; omega
    rw [hlen] at j3 j4
    refine ⟨by simp [Forest.leaves, i1, j1], fun j m hj hm => ?_, j3, j4⟩
    by_cases hlt : j < ks.leaves.length
    · rw [List.getElem?_append_left (by omega)]
      exact i2 j m hlt hm
    · rw [List.getElem?_append_right (by omega), i1]
      refine j2 _ m ?_ ?_
      · simp only [Forest.leaves, List.length_append] at hj; omega
      · rwa [show k + ks.leaves.length + (j - ks.leaves.length) = k + j by omega]

/-- Numbers given to the words. -/
theorem numbered_is (W : t.WF) (hp : t.isProjective = true) (hroot : t.IsNt t.root) (hq0 : q t t.root = true)
    (hP : ∀ n x, n ≠ t.root → t.graph.node? n = some (.nt x) → q t n = P x) {name : Str}
    (E : TermEdit t t' (fun n => withFeature name (Nat.toDigits 10 (num n))))
    (hnum : ∀ n m a b, t.IsTerm n → t.IsTerm m → t.Closest q n a → t.Closest q m b → (num n = num m ↔ a = b))
    (hup : CountsUp t num) {F : Forest} (hF : t.Is F) : t'.Is (F.numbered name P) := by
  have hq := (W.is_seq hp hF).1
  have key : ∀ n x, t.graph.node? n = some (.term x) →
      (F.numbers P none 0).1[x.span.start]?.getD 0 = num n := by
    intro n x hx
    obtain ⟨i, hi, hn⟩ := W.sentence.pos n ⟨x, hx⟩
    have hlen : i < F.leaves.length := by rw [(W.is_seq hp hF).2]; exact hi
    have hxi : x.span.start = i := by
      obtain ⟨y, hy, hy'⟩ := hn
      rw [hx] at hy; cases hy; rw [hy']; rfl
    rw [hxi]
    unfold Is at hF
    cases F with
    | nil => simp [Rep] at hF
    | leaf e y r =>
      obtain ⟨m, ns, h1, h2, _⟩ := hF
      obtain ⟨z, hz⟩ := hroot
      simp only [List.cons.injEq] at h1
      rw [h1.1, h2] at hz; cases hz
    | node e y k r =>
      obtain ⟨m, ns, kk, h1, h4, h5, h6, h7, h8⟩ := hF
      simp only [List.cons.injEq] at h1
      obtain ⟨rfl, rfl⟩ := h1
      obtain rfl := rep_empty h8
      have hown : ∀ c ∈ kk, t.Closest q c t.root := by
        intro c hc
        have hch := (h6.1 c).1 hc
        have hne : t.root ≠ c := fun e => W.shape.root_top t.root (e ▸ hch)
        refine ⟨⟨hne, .single hch, hq0⟩, fun b b1 b2 _ => ?_⟩
        rcases b2.cases_parent with e | ⟨q, k3, k4⟩
        · exact absurd e.symm b1
        · rw [W.shape.isChild_unique hch k4]; exact k3
      obtain ⟨l1, c1, n1, e1⟩ : ∃ l1 c1 n1, k.numbers P none 0 = (l1, c1, n1) := ⟨_, _, _, rfl⟩
      obtain ⟨_, j2, _, _⟩ := numbers_rep W hroot hq0 hP hnum hup h7 hq.2.2.1 hown (next := 0) (cur := none)
        (fun j => ⟨fun h => absurd h (Nat.not_lt_zero _), fun ⟨_, _, _, h, _⟩ => absurd h (Nat.not_lt_zero _)⟩)
        (fun _ _ _ h => absurd h (Nat.not_lt_zero _)) e1
      have hl : ((Forest.node e y k .nil).numbers P none 0).1 = l1 := by
        simp only [Forest.numbers, ite_self, e1, List.append_nil]
      rw [hl, j2 i n (by simpa [Forest.leaves] using hlen) (by rwa [Nat.zero_add])]
      rfl
  obtain ⟨f', h1, h2⟩ := TermEdit.rep E (fun _ _ => rfl) (h := id)
    (h' := fun x => withFeature name (Nat.toDigits 10 ((F.numbers P none 0).1[x.span.start]?.getD 0)) x)
    (fun n x hx => by rw [key n x hx]; rfl) hF
  rw [Forest.mapLeaves_id] at h2
  unfold Is
  rw [E.root, show F.numbered name P = f' from h2.symm]
  exact h1

end numbers

end Tree

namespace Convert

open Lumberjack.Tree

variable {t t' : Tree}

/-- The whole pipeline. -/
theorem pipeline_is {o : Options} {tags : Option (List Str)} (S : Suits o t) (hN : NoGaps t) (ho : o.reattachLabel = none)
    (h : Pipeline o tags t t') {F : Forest} (hF : t.Is F) : t'.Is (F.edited o tags) := by
  obtain ⟨t1, t2, t3, t4, t5, t6, t7, b1, b2, b3, b4, b5, b6, b7, b8⟩ := h
  have hp : t.isProjective = true := (noGaps_iff S.fit.wf).2 hN
  have A1 : Good true t t1 ∧ t1.Is (if o.removeDummies then F.undummied else F) := by
    cases hd : o.removeDummies with
    | false => rw [b1.2 hd]; exact ⟨.refl S.fit, hF⟩
    | true =>
      exact ⟨dummies_good S.fit (by rcases S.words with h2 | h2; exacts [h2, by rw [hd] at h2; cases h2.1]) (b1.1 hd),
        dummies_is S.fit.wf (b1.1 hd) hp hF⟩
  obtain ⟨c1, i1⟩ := A1
  have hp1 := c1.proj rfl hp
  have e2 : t2 = t1 := by
    cases hd : o.projectivize with
    | false => exact b2.2 hd
    | true =>
      rcases b2.1 hd with ⟨_, e⟩ | ⟨⟨n, hn, hg⟩, _⟩
      · exact e
      · exact absurd ((noGaps_iff c1.fit.wf).1 hp1 n hn) hg
  subst e2
  -- a step that depends on an option
  have step : ∀ {α : Type} (a : Option α) {R : α → Tree → Tree → Prop} {f : α → Forest → Forest} {u u' : Tree} {G : Forest}, Fit u →
      u.isProjective = true → u.Is G → Opt a R u u' → (∀ v, R v u u' → Good true u u' ∧ u'.Is (f v G)) →
      Fit u' ∧ u'.isProjective = true ∧ u'.Is (Forest.given a f G) := by
    intro α a R f u u' G hf hp hG hO hR
    cases a with
    | none => obtain rfl : u' = u := hO; exact ⟨hf, hp, hG⟩
    | some v => obtain ⟨g, hi⟩ := hR v hO; exact ⟨g.fit, g.proj rfl hp, hi⟩
  obtain ⟨f3, p3, i3⟩ := step tags c1.fit hp1 i1 b3 (f := Forest.retagged)
    fun l h => ⟨edit_good c1.fit h fun _ _ => ⟨rfl, rfl, rfl⟩, pos_is h i1⟩
  rw [ho] at b4
  obtain rfl : t4 = t3 := b4
  obtain ⟨f5, p5, i5⟩ := step o.idSet f3 p3 i3 b5 (f := fun s => Forest.numbered o.idFeatureName fun x => s.matches x.label)
    fun s h => ⟨by
      obtain ⟨num, E, _⟩ := h
      exact edit_good f3 E fun _ _ => ⟨rfl, rfl, rfl⟩, by
      obtain ⟨num, E, h1, h2⟩ := h
      exact numbered_is f3.wf p3 f3.rootNt (by simp [idNode])
        (fun n x hn hx => by simp [idNode, hx, Node.label, hn.symm]) E h1 h2 i3⟩
  obtain ⟨f6, p6, i6⟩ := step o.filterSet f5 p5 i5 b6 (f := fun s => Forest.filtered fun x => !s.matches x.label)
    fun s h => ⟨filtered_good f5 h, filtered_is f5.wf p5 h i5⟩
  obtain ⟨f7, p7, i7⟩ := step o.insertionSet f6 p6 i6 b7
    (f := fun s => Forest.grouped (fun x => !s.matches x.label) o.insertionLabel)
    fun s h => ⟨inserted_good f6 h, runs_is f6.wf p6 h i6⟩
  exact (step o.parentFeature f7 p7 i7 b8 (f := Forest.parented) fun name h => ⟨by
      obtain ⟨val, E, _⟩ := h
      exact edit_good f7 E fun _ _ => ⟨rfl, rfl, rfl⟩, parented_is f7.wf f7.rootNt h i7⟩).2.2

/-- What is written. -/
theorem output_is {out : OutFormat} (hout : out ≠ .negra) (W : t.WF) (hN : NoGaps t) {c c' : Nat} {w : Written}
    (h : Output out c t w c') {F : Forest} (hF : t.Is F) : F.output out = some w := by
  have hp := (noGaps_iff W).2 hN
  have key : ∀ g s, BracketText g t s → s = F.line g := by
    rintro g s ⟨H, b, h1, h2, rfl⟩
    obtain rfl := Rep.unique h1 hF
    unfold Forest.line
    rw [h2]
    simp
  cases h with
  | conllx h =>
    obtain ⟨ts, h1, rfl⟩ := h
    rw [h1.unique W (terminals_leaves W hp hF)]
    rfl
  | negra => exact absurd rfl hout
  | absolute _ h1 h2 =>
    obtain ⟨f, t1, g1, W1, g2, E⟩ := h1
    obtain rfl := Rep.unique g1 hF
    obtain ⟨ts, g3, rfl⟩ := h2
    have hT := tagged_terminals W hN hF W1 g2 E fun _ => rfl
    rw [g3.unique (E.wf (fun _ _ => rfl) W1) hT]
    simp only [Forest.output, Forest.absTokens, Forest.tokens, Forest.leaves_mapLeaves]
  | relative _ h1 h2 =>
    obtain ⟨f, t1, g1, W1, g2, E⟩ := h1
    obtain rfl := Rep.unique g1 hF
    obtain ⟨ts, g3, rfl⟩ := h2
    have hT := tagged_terminals W hN hF W1 g2 E fun _ => rfl
    rw [g3.unique (E.wf (fun _ _ => rfl) W1) hT]
    simp only [Forest.output, Forest.relTokens, Forest.tokens, Forest.leaves_mapLeaves]
  | ptb _ h => rw [key _ _ h]; rfl
  | simple _ h => rw [key _ _ h]; rfl
  | tueba _ h => rw [key _ _ h]; rfl

end Convert
end Lumberjack
