import Verif.Proofs.Rewrite

/-!
# Inserting nodes above runs and changing words as rewriting of forests
-/

namespace Lumberjack

namespace Forest

theorem leaves_close (l : Str) (run rest : Forest) : (close l run rest).leaves = run.leaves ++ rest.leaves := by
  cases run <;> simp [close, leaves]

theorem leaves_bundleFrom (l : Str) (f : Forest) : ∀ run : Forest, (bundleFrom l run f).leaves = run.leaves ++ f.leaves := by
  induction f with
  | nil => intro run; simp [bundleFrom, leaves_close, leaves]
  | leaf e x r ih => intro run; simp [bundleFrom, ih, leaves_append, leaves]
  | node e x k r _ ih => intro run; simp [bundleFrom, leaves_close, leaves, ih]

theorem leaves_grouped (P : NonTerminal → Bool) (l : Str) (f : Forest) : (f.grouped P l).leaves = f.leaves := by
  induction f with
  | nil => rfl
  | leaf e x r ih => simp [grouped, leaves, ih]
  | node e x k r ihk ih =>
    unfold grouped
    split <;> simp [leaves, leaves_bundleFrom, ihk, ih]

theorem Seq.leaf_at {f : Forest} : ∀ {k : Nat}, f.Seq k → ∀ (i : Nat) x, f.leaves[i]? = some x → x.span = ⟨k + i, k + i + 1, none⟩ := by
  induction f with
  | nil => intro k _ i x h; simp [leaves] at h
  | leaf e x r ih =>
    rintro k ⟨h1, h2⟩ i y h
    cases i with
    | zero => simp only [leaves, List.getElem?_cons_zero, Option.some.injEq] at h; rw [← h, h1]; rfl
    | succ i =>
      simp only [leaves, List.getElem?_cons_succ] at h
      rw [ih h2 i y h]; congr 1 <;> omega
  | node e x ks r ihk ih =>
    rintro k ⟨h0, h1, h2, h3⟩ i y h
    simp only [leaves] at h
    by_cases hi : i < ks.leaves.length
    · rw [List.getElem?_append_left hi] at h
      exact ihk h2 i y h
    · rw [List.getElem?_append_right (by omega)] at h
      rw [ih h3 _ y h]; congr 1 <;> omega

theorem Seq.runSpan {f : Forest} {k : Nat} (h : f.Seq k) (hne : f ≠ nil) : f.runSpan = ⟨k, k + f.leaves.length, none⟩ := by
  have hp := h.leaves_pos hne
  have h0 : f.leaves[0]? = some f.leaves[0] := by simp [hp]
  have h1 : f.leaves[f.leaves.length - 1]? = some (f.leaves[f.leaves.length - 1]'(by omega)) := by simp [hp]
  have a0 := h.leaf_at _ _ h0
  have a1 := h.leaf_at _ _ h1
  unfold Forest.runSpan
  rw [List.head?_eq_getElem?, List.getLast?_eq_getElem?, h0, h1]
  simp only [Option.map_some, Option.getD_some, a0, a1]
  congr 1
  omega

theorem Seq.close {l : Str} {run rest : Forest} {k : Nat} (h : run.Seq k) (h' : rest.Seq (k + run.leaves.length)) :
    (close l run rest).Seq k := by
  by_cases hn : run = nil
  · subst hn
    simpa [Forest.close, leaves] using h'
  · have : Forest.close l run rest = node none (NonTerminal.new l run.runSpan) run rest := by
      cases run with
      | nil => exact absurd rfl hn
      | leaf e x r => rfl
      | node e x k r => rfl
    rw [this]
    exact ⟨hn, h.runSpan hn, h, h'⟩

theorem Seq.bundleFrom {l : Str} {f : Forest} : ∀ {run : Forest} {k : Nat}, run.Seq k → f.Seq (k + run.leaves.length) →
    (bundleFrom l run f).Seq k := by
  induction f with
  | nil => intro run k h h'; exact h.close h'
  | leaf e x r ih =>
    rintro run k h ⟨h1, h2⟩
    refine ih (h.append ⟨h1, trivial⟩) ?_
    rw [leaves_append]
    simpa [leaves, Nat.add_assoc] using h2
  | node e x ks r _ ih =>
    rintro run k h ⟨h0, h1, h2, h3⟩
    refine h.close ⟨h0, h1, h2, ih trivial ?_⟩
    simpa [leaves] using h3

theorem Seq.grouped {P : NonTerminal → Bool} {l : Str} {f : Forest} : ∀ {k : Nat}, f.Seq k → (f.grouped P l).Seq k := by
  induction f with
  | nil => intro k h; exact h
  | leaf e x r ih => rintro k ⟨h1, h2⟩; exact ⟨h1, ih h2⟩
  | node e x ks r ihk ih =>
    rintro k ⟨h0, h1, h2, h3⟩
    have hp := h2.leaves_pos h0
    have key : ∀ g : Forest, g.leaves = ks.leaves → g.Seq k → (Forest.node e x g (r.grouped P l)).Seq k := by
      intro g hg hs
      refine ⟨fun h => ?_, by rw [hg]; exact h1, hs, by rw [hg]; exact ih h3⟩
      rw [← hg, h] at hp
      simp [leaves] at hp
    unfold Forest.grouped
    split
    · exact key _ (by simp [leaves_bundleFrom, leaves_grouped, leaves]) (Seq.bundleFrom (k := k) trivial (by simpa [leaves] using ihk h2))
    · exact key _ (leaves_grouped _ _ _) (ihk h2)

end Forest

namespace Tree

variable {t t' : Tree}

theorem TermAt.start {n i : Nat} (h : t.TermAt n i) : t.startOf n = i := by
  obtain ⟨x, h1, h2⟩ := h
  rw [startOf_of_node? h1]
  simp [Node.span, h2, Span.ofIdx]

theorem interval_span {s : Span} {k m : Nat} (hv : s.Valid) (hs : s.skips = none) (hkm : k < m)
    (h : ∀ i, i ∈ s.indices ↔ k ≤ i ∧ i < m) : s = ⟨k, m, none⟩ := by
  have hi : ∀ i, i ∈ s.indices ↔ s.start ≤ i ∧ i < s.stop := by
    intro i; simp [Span.indices, hs]
  have hlt := hv.lt
  have a1 := (h s.start).1 ((hi _).2 ⟨Nat.le_refl _, hlt⟩)
  have a2 := (hi k).1 ((h k).2 ⟨Nat.le_refl _, hkm⟩)
  have a3 := (h (s.stop - 1)).1 ((hi _).2 (by omega))
  have a4 := (hi (m - 1)).1 ((h _).2 (by omega))
  obtain ⟨a, b, c⟩ := s
  simp only at *
  subst hs
  congr 1 <;> omega

/-- The words moved: the children of nonterminals with `P`. -/
def Moved (t : Tree) (P : NonTerminal → Bool) (p c : Nat) : Prop :=
  (∃ x, t.graph.node? p = some (.nt x) ∧ P x = true) ∧ t.IsChild p c ∧ t.IsTerm c

section inserted

variable {P : NonTerminal → Bool} {lab : Nat → Str} {l : Str}

/-- A longest run and the node above it. -/
theorem Inserted.run_rep (I : Inserted t (t.Moved P) (fun _ => l) t') (W : t.WF) (hp : t.isProjective = true)
    {p k : Nat} {rids : List Nat} {run : Forest} (hne : rids ≠ []) (hrep : t'.Rep rids run) (hq : run.Seq k)
    (hlen : run.leaves.length = rids.length)
    (hpos : ∀ (i : Nat) c, rids[i]? = some c → t.Moved P p c ∧ t.TermAt c (k + i))
    (hleft : ∀ d i, t.Moved P p d → t.TermAt d i → i + 1 ≠ k)
    (hright : ∀ d, t.Moved P p d → ¬ t.TermAt d (k + rids.length)) :
    ∃ n, t'.IsChild p n ∧ (∀ d, t'.IsChild n d ↔ d ∈ rids) ∧
      t'.Rep [n] (.node none (NonTerminal.new l run.runSpan) run .nil) := by
  have hl : 0 < rids.length := List.length_pos_iff.2 hne
  have h0 : rids[0]? = some rids[0] := by simp [hl]
  obtain ⟨hK0, ht0⟩ := hpos 0 _ h0
  obtain ⟨n, hn1, hn2⟩ := I.cover _ _ hK0
  have hnl := (isChild_live I.wf.graph hn2).1
  obtain ⟨p', g1, g2, g3, ⟨s, g4⟩, g5⟩ := I.newAt W.sentence hnl hn1 hn2
  have : p' = p := W.shape.isChild_unique g1.2.1 hK0.2.1
  subst this
  have hkids : ∀ d, t'.IsChild n d ↔ d ∈ rids := by
    intro d
    rw [g5]
    constructor
    · rintro ⟨i, j, hi, hj, hc⟩
      have hi' : i = k := by simpa using hi.pos_unique ht0
      subst hi'
      have h1 : i ≤ j := by
        by_contra hlt
        obtain ⟨e, he, he'⟩ := hc (i - 1) (.inr ⟨by omega, by omega⟩)
        exact hleft e (i - 1) he he' (by omega)
      have h2 : j < i + rids.length := by
        by_contra hge
        obtain ⟨e, he, he'⟩ := hc (i + rids.length) (.inl ⟨by omega, by omega⟩)
        exact hright e he he'
      have hg : rids[j - i]? = some (rids[j - i]'(by omega)) := List.getElem?_eq_getElem _
      have := (hpos _ _ hg).2
      rw [Nat.add_sub_cancel' h1] at this
      rw [W.sentence.inj _ _ _ hj this]
      exact List.getElem_mem _
    · intro hd
      obtain ⟨i, hi, rfl⟩ := List.mem_iff_getElem.1 hd
      refine ⟨k, k + i, by simpa using ht0, (hpos i _ (by simp [hi])).2, fun m hm => ?_⟩
      have hm' : k ≤ m ∧ m ≤ k + i := by omega
      have hg : rids[m - k]? = some (rids[m - k]'(by omega)) := List.getElem?_eq_getElem _
      obtain ⟨q1, q2⟩ := hpos _ _ hg
      rw [Nat.add_sub_cancel' hm'.1] at q2
      exact ⟨_, q1, q2⟩
  have hspan : s = run.runSpan := by
    have hrn : run ≠ .nil := by
      rintro rfl
      simp [Forest.leaves] at hlen
      omega
    rw [hq.runSpan hrn, hlen]
    obtain ⟨v1, v2⟩ := I.wf.span_spec g4
    refine interval_span v1 ?_ (by omega) fun i => ?_
    · cases hs : s.skips with
      | none => rfl
      | some sk =>
        exact absurd ⟨_, g4, by simp [NonTerminal.new, hs]⟩ ((isProjective_iff I.wf.count).1 (I.projective W hp) n)
    · rw [show s = (Node.nt (NonTerminal.new l s)).span from rfl, v2]
      constructor
      · rintro ⟨m, hd, hm⟩
        rcases hd.cases_child with e | ⟨c, h1, h2⟩
        · subst e
          obtain ⟨y, hy, _⟩ := hm
          rw [g4] at hy; cases hy
        · obtain ⟨i', hi', rfl⟩ := List.mem_iff_getElem.1 ((hkids c).1 h1)
          have q := (hpos i' rids[i'] (by simp [hi'])).2
          have := I.wf.shape.dom_term (I.termAt q).isTerm h2
          rw [this] at hm
          have := hm.pos_unique (I.termAt q)
          omega
      · rintro ⟨h1, h2⟩
        have hg : rids[i - k]? = some (rids[i - k]'(by omega)) := List.getElem?_eq_getElem _
        obtain ⟨q1, q2⟩ := hpos _ _ hg
        rw [Nat.add_sub_cancel' h1] at q2
        exact ⟨_, .single ((hkids _).2 (List.getElem_mem _)), I.termAt q2⟩
  refine ⟨n, g2, hkids, n, [], rids, rfl, by rw [← hspan]; exact g4, g3, ⟨fun c => (hkids c).symm, ?_⟩, hrep, rfl⟩
  have := hq.starts.1
  rw [← hrep.starts, List.pairwise_map] at this
  exact this

theorem kids_sorted {ids : List Nat} {f : Forest} {k : Nat} (h : t.Rep ids f) (hq : f.Seq k) :
    ids.Pairwise fun a b => t.startOf a < t.startOf b := by
  have := hq.starts.1
  rw [← h.starts, List.pairwise_map] at this
  exact this

theorem close_eq {run : Forest} (h : run ≠ .nil) (l : Str) (rest : Forest) :
    Forest.close l run rest = (Forest.node none (NonTerminal.new l run.runSpan) run .nil).append rest := by
  cases run with
  | nil => exact absurd rfl h
  | leaf e x r => rfl
  | node e x k r => rfl

/-- The forest after nodes have been inserted: for nodes that keep their place, and for the children of a node with `P`,
of which `done` have been dealt with and `rids` are the run so far. -/
theorem Inserted.rep_both (I : Inserted t (t.Moved P) (fun _ => l) t') (W : t.WF) (hp : t.isProjective = true) (f : Forest) :
    (∀ (ids : List Nat) (k : Nat), t.Rep ids f → f.Seq k → (∀ c ∈ ids, ∀ p, ¬ t.Moved P p c) → t'.Rep ids (f.grouped P l)) ∧
    (∀ (p : Nat) (x : NonTerminal) (done rids ids : List Nat) (run : Forest) (k : Nat), t.graph.node? p = some (.nt x) → P x = true →
      (∀ c, t.IsChild p c ↔ c ∈ done ∨ c ∈ rids ∨ c ∈ ids) → t.Rep ids f → t'.Rep rids run → run.Seq k →
      run.leaves.length = rids.length → f.Seq (k + rids.length) →
      (∀ (i : Nat) c, rids[i]? = some c → t.Moved P p c ∧ t.TermAt c (k + i)) →
      (∀ d i, t.Moved P p d → t.TermAt d i → i + 1 ≠ k) → (∀ d ∈ done, t.startOf d < k) →
      ∃ ids', t'.Rep ids' (Forest.bundleFrom l run (f.grouped P l)) ∧
        ∀ c, c ∈ ids' ↔ t'.IsChild p c ∧ ∃ d, (d ∈ rids ∨ d ∈ ids) ∧ t'.Dom c d) := by
  have W' := I.wf
  have same : ∀ {p a b : Nat} {d : Nat}, t'.IsChild p a → t'.IsChild p b → t'.Dom a d → t'.Dom b d → a = b := by
    intro p a b d ha hb h1 h2
    rcases W'.shape.dom_linear h1 h2 with h | h
    · exact W'.shape.siblings_not_dom W'.graph ha hb h
    · exact (W'.shape.siblings_not_dom W'.graph hb ha h).symm
  have single : ∀ {a b : List Nat} {i c : Nat}, (a ++ b)[i]? = some c → (a[i]? = some c) ∨ (a.length ≤ i ∧ b[i - a.length]? = some c) := by
    intro a b i c h
    by_cases hi : i < a.length
    · rw [List.getElem?_append_left hi] at h; exact .inl h
    · rw [List.getElem?_append_right (by omega)] at h; exact .inr ⟨by omega, h⟩
  induction f with
  | nil =>
    refine ⟨fun ids k h _ _ => h, ?_⟩
    intro p x done rids ids run k hpx hPx hk hf hrun hq hlen _ hpos hleft hdone
    rw [show ids = [] from hf] at hk ⊢
    by_cases hne : rids = []
    · subst hne
      have : run = .nil := rep_empty hrun
      subst this
      exact ⟨[], rfl, by simp⟩
    · have hrn : run ≠ .nil := by
        rintro rfl
        exact hne (by simpa [Forest.leaves, eq_comm] using hlen)
      obtain ⟨n, h1, h2, h3⟩ := I.run_rep W hp hne hrun hq hlen hpos hleft (by
        intro d hd ht
        rcases (hk d).1 hd.2.1 with h | h | h
        · have := hdone d h
          rw [ht.start] at this; omega
        · obtain ⟨i, hi, rfl⟩ := List.mem_iff_getElem.1 h
          have := ht.pos_unique (hpos i _ (by simp [hi])).2
          omega
        · simp at h)
      refine ⟨[n], ?_, fun c => ?_⟩
      · show t'.Rep [n] (Forest.close l run .nil)
        rw [close_eq hrn, Forest.append_nil]
        exact h3
      · rw [List.mem_singleton]
        constructor
        · rintro rfl
          obtain ⟨d, hd⟩ := List.exists_mem_of_ne_nil _ hne
          exact ⟨h1, d, .inl hd, .single ((h2 d).2 hd)⟩
        · rintro ⟨h4, d, hd | hd, h5⟩
          · exact same h4 h1 h5 (.single ((h2 d).2 hd))
          · simp at hd
  | leaf e x r ih =>
    refine ⟨?_, ?_⟩
    · rintro ids k ⟨n, ns, rfl, h4, h5, h6⟩ hq hK
      refine ⟨n, ns, rfl, by rw [I.old n ⟨_, h4⟩, h4], ?_, ih.1 ns _ h6 hq.2 fun c hc => hK c (List.mem_cons_of_mem _ hc)⟩
      rw [← h5]
      exact I.first n ⟨_, h4⟩ fun p d i hp' => absurd hp' (hK n List.mem_cons_self p)
    · rintro p y done rids ids run k hpx hPx hk ⟨n, ns, rfl, h4, h5, h6⟩ hrun hq hlen hqf hpos hleft hdone
      have hch : t.IsChild p n := (hk n).2 (.inr (.inr List.mem_cons_self))
      have hM : t.Moved P p n := ⟨⟨y, hpx, hPx⟩, hch, x, h4⟩
      have hAt : t.TermAt n (k + rids.length) := ⟨x, h4, hqf.1⟩
      have hlab : t'.inLabel n = if run = .nil then e else none := by
        split
        · rename_i hn
          subst hn
          have hz : rids.length = 0 := by simpa [Forest.leaves] using hlen.symm
          rw [← h5]
          refine I.first n ⟨_, h4⟩ fun p' d i hp' hd hdi hni => ?_
          have : p' = p := W.shape.isChild_unique hp'.2.1 hch
          subst this
          have := hAt.pos_unique hni
          exact hleft d i hd hdi (by omega)
        · rename_i hn
          have hz : 0 < rids.length := by rw [← hlen]; exact hq.leaves_pos hn
          have hg : rids[rids.length - 1]? = some (rids[rids.length - 1]'(by omega)) := List.getElem?_eq_getElem _
          obtain ⟨q1, q2⟩ := hpos _ _ hg
          refine I.follow p n _ _ hM q1 q2 ?_
          rw [show k + (rids.length - 1) + 1 = k + rids.length by omega]
          exact hAt
      obtain ⟨ids', i1, i2⟩ := ih.2 p y done (rids ++ [n]) ns (run.append (.leaf (if run = .nil then e else none) x .nil)) k hpx hPx
        (fun c => by rw [hk c]; simp only [List.mem_append, List.mem_cons, List.not_mem_nil, or_false]; tauto) h6
        (hrun.append ⟨n, [], rfl, by rw [I.old n ⟨_, h4⟩, h4], hlab, rfl⟩)
        (hq.append ⟨by rw [hlen]; exact hqf.1, trivial⟩) (by simp [Forest.leaves_append, Forest.leaves, hlen])
        (by rw [List.length_append, List.length_singleton, ← Nat.add_assoc]; exact hqf.2)
        (by
          intro i c hc
          rcases single hc with h | ⟨h1, h2⟩
          · exact hpos i c h
          · have : i = rids.length := by
              by_contra hne
              have : i - rids.length = (i - rids.length - 1) + 1 := by omega
              rw [this] at h2
              simp at h2
            subst this
            simp only [Nat.sub_self, List.getElem?_cons_zero, Option.some.injEq] at h2
            subst h2
            exact ⟨hM, hAt⟩) hleft hdone
      refine ⟨ids', i1, fun c => ?_⟩
      rw [i2]
      simp only [List.mem_append, List.mem_cons, List.not_mem_nil, or_false, or_assoc]
  | node e x ks r ihk ih =>
    -- the children of a node that stays
    have inner : ∀ (n : Nat) (kk : List Nat) (k : Nat), t.graph.node? n = some (.nt x) → t.Kids n kk → t.Rep kk ks → ks ≠ .nil → ks.Seq k →
        ∃ kk', t'.Kids n kk' ∧ t'.Rep kk' (if P x then Forest.bundleFrom l .nil (ks.grouped P l) else ks.grouped P l) := by
      intro n kk k hn hkk hrep hks hq
      by_cases hP : P x = true
      · rw [if_pos hP]
        obtain ⟨kk', i1, i2⟩ := ihk.2 n x [] [] kk .nil k hn hP (fun c => by rw [← hkk.1 c]; simp) hrep rfl trivial rfl
          (by simpa using hq) (by simp) (by
            intro d i hd hi
            have hmem := (hkk.1 d).2 hd.2.1
            have := hq.starts.2 (t.startOf d) (by rw [← hrep.starts]; exact List.mem_map.2 ⟨d, hmem, rfl⟩)
            rw [hi.start] at this
            omega) (by simp)
        refine ⟨kk', ⟨fun c => ?_, ?_⟩, i1⟩
        · rw [i2]
          refine ⟨fun h => h.1, fun h => ⟨h, ?_⟩⟩
          by_cases hl : t.Live c
          · have := (I.child n c ⟨_, hn⟩ hl).1 h
            exact ⟨c, .inr ((hkk.1 c).2 this.1), .refl⟩
          · obtain ⟨p', d, h1, h2, _, _, h3⟩ := I.new c (isChild_live W'.graph h).2 hl
            have : p' = n := W'.shape.isChild_unique h2 h
            subst this
            obtain ⟨i, hi⟩ := W.sentence.pos d h1.2.2
            refine ⟨d, .inr ((hkk.1 d).2 h1.2.1), .single ((h3 d).2 ⟨i, i, hi.2, hi.2, fun m hm => ?_⟩)⟩
            rw [show m = i by omega]
            exact ⟨d, h1, hi.2⟩
        · refine kids_sorted (k := k) i1 (Forest.Seq.bundleFrom trivial ?_)
          simpa [Forest.leaves] using hq.grouped
      · rw [if_neg hP]
        have hno : ∀ c, ¬ t.Moved P n c := by
          rintro c ⟨⟨y, hy, hy'⟩, _⟩
          rw [hn] at hy; simp only [Option.some.injEq, Node.nt.injEq] at hy; subst hy
          exact hP hy'
        have hrep' := ihk.1 kk k hrep hq fun c hc p' hM => by
          rw [W.shape.isChild_unique hM.2.1 ((hkk.1 c).1 hc)] at hM
          exact hno c hM
        refine ⟨kk, ⟨fun c => ?_, kids_sorted hrep' hq.grouped⟩, hrep'⟩
        rw [hkk.1]
        constructor
        · exact fun h => (I.child n c ⟨_, hn⟩ (isChild_live W.graph h).2).2 ⟨h, hno c⟩
        · intro h
          by_cases hl : t.Live c
          · exact ((I.child n c ⟨_, hn⟩ hl).1 h).1
          · obtain ⟨p', d, h1, h2, _⟩ := I.new c (isChild_live W'.graph h).2 hl
            rw [W'.shape.isChild_unique h2 h] at h1
            exact absurd h1 (hno d)
    have notMoved : ∀ {n : Nat}, t.graph.node? n = some (.nt x) → ∀ p, ¬ t.Moved P p n := by
      rintro n hn p ⟨_, _, y, hy⟩
      rw [hn] at hy; cases hy
    refine ⟨?_, ?_⟩
    · rintro ids k ⟨n, ns, kk, rfl, h4, h5, h6, h7, h8⟩ hq hK
      obtain ⟨kk', j1, j2⟩ := inner n kk k h4 h6 h7 hq.1 hq.2.2.1
      refine ⟨n, ns, kk', rfl, by rw [I.old n ⟨_, h4⟩, h4], ?_, j1, j2,
        ih.1 ns _ h8 hq.2.2.2 fun c hc => hK c (List.mem_cons_of_mem _ hc)⟩
      rw [← h5]
      exact I.first n ⟨_, h4⟩ fun p d i hp' => absurd hp' (hK n List.mem_cons_self p)
    · rintro p y done rids ids run k hpx hPx hk ⟨n, ns, kk, rfl, h4, h5, h6, h7, h8⟩ hrun hq hlen hqf hpos hleft hdone
      obtain ⟨kk', j1, j2⟩ := inner n kk _ h4 h6 h7 hqf.1 hqf.2.2.1
      have hch : t.IsChild p n := (hk n).2 (.inr (.inr List.mem_cons_self))
      have hch' : t'.IsChild p n := (I.child p n ⟨_, hpx⟩ ⟨_, h4⟩).2 ⟨hch, notMoved h4 p⟩
      have hstart : t.startOf n = k + rids.length := by rw [startOf_of_node? h4]; simp [Node.span, hqf.2.1]
      have hcov : ∀ i, k + rids.length ≤ i → i < k + rids.length + ks.leaves.length → t.Covers n i := by
        intro i h1 h2
        refine ((W.spans n x h4).2 i).1 ?_
        rw [hqf.2.1, Forest.contains_interval]
        exact ⟨h1, h2⟩
      have clash : ∀ d i, t.Moved P p d → t.TermAt d i → ¬ t.Covers n i := by
        intro d i hd hi hc
        have hdc : t.Covers d i := ⟨d, .refl, hi⟩
        have : d = n := by
          rcases covers_disjoint W.shape W.sentence.inj hdc hc with h | h
          · exact W.shape.siblings_not_dom W.graph hd.2.1 hch h
          · exact (W.shape.siblings_not_dom W.graph hch hd.2.1 h).symm
        subst this
        exact notMoved h4 p hd
      have hlp := hqf.2.2.1.leaves_pos hqf.1
      obtain ⟨ids', i1, i2⟩ := ih.2 p y (done ++ rids ++ [n]) [] ns .nil (k + rids.length + ks.leaves.length) hpx hPx
        (fun c => by rw [hk c]; simp only [List.mem_append, List.mem_cons, List.not_mem_nil, or_false, false_or]; tauto) h8 rfl trivial rfl
        (by simpa using hqf.2.2.2) (by simp)
        (by
          intro d i hd hi heq
          exact clash d i hd hi (hcov i (by omega) (by omega)))
        (by
          intro d hd
          simp only [List.mem_append, List.mem_singleton] at hd
          rcases hd with (hd | hd) | rfl
          · have := hdone d hd; omega
          · obtain ⟨i, hi, rfl⟩ := List.mem_iff_getElem.1 hd
            rw [(hpos i _ (by simp [hi])).2.start]; omega
          · omega)
      have hnode : t'.Rep (n :: ids') (.node e x (if P x then Forest.bundleFrom l .nil (ks.grouped P l) else ks.grouped P l)
          (Forest.bundleFrom l .nil (r.grouped P l))) := by
        refine ⟨n, ids', kk', rfl, by rw [I.old n ⟨_, h4⟩, h4], ?_, j1, j2, i1⟩
        rw [← h5]
        exact I.first n ⟨_, h4⟩ fun p d i hp' => absurd hp' (notMoved h4 p)
      have hmem : ∀ c, c ∈ n :: ids' ↔ t'.IsChild p c ∧ ∃ d, d ∈ n :: ns ∧ t'.Dom c d := by
        intro c
        rw [List.mem_cons, i2]
        constructor
        · rintro (rfl | ⟨h1, d, h2 | h2, h3⟩)
          · exact ⟨hch', c, List.mem_cons_self, .refl⟩
          · simp at h2
          · exact ⟨h1, d, List.mem_cons_of_mem _ h2, h3⟩
        · rintro ⟨h1, d, h2, h3⟩
          rcases List.mem_cons.1 h2 with rfl | h2
          · exact .inl (same h1 hch' h3 .refl)
          · exact .inr ⟨h1, d, .inr h2, h3⟩
      by_cases hne : rids = []
      · subst hne
        have : run = .nil := rep_empty hrun
        subst this
        refine ⟨n :: ids', hnode, fun c => ?_⟩
        rw [hmem]
        simp
      · have hrn : run ≠ .nil := by
          rintro rfl
          exact hne (by simpa [Forest.leaves, eq_comm] using hlen)
        obtain ⟨m, h1, h2, h3⟩ := I.run_rep W hp hne hrun hq hlen hpos hleft (by
          intro d hd ht
          exact clash d _ hd ht (hcov _ (Nat.le_refl _) (by omega)))
        refine ⟨m :: (n :: ids'), ?_, fun c => ?_⟩
        · show t'.Rep _ (Forest.close l run _)
          rw [close_eq hrn]
          exact h3.append hnode
        · rw [List.mem_cons, hmem]
          constructor
          · rintro (rfl | ⟨q1, d, q2, q3⟩)
            · obtain ⟨d, hd⟩ := List.exists_mem_of_ne_nil _ hne
              exact ⟨h1, d, .inl hd, .single ((h2 d).2 hd)⟩
            · exact ⟨q1, d, .inr q2, q3⟩
          · rintro ⟨q1, d, q2 | q2, q3⟩
            · exact .inl (same q1 h1 q3 (.single ((h2 d).2 q2)))
            · exact .inr ⟨q1, d, q2, q3⟩

/-- Nodes inserted above runs. -/
theorem Inserted.is_grouped (I : Inserted t (t.Moved P) (fun _ => l) t') (W : t.WF) (hp : t.isProjective = true) {F : Forest} (h : t.Is F) :
    t'.Is (F.grouped P l) := by
  unfold Is
  rw [I.root]
  refine (I.rep_both W hp F).1 _ 0 h (W.is_seq hp h).1 fun c hc p hM => ?_
  rw [List.mem_singleton.1 hc] at hM
  exact W.shape.root_top p hM.2.1

end inserted

/-- Changed words. -/
theorem TermEdit.rep {g : Nat → Terminal → Terminal} (E : TermEdit t t' g) (hs : ∀ n x, (g n x).span = x.span) {h h' : Terminal → Terminal}
    (hh : ∀ n x, t.graph.node? n = some (.term x) → h (g n x) = h' x) {f : Forest} : ∀ {ids : List Nat}, t.Rep ids f →
    ∃ f', t'.Rep ids f' ∧ f'.mapLeaves h = f.mapLeaves h' := by
  have hl : ∀ n, t'.inLabel n = t.inLabel n := fun n => by unfold inLabel edgeLabel; rw [E.edges]
  have hc : ∀ p n, t'.IsChild p n ↔ t.IsChild p n := fun p n => by unfold IsChild Graph.IsChild; rw [E.edges]
  have hst : ∀ n, t'.startOf n = t.startOf n := by
    intro n
    cases hn : t.graph.node? n with
    | none => unfold startOf; rw [hn, E.none n hn]
    | some nd =>
      cases nd with
      | term x => rw [startOf_of_node? hn, startOf_of_node? (E.term n x hn)]; simp [Node.span, hs]
      | nt x => rw [startOf_of_node? hn, startOf_of_node? (E.nt n x hn)]
  induction f with
  | nil => intro ids h; exact ⟨.nil, h, rfl⟩
  | leaf e x r ih =>
    rintro ids ⟨n, ns, rfl, h4, h5, h6⟩
    obtain ⟨r', i1, i2⟩ := ih h6
    exact ⟨.leaf e (g n x) r', ⟨n, ns, rfl, E.term n x h4, by rw [hl, h5], i1⟩, by simp [Forest.mapLeaves, i2, hh n x h4]⟩
  | node e x k r ihk ih =>
    rintro ids ⟨n, ns, ks, rfl, h4, h5, h6, h7, h8⟩
    obtain ⟨k', j1, j2⟩ := ihk h7
    obtain ⟨r', i1, i2⟩ := ih h8
    refine ⟨.node e x k' r', ⟨n, ns, ks, rfl, E.nt n x h4, by rw [hl, h5], ⟨fun c => by rw [h6.1, hc], ?_⟩, j1, i1⟩, by
      simp [Forest.mapLeaves, i2, j2]⟩
    refine h6.2.imp fun h => ?_
    rwa [hst, hst]

end Tree
end Lumberjack
