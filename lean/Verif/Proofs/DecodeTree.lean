import Verif.Proofs.DecodeGraph

/-!
# The tree built by `decode`
-/

namespace Lumberjack

namespace Forest

theorem leaves_respan {f : Forest} : ∀ {k : Nat}, (f.respan k).leaves = f.leaves := by
  induction f with
  | nil => intro k; rfl
  | leaf e x r ih => intro k; simp [respan, leaves, ih]
  | node e x ks r ihk ih => intro k; simp [respan, leaves, ih, ihk]

theorem respan_ne {f : Forest} {k : Nat} (h : f ≠ nil) : f.respan k ≠ nil := by
  cases f with
  | nil => exact absurd rfl h
  | leaf => simp [respan]
  | node => simp [respan]

theorem Placed.full {f : Forest} : ∀ {k : Nat}, f.Placed k → f.Full := by
  induction f with
  | nil => intro k _; trivial
  | leaf e x r ih => intro k h; exact ih h.2
  | node e x ks r ihk ih => intro k h; exact ⟨h.1, ihk h.2.1, ih h.2.2⟩

theorem Placed.seq {f : Forest} : ∀ {k : Nat}, f.Placed k → (f.respan k).Seq k := by
  induction f with
  | nil => intro k _; trivial
  | leaf e x r ih => intro k h; exact ⟨h.1, ih h.2⟩
  | node e x ks r ihk ih =>
    intro k h
    refine ⟨respan_ne h.1, ?_, ihk h.2.1, ?_⟩
    · rw [leaves_respan]
    · rw [leaves_respan]; exact ih h.2.2

end Forest

namespace Tree

variable {t t' : Tree}

theorem Lay.placed {f : Forest} : ∀ {k : Nat} {par : Option Nat} {tops ids : List Nat},
    t.Lay par f tops ids → f.Placed k →
    (∀ n ∈ ids, t.IsTerm n → ∃ i, k ≤ i ∧ i < k + f.leaves.length ∧ t.TermAt n i) ∧
    (∀ i, k ≤ i → i < k + f.leaves.length → ∃ n ∈ ids, t.TermAt n i) ∧
    (∀ n ∈ ids, ∀ m ∈ ids, ∀ i, t.TermAt n i → t.TermAt m i → n = m) := by
  have uniq : ∀ {n i j : Nat}, t.TermAt n i → t.TermAt n j → i = j := by
    rintro n i j ⟨x, hx, h⟩ ⟨y, hy, h'⟩
    rw [hx] at hy; simp at hy; subst hy; rw [h] at h'; exact congrArg Span.start h'
  induction f with
  | nil => rintro k par tops ids ⟨rfl, rfl⟩ -; simp [Forest.leaves]; try omega
  | leaf e x r ih =>
    rintro k par tops ids ⟨n, ns, is, rfl, rfl, hn, -, hno, h⟩ ⟨g1, g2⟩
    obtain ⟨i1, i2, i3⟩ := ih h g2
    have hta : t.TermAt n k := ⟨x, hn, g1⟩
    simp only [Forest.leaves, List.length_cons]
    have lo : ∀ m ∈ is, ∀ i, t.TermAt m i → k + 1 ≤ i := by
      intro m hm i hi
      obtain ⟨j, j1, -, j3⟩ := i1 m hm hi.isTerm
      rw [uniq hi j3]; exact j1
    refine ⟨?_, ?_, ?_⟩
    · intro m hm ht
      rcases List.mem_cons.1 hm with rfl | hm
      · exact ⟨k, Nat.le_refl _, by omega, hta⟩
      · obtain ⟨i, j1, j2, j3⟩ := i1 m hm ht
        exact ⟨i, by omega, by omega, j3⟩
    · intro i h1 h2
      by_cases hi : i = k
      · subst hi; exact ⟨n, by simp, hta⟩
      · obtain ⟨m, j1, j2⟩ := i2 i (by omega) (by omega)
        exact ⟨m, by simp [j1], j2⟩
    · intro a ha b hb i hai hbi
      rcases List.mem_cons.1 ha with rfl | ha' <;> rcases List.mem_cons.1 hb with rfl | hb'
      · rfl
      · have := lo b hb' i hbi; have := uniq hai hta; omega
      · have := lo a ha' i hai; have := uniq hbi hta; omega
      · exact i3 a ha' b hb' i hai hbi
  | node e x ks r ihk ih =>
    rintro k par tops ids ⟨n, ns, ts, ik, is, rfl, rfl, hn, -, hks, hk, h⟩ ⟨g1, g2, g3⟩
    obtain ⟨i1, i2, i3⟩ := ih h g3
    obtain ⟨k1, k2, k3⟩ := ihk hk g2
    have hnn : ∀ i, ¬ t.TermAt n i := fun i hi => not_isTerm_isNt hi.isTerm ⟨x, hn⟩
    simp only [Forest.leaves, List.length_append]
    have lo : ∀ m ∈ is, ∀ i, t.TermAt m i → k + ks.leaves.length ≤ i := by
      intro m hm i hi
      obtain ⟨j, j1, -, j3⟩ := i1 m hm hi.isTerm
      rw [uniq hi j3]; exact j1
    have hi' : ∀ m ∈ ik, ∀ i, t.TermAt m i → i < k + ks.leaves.length := by
      intro m hm i hi
      obtain ⟨j, -, j1, j3⟩ := k1 m hm hi.isTerm
      rw [uniq hi j3]; exact j1
    refine ⟨?_, ?_, ?_⟩
    · intro m hm ht
      rcases List.mem_cons.1 hm with rfl | hm
      · exact absurd ht (fun h => not_isTerm_isNt h ⟨x, hn⟩)
      rcases List.mem_append.1 hm with hm | hm
      · obtain ⟨i, j1, j2, j3⟩ := k1 m hm ht
        exact ⟨i, by omega, by omega, j3⟩
      · obtain ⟨i, j1, j2, j3⟩ := i1 m hm ht
        exact ⟨i, by omega, by omega, j3⟩
    · intro i h1 h2
      by_cases hi : i < k + ks.leaves.length
      · obtain ⟨m, j1, j2⟩ := k2 i (by omega) (by omega)
        exact ⟨m, by simp [j1], j2⟩
      · obtain ⟨m, j1, j2⟩ := i2 i (by omega) (by omega)
        exact ⟨m, by simp [j1], j2⟩
    · intro a ha b hb i hai hbi
      rcases List.mem_cons.1 ha with rfl | ha
      · exact absurd hai (hnn i)
      rcases List.mem_cons.1 hb with rfl | hb
      · exact absurd hbi (hnn i)
      rcases List.mem_append.1 ha with ha | ha <;> rcases List.mem_append.1 hb with hb | hb
      · exact k3 a ha b hb i hai hbi
      · have := lo b hb i hbi; have := hi' a ha i hai; omega
      · have := lo a ha i hai; have := hi' b hb i hbi; omega
      · exact i3 a ha b hb i hai hbi

theorem Lay.placed_covers {f : Forest} : ∀ {k : Nat} {par : Option Nat} {tops ids : List Nat}, t.Shape →
    t.Lay par f tops ids → f.Placed k →
    ∀ i, (∃ n ∈ tops, t.Covers n i) ↔ k ≤ i ∧ i < k + f.leaves.length := by
  induction f with
  | nil => rintro k par tops ids - ⟨rfl, rfl⟩ - i; simp [Forest.leaves]
  | leaf e x r ih =>
    rintro k par tops ids S ⟨n, ns, is, rfl, rfl, hn, -, hno, h⟩ ⟨g1, g2⟩ i
    have hta : ∀ i, t.TermAt n i ↔ i = k := by
      intro i; constructor
      · rintro ⟨y, hy, hs⟩
        rw [hn] at hy; simp at hy; subst hy; rw [g1] at hs; exact (congrArg Span.start hs).symm
      · rintro rfl; exact ⟨x, hn, g1⟩
    simp only [List.mem_cons, exists_eq_or_imp, ih S h g2, covers_term S ⟨x, hn⟩, hta, Forest.leaves,
      List.length_cons]
    omega
  | node e x ks r ihk ih =>
    rintro k par tops ids S ⟨n, ns, ts, ik, is, rfl, rfl, hn, -, hks, hk, h⟩ ⟨g1, g2, g3⟩ i
    simp only [List.mem_cons, exists_eq_or_imp, ih S h g3, covers_nt ⟨x, hn⟩, hks, ihk S hk g2, Forest.leaves,
      List.length_append]
    omega

theorem attach_congr {par : Option Nat} {n : Nat} {e : Option Str} (h : t'.graph.edges = t.graph.edges) :
    t'.Attach par n e ↔ t.Attach par n e := by
  cases par <;> simp only [Attach, h]

/-- Resetting the spans of a laid out forest. -/
theorem Lay.reseq (S : t.Shape) (E : SpanEdit t t') (W : t'.WF) {f : Forest} : ∀ {k : Nat} {par : Option Nat} {tops ids : List Nat},
    t.Lay par f tops ids → f.Placed k → t'.Lay par (f.respan k) tops ids := by
  have hedges : t'.graph.edges = t.graph.edges := by rw [E.graph]
  have hch : ∀ p c, t'.IsChild p c ↔ t.IsChild p c := fun p c => by rw [E.isChild]
  induction f with
  | nil => intro k par tops ids h _; exact h
  | leaf e x r ih =>
    rintro k par tops ids ⟨n, ns, is, rfl, rfl, hn, ha, hno, h⟩ ⟨g1, g2⟩
    exact ⟨n, ns, is, rfl, rfl, E.term n x hn, (attach_congr hedges).2 ha, fun c => by rw [hch]; exact hno c, ih h g2⟩
  | node e x ks r ihk ih =>
    rintro k par tops ids ⟨n, ns, ts, ik, is, rfl, rfl, hn, ha, hks, hk, h⟩ ⟨g1, g2, g3⟩
    refine ⟨n, ns, ts, ik, is, rfl, rfl, ?_, (attach_congr hedges).2 ha, fun c => by rw [hch]; exact hks c,
      ihk hk g2, ih h g3⟩
    obtain ⟨sp, hsp⟩ := E.nt n x hn
    obtain ⟨v1, v2⟩ := W.spans n _ hsp
    have hc : ∀ i, sp.contains i = true ↔ (⟨k, k + ks.leaves.length, none⟩ : Span).contains i = true := by
      intro i
      rw [v2 i, E.covers, covers_nt ⟨x, hn⟩, Forest.contains_interval, ← hk.placed_covers S g2 i]
      simp only [hks]
    have hpos : 0 < ks.leaves.length := by
      have := (Forest.Placed.seq g2).leaves_pos (Forest.respan_ne g1)
      rwa [Forest.leaves_respan] at this
    have hv : (⟨k, k + ks.leaves.length, none⟩ : Span).Valid := ⟨by simp; omega, by simp, by simp⟩
    have : sp = ⟨k, k + ks.leaves.length, none⟩ := v1.ext hv (by
      ext i; rw [← Span.contains_iff, ← Span.contains_iff]; exact hc i)
    rw [hsp, this]

end Tree

namespace Decoding

open Lumberjack.Tree

theorem isChild_of_out {t : Tree} (hp : ∀ r ∈ t.graph.edges, r.w = .primary none) (p c : Nat) :
    t.IsChild p c ↔ c ∈ outNeighbors t.graph p := by
  unfold IsChild outNeighbors Graph.outEdges
  simp only [List.mem_map, List.mem_filter, decide_eq_true_eq]
  constructor
  · rintro ⟨r, h1, h2, h3, -⟩; exact ⟨r, ⟨h1, by simpa using h2⟩, h3⟩
  · rintro ⟨r, ⟨h1, h2⟩, h3⟩; exact ⟨r, h1, by simpa using h2, h3, by rw [hp r h1]; rfl⟩

/-- A built forest is laid out, up to the spans of inner nodes. -/
theorem Built.lay {t : Tree} (hp : ∀ r ∈ t.graph.edges, r.w = .primary none) {F : Forest} :
    ∀ {par : Option Nat} {tops ids : List Nat}, Built t.graph F tops ids →
    (∀ p, par = some p → ∀ c ∈ tops, t.IsChild p c) →
    ∃ F', t.Lay par F' tops ids ∧ F'.leaves = F.leaves ∧ (∀ k, F.Placed k → F'.Placed k) ∧ (F' = .nil ↔ F = .nil) ∧
      ∀ k, F'.respan k = F.respan k := by
  have att : ∀ {par : Option Nat} {n : Nat}, (∀ p, par = some p → t.IsChild p n) → t.Attach par n none := by
    intro par n h
    cases par with
    | none => rfl
    | some p =>
      obtain ⟨r, h1, h2, h3, -⟩ := h p rfl
      exact ⟨r, h1, h2, h3, hp r h1⟩
  induction F with
  | nil =>
    rintro par tops ids ⟨rfl, rfl⟩ _
    exact ⟨.nil, ⟨rfl, rfl⟩, rfl, fun _ h => h, Iff.rfl, fun _ => rfl⟩
  | leaf e x r ih =>
    rintro par tops ids ⟨n, ns, is, rfl, rfl, rfl, h1, h2, h3⟩ hpar
    obtain ⟨r', q1, q2, q3, q4, q5⟩ := ih h3 (fun p hp c hc => hpar p hp c (by simp [hc]))
    refine ⟨.leaf none x r', ⟨n, ns, is, rfl, rfl, h1, att (fun p hp => hpar p hp n (by simp)), ?_, q1⟩,
      by simp [Forest.leaves, q2], fun k h => ⟨h.1, q3 _ h.2⟩, by simp, fun k => by simp [Forest.respan, q5]⟩
    intro c
    rw [isChild_of_out hp, h2]; simp
  | node e x ks r ihk ih =>
    rintro par tops ids ⟨n, ns, ts, ik, is, s, rfl, rfl, rfl, h1, h2, h3, h4⟩ hpar
    obtain ⟨r', q1, q2, q3, q4, q5⟩ := ih h4 (fun p hp c hc => hpar p hp c (by simp [hc]))
    have hc : ∀ c, t.IsChild n c ↔ c ∈ ts := by
      intro c; rw [isChild_of_out hp, h2]; simp
    obtain ⟨k', p1, p2, p3, p4, p5⟩ := ihk (par := some n) h3 (fun p hp c h => by
      injection hp with hp; subst hp; exact (hc c).2 h)
    refine ⟨.node none { x with span := s } k' r',
      ⟨n, ns, ts, ik, is, rfl, rfl, h1, att (fun p hp => hpar p hp n (by simp)), hc, p1, q1⟩,
      by simp [Forest.leaves, q2, p2], fun k h => ⟨by rw [Ne, p4]; exact h.1, p3 _ h.2.1, ?_⟩, by simp,
      fun k => by simp [Forest.respan, q5, p5, p2]⟩
    rw [p2]; exact q3 _ h.2.2

/-- A graph that is nothing but a built one-tree forest becomes a projective tree when its spans are set. -/
theorem built_reset {g : Graph} {F : Forest} {root : Nat} {ids : List Nat} (G : g.OK)
    (hp : ∀ r ∈ g.edges, r.w = .primary none) (ht : (g.edges.map (·.tgt)).Nodup)
    (h : Built g F [root] ids) (hnd : ids.Nodup) (hlive : ∀ n, g.Live n → n ∈ ids) (hpl : F.Placed 0) :
    ∃ t', (⟨g, F.leaves.length, root, 0⟩ : Tree).resetNtSpans = .ok t' ∧ t'.WF ∧ t'.isProjective = true ∧
      t'.Is (F.respan 0) ∧ SpanEdit ⟨g, F.leaves.length, root, 0⟩ t' := by
  obtain ⟨F', q1, q2, q3, q4, q5⟩ := Built.lay (t := ⟨g, F.leaves.length, root, 0⟩) hp (par := none) h
    (fun p h => by simp at h)
  have hpl' := q3 0 hpl
  have hsimple : ∀ r ∈ g.edges, ∀ s ∈ g.edges, r.src = s.src → r.tgt = s.tgt →
      r.w.isPrimary = true → s.w.isPrimary = true → r = s := by
    intro r hr s hs _ he _ _
    exact List.inj_on_of_nodup_map ht hr hs he
  have S : (⟨g, F.leaves.length, root, 0⟩ : Tree).Shape := shape_of_lay G q1 hnd hlive hsimple hpl'.full
  obtain ⟨v1, v2, v3⟩ := q1.placed hpl'
  have Z : (⟨g, F.leaves.length, root, 0⟩ : Tree).Sentence := by
    refine ⟨?_, ?_, ?_⟩
    · intro n hn
      obtain ⟨i, -, i2, i3⟩ := v1 n (hlive n hn.live) hn
      exact ⟨i, by rw [q2] at i2; simpa using i2, i3⟩
    · intro i hi
      obtain ⟨n, -, hn⟩ := v2 i (Nat.zero_le _) (by rw [q2]; simpa using hi)
      exact ⟨n, hn⟩
    · intro n m i hn hm
      exact v3 n (hlive n hn.isTerm.live) m (hlive m hm.isTerm.live) i hn hm
  obtain ⟨t', r1, E, W⟩ := resetNtSpans_wf G S Z
  have L := q1.reseq S E W hpl'
  rw [q5] at L
  have hseq := hpl.seq
  have hedges : t'.graph.edges = g.edges := by rw [E.graph]
  have hd : ∀ n, ¬ t'.Disc n := by
    intro n hn
    refine L.noGap hseq.noGap n (hlive n ?_) hn
    obtain ⟨x, hx, -⟩ := hn
    cases h : g.node? n with
    | none => rw [E.none n h] at hx; simp at hx
    | some y => exact ⟨y, h⟩
  refine ⟨t', r1, W, (isProjective_iff W.count).2 hd, ?_, E⟩
  have hr : t'.root = root := E.root
  unfold Tree.Is
  rw [hr]
  exact L.rep W.shape (fun _ n hn => by rw [hr]; simpa using hn) hseq.ordered

theorem empty_ok : Graph.empty.OK := by constructor <;> simp [Graph.empty]

theorem decodeLoop_single {idx : Nat} {c : Option Str} {x : Terminal} {s : DecState}
    {g1 g2 : Graph} {ti : Nat} {nd : Node} (h : s.graph.addNode (.term (chained c x)) = (g1, ti))
    (h2 : g1.removeNode s.root = some (g2, nd)) :
    decodeLoop 1 [(((none, c), x), idx)] s = .ok { s with graph := g2, root := ti } := by
  obtain ⟨rfl, rfl⟩ : (s.graph.addNode (.term (chained c x))).1 = g1 ∧
      (s.graph.addNode (.term (chained c x))).2 = ti := by rw [h]; exact ⟨rfl, rfl⟩
  have : decodeLoop 1 [(((none, c), x), idx)] s =
      (match (s.graph.addNode (.term (chained c x))).1.removeNode s.root with
        | some (g2, _) => .ok { s with graph := g2, root := (s.graph.addNode (.term (chained c x))).2 }
        | none => .ok { s with graph := (s.graph.addNode (.term (chained c x))).1,
                               root := (s.graph.addNode (.term (chained c x))).2 }) := by
    cases c <;> rfl
  rw [this, h2]

theorem Open.nt {g : Graph} {Z : Stack} : ∀ {q : Option Nat} {ps ids : List Nat}, Open g q Z ps ids →
    ∀ p ∈ ps, ∃ x, g.node? p = some (.nt x) := by
  induction Z with
  | nil => rintro q ps ids ⟨rfl, rfl⟩; simp
  | cons f Z ih =>
    obtain ⟨x, d⟩ := f
    rintro q ps ids ⟨p, ps', ks, ik, is, s, rfl, rfl, h1, h2, h3, h4⟩ p' hp
    rcases List.mem_cons.1 hp with rfl | hp
    · exact ⟨_, h1⟩
    · exact ih h4 p' hp

/-- A count of zero: the loop panics. -/
theorem Loop.zero {s : DecState} {Z : Stack} {ps : List Nat} (L : Loop s Z ps) {n idx : Nat} {a : AbsAncestor}
    {c : Option Str} {x : Terminal} (ha : a.common = 0)
    (rest : List (((Option AbsAncestor × Option Str) × Terminal) × Nat)) :
    decodeLoop n ((((some a, c), x), idx) :: rest) s = .panic := by
  obtain ⟨g1, e1, I1, ht⟩ := L.inv.addTerm (.term (chained c x))
  obtain ⟨ids, P, O⟩ := I1.lay
  have hroot : s.root ∈ ps := List.mem_of_getLast? L.root
  obtain ⟨y, hy⟩ := O.nt s.root hroot
  have hset := setCommonLabel_nt (g := g1) (n := s.root) (x := y) (s := y.span) a.label hy
  rw [decodeLoop_some e1, ha]
  show (Res.ok (g1, s.root) >>= _) = _
  simp only [Res.ok_bind]
  rw [hset]
  simp only [Res.ok_bind]
  have key : ∀ (nd : Node) (tgt : Nat) (k : Graph × Nat → Res DecState), tgt ∈ ps → (∀ q, k q = .panic) →
      ((g1.setNode s.root nd).addEdge tgt s.graph.nodes.length (.primary none) >>= k) = .panic := by
    intro nd tgt k hmem hk
    obtain ⟨z, hz⟩ := O.nt tgt hmem
    obtain ⟨g2, e, q1, -⟩ := Graph.addEdge_spec (I1.ok.setNode ⟨_, hy⟩ nd)
      (a := tgt) (b := s.graph.nodes.length)
      (by unfold Graph.Live; rw [Graph.node?_setNode ⟨_, hy⟩]; split; exact ⟨_, rfl⟩; exact ⟨_, hz⟩)
      (by unfold Graph.Live; rw [Graph.node?_setNode ⟨_, hy⟩]; split; exact ⟨_, rfl⟩; exact ⟨_, ht⟩) (.primary none)
    rw [q1]
    exact hk _
  refine key _ _ _ ?_ (fun q => rfl)
  rcases L.prev with h | ⟨h, -⟩
  · rw [h]
    cases hps : ps with
    | nil => rw [hps] at hroot; simp at hroot
    | cons p ps' =>
      simp only [List.head?_cons]
      rw [if_neg (by omega)]
      simp
  · rw [h]; exact hroot

theorem decode_start : ∃ g0, Graph.empty.addNode (.nt (NonTerminal.new dummy (Span.ofIdx 0))) = (g0, 0) ∧
    Loop ⟨g0, 0, none, 0⟩ [(fresh, .nil)] [0] := by
  obtain ⟨g0, a1, a2, a3, a4, a5, a6⟩ := Ptb.addNode_free (g := Graph.empty) empty_ok rfl
    (.nt (NonTerminal.new dummy (Span.ofIdx 0)))
  have hed : g0.edges = [] := a6
  refine ⟨g0, a1, ⟨⟨a2, a3, by simp [hed], by simp [hed], by simp, [0], ?_, ?_⟩, rfl, rfl, .inr ⟨rfl, rfl⟩⟩⟩
  · show ([0] ++ []).Perm (List.range g0.nodes.length)
    rw [a4]; exact List.Perm.refl _
  · exact ⟨0, [], [], [], [], Span.ofIdx 0, rfl, rfl, by show g0.node? 0 = _; rw [a5]; rfl,
      by rw [outNeighbors_nil (by simp [hed])]; rfl, ⟨rfl, rfl⟩, rfl, rfl⟩

theorem loop_panic {n : Nat} (l : List ((Option AbsAncestor × Option Str) × Terminal)) :
    ∀ {s : DecState} {Z : Stack} {ps : List Nat} {i : Nat}, Loop s Z ps → (n = 1 → l.length = 1) →
    (∃ p ∈ l, ∃ a, p.1.1 = some a ∧ a.common = 0) → decodeLoop n (l.zipIdx i) s = .panic := by
  induction l with
  | nil => rintro s Z ps i - - ⟨p, hp, -⟩; simp at hp
  | cons f l ih =>
    rintro s Z ps i L hn ⟨p, hp, a, ha, h0⟩
    obtain ⟨⟨b, c⟩, x⟩ := f
    rw [List.zipIdx_cons]
    by_cases hb : ∃ a', b = some a' ∧ a'.common = 0
    · obtain ⟨a', rfl, h⟩ := hb
      exact L.zero h _
    · have hpl : p ∈ l := by
        rcases List.mem_cons.1 hp with rfl | h
        · exact absurd ⟨a, ha, h0⟩ hb
        · exact h
      have hn1 : n ≠ 1 := by
        intro h
        have := hn h
        simp at this
        rw [this] at hpl
        simp at hpl
      obtain ⟨s1, ps1, k1, L1⟩ := L.step (n := n) (idx := i) (a := b) (c := c) (x := x)
        (fun d hd => by
          by_contra h
          exact hb ⟨d, hd, by omega⟩) (fun h => absurd h hn1) (l.zipIdx (i + 1))
      rw [k1]
      exact ih L1 (fun h => absurd h hn1) ⟨p, hpl, a, ha, h0⟩

/-- Decoding an encoding with a count of zero panics. -/
theorem decode_zero {e : AbsEncoding} {ts : List Terminal} (hl : e.length = ts.length)
    (h : ∃ p ∈ e, ∃ a, p.1 = some a ∧ a.common = 0) : decode e ts = .panic := by
  obtain ⟨g0, a1, L⟩ := decode_start
  obtain ⟨p, hp, a, ha, h0⟩ := h
  obtain ⟨i, hi, rfl⟩ := List.getElem_of_mem hp
  have := loop_panic (n := ts.length) (e.zip ts) (i := 0) L (by rw [List.length_zip]; omega)
    ⟨(e[i], ts[i]), List.mem_iff_getElem.2 ⟨i, by rw [List.length_zip]; omega, by simp⟩, a, ha, h0⟩
  unfold decode
  rw [a1]
  show (decodeLoop ts.length (e.zip ts).zipIdx ⟨g0, 0, none, 0⟩ >>= _) = _
  rw [this]
  rfl

theorem decode_nil (e : AbsEncoding) (ts : List Terminal) (h : e = [] ∨ ts = []) : decode e ts = .panic := by
  have hz : e.zip ts = [] := by rcases h with rfl | rfl <;> simp
  unfold decode
  rw [hz]
  rfl

/-- What `decode` builds, and how. -/
theorem decode_spec' {e : AbsEncoding} {ts : List Terminal} (hl : e.length = ts.length) (hne : ts ≠ [])
    (hp : ∀ p ∈ e, ∀ a, p.1 = some a → 1 ≤ a.common)
    (hs : ts.map (·.span) = (List.range ts.length).map Span.ofIdx) :
    ∃ t, decode e ts = .ok t ∧ t.WF ∧ t.isProjective = true ∧ t.Is ((forest e ts).respan 0) ∧
      ∃ g0 s, Graph.empty.addNode (.nt (NonTerminal.new dummy (Span.ofIdx 0))) = (g0, 0) ∧
        decodeLoop ts.length (e.zip ts).zipIdx ⟨g0, 0, none, 0⟩ = .ok s ∧
        SpanEdit ⟨s.graph, ts.length, s.root, 0⟩ t := by
  obtain ⟨f1, f2, f3, x, d, f4, f5⟩ := forest_inv hl hne hp
  have hlen : (forest e ts).leaves.length = ts.length := by
    rw [f3, List.length_map, List.length_zip, hl, Nat.min_self]
  have hpl : (forest e ts).Placed 0 := by
    refine f1.placed ?_
    rw [hlen, ← List.range_eq_range', ← hs, f3, List.map_map]
    have : ((fun x : Terminal => x.span) ∘ fun p : (Option AbsAncestor × Option Str) × Terminal => chained p.1.2 p.2) =
        (fun x : Terminal => x.span) ∘ Prod.snd := by
      funext p
      simp only [Function.comp_apply]
      unfold chained
      cases p.1.2 <;> rfl
    rw [this, ← List.map_map, List.map_snd_zip (by omega)]
  by_cases hsp : ∃ c, e = [(none, c)]
  · obtain ⟨c, rfl⟩ := hsp
    obtain ⟨y, rfl⟩ := List.length_eq_one_iff.1 hl.symm
    obtain ⟨g0, a1, a2, a3, a4, a5, a6⟩ := Ptb.addNode_free (g := Graph.empty) empty_ok rfl
      (.nt (NonTerminal.new dummy (Span.ofIdx 0)))
    obtain ⟨g1, h1, h2, h3, h4, h5, h6⟩ := Ptb.addNode_free a2 a3 (.term (chained c y))
    have hlen0 : g0.nodes.length = 1 := a4
    rw [hlen0] at h1 h4 h5
    have hroot : g1.node? 0 = some (.nt (NonTerminal.new dummy (Span.ofIdx 0))) := by
      rw [h5, if_neg (by omega), a5]; rfl
    obtain ⟨g2, r1, r2, r3, r4, r5⟩ := Graph.removeNode_spec h2 hroot
    have hed : g2.edges = [] := by rw [r2, h6, a6]; rfl
    have hB : Built g2 (.leaf none (chained c y) .nil) [1] [1] :=
      ⟨1, [], [], rfl, rfl, rfl, by rw [r3, if_neg (by omega), h5, if_pos rfl],
        outNeighbors_nil (by rw [hed]; simp), rfl, rfl⟩
    obtain ⟨t, t1, t2, t3, t4, t5⟩ := built_reset (F := .leaf none (chained c y) .nil) r5 (by rw [hed]; simp) (by rw [hed]; simp) hB (by simp) (by
      rintro n ⟨nd, hn⟩
      rw [r3] at hn
      split at hn
      · simp at hn
      · rw [h5] at hn
        split at hn
        · rename_i h; simp [h]
        · have := Graph.lt_of_node? hn
          rw [hlen0] at this; omega) hpl
    have a1' : Graph.empty.addNode (.nt (NonTerminal.new dummy (Span.ofIdx 0))) = (g0, 0) := a1
    refine ⟨t, ?_, t2, t3, t4, g0, _, a1', decodeLoop_single h1 r1, t5⟩
    unfold decode
    rw [a1']
    show (decodeLoop 1 [(((none, c), y), 0)] ⟨g0, 0, none, 0⟩ >>= _) = _
    rw [decodeLoop_single h1 r1]
    exact t1
  · rw [f5 (fun c h => hsp ⟨c, h⟩)] at hpl hlen ⊢
    obtain ⟨g0, a1', L0⟩ := decode_start
    obtain ⟨s, ps, s1, L⟩ := decodeLoop_run (n := ts.length) (e.zip ts) (i := 0) L0
      (fun q hq b hb => hp q.1 (List.of_mem_zip (a := q.1) (b := q.2) hq).1 b hb) (by
        intro hn q hq hq'
        rw [hn] at hl
        obtain ⟨⟨a, c⟩, rfl⟩ := List.length_eq_one_iff.1 hl
        obtain ⟨y, rfl⟩ := List.length_eq_one_iff.1 hn
        simp at hq
        subst hq
        simp at hq'
        exact hsp ⟨c, by rw [hq']⟩)
    have hrun := (run_inv (e.zip ts) (Z := [(fresh, .nil)]) (by simp)
      (by intro f hf; simp at hf; subst hf; trivial)
      (fun p hp' a ha => hp p.1 (List.of_mem_zip (a := p.1) (b := p.2) hp').1 a ha)).1
    have hpos := List.length_pos_iff.2 hrun
    have I := L.inv.pop ((run (e.zip ts) [(fresh, .nil)]).length - 1) (by omega)
    have f4' : pop ((run (e.zip ts) [(fresh, .nil)]).length - 1) (run (e.zip ts) [(fresh, .nil)]) = [(x, d)] := f4
    rw [f4'] at I
    have hps : ps.drop ((run (e.zip ts) [(fresh, .nil)]).length - 1) = [s.root] := by
      have h1 := L.root
      have h2 := L.inv.length
      have h3 := I.length
      obtain ⟨q, hq⟩ := List.length_eq_one_iff.1 h3
      rw [hq]
      have h4 : (ps.drop ((run (e.zip ts) [(fresh, .nil)]).length - 1)).getLast? = ps.getLast? := by
        rw [List.getLast?_drop, if_neg (by omega)]
      rw [hq, h1] at h4
      simpa using h4
    rw [hps] at I
    obtain ⟨ids, P, q, ps', ks, ik, is, sp, e1, rfl, l1, l2, l3, e2, rfl⟩ := I.lay
    simp only [List.cons.injEq] at e1
    obtain ⟨rfl, -⟩ := e1
    rw [List.append_nil] at P
    have hB : Built s.graph (.node none x d .nil) [s.root] (s.root :: (ik ++ [])) :=
      ⟨s.root, [], ks, ik, [], sp, rfl, rfl, rfl, l1, by rw [l2]; rfl, l3, rfl, rfl⟩
    obtain ⟨t, t1, t2, t3, t4, t5⟩ := built_reset I.ok I.plain I.tgt hB (P.nodup_iff.2 List.nodup_range) (by
      rintro n ⟨nd, hn⟩
      rw [P.mem_iff, List.mem_range]
      exact Graph.lt_of_node? hn) hpl
    rw [hlen] at t5
    refine ⟨t, ?_, t2, t3, t4, g0, s, a1', s1, t5⟩
    unfold decode
    rw [a1']
    show (decodeLoop ts.length (e.zip ts).zipIdx ⟨g0, 0, none, 0⟩ >>= _) = _
    rw [s1]
    rw [hlen] at t1
    exact t1

/-- What `decode` builds. -/
theorem decode_spec {e : AbsEncoding} {ts : List Terminal} (hl : e.length = ts.length) (hne : ts ≠ [])
    (hp : ∀ p ∈ e, ∀ a, p.1 = some a → 1 ≤ a.common)
    (hs : ts.map (·.span) = (List.range ts.length).map Span.ofIdx) :
    ∃ t, decode e ts = .ok t ∧ t.WF ∧ t.isProjective = true ∧ t.Is ((forest e ts).respan 0) := by
  obtain ⟨t, h1, h2, h3, h4, -⟩ := decode_spec' hl hne hp hs
  exact ⟨t, h1, h2, h3, h4⟩

end Decoding
end Lumberjack
