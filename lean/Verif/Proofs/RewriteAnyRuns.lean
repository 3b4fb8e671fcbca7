import Verif.Proofs.RewriteAny
import Verif.Proofs.RewriteRuns

/-!
# Inserting nodes above runs of words in a tree with gaps
-/

namespace Lumberjack
namespace Tree

variable {t t' : Tree}

theorem full_span {s : Span} {k m : Nat} (hv : s.Valid) (hkm : k < m)
    (h : ∀ i, i ∈ s.indices ↔ k ≤ i ∧ i < m) : s = ⟨k, m, none⟩ := by
  refine interval_span hv ?_ hkm h
  cases hs : s.skips with
  | none => rfl
  | some sk =>
    exfalso
    have hne : sk ≠ ∅ := fun e => hv.nonempty (by rw [hs, e])
    obtain ⟨j, hj⟩ := Finset.nonempty_iff_ne_empty.2 hne
    have hb := hv.inside sk hs j hj
    have hnot : j ∉ s.indices := fun hm => ((Span.mem_indices.1 hm).2.2 sk hs) hj
    have h1 := (h s.start).1 (Span.mem_indices.2 ⟨Nat.le_refl _, hv.lt, fun sk' e hm => by
      rw [hs] at e; cases e
      have := hv.inside sk hs _ hm; omega⟩)
    have h2 := (h (s.stop - 1)).1 (Span.mem_indices.2 ⟨by omega, by omega, fun sk' e hm => by
      rw [hs] at e; cases e
      have := hv.inside sk hs _ hm; omega⟩)
    exact hnot ((h j).2 (by omega))

section inserted

variable {P : NonTerminal → Bool} {l : Str}

/-- A longest run and the node above it. -/
theorem Inserted.run_node (I : Inserted t (t.Moved P) (fun _ => l) t') (W : t.WF)
    {p k : Nat} {rids : List Nat} {run : Forest} (hne : rids ≠ []) (hrep : t'.Rep rids run) (hq : run.Seq k)
    (hlen : run.leaves.length = rids.length)
    (hpos : ∀ (i : Nat) c, rids[i]? = some c → t.Moved P p c ∧ t.TermAt c (k + i))
    (hleft : ∀ d i, t.Moved P p d → t.TermAt d i → i + 1 ≠ k)
    (hright : ∀ d, t.Moved P p d → ¬ t.TermAt d (k + rids.length)) :
    ∃ n, t'.IsChild p n ∧ (∀ d, t'.IsChild n d ↔ d ∈ rids) ∧
      t'.Rep [n] (.node none (NonTerminal.new l run.runSpan) run .nil) := by
  have hl : 0 < rids.length := List.length_pos_iff.2 hne
  have h0 : rids[0]? = some rids[0] := by simp [hl]
  obtain ⟨hK0, ht0⟩ := hpos 0 _ h0
  obtain ⟨n, hn1, hn2⟩ := I.cover _ _ hK0
  have hnl := (isChild_live I.wf.graph hn2).1
  obtain ⟨p', g1, g2, g3, ⟨s, g4⟩, g5⟩ := I.newAt W.sentence hnl hn1 hn2
  have : p' = p := W.shape.isChild_unique g1.2.1 hK0.2.1
  subst this
  have hkids : ∀ d, t'.IsChild n d ↔ d ∈ rids := by
    intro d
    rw [g5]
    constructor
    · rintro ⟨i, j, hi, hj, hc⟩
      have hi' : i = k := by simpa using hi.pos_unique ht0
      subst hi'
      have h1 : i ≤ j := by
        by_contra hlt
        obtain ⟨e, he, he'⟩ := hc (i - 1) (.inr ⟨by omega, by omega⟩)
        exact hleft e (i - 1) he he' (by omega)
      have h2 : j < i + rids.length := by
        by_contra hge
        obtain ⟨e, he, he'⟩ := hc (i + rids.length) (.inl ⟨by omega, by omega⟩)
        exact hright e he he'
      have hg : rids[j - i]? = some (rids[j - i]'(by omega)) := List.getElem?_eq_getElem _
      have := (hpos _ _ hg).2
      rw [Nat.add_sub_cancel' h1] at this
      rw [W.sentence.inj _ _ _ hj this]
      exact List.getElem_mem _
    · intro hd
      obtain ⟨i, hi, rfl⟩ := List.mem_iff_getElem.1 hd
      refine ⟨k, k + i, by simpa using ht0, (hpos i _ (by simp [hi])).2, fun m hm => ?_⟩
      have hm' : k ≤ m ∧ m ≤ k + i := by omega
      have hg : rids[m - k]? = some (rids[m - k]'(by omega)) := List.getElem?_eq_getElem _
      obtain ⟨q1, q2⟩ := hpos _ _ hg
      rw [Nat.add_sub_cancel' hm'.1] at q2
      exact ⟨_, q1, q2⟩
  have hspan : s = run.runSpan := by
    have hrn : run ≠ .nil := by
      rintro rfl
      simp [Forest.leaves] at hlen
      omega
    rw [hq.runSpan hrn, hlen]
    obtain ⟨v1, v2⟩ := I.wf.span_spec g4
    refine full_span v1 (by omega) fun i => ?_
    · rw [show s = (Node.nt (NonTerminal.new l s)).span from rfl, v2]
      constructor
      · rintro ⟨m, hd, hm⟩
        rcases hd.cases_child with e | ⟨c, h1, h2⟩
        · subst e
          obtain ⟨y, hy, _⟩ := hm
          rw [g4] at hy; cases hy
        · obtain ⟨i', hi', rfl⟩ := List.mem_iff_getElem.1 ((hkids c).1 h1)
          have q := (hpos i' rids[i'] (by simp [hi'])).2
          have := I.wf.shape.dom_term (I.termAt q).isTerm h2
          rw [this] at hm
          have := hm.pos_unique (I.termAt q)
          omega
      · rintro ⟨h1, h2⟩
        have hg : rids[i - k]? = some (rids[i - k]'(by omega)) := List.getElem?_eq_getElem _
        obtain ⟨q1, q2⟩ := hpos _ _ hg
        rw [Nat.add_sub_cancel' h1] at q2
        exact ⟨_, .single ((hkids _).2 (List.getElem_mem _)), I.termAt q2⟩
  refine ⟨n, g2, hkids, n, [], rids, rfl, by rw [← hspan]; exact g4, g3, ⟨fun c => (hkids c).symm, ?_⟩, hrep, rfl⟩
  have := hq.starts.1
  rw [← hrep.starts, List.pairwise_map] at this
  exact this

/-- Nodes that stay start where they did. -/
theorem Inserted.start_eq {K : Nat → Nat → Prop} {lab : Nat → Str} (I : Inserted t K lab t') {n : Nat} (h : t.Live n) :
    t'.startOf n = t.startOf n := by
  unfold startOf
  rw [I.old n h]

theorem Rep.nonempty_iff {ids : List Nat} {f : Forest} (h : t.Rep ids f) : f = .nil ↔ ids = [] := by
  constructor
  · rintro rfl
    exact h
  · rintro rfl
    exact rep_empty h

/-- The forest after nodes have been inserted: for nodes that keep their place, and for the children of a node with `P`,
of which `done` have been dealt with and `rids` are the run so far. -/
theorem Inserted.rep_runs (I : Inserted t (t.Moved P) (fun _ => l) t') (W : t.WF) (f : Forest) :
    (∀ ids : List Nat, t.Rep ids f → (∀ c ∈ ids, ∀ p, ¬ t.Moved P p c) → t'.Rep ids (f.groupedRuns P l)) ∧
    (∀ (p : Nat) (x : NonTerminal) (done rids ids : List Nat) (run : Forest) (k : Nat), t.graph.node? p = some (.nt x) → P x = true →
      (∀ c, t.IsChild p c ↔ c ∈ done ∨ c ∈ rids ∨ c ∈ ids) → t.Rep ids f → t'.Rep rids run → run.Seq k →
      run.leaves.length = rids.length → ids.Pairwise (fun a b => t.startOf a < t.startOf b) →
      (rids ≠ [] → ∀ m ∈ ids, k + rids.length ≤ t.startOf m) →
      (∀ (i : Nat) c, rids[i]? = some c → t.Moved P p c ∧ t.TermAt c (k + i)) →
      (∀ d ∈ done, ∀ m, m ∈ rids ∨ m ∈ ids → t.startOf d < t.startOf m ∧ (t.Moved P p d → t.startOf d + 1 ≠ t.startOf m)) →
      ∃ ids', t'.Rep ids' (Forest.bundleRuns l run (f.groupedRuns P l)) ∧
        (∀ c, c ∈ ids' ↔ t'.IsChild p c ∧ ∃ d, (d ∈ rids ∨ d ∈ ids) ∧ t'.Dom c d) ∧
        ids'.Pairwise (fun a b => t'.startOf a < t'.startOf b) ∧ ∀ c ∈ ids', ∀ d ∈ done, t.startOf d < t'.startOf c) := by
  have W' := I.wf
  have same : ∀ {p a b : Nat} {d : Nat}, t'.IsChild p a → t'.IsChild p b → t'.Dom a d → t'.Dom b d → a = b := by
    intro p a b d ha hb h1 h2
    rcases W'.shape.dom_linear h1 h2 with h | h
    · exact W'.shape.siblings_not_dom W'.graph ha hb h
    · exact (W'.shape.siblings_not_dom W'.graph hb ha h).symm
  have single : ∀ {a : List Nat} {b i c : Nat}, (a ++ [b])[i]? = some c → (a[i]? = some c) ∨ (i = a.length ∧ c = b) := by
    intro a b i c h
    by_cases hi : i < a.length
    · rw [List.getElem?_append_left hi] at h; exact .inl h
    · rw [List.getElem?_append_right (by omega)] at h
      obtain ⟨h1, h2⟩ := List.getElem?_eq_some_iff.1 h
      simp only [List.length_singleton] at h1
      simp only [List.getElem_singleton] at h2
      exact .inr ⟨by omega, h2.symm⟩
  -- a run that ends before what follows
  have ends : ∀ {p k : Nat} {done rids ids : List Nat} {run : Forest}, (∀ c, t.IsChild p c ↔ c ∈ done ∨ c ∈ rids ∨ c ∈ ids) →
      rids ≠ [] → t'.Rep rids run → run.Seq k → run.leaves.length = rids.length →
      (∀ (i : Nat) c, rids[i]? = some c → t.Moved P p c ∧ t.TermAt c (k + i)) →
      (∀ m ∈ ids, k + rids.length ≤ t.startOf m) → (∀ m ∈ ids, t.Moved P p m → k + rids.length ≠ t.startOf m) →
      (∀ d ∈ done, ∀ m, m ∈ rids ∨ m ∈ ids → t.startOf d < t.startOf m ∧ (t.Moved P p d → t.startOf d + 1 ≠ t.startOf m)) →
      ∃ n, t'.IsChild p n ∧ (∀ d, t'.IsChild n d ↔ d ∈ rids) ∧ t'.startOf n = k ∧ (∀ d ∈ done, t.startOf d < k) ∧
        t'.Rep [n] (.node none (NonTerminal.new l run.runSpan) run .nil) := by
    intro p k done rids ids run hk hne hrun hq hlen hpos hids hids' hdone
    have hl : 0 < rids.length := List.length_pos_iff.2 hne
    have h0 : rids[0]? = some rids[0] := by simp [hl]
    have hs0 : t.startOf rids[0] = k := by simpa using (hpos 0 _ h0).2.start
    have hin : ∀ {d i : Nat}, d ∈ rids → t.TermAt d i → k ≤ i ∧ i < k + rids.length := by
      intro d i hd hi
      obtain ⟨j, hj, rfl⟩ := List.mem_iff_getElem.1 hd
      have := hi.pos_unique (hpos j _ (by simp [hj])).2
      omega
    have hdk : ∀ d ∈ done, t.startOf d < k ∧ (t.Moved P p d → t.startOf d + 1 ≠ k) := fun d hd => by
      have := hdone d hd rids[0] (.inl (List.getElem_mem _))
      rwa [hs0] at this
    obtain ⟨n, h1, h2, h3⟩ := I.run_node W hne hrun hq hlen hpos (by
        intro d i hd hi
        rcases (hk d).1 hd.2.1 with h | h | h
        · have := (hdk d h).2 hd
          rwa [hi.start] at this
        · have := hin h hi; omega
        · have := hids d h
          rw [hi.start] at this; omega) (by
        intro d hd hi
        rcases (hk d).1 hd.2.1 with h | h | h
        · have := (hdk d h).1
          rw [hi.start] at this; omega
        · have := hin h hi; omega
        · exact hids' d h hd hi.start.symm)
    refine ⟨n, h1, h2, ?_, fun d hd => (hdk d hd).1, h3⟩
    rw [← h3.firstStart]
    have hrn : run ≠ .nil := fun e => hne (hrun.nonempty_iff.1 e)
    simp only [Forest.firstStart, NonTerminal.new, hq.runSpan hrn]
  -- putting a run before what follows
  have join : ∀ {p k n : Nat} {done rids ids rest : List Nat} {run g : Forest}, rids ≠ [] → run ≠ .nil → t'.IsChild p n →
      (∀ d, t'.IsChild n d ↔ d ∈ rids) → t'.startOf n = k → (∀ d ∈ done, t.startOf d < k) →
      t'.Rep [n] (.node none (NonTerminal.new l run.runSpan) run .nil) → t'.Rep rest g →
      (∀ c, c ∈ rest ↔ t'.IsChild p c ∧ ∃ d, d ∈ ids ∧ t'.Dom c d) →
      rest.Pairwise (fun a b => t'.startOf a < t'.startOf b) → (∀ c ∈ rest, k < t'.startOf c) →
      (∀ c ∈ rest, ∀ d ∈ done, t.startOf d < t'.startOf c) →
      ∃ ids', t'.Rep ids' (Forest.close l run g) ∧
        (∀ c, c ∈ ids' ↔ t'.IsChild p c ∧ ∃ d, (d ∈ rids ∨ d ∈ ids) ∧ t'.Dom c d) ∧
        ids'.Pairwise (fun a b => t'.startOf a < t'.startOf b) ∧ ∀ c ∈ ids', ∀ d ∈ done, t.startOf d < t'.startOf c := by
    intro p k n done rids ids rest run g hne hrn h1 h2 hs hd h3 hg hmem hsort hk hdone
    refine ⟨n :: rest, ?_, fun c => ?_, List.pairwise_cons.2 ⟨fun c hc => by rw [hs]; exact hk c hc, hsort⟩, fun c hc d hd' => ?_⟩
    · rw [close_eq hrn]
      exact h3.append hg
    · rw [List.mem_cons, hmem]
      constructor
      · rintro (rfl | ⟨q1, d, q2, q3⟩)
        · obtain ⟨d, hd⟩ := List.exists_mem_of_ne_nil _ hne
          exact ⟨h1, d, .inl hd, .single ((h2 d).2 hd)⟩
        · exact ⟨q1, d, .inr q2, q3⟩
      · rintro ⟨q1, d, q2 | q2, q3⟩
        · exact .inl (same q1 h1 q3 (.single ((h2 d).2 q2)))
        · exact .inr ⟨q1, d, q2, q3⟩
    · rcases List.mem_cons.1 hc with rfl | hc
      · rw [hs]; exact hd d hd'
      · exact hdone c hc d hd'
  induction f with
  | nil =>
    refine ⟨fun ids h _ => h, ?_⟩
    intro p x done rids ids run k hpx hPx hk hf hrun hq hlen _ hids hpos hdone
    obtain rfl : ids = [] := hf
    by_cases hne : rids = []
    · subst hne
      obtain rfl : run = .nil := rep_empty hrun
      exact ⟨[], rfl, by simp, .nil, by simp⟩
    · obtain ⟨n, h1, h2, h3, h4, h5⟩ := ends hk hne hrun hq hlen hpos (by simp) (by simp) hdone
      exact join (ids := []) (rest := []) (g := .nil) hne (fun e => hne (hrun.nonempty_iff.1 e)) h1 h2 h3 h4 h5 rfl (by simp) .nil (by simp) (by simp)
  | leaf e x r ih =>
    refine ⟨?_, ?_⟩
    · rintro ids ⟨n, ns, rfl, h4, h5, h6⟩ hK
      refine ⟨n, ns, rfl, by rw [I.old n ⟨_, h4⟩, h4], ?_, ih.1 ns h6 fun c hc => hK c (List.mem_cons_of_mem _ hc)⟩
      rw [← h5]
      exact I.first n ⟨_, h4⟩ fun p d i hp' => absurd hp' (hK n List.mem_cons_self p)
    · rintro p y done rids ids run k hpx hPx hk ⟨n, ns, rfl, h4, h5, h6⟩ hrun hq hlen hsort hids hpos hdone
      obtain ⟨hs1, hs2⟩ := List.pairwise_cons.1 hsort
      have hch : t.IsChild p n := (hk n).2 (.inr (.inr List.mem_cons_self))
      have hM : t.Moved P p n := ⟨⟨y, hpx, hPx⟩, hch, x, h4⟩
      obtain ⟨j, _, hAt⟩ := W.sentence.pos n ⟨x, h4⟩
      have hxs : x.span = ⟨j, j + 1, none⟩ := by
        obtain ⟨x', h1, h2⟩ := hAt
        rw [h4] at h1; cases h1
        exact h2
      have hst : t.startOf n = j := hAt.start
      -- a new run that starts here
      have fresh : ∀ done' : List Nat, (∀ c, t.IsChild p c ↔ c ∈ done' ∨ c ∈ [n] ∨ c ∈ ns) →
          (∀ d ∈ done', ∀ m, m ∈ n :: ns → t.startOf d < t.startOf m ∧ (t.Moved P p d → t.startOf d + 1 ≠ t.startOf m)) →
          ∃ ids', t'.Rep ids' (Forest.bundleRuns l (.leaf e x .nil) (r.groupedRuns P l)) ∧
            (∀ c, c ∈ ids' ↔ t'.IsChild p c ∧ ∃ d, d ∈ n :: ns ∧ t'.Dom c d) ∧
            ids'.Pairwise (fun a b => t'.startOf a < t'.startOf b) ∧ ∀ c ∈ ids', ∀ d ∈ done', t.startOf d < t'.startOf c := by
        intro done' hk' hdone'
        have hlab : t'.inLabel n = e := by
          rw [← h5]
          refine I.first n ⟨_, h4⟩ fun p' d i hp' hd hdi hni => ?_
          obtain rfl : p' = p := W.shape.isChild_unique hp'.2.1 hch
          have hij := hAt.pos_unique hni
          rcases (hk' d).1 hd.2.1 with h | h | h
          · have := (hdone' d h n List.mem_cons_self).2 hd
            rw [hdi.start, hst] at this; omega
          · rw [List.mem_singleton.1 h] at hdi
            have := hAt.pos_unique hdi; omega
          · have := hs1 d h
            rw [hdi.start, hst] at this; omega
        obtain ⟨ids', i1, i2, i3, i4⟩ := ih.2 p y done' [n] ns (.leaf e x .nil) j hpx hPx hk' h6
          ⟨n, [], rfl, by rw [I.old n ⟨_, h4⟩, h4], hlab, rfl⟩ ⟨hxs, trivial⟩ rfl hs2
          (fun _ m hm => by have := hs1 m hm; simp only [List.length_singleton]; omega)
          (by
            intro i c hc
            obtain ⟨h1, h2⟩ := List.getElem?_eq_some_iff.1 hc
            simp only [List.length_singleton] at h1
            obtain rfl : i = 0 := by omega
            simp only [List.getElem_cons_zero] at h2
            subst h2
            exact ⟨hM, hAt⟩)
          (fun d hd m hm => hdone' d hd m (by simpa using hm))
        exact ⟨ids', i1, fun c => by rw [i2]; simp, i3, i4⟩
      show ∃ ids', t'.Rep ids' (Forest.bundleRuns l run (.leaf e x (r.groupedRuns P l))) ∧ _
      unfold Forest.bundleRuns
      by_cases hn : run = .nil
      · rw [if_pos hn]
        obtain rfl := hrun.nonempty_iff.1 hn
        obtain ⟨ids', i1, i2, i3, i4⟩ := fresh done (fun c => by rw [hk]; simp)
          (fun d hd m hm => hdone d hd m (.inr hm))
        exact ⟨ids', i1, fun c => by rw [i2]; simp, i3, i4⟩
      · rw [if_neg hn]
        have hne : rids ≠ [] := fun e => hn (hrun.nonempty_iff.2 e)
        have hz : 0 < rids.length := List.length_pos_iff.2 hne
        have hlast : rids[rids.length - 1]? = some (rids[rids.length - 1]'(by omega)) := List.getElem?_eq_getElem _
        rw [hq.runSpan hn, hlen, hxs]
        have hge := hids hne n List.mem_cons_self
        rw [hst] at hge
        split
        · -- the run goes on
          rename_i hj
          simp only at hj
          subst hj
          have hlab : t'.inLabel n = none := by
            obtain ⟨q1, q2⟩ := hpos _ _ hlast
            refine I.follow p n _ _ hM q1 q2 ?_
            rw [show k + (rids.length - 1) + 1 = k + rids.length by omega]
            exact hAt
          obtain ⟨ids', i1, i2, i3, i4⟩ := ih.2 p y done (rids ++ [n]) ns (run.append (.leaf none x .nil)) k hpx hPx
            (fun c => by rw [hk c]; simp only [List.mem_append, List.mem_cons, List.not_mem_nil, or_false]; tauto) h6
            (hrun.append ⟨n, [], rfl, by rw [I.old n ⟨_, h4⟩, h4], hlab, rfl⟩)
            (hq.append ⟨by rw [hlen]; exact hxs, trivial⟩) (by simp [Forest.leaves_append, Forest.leaves, hlen]) hs2
            (fun _ m hm => by have := hs1 m hm; simp only [List.length_append, List.length_singleton]; omega)
            (by
              intro i c hc
              rcases single hc with h | ⟨h1, h2⟩
              · exact hpos i c h
              · subst h1 h2
                exact ⟨hM, hAt⟩)
            (fun d hd m hm => hdone d hd m (by simp only [List.mem_append, List.mem_cons, List.not_mem_nil, or_false] at hm ⊢; tauto))
          refine ⟨ids', i1, fun c => ?_, i3, i4⟩
          rw [i2]
          simp only [List.mem_append, List.mem_cons, List.not_mem_nil, or_false, or_assoc]
        · -- it ends
          rename_i hj
          simp only at hj
          have hrun' : ∀ d ∈ rids, t.startOf d < k + rids.length ∧ k ≤ t.startOf d := by
            intro d hd
            obtain ⟨i, hi, rfl⟩ := List.mem_iff_getElem.1 hd
            rw [(hpos i _ (by simp [hi])).2.start]; omega
          obtain ⟨ids', i1, i2, i3, i4⟩ := fresh (done ++ rids)
            (fun c => by rw [hk c]; simp only [List.mem_append, List.mem_cons, List.not_mem_nil, or_false]; tauto)
            (by
              intro d hd m hm
              rcases List.mem_append.1 hd with hd | hd
              · exact hdone d hd m (.inr hm)
              · have := hrun' d hd
                have hm' : j ≤ t.startOf m := by
                  rcases List.mem_cons.1 hm with rfl | hm
                  · omega
                  · have := hs1 m hm; omega
                exact ⟨by omega, fun _ => by omega⟩)
          obtain ⟨m, g1, g2, g3, g4, g5⟩ := ends hk hne hrun hq hlen hpos (hids hne) (by
            intro m hm _
            rcases List.mem_cons.1 hm with rfl | hm
            · omega
            · have := hs1 m hm; omega) hdone
          refine join (ids := n :: ns) hne hn g1 g2 g3 g4 g5 i1 i2 i3 (fun c hc => ?_) (fun c hc d hd => i4 c hc d (List.mem_append_left _ hd))
          have := i4 c hc _ (List.mem_append_right _ (List.getElem_mem (l := rids) hz))
          have := hrun' _ (List.getElem_mem (l := rids) hz)
          omega
  | node e x ks r ihk ih =>
    -- the children of a node that stays
    have inner : ∀ (n : Nat) (kk : List Nat), t.graph.node? n = some (.nt x) → t.Kids n kk → t.Rep kk ks →
        ∃ kk', t'.Kids n kk' ∧
          t'.Rep kk' (if P x then Forest.bundleRuns l .nil (ks.groupedRuns P l) else ks.groupedRuns P l) := by
      intro n kk hn hkk hrep
      by_cases hP : P x = true
      · rw [if_pos hP]
        obtain ⟨kk', i1, i2, i3, _⟩ := ihk.2 n x [] [] kk .nil 0 hn hP (fun c => by rw [← hkk.1 c]; simp) hrep rfl trivial rfl
          hkk.2 (by simp) (by simp) (by simp)
        refine ⟨kk', ⟨fun c => ?_, i3⟩, i1⟩
        rw [i2]
        refine ⟨fun h => h.1, fun h => ⟨h, ?_⟩⟩
        by_cases hl : t.Live c
        · have := (I.child n c ⟨_, hn⟩ hl).1 h
          exact ⟨c, .inr ((hkk.1 c).2 this.1), .refl⟩
        · obtain ⟨p', d, h1, h2, _, _, h3⟩ := I.new c (isChild_live W'.graph h).2 hl
          have : p' = n := W'.shape.isChild_unique h2 h
          subst this
          obtain ⟨i, hi⟩ := W.sentence.pos d h1.2.2
          refine ⟨d, .inr ((hkk.1 d).2 h1.2.1), .single ((h3 d).2 ⟨i, i, hi.2, hi.2, fun m hm => ?_⟩)⟩
          rw [show m = i by omega]
          exact ⟨d, h1, hi.2⟩
      · rw [if_neg hP]
        have hno : ∀ c, ¬ t.Moved P n c := by
          rintro c ⟨⟨y, hy, hy'⟩, _⟩
          rw [hn] at hy; simp only [Option.some.injEq, Node.nt.injEq] at hy; subst hy
          exact hP hy'
        have hrep' := ihk.1 kk hrep fun c hc p' hM => by
          rw [W.shape.isChild_unique hM.2.1 ((hkk.1 c).1 hc)] at hM
          exact hno c hM
        refine ⟨kk, ⟨fun c => ?_, hkk.2.imp_of_mem fun {a b} ha hb h => ?_⟩, hrep'⟩
        · rw [hkk.1]
          constructor
          · exact fun h => (I.child n c ⟨_, hn⟩ (isChild_live W.graph h).2).2 ⟨h, hno c⟩
          · intro h
            by_cases hl : t.Live c
            · exact ((I.child n c ⟨_, hn⟩ hl).1 h).1
            · obtain ⟨p', d, h1, h2, _⟩ := I.new c (isChild_live W'.graph h).2 hl
              rw [W'.shape.isChild_unique h2 h] at h1
              exact absurd h1 (hno d)
        · rw [I.start_eq (isChild_live W.graph ((hkk.1 a).1 ha)).2, I.start_eq (isChild_live W.graph ((hkk.1 b).1 hb)).2]
          exact h
    have notMoved : ∀ {n : Nat}, t.graph.node? n = some (.nt x) → ∀ p, ¬ t.Moved P p n := by
      rintro n hn p ⟨_, _, y, hy⟩
      rw [hn] at hy; cases hy
    refine ⟨?_, ?_⟩
    · rintro ids ⟨n, ns, kk, rfl, h4, h5, h6, h7, h8⟩ hK
      obtain ⟨kk', j1, j2⟩ := inner n kk h4 h6 h7
      refine ⟨n, ns, kk', rfl, by rw [I.old n ⟨_, h4⟩, h4], ?_, j1, j2,
        ih.1 ns h8 fun c hc => hK c (List.mem_cons_of_mem _ hc)⟩
      rw [← h5]
      exact I.first n ⟨_, h4⟩ fun p d i hp' => absurd hp' (hK n List.mem_cons_self p)
    · rintro p y done rids ids run k hpx hPx hk ⟨n, ns, kk, rfl, h4, h5, h6, h7, h8⟩ hrun hq hlen hsort hids hpos hdone
      obtain ⟨hs1, hs2⟩ := List.pairwise_cons.1 hsort
      obtain ⟨kk', j1, j2⟩ := inner n kk h4 h6 h7
      have hch : t.IsChild p n := (hk n).2 (.inr (.inr List.mem_cons_self))
      have hch' : t'.IsChild p n := (I.child p n ⟨_, hpx⟩ ⟨_, h4⟩).2 ⟨hch, notMoved h4 p⟩
      have hrun' : ∀ d ∈ rids, t.startOf d < t.startOf n := by
        intro d hd
        have hne : rids ≠ [] := List.ne_nil_of_mem hd
        have := hids hne n List.mem_cons_self
        obtain ⟨i, hi, rfl⟩ := List.mem_iff_getElem.1 hd
        rw [(hpos i _ (by simp [hi])).2.start]; omega
      obtain ⟨ids', i1, i2, i3, i4⟩ := ih.2 p y (done ++ rids ++ [n]) [] ns .nil 0 hpx hPx
        (fun c => by rw [hk c]; simp only [List.mem_append, List.mem_cons, List.not_mem_nil, or_false, false_or]; tauto) h8 rfl trivial rfl
        hs2 (by simp) (by simp)
        (by
          intro d hd m hm
          have hm : m ∈ ns := by simpa using hm
          have hm' := hs1 m hm
          simp only [List.mem_append, List.mem_singleton] at hd
          rcases hd with (hd | hd) | rfl
          · exact hdone d hd m (.inr (List.mem_cons_of_mem _ hm))
          · have := hrun' d hd
            exact ⟨by omega, fun _ => by omega⟩
          · exact ⟨hm', fun h => absurd h (notMoved h4 p)⟩)
      have hsn : t'.startOf n = t.startOf n := I.start_eq ⟨_, h4⟩
      have hnode : t'.Rep (n :: ids') (.node e x (if P x then Forest.bundleRuns l .nil (ks.groupedRuns P l) else ks.groupedRuns P l)
          (Forest.bundleRuns l .nil (r.groupedRuns P l))) := by
        refine ⟨n, ids', kk', rfl, by rw [I.old n ⟨_, h4⟩, h4], ?_, j1, j2, i1⟩
        rw [← h5]
        exact I.first n ⟨_, h4⟩ fun p d i hp' => absurd hp' (notMoved h4 p)
      have hmem : ∀ c, c ∈ n :: ids' ↔ t'.IsChild p c ∧ ∃ d, d ∈ n :: ns ∧ t'.Dom c d := by
        intro c
        rw [List.mem_cons, i2]
        constructor
        · rintro (rfl | ⟨h1, d, h2 | h2, h3⟩)
          · exact ⟨hch', c, List.mem_cons_self, .refl⟩
          · simp at h2
          · exact ⟨h1, d, List.mem_cons_of_mem _ h2, h3⟩
        · rintro ⟨h1, d, h2, h3⟩
          rcases List.mem_cons.1 h2 with rfl | h2
          · exact .inl (same h1 hch' h3 .refl)
          · exact .inr ⟨h1, d, .inr h2, h3⟩
      have hsorted : (n :: ids').Pairwise (fun a b => t'.startOf a < t'.startOf b) :=
        List.pairwise_cons.2 ⟨fun c hc => by rw [hsn]; exact i4 c hc n (by simp), i3⟩
      have hbound : ∀ c ∈ n :: ids', ∀ d ∈ done ++ rids, t.startOf d < t'.startOf c := by
        intro c hc d hd
        rcases List.mem_cons.1 hc with rfl | hc
        · rw [hsn]
          rcases List.mem_append.1 hd with hd | hd
          · exact (hdone d hd c (.inr List.mem_cons_self)).1
          · exact hrun' d hd
        · exact i4 c hc d (List.mem_append_left _ hd)
      show ∃ ids', t'.Rep ids' (Forest.close l run _) ∧ _
      by_cases hne : rids = []
      · subst hne
        obtain rfl : run = .nil := rep_empty hrun
        exact ⟨n :: ids', hnode, fun c => by rw [hmem]; simp, hsorted, fun c hc d hd => hbound c hc d (by simpa using hd)⟩
      · have hz : 0 < rids.length := List.length_pos_iff.2 hne
        obtain ⟨m, g1, g2, g3, g4, g5⟩ := ends hk hne hrun hq hlen hpos (hids hne) (by
          intro m hm hMm
          rcases List.mem_cons.1 hm with rfl | hm
          · exact absurd hMm (notMoved h4 p)
          · have := hs1 m hm
            have := hids hne n List.mem_cons_self
            omega) hdone
        refine join (ids := n :: ns) hne (fun e => hne (hrun.nonempty_iff.1 e)) g1 g2 g3 g4 g5 hnode hmem hsorted
          (fun c hc => ?_) (fun c hc d hd => hbound c hc d (List.mem_append_left _ hd))
        have := hbound c hc _ (List.mem_append_right _ (List.getElem_mem (l := rids) hz))
        rw [(hpos 0 _ (by simp [hz])).2.start] at this
        omega

/-- Nodes inserted above runs. -/
theorem Inserted.is_runs (I : Inserted t (t.Moved P) (fun _ => l) t') (W : t.WF) {F : Forest} (h : t.Is F) :
    t'.Is (F.groupedRuns P l) := by
  unfold Is
  rw [I.root]
  refine (I.rep_runs W F).1 _ h fun c hc p hM => ?_
  rw [List.mem_singleton.1 hc] at hM
  exact W.shape.root_top p hM.2.1

end inserted

end Tree
end Lumberjack
