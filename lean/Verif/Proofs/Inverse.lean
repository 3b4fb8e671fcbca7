import Verif.Proofs.Undo

/-!
# Edits that take each other back
-/

namespace Lumberjack
namespace Tree

variable {t t' u : Tree}

/-- Two graphs with the same secondary edges and the same parents and edge contents have the same edges up to index and
order. -/
theorem keys_perm (W : t.WF) (Wu : u.WF) (hsec : ∀ r : EdgeRec, r.w.isPrimary = false → (r ∈ u.graph.edges ↔ r ∈ t.graph.edges))
    (hprim : ∀ k : Nat × Nat × Edge, k.2.2.isPrimary = true →
      ((∃ r ∈ u.graph.edges, edgeKey r = k) ↔ ∃ r ∈ t.graph.edges, edgeKey r = k)) :
    (u.graph.edges.map edgeKey).Perm (t.graph.edges.map edgeKey) := by
  have hnd : ∀ {v : Tree}, v.WF → v.graph.edges.Nodup := fun V => V.graph.ids_nodup.of_map
  have hknd : ∀ {v : Tree}, v.WF → ((v.graph.edges.filter (fun r => r.w.isPrimary)).map edgeKey).Nodup := by
    intro v V
    refine ((hnd V).filter _).map_on ?_
    intro a ha b hb e
    simp only [List.mem_filter] at ha hb
    simp only [edgeKey, Prod.mk.injEq] at e
    exact V.shape.unique a ha.1 b hb.1 e.2.1 ha.2 hb.2
  have h1 : ((u.graph.edges.filter (fun r => r.w.isPrimary)).map edgeKey).Perm
      ((t.graph.edges.filter (fun r => r.w.isPrimary)).map edgeKey) := by
    refine (List.perm_ext_iff_of_nodup (hknd Wu) (hknd W)).2 fun k => ?_
    have : ∀ v : Tree, k ∈ (v.graph.edges.filter (fun r => r.w.isPrimary)).map edgeKey ↔
        k.2.2.isPrimary = true ∧ ∃ r ∈ v.graph.edges, edgeKey r = k := by
      intro v
      simp only [List.mem_map, List.mem_filter]
      constructor
      · rintro ⟨r, ⟨hr, hw⟩, rfl⟩; exact ⟨hw, r, hr, rfl⟩
      · rintro ⟨hw, r, hr, rfl⟩; exact ⟨r, ⟨hr, hw⟩, rfl⟩
    rw [this, this]
    exact and_congr_right fun hk => hprim k hk
  have h2 : (u.graph.edges.filter (fun r => !r.w.isPrimary)).Perm (t.graph.edges.filter (fun r => !r.w.isPrimary)) := by
    refine (List.perm_ext_iff_of_nodup ((hnd Wu).filter _) ((hnd W).filter _)).2 fun r => ?_
    simp only [List.mem_filter, Bool.not_eq_true']
    exact and_congr_left fun hr => hsec r hr
  have h3 : ∀ v : Tree, (v.graph.edges.map edgeKey).Perm
      ((v.graph.edges.filter (fun r => r.w.isPrimary)).map edgeKey ++
        (v.graph.edges.filter (fun r => !r.w.isPrimary)).map edgeKey) := by
    intro v
    rw [← List.map_append]
    exact (List.filter_append_perm (fun r : EdgeRec => r.w.isPrimary) v.graph.edges).symm.map _
  exact (h3 u).trans ((h1.append (h2.map _)).trans (h3 t).symm)

/-- Trees with the same nodes, edges and root are alike. -/
theorem regained_of_nodes (W : t.WF) (Wu : u.WF) (hnode : ∀ n, u.graph.node? n = t.graph.node? n)
    (hedges : (u.graph.edges.map edgeKey).Perm (t.graph.edges.map edgeKey))
    (hroot : u.root = t.root) (hnt : u.nTerminals = t.nTerminals) : Regained t u :=
  regained_of W Wu (fun n => by unfold content; rw [hnode]) hedges (fun n i => by unfold TermAt; rw [hnode]) hroot hnt

/-- Moving a terminal and moving it back. -/
theorem move_back (W : t.WF) {n o i : Nat} (hn : t.TermAt n o) (hi : i < t.nTerminals) :
    ∃ t' u, t.moveTerminal n i = .ok t' ∧ t'.moveTerminal n o = .ok u ∧ u.WF ∧ u.graph.edges = t.graph.edges ∧
      Regained t u := by
  obtain ⟨t', h1, h2, h3, h4, h5, h6, h7, h8⟩ := moveTerminal_spec W hn hi
  have hterm : t.IsTerm n := by obtain ⟨x, hx, _⟩ := hn; exact ⟨x, hx⟩
  have ho : o < t.nTerminals := by
    obtain ⟨q, hq, hq'⟩ := W.sentence.pos n hterm
    rw [hn.pos_unique hq']; exact hq
  obtain ⟨u, k1, k2, k3, k4, k5, k6, k7, k8⟩ := moveTerminal_spec h2 h3 (h8 ▸ ho : o < t'.nTerminals)
  have hcont : ∀ a, u.content a = t.content a := fun a => (k5 a).trans (h5 a)
  have hfwd : ∀ a p, t.TermAt a p → u.TermAt a p := by
    intro a p hap
    by_cases ha : a = n
    · subst ha
      rw [hap.pos_unique hn]; exact k3
    · have hpo : p ≠ o := by rintro rfl; exact ha (W.sentence.inj _ _ _ hap hn)
      have := k4 a _ ha (h4 a p ha hap)
      by_cases hoi : o = i
      · simpa [hoi] using this
      · rw [if_neg hoi, if_neg (Ne.symm hoi)] at this
        have e : moveShift i o (moveShift o i p) = p := by
          unfold moveShift
          split_ifs <;> omega
        rw [e] at this
        exact this
  refine ⟨t', u, h1, k1, k2, k6.trans h6, regained_of W k2 hcont ?_ ?_ (k7.trans h7) (k8.trans h8)⟩
  · rw [k6, h6]
  · intro a p
    refine ⟨fun h => ?_, hfwd a p⟩
    have hta : t.IsTerm a := by
      obtain ⟨x, hx, _⟩ := h
      have hc := hcont a
      unfold content at hc
      rw [hx] at hc
      cases hb : t.graph.node? a with
      | none => rw [hb] at hc; simp at hc
      | some b =>
        rw [hb] at hc
        cases b with
        | term y => exact ⟨y, hb⟩
        | nt y => simp [Node.replaceSpan] at hc
    obtain ⟨q, _, hq⟩ := W.sentence.pos a hta
    rw [h.pos_unique (hfwd a q hq)]; exact hq

/-- Attaching a node elsewhere and back. -/
theorem reattach_back (W : t.WF) {r : EdgeRec} {q : Nat} (hr : r ∈ t.graph.edges)
    (hw : r.w.isPrimary = true) (hq : t.IsNt q) (hcq : ¬ t.Dom r.tgt q)
    (hsib : r.src = q ∨ ∃ s, s ≠ r.tgt ∧ t.IsChild r.src s) (hd : t.Dom q r.src ∨ t.Dom r.src q) :
    ∃ t' e' u, t.reattachNode q r.id = .ok (t', .ok (e', r.w)) ∧ t'.undoMove (r.src, r.w, r.tgt) = .ok u ∧ u.WF ∧
      Regained t u := by
  obtain ⟨t', e', h1, h2, h3, h4, h5, h6, h7, h8, h9, h10⟩ := Props.C14_reattach t W r q hr hw hq hcq hsib
  have W' : t'.WF := h10.2 hd
  have hterm : ∀ n i, t'.TermAt n i ↔ t.TermAt n i := by
    intro n i
    constructor
    · rintro ⟨x, hx, hs⟩
      have hc := h9 n
      unfold content at hc
      rw [hx] at hc
      cases hb : t.graph.node? n with
      | none => rw [hb] at hc; simp at hc
      | some b =>
        rw [hb] at hc
        cases b with
        | term y =>
          have := h8 n y hb
          rw [hx] at this
          simp only [Option.some.injEq, Node.term.injEq] at this
          subst this
          exact ⟨x, hb, hs⟩
        | nt y => simp [Node.replaceSpan] at hc
    · rintro ⟨x, hx, hs⟩
      exact ⟨x, h8 n x hx, hs⟩
  obtain ⟨u, k1, k2, k3⟩ := undoMove_back (t' := t') (u' := t') (id := r.id) W hr hw hq hd.symm hcq h4 rfl h5 h9 hterm h6
    h7 W' (Regained.refl t')
  exact ⟨t', e', u, h1, k1, k2, k3⟩

/-- Inserting a node above another one and removing it. -/
theorem above_back (W : t.WF) {n : Nat} {nd : Node} (hn : t.graph.node? n = some nd) (label : Str) (hd : ¬ t.Disc n)
    (hl : ∀ r ∈ t.graph.edges, r.w.isPrimary = true → r.tgt = n → r.w = .primary none) :
    ∃ t' ins u, t.insertUnaryAbove n label = .ok (t', ins) ∧
      t'.removeNode ins = .ok (u, .ok (.nt ⟨label, none, nd.span⟩)) ∧ u.WF ∧ Regained t u := by
  obtain ⟨t', ins, h1, h2, h3, h4, h5, h6, h7, h8, h9, h10⟩ := insertUnaryAbove_spec W.core hn label
  have hdead : ¬ t.Live ins := by rintro ⟨y, hy⟩; rw [h3.dead] at hy; simp at hy
  have W' : t'.WF := by
    obtain ⟨t2, ins2, k1, _, _, _, _, _, _, _, _, _, _, _, _, _, kw⟩ := Props.C17_insert_unary_above t W n nd label hn
    rw [h1] at k1
    simp only [Res.ok.injEq, Prod.mk.injEq] at k1
    obtain ⟨rfl, rfl⟩ := k1
    exact kw.2 hd
  have hnins : n ≠ ins := by rintro rfl; exact hdead ⟨_, hn⟩
  have hinsn : t'.IsChild ins n := (h7 _ _).2 (.inr (.inr ⟨rfl, rfl⟩))
  have hkids : ∀ c, t'.IsChild ins c ↔ c = n := by
    intro c
    rw [h7]
    constructor
    · rintro (⟨h, _⟩ | ⟨h, _⟩ | ⟨_, h⟩)
      · exact absurd (isChild_live W.graph h).1 hdead
      · exact absurd (isChild_live W.graph h).1 hdead
      · exact h
    · rintro rfl; exact .inr (.inr ⟨rfl, rfl⟩)
  have hsrc : ∀ r ∈ t.graph.edges, r.src ≠ ins ∧ r.tgt ≠ ins := fun r hr =>
    ⟨fun e => hdead (e ▸ (W.graph.ends r hr).1), fun e => hdead (e ▸ (W.graph.ends r hr).2)⟩
  have hnode0 : t.graph.node? ins = none := h3.dead
  by_cases hroot : n = t.root
  · -- the new node is the root
    have hr' : t'.root = ins := by rw [h8, if_pos hroot]
    obtain ⟨u, k1, k2, k3, k4, k5, k6, k7, k8⟩ := Props.C11_remove_root t' W' n (NonTerminal.new label nd.span)
      (by rw [hr']; exact h4) (by rw [hr']; exact hkids)
    rw [hr'] at k1 k4 k5 k6 k8
    have hnop : ∀ p, ¬ t.IsChild p n := fun p hp => W.shape.root_top p (hroot ▸ hp)
    have hmem : ∀ r : EdgeRec, r ∈ u.graph.edges ↔ r ∈ t.graph.edges := by
      intro r
      rw [k8, List.mem_filter]
      simp only [decide_eq_true_eq]
      constructor
      · rintro ⟨hr, hs, ht⟩
        rcases h10 r hr with h | ⟨_, h, _⟩ | ⟨h, _⟩
        · exact h
        · exact absurd h ht
        · exact absurd h hs
      · intro hr
        refine ⟨h9 r hr ?_, hsrc r hr⟩
        by_cases hp : r.w.isPrimary = true
        · exact .inr fun e => hnop r.src ⟨r, hr, rfl, e, hp⟩
        · exact .inl (by simpa using hp)
    refine ⟨t', ins, u, h1, k1, k2, regained_of_nodes W k2 (fun m => ?_) ?_ (k3.trans hroot) (k7.trans h6)⟩
    · by_cases hm : m = ins
      · subst hm
        rw [hnode0]
        cases hu : u.graph.node? m with
        | none => rfl
        | some a => exact absurd ⟨a, hu⟩ k4
      · rw [k5 m hm]; exact (h3.node m hm).symm
    · exact keys_perm W k2 (fun r _ => hmem r) (fun k _ => by simp only [hmem])
  · -- the new node has a parent
    obtain ⟨p, hp⟩ : ∃ p, t.IsChild p n := by
      rcases (Relation.ReflTransGen.cases_tail (W.shape.reach n ⟨_, hn⟩)) with e | ⟨p, _, hp⟩
      · exact absurd e hroot
      · exact ⟨p, hp⟩
    obtain ⟨u, k1, k2, k3, k4, k5, _, _, k8, k9, k10, k11⟩ := Props.C11_remove_nonterminal t' W' ins p _ h4
      ((h7 p ins).2 (.inr (.inl ⟨hp, rfl⟩)))
    have hpins : p ≠ ins := by rintro rfl; exact hdead (isChild_live W.graph hp).1
    have hprim : ∀ a b, u.IsChild a b ↔ t.IsChild a b := by
      intro a b
      rw [k5, hkids]
      constructor
      · rintro (⟨h, ha, hb⟩ | ⟨rfl, rfl⟩)
        · rcases (h7 a b).1 h with ⟨h, _⟩ | ⟨_, h⟩ | ⟨h, _⟩
          · exact h
          · exact absurd h hb
          · exact absurd h ha
        · exact hp
      · intro h
        by_cases hb : b = n
        · subst hb; exact .inr ⟨W.shape.isChild_unique h hp, rfl⟩
        · refine .inl ⟨(h7 a b).2 (.inl ⟨h, hb⟩), ?_, ?_⟩
          · rintro rfl; exact hdead (isChild_live W.graph h).1
          · rintro rfl; exact hdead (isChild_live W.graph h).2
    have hback : ∀ r ∈ u.graph.edges, r ∈ t.graph.edges ∨ (r.src = p ∧ r.tgt = n ∧ r.w = .primary none) := by
      intro r hr
      rcases k11 r hr with h | ⟨e1, e2, e3⟩
      · rcases h10 r h with h | ⟨_, e, _⟩ | ⟨e, _⟩
        · exact .inl h
        · exact absurd (e ▸ (k2.graph.ends r hr).2) k3
        · exact absurd (e ▸ (k2.graph.ends r hr).1) k3
      · exact .inr ⟨e1, (hkids _).1 e2, e3⟩
    have hfwd : ∀ r ∈ t.graph.edges, (r.w.isPrimary = false ∨ r.tgt ≠ n) → r ∈ u.graph.edges := fun r hr h =>
      k10 r (h9 r hr h) (hsrc r hr).1 (hsrc r hr).2
    refine ⟨t', ins, u, h1, k1, k2, regained_of_nodes W k2 (fun m => ?_) ?_
      (k8.trans (by rw [h8, if_neg hroot])) (k9.trans h6)⟩
    · by_cases hm : m = ins
      · subst hm
        rw [hnode0]
        cases hu : u.graph.node? m with
        | none => rfl
        | some a => exact absurd ⟨a, hu⟩ k3
      · rw [k4 m hm]; exact (h3.node m hm).symm
    · refine keys_perm W k2 (fun r hr => ⟨fun h => ?_, fun h => hfwd r h (.inl hr)⟩) (fun k hk => ?_)
      · rcases hback r h with h | ⟨_, _, e⟩
        · exact h
        · rw [e] at hr; simp [Edge.isPrimary] at hr
      · constructor
        · rintro ⟨r, hr, rfl⟩
          rcases hback r hr with h | ⟨e1, e2, e3⟩
          · exact ⟨r, h, rfl⟩
          · obtain ⟨s, hs, s1, s2, s3⟩ := hp
            exact ⟨s, hs, by simp [edgeKey, s1, s2, e1, e2, e3, hl s hs s3 s2]⟩
        · rintro ⟨r, hr, rfl⟩
          by_cases hb : r.tgt = n
          · obtain ⟨s, hs, s1, s2, s3⟩ := (hprim p n).2 hp
            refine ⟨s, hs, ?_⟩
            have e : r.src = p := W.shape.isChild_unique ⟨r, hr, rfl, hb, hk⟩ hp
            have hsw : s.w = .primary none := by
              rcases hback s hs with h | ⟨_, _, h⟩
              · exact hl s h s3 s2
              · exact h
            simp [edgeKey, s1, s2, e, hb, hsw, hl r hr hk hb]
          · exact ⟨r, hfwd r hr (.inr hb), rfl⟩

/-- Inserting a node below another one and removing it. -/
theorem below_back (W : t.WF) {n : Nat} {x : NonTerminal} (hn : t.graph.node? n = some (.nt x)) (label : Str)
    (hd : ¬ t.Disc n) (hl : ∀ r ∈ t.graph.edges, r.w.isPrimary = true → r.src = n → r.w = .primary none) :
    ∃ t' ins u, t.insertUnaryBelow n label = .ok (t', .ok ins) ∧
      t'.removeNode ins = .ok (u, .ok (.nt ⟨label, none, x.span⟩)) ∧ u.WF ∧ Regained t u := by
  obtain ⟨t', ins, h1, h2, h3, h4, h5, h6, h7, h8, h9, h10⟩ := insertUnaryBelow_spec W.core hn label
  have hdead : ¬ t.Live ins := by rintro ⟨y, hy⟩; rw [h3.dead] at hy; simp at hy
  have W' : t'.WF := by
    obtain ⟨t2, ins2, k1, _, _, _, _, _, _, _, _, _, _, _, _, _, kw⟩ := Props.C17_insert_unary_below t W n x label hn
    rw [h1] at k1
    simp only [Res.ok.injEq, Prod.mk.injEq, Except.ok.injEq] at k1
    obtain ⟨rfl, rfl⟩ := k1
    exact kw.2 hd
  have hnins : n ≠ ins := by rintro rfl; exact hdead ⟨_, hn⟩
  have hsrc : ∀ r ∈ t.graph.edges, r.src ≠ ins ∧ r.tgt ≠ ins := fun r hr =>
    ⟨fun e => hdead (e ▸ (W.graph.ends r hr).1), fun e => hdead (e ▸ (W.graph.ends r hr).2)⟩
  have hnode0 : t.graph.node? ins = none := h3.dead
  have hkids : ∀ c, t'.IsChild ins c ↔ t.IsChild n c := by
    intro c
    rw [h7]
    constructor
    · rintro (⟨h, _⟩ | ⟨h, _⟩ | ⟨_, h⟩)
      · exact absurd (isChild_live W.graph h).1 hdead
      · exact absurd h.symm hnins
      · exact h
    · exact fun h => .inr (.inr ⟨rfl, h⟩)
  obtain ⟨u, k1, k2, k3, k4, k5, _, _, k8, k9, k10, k11⟩ := Props.C11_remove_nonterminal t' W' ins n _ h4
    ((h7 n ins).2 (.inr (.inl ⟨rfl, rfl⟩)))
  have hprim : ∀ a b, t.IsChild a b → u.IsChild a b := by
    intro a b h
    rw [k5, hkids]
    by_cases ha : a = n
    · subst ha; exact .inr ⟨rfl, h⟩
    · refine .inl ⟨(h7 a b).2 (.inl ⟨h, ha⟩), ?_, ?_⟩
      · rintro rfl; exact hdead (isChild_live W.graph h).1
      · rintro rfl; exact hdead (isChild_live W.graph h).2
  have hback : ∀ r ∈ u.graph.edges, r ∈ t.graph.edges ∨ (r.src = n ∧ t.IsChild n r.tgt ∧ r.w = .primary none) := by
    intro r hr
    rcases k11 r hr with h | ⟨e1, e2, e3⟩
    · rcases h10 r h with h | ⟨_, e, _⟩ | ⟨e, _⟩
      · exact .inl h
      · exact absurd (e ▸ (k2.graph.ends r hr).2) k3
      · exact absurd (e ▸ (k2.graph.ends r hr).1) k3
    · exact .inr ⟨e1, (hkids _).1 e2, e3⟩
  have hfwd : ∀ r ∈ t.graph.edges, (r.w.isPrimary = false ∨ r.src ≠ n) → r ∈ u.graph.edges := fun r hr h =>
    k10 r (h9 r hr h) (hsrc r hr).1 (hsrc r hr).2
  refine ⟨t', ins, u, h1, k1, k2, regained_of_nodes W k2 (fun m => ?_) ?_ (k8.trans h8) (k9.trans h6)⟩
  · by_cases hm : m = ins
    · subst hm
      rw [hnode0]
      cases hu : u.graph.node? m with
      | none => rfl
      | some a => exact absurd ⟨a, hu⟩ k3
    · rw [k4 m hm]; exact (h3.node m hm).symm
  · refine keys_perm W k2 (fun r hr => ⟨fun h => ?_, fun h => hfwd r h (.inl hr)⟩) (fun k hk => ?_)
    · rcases hback r h with h | ⟨_, _, e⟩
      · exact h
      · rw [e] at hr; simp [Edge.isPrimary] at hr
    · constructor
      · rintro ⟨r, hr, rfl⟩
        rcases hback r hr with h | ⟨e1, ⟨s, hs, s1, s2, s3⟩, e3⟩
        · exact ⟨r, h, rfl⟩
        · exact ⟨s, hs, by simp [edgeKey, s1, s2, e1, e3, hl s hs s3 s1]⟩
      · rintro ⟨r, hr, rfl⟩
        by_cases hb : r.src = n
        · obtain ⟨s, hs, s1, s2, s3⟩ := hprim r.src r.tgt ⟨r, hr, rfl, rfl, hk⟩
          refine ⟨s, hs, ?_⟩
          have hsw : s.w = .primary none := by
            rcases hback s hs with h | ⟨_, _, h⟩
            · exact hl s h s3 (s1.trans hb)
            · exact h
          simp [edgeKey, s1, s2, hsw, hl r hr hk hb]
        · exact ⟨r, hfwd r hr (.inr hb), rfl⟩

end Tree
end Lumberjack
