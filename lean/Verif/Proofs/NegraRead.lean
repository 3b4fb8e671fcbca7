import Verif.Proofs.NegraInv

/-!
# What a call of the NEGRA reader does
-/

namespace Lumberjack
namespace Negra

open Span

/-- The rows `T'`, `N'` are obtained from `T`, `N` by the lines `ls`. -/
inductive Acc : List TermRow → List NtRow → List Str → List TermRow → List NtRow → Prop
  | nil (T N) : Acc T N [] T N
  | term {T l r ls T' N'} : IsTermLine l r → Acc (T ++ [r]) [] ls T' N' → Acc T [] (l :: ls) T' N'
  | nt {T N l r ls T' N'} : IsNtLine l r → T ≠ [] → (r.id ∈ parents T N ∨ (r.id = 0 ∧ r.att.parent = 0)) →
      Acc T (N ++ [r]) ls T' N' → Acc T N (l :: ls) T' N'

theorem not_frame_of_term {l : Str} {r : TermRow} (h : IsTermLine l r) : ¬ IsFrame l := by
  have h1 := h.1
  have e1 : bos = '#' :: "BOS".toList := by decide
  have e2 : eos = '#' :: "EOS".toList := by decide
  intro h2
  unfold IsFrame startsWith at h2
  rw [e1, e2] at h2
  cases ht : trim l with
  | nil => rw [ht] at h2; simp [List.isPrefixOf] at h2
  | cons c cs =>
    rw [ht] at h2 h1
    have : ('#' == c) = false := by simpa [List.isPrefixOf] using h1
    simp [List.isPrefixOf, this] at h2

theorem Acc.append {T N ls T' N'} (h : Acc T N ls T' N') {ls' T'' N''} (h' : Acc T' N' ls' T'' N'') :
    Acc T N (ls ++ ls') T'' N'' := by
  induction h with
  | nil => exact h'
  | term h1 _ ih => exact .term h1 (ih h')
  | nt h1 h2 h3 _ ih => exact .nt h1 h2 h3 (ih h')

theorem Acc.unique {T N ls T' N'} (h : Acc T N ls T' N') {T'' N''} (h' : Acc T N ls T'' N'') :
    T' = T'' ∧ N' = N'' := by
  induction h with
  | nil => cases h'; exact ⟨rfl, rfl⟩
  | term h1 _ ih =>
    cases h' with
    | term g1 g2 =>
      have := h1.2.symm.trans g1.2
      injection this with this
      subst this
      exact ih g2
    | nt g1 _ _ _ => have := h1.1; rw [g1.2.1] at this; cases this
  | nt h1 h2 h3 _ ih =>
    cases h' with
    | term g1 g2 => have := g1.1; rw [h1.2.1] at this; cases this
    | nt g1 _ _ g2 =>
      have := h1.2.2.symm.trans g1.2.2
      injection this with this
      subst this
      exact ih g2

theorem Acc.prefix {T N ls ls' T' N'} (h : Acc T N (ls ++ ls') T' N') :
    ∃ T1 N1, Acc T N ls T1 N1 ∧ Acc T1 N1 ls' T' N' := by
  induction ls generalizing T N with
  | nil => exact ⟨T, N, .nil _ _, h⟩
  | cons l ls ih =>
    cases h with
    | term h1 h2 =>
      obtain ⟨T1, N1, a, b⟩ := ih h2
      exact ⟨T1, N1, .term h1 a, b⟩
    | nt h1 h2 h3 h4 =>
      obtain ⟨T1, N1, a, b⟩ := ih h4
      exact ⟨T1, N1, .nt h1 h2 h3 a, b⟩

/-- `Acc` in terms of lists of rows. -/
theorem acc_nts {T N ls T' N'} (hN : N ≠ [] ∨ ∀ l ∈ ls, ∀ r, ¬ IsTermLine l r) :
    Acc T N ls T' N' ↔ T' = T ∧ ∃ N1, N' = N ++ N1 ∧ List.Forall₂ IsNtLine ls N1 ∧ (T = [] → N1 = []) ∧
      ∀ pre r post, N1 = pre ++ r :: post → r.id ∈ parents T (N ++ pre) ∨ (r.id = 0 ∧ r.att.parent = 0) := by
  induction ls generalizing N with
  | nil =>
    constructor
    · intro h; cases h
      exact ⟨rfl, [], by simp, .nil, fun _ => rfl, by simp⟩
    · rintro ⟨rfl, N1, rfl, h, _⟩
      cases h
      rw [List.append_nil]
      exact .nil _ _
  | cons l ls ih =>
    constructor
    · intro h
      cases h with
      | term h1 _ =>
        rcases hN with hN | hN
        · exact absurd rfl hN
        · exact absurd h1 (hN l (by simp) _)
      | nt h1 h2 h3 h4 =>
        rename_i r
        obtain ⟨rfl, N1, rfl, g1, g2, g3⟩ := (ih (.inl (by simp))).1 h4
        refine ⟨rfl, r :: N1, by simp, .cons h1 g1, fun h => absurd h h2, ?_⟩
        intro pre q post he
        cases pre with
        | nil =>
          simp only [List.nil_append, List.cons.injEq] at he
          rw [List.append_nil, ← he.1]
          exact h3
        | cons p pre =>
          simp only [List.cons_append, List.cons.injEq] at he
          have := g3 pre q post he.2
          rw [← he.1]
          simpa using this
    · rintro ⟨rfl, N1, rfl, g1, g2, g3⟩
      cases g1 with
      | cons h1 g1 =>
        rename_i r N1
        refine .nt h1 (fun h => by simpa using g2 h) (by simpa using g3 [] r N1 rfl) ?_
        refine (ih (.inl (by simp))).2 ⟨rfl, N1, by simp, g1, fun h => by simpa using g2 h, ?_⟩
        intro pre q post he
        have := g3 (r :: pre) q post (by rw [he]; rfl)
        simpa using this

theorem acc_iff {T ls T' N'} : Acc T [] ls T' N' ↔ ∃ T1, T' = T ++ T1 ∧ Rows ls T1 N' ∧ Processable T' N' := by
  induction ls generalizing T with
  | nil =>
    constructor
    · intro h
      cases h
      exact ⟨[], by simp, ⟨[], [], rfl, .nil, .nil⟩, fun _ => rfl, by simp⟩
    · rintro ⟨T1, rfl, ⟨tl, nl, h1, h2, h3⟩, _⟩
      obtain ⟨rfl, rfl⟩ := List.append_eq_nil_iff.1 h1.symm
      cases h2
      cases h3
      rw [List.append_nil]
      exact .nil _ _
  | cons l ls ih =>
    by_cases hl : ∃ r, IsTermLine l r
    · obtain ⟨r, hr⟩ := hl
      constructor
      · intro h
        cases h with
        | term h1 h2 =>
          rename_i q
          obtain ⟨T1, rfl, ⟨tl, nl, rfl, g1, g2⟩, g3⟩ := ih.1 h2
          exact ⟨q :: T1, by simp, ⟨l :: tl, nl, rfl, .cons h1 g1, g2⟩, g3⟩
        | nt h1 => have := hr.1; rw [h1.2.1] at this; cases this
      · rintro ⟨T1, rfl, ⟨tl, nl, he, g1, g2⟩, g3⟩
        cases g1 with
        | nil =>
          simp only [List.nil_append] at he
          subst he
          cases g2 with
          | cons h1 _ => have := hr.1; rw [h1.2.1] at this; cases this
        | cons h1 g1 =>
          simp only [List.cons_append, List.cons.injEq] at he
          obtain ⟨rfl, rfl⟩ := he
          refine .term h1 (ih.2 ⟨_, by simp, ⟨_, _, rfl, g1, g2⟩, ?_⟩)
          exact g3
    · constructor
      · intro h
        cases h with
        | term h1 h2 => exact absurd ⟨_, h1⟩ hl
        | nt h1 h2 h3 h4 =>
          rename_i q
          rw [acc_nts (.inl (by simp))] at h4
          obtain ⟨rfl, N1, rfl, g1, g2, g3⟩ := h4
          refine ⟨[], by simp, ⟨[], l :: ls, rfl, .nil, ?_⟩, fun h => absurd h h2, ?_⟩
          · exact .cons h1 g1
          · intro pre r post he
            cases pre with
            | nil =>
              simp only [List.nil_append, List.cons_append, List.cons.injEq] at he
              rw [← he.1]
              exact h3
            | cons p pre =>
              simp only [List.cons_append, List.cons.injEq, List.nil_append] at he
              rw [← he.1]
              exact g3 pre r post he.2
      · rintro ⟨T1, rfl, ⟨tl, nl, he, g1, g2⟩, g3⟩
        cases g1 with
        | cons h1 g1 =>
          simp only [List.cons_append, List.cons.injEq] at he
          exact absurd ⟨_, he.1 ▸ h1⟩ hl
        | nil =>
          simp only [List.nil_append, List.append_nil] at he ⊢ g3
          subst he
          cases g2 with
          | cons h1 g2 =>
            rename_i q N1
            refine .nt h1 (fun h => by simpa using g3.1 h) (by simpa using g3.2 [] q N1 rfl) ?_
            rw [acc_nts (.inl (by simp))]
            refine ⟨rfl, N1, rfl, g2, fun h => by simpa using g3.1 h, ?_⟩
            intro pre r post he
            have := g3.2 (q :: pre) r post (by rw [he]; rfl)
            simpa using this

/-! ## One line -/

theorem mem_coverage {g : Graph} {n i : Nat} :
    i ∈ childCoverage g n ↔ ∃ e ∈ g.edges, e.src = n ∧ e.w.isPrimary = true ∧
      ∃ nd, g.node? e.tgt = some nd ∧ i ∈ nd.span.toVec := by
  unfold childCoverage Graph.outEdges
  simp only [List.mem_flatMap, List.mem_filter, decide_eq_true_eq]
  constructor
  · rintro ⟨e, ⟨⟨h1, h2⟩, h3⟩, h4⟩
    refine ⟨e, h1, h2, h3, ?_⟩
    cases hn : g.node? e.tgt with
    | none => rw [hn] at h4; cases h4
    | some nd => rw [hn] at h4; exact ⟨nd, rfl, h4⟩
  · rintro ⟨e, h1, h2, h3, nd, h4, h5⟩
    refine ⟨e, ⟨⟨h1, h2⟩, h3⟩, ?_⟩
    rw [h4]
    exact h5

theorem toVec_ne_nil {s : Span} (h : s.Valid) : s.toVec ≠ [] := by
  intro he
  have := mem_toVec.2 h.start_mem
  rw [he] at this
  cases this

theorem coverage_nil_iff {b : Builder} (h : Good b) {A : List (Nat × Attach)} (c : Core b A) {k : Nat}
    (hk : k ∈ keys b) : childCoverage b.graph (idx b k) = [] ↔ ∀ x ∈ A, x.2.parent ≠ k := by
  constructor
  · rintro he x hx rfl
    have hm : (idx b x.2.parent, x.1, Edge.primary x.2.edge) ∈ b.graph.edges.map (fun r => (r.src, r.tgt, r.w)) := by
      rw [c.edges, List.mem_reverse, List.mem_map]
      exact ⟨x, hx, rfl⟩
    obtain ⟨e, he1, he2⟩ := List.mem_map.1 hm
    simp only [Prod.mk.injEq] at he2
    obtain ⟨nd, hnd, hv⟩ := h.live _ (h.ends e he1)
    obtain ⟨i, hi⟩ := List.exists_mem_of_ne_nil _ (toVec_ne_nil hv)
    have : i ∈ childCoverage b.graph (idx b x.2.parent) :=
      mem_coverage.2 ⟨e, he1, he2.1, by rw [he2.2.2]; rfl, nd, hnd, hi⟩
    rw [he] at this
    cases this
  · intro hA
    by_contra hne
    obtain ⟨i, hi⟩ := List.exists_mem_of_ne_nil _ hne
    obtain ⟨e, h1, h2, _⟩ := mem_coverage.1 hi
    have hm : (e.src, e.tgt, e.w) ∈ b.graph.edges.map (fun r => (r.src, r.tgt, r.w)) := List.mem_map.2 ⟨e, h1, rfl⟩
    rw [c.edges, List.mem_reverse, List.mem_map] at hm
    obtain ⟨x, hx, he⟩ := hm
    simp only [Prod.mk.injEq] at he
    have hp := (c.mem_keys x.2.parent).2 (.inr ⟨x, hx, rfl⟩)
    exact hA x hx (idx_inj c.vals_nodup hp hk (he.1.trans h2))

theorem step {id : Nat} {b : Builder} {T : List TermRow} {N : List NtRow} {τ : List Nat} (h : Inv id b T N τ)
    (raw : Str) :
    (∃ T' N' b' τ', Acc T N [raw] T' N' ∧ processLine b (trim raw) = .ok (.ok b') ∧ Inv id b' T' N' τ') ∨
    (¬ IsFrame raw → (∀ T' N', ¬ Acc T N [raw] T' N') ∧ ∃ e, processLine b (trim raw) = .ok (.error e)) := by
  unfold processLine startsWith
  by_cases hsh : ['#'].isPrefixOf (trim raw) = true
  · rw [if_pos hsh]
    by_cases hfr : IsFrame raw
    · exact .inr fun h => absurd hfr h
    have fail : (b.nTerminals = 0 ∨ NtRow.read (splitWs (trim raw)) = none ∨
        ∃ r, NtRow.read (splitWs (trim raw)) = some r ∧ lookupIdx b.ntIndices r.id = none) →
        (∀ T' N', ¬ Acc T N [raw] T' N') ∧ ∃ e, nonterminalLine b (trim raw) = .ok (.error e) := by
      intro hb
      refine ⟨?_, nonterminalLine_err h.good hb⟩
      intro T' N' hacc
      cases hacc with
      | term h1 => have := h1.1; rw [hsh] at this; cases this
      | nt h1 h2 h3 h4 =>
        rename_i r
        rcases hb with hb | hb | ⟨q, hq, hb⟩
        · rw [h.nterm] at hb; exact h2 (List.length_eq_zero_iff.1 hb)
        · rw [h1.2.2] at hb; cases hb
        · rw [h1.2.2] at hq
          injection hq with hq
          subst hq
          refine lookup_none_iff.1 hb ((h.mem_keys _).2 ?_)
          rcases h3 with h3 | h3
          · exact .inr h3
          · exact .inl h3.1
    by_cases hT : b.nTerminals = 0
    · exact .inr fun _ => fail (.inl hT)
    cases hr : NtRow.read (splitWs (trim raw)) with
    | none => exact .inr fun _ => fail (.inr (.inl hr))
    | some r =>
      cases hs : lookupIdx b.ntIndices r.id with
      | none => exact .inr fun _ => fail (.inr (.inr ⟨r, hr, hs⟩))
      | some self =>
        obtain ⟨x, hx⟩ := h.good.nts _ _ hs
        have hkey : r.id ∈ keys b := lookup_iff_keys.1 ⟨_, hs⟩
        have hb : Good { b with
            finishedTerminals := true
            processedNts := b.processedNts + 1
            graph := b.graph.setNode self (.nt (named r x)) } :=
          (setNode_good h.good hx (y := named r x) (by rw [named_span]; exact h.good.span hx)).congr rfl rfl
        have hc1 : Core (addNt1 b r self x) (atts b T N τ ++ [(self, r.att)]) :=
          attach_core hb (h.core.congr rfl rfl rfl rfl) self r.att
        have hkey1 : r.id ∈ keys (addNt1 b r self x) := by
          rw [hc1.mem_keys]
          rcases (h.core.mem_keys _).1 hkey with h1 | ⟨y, h1, h2⟩
          · exact .inl h1
          · exact .inr ⟨y, by simp [h1], h2⟩
        have hidx : idx (addNt1 b r self x) r.id = self := by
          have hl : lookupIdx ({ b with
            finishedTerminals := true
            processedNts := b.processedNts + 1
            graph := b.graph.setNode self (.nt (named r x)) } : Builder).ntIndices r.id = some self := hs
          have := lookup_withParent (k := r.att.parent) hl
          exact idx_of_lookup (b := addNt1 b r self x) this
        have hcov := coverage_nil_iff (addNt1_good h.good r hx) hc1 hkey1
        rw [hidx] at hcov
        rcases nonterminalLine_eq h.good hT hr hs hx with ⟨he, herr⟩ | ⟨s, _, hv, _, hok⟩
        · refine .inr fun _ => ⟨?_, herr⟩
          intro T' N' hacc
          have hA := hcov.1 he
          cases hacc with
          | term h1 => have := h1.1; rw [hsh] at this; cases this
          | nt h1 h2 h3 h4 =>
            rename_i q
            have hq := h1.2.2
            rw [hr] at hq
            injection hq with hq
            subst hq
            rcases h3 with h3 | h3
            · obtain ⟨y, hy, hp⟩ := (mem_atts (b := b) h.len).2 h3
              exact hA y (by simp [hy]) hp
            · exact hA (self, r.att) (by simp) (by rw [h3.2, h3.1])
        · left
          refine ⟨T, N ++ [r], _, τ, ?_, hok, addNt_inv h r hs hx hv⟩
          refine .nt ⟨hfr, hsh, hr⟩ ?_ ?_ (.nil _ _)
          · rintro rfl
            exact hT h.nterm
          · have hne : ¬ ∀ y ∈ atts b T N τ ++ [(self, r.att)], y.2.parent ≠ r.id := by
              intro hA
              have he := hcov.2 hA
              rename_i hfv _
              rw [he, Span.fromVec_nil] at hfv
              simp at hfv
            push Not at hne
            obtain ⟨y, hy, hp⟩ := hne
            rw [List.mem_append] at hy
            rcases hy with hy | hy
            · exact .inl ((mem_atts h.len).1 ⟨y, hy, hp⟩)
            · simp only [List.mem_singleton] at hy
              subst hy
              rcases (h.mem_keys _).1 hkey with h0 | h0
              · exact .inr ⟨h0, by rw [h0] at hp; exact hp⟩
              · exact .inl h0
  · rw [if_neg hsh]
    have hsh' : ['#'].isPrefixOf (trim raw) = false := Bool.eq_false_iff.2 hsh
    cases hr : TermRow.read (splitWs (trim raw)) with
    | none =>
      refine .inr fun _ => ⟨?_, terminalLine_err h.good hr⟩
      intro T' N' hacc
      cases hacc with
      | term h1 => have := h1.2; rw [hr] at this; cases this
      | nt h1 => exact hsh h1.2.1
    | some r =>
      cases N with
      | nil =>
        left
        have hf : b.finishedTerminals = false := h.fin
        exact ⟨_, _, _, _, .term ⟨hsh', hr⟩ (.nil _ _), terminalLine_ok h.good hf hr, addTerm_inv h r⟩
      | cons q N =>
        refine .inr fun _ => ⟨?_, ?_⟩
        · intro T' N' hacc
          cases hacc with
          | nt h1 => exact hsh h1.2.1
        · have hf : b.finishedTerminals = true := h.fin
          unfold terminalLine
          rw [if_pos hf]
          exact ⟨_, rfl⟩

/-! ## The lines of a sentence -/

theorem nextFrom_body {id : Nat} {body : List Str} (hb : ∀ l ∈ body, ¬ IsFrame l) (rest : List Str) :
    ∀ {b : Builder} {T : List TermRow} {N : List NtRow} {τ : List Nat}, Inv id b T N τ →
    (∃ T' N' b' τ', Acc T N body T' N' ∧ Inv id b' T' N' τ' ∧
      nextFrom (body ++ rest) (some b) = nextFrom rest (some b')) ∨
    ∃ pre bad post T' N' e, body = pre ++ bad :: post ∧ Acc T N pre T' N' ∧ (∀ T'' N'', ¬ Acc T' N' [bad] T'' N'') ∧
      nextFrom (body ++ rest) (some b) = .ok (some (.error e), post ++ rest) := by
  induction body with
  | nil => exact fun h => .inl ⟨_, _, _, _, .nil _ _, h, rfl⟩
  | cons l body ih =>
    intro b T N τ h
    have hl := hb l (by simp)
    have hrun : nextFrom (l :: body ++ rest) (some b) = (do
        let r ← processLine b (trim l)
        match r with
        | .ok b' => nextFrom (body ++ rest) (some b')
        | .error e => return (some (.error e), body ++ rest)) := by
      have h1 : ¬ startsWith bos (trim l) = true := fun h => hl (.inl h)
      have h2 : ¬ startsWith eos (trim l) = true := fun h => hl (.inr h)
      rw [List.cons_append, nextFrom]
      rw [if_neg h1, if_neg h2]
      rfl
    rcases step h l with ⟨T1, N1, b1, τ1, ha, hp, hi⟩ | hbad
    · rw [hp] at hrun
      have hrun : nextFrom (l :: body ++ rest) (some b) = nextFrom (body ++ rest) (some b1) := hrun
      rcases ih (fun l hl => hb l (by simp [hl])) hi with ⟨T', N', b', τ', g1, g2, g3⟩ |
        ⟨pre, bad, post, T', N', e, g1, g2, g3, g4⟩
      · exact .inl ⟨T', N', b', τ', ha.append g1, g2, hrun.trans g3⟩
      · refine .inr ⟨l :: pre, bad, post, T', N', e, by rw [g1]; rfl, ha.append g2, g3, hrun.trans ?_⟩
        rw [g4]
    · obtain ⟨h1, e, h2⟩ := hbad hl
      rw [h2] at hrun
      exact .inr ⟨[], l, body, T, N, e, rfl, .nil _ _, h1, hrun⟩

/-! ## The first line -/

/-- The builder after the first line. -/
def begun (id : Nat) (info : Option Str) : Builder where
  ntIndices := [(0, 0)]
  graph := ⟨[some (.nt ⟨vroot, some (headFeatures id info), Span.ofIdx 0⟩)], [], [], 0, []⟩
  nTerminals := 0
  sentenceId := Tree.natToStr id
  finishedTerminals := false
  numNonProjective := 0
  processedNts := 1
  secEdges := []

theorem headFeatures_eq (id : Nat) (info : Option Str) : (match info with
      | some m => ((Features.empty.insert sentenceIdKey (some (Tree.natToStr id))).1.insert metadataKey (some m)).1
      | none => (Features.empty.insert sentenceIdKey (some (Tree.natToStr id))).1) = headFeatures id info := by
  have h1 : metadataKey ≠ sentenceIdKey := by decide
  have h2 : metadataKey < sentenceIdKey := by decide
  have h3 : metadataKey = "metadata".toList := rfl
  have h4 : sentenceIdKey = "sentence_id".toList := rfl
  cases info with
  | none => simp [headFeatures, Features.empty, Features.insert, Features.insertEntry, h4]
  | some m =>
    simp only [Features.empty, Features.insert, Features.insertEntry, if_neg h1, if_pos h2, headFeatures, ← h3, ← h4]
    rfl

theorem fromHeader_ok {raw : Str} {id : Nat} {info : Option Str} (h : Opens raw id info) :
    fromHeader (trim raw) = .ok (.ok (begun id info)) := by
  obtain ⟨h1, w, n, m, h2, h3, h4⟩ := h
  unfold fromHeader
  rw [h1, h2]
  have e1 : numField (w :: n :: m)[1]? = .ok id := by simp [numField, h3]
  have e2 := headFeatures_eq id info
  simp only [Res.assert_true, Res.ok_bind]
  rw [e1]
  have e3 : (w :: n :: m)[2]? = m.head? := by cases m <;> rfl
  rw [e3]
  unfold begun
  rw [← e2, h4]
  cases m.head? <;> rfl

theorem fromHeader_err {raw : Str} (h1 : startsWith bos (trim raw) = true) (h : ∀ id info, ¬ Opens raw id info) :
    ∃ e, fromHeader (trim raw) = .ok (.error e) := by
  unfold fromHeader
  rw [h1]
  simp only [Res.assert_true, Res.ok_bind]
  cases hs : splitn3 (trim raw) with
  | nil => exact ⟨_, rfl⟩
  | cons w ps =>
    cases ps with
    | nil => exact ⟨_, rfl⟩
    | cons n m =>
      cases hp : parseUsize n with
      | none =>
        have e1 : numField (w :: n :: m)[1]? = .error (.parse 21) := by simp [numField, hp]
        rw [e1]
        exact ⟨_, rfl⟩
      | some id => exact absurd ⟨h1, w, n, m, hs, hp, rfl⟩ (h id _)

theorem begun_inv (id : Nat) (info : Option Str) : Inv id (begun id info) [] [] [] := by
  have hk : keys (begun id info) = [0] := rfl
  have hi : idx (begun id info) 0 = 0 := rfl
  refine ⟨⟨rfl, rfl, ?_, ?_, by simp [begun], ⟨0, rfl⟩⟩, rfl, rfl, rfl, rfl, rfl, by simp, ?_, by simp, by simp, ?_⟩
  · intro i hi
    have : i = 0 := by simpa [begun] using hi
    subst this
    exact ⟨_, rfl, ofIdx_valid 0⟩
  · intro k n h
    have hm := lookup_mem h
    simp only [begun, List.mem_singleton, Prod.mk.injEq] at hm
    obtain ⟨rfl, rfl⟩ := hm
    exact ⟨_, rfl⟩
  · intro n
    have hl : (begun id info).graph.nodes.length = 1 := rfl
    simp [hk, hi, hl]
  · refine ⟨by simp [hk], by simp [begun], by simp [hk, atts], rfl, rfl, rfl⟩

/-! ## The last line -/

/-- The graph with the secondary edges. -/
def withSec (m : List (Nat × Nat)) : List (Nat × Str × Nat) → Graph → Graph
  | [], g => g
  | (k, l, n) :: rest, g => withSec m rest (pushEdge g ((lookupIdx m k).getD 0) n (.secondary (some l)))

theorem addSecEdges_ok {m : List (Nat × Nat)} {S : List (Nat × Str × Nat)} {g : Graph} (hf : g.freeEdges = [])
    (hS : ∀ s ∈ S, (∃ n, lookupIdx m s.1 = some n ∧ g.contains n = true) ∧ g.contains s.2.2 = true) :
    addSecEdges m S g = .ok (withSec m S g) := by
  induction S generalizing g with
  | nil => rfl
  | cons s S ih =>
    obtain ⟨k, l, n⟩ := s
    obtain ⟨⟨p, h1, h2⟩, h3⟩ := hS _ (List.mem_cons_self)
    dsimp only at h1 h3
    have he : g.addEdge p n (.secondary (some l)) = .ok (pushEdge g p n (.secondary (some l)), g.edgeSlots) := by
      unfold Graph.addEdge
      rw [h2, h3, hf]
      simp [pushEdge, hf]
    unfold addSecEdges withSec
    rw [h1]
    simp only [Res.ofOption_some, Res.ok_bind, he, Option.getD_some]
    exact ih hf fun s hs => hS s (by simp [hs])

theorem addSecEdges_panic {m : List (Nat × Nat)} {S : List (Nat × Str × Nat)} {g : Graph} (hf : g.freeEdges = [])
    (hS : ∀ s ∈ S, (∀ n, lookupIdx m s.1 = some n → g.contains n = true) ∧ g.contains s.2.2 = true)
    (hbad : ∃ s ∈ S, lookupIdx m s.1 = none) : addSecEdges m S g = .panic := by
  induction S generalizing g with
  | nil => simp at hbad
  | cons s S ih =>
    obtain ⟨k, l, n⟩ := s
    obtain ⟨h2, h3⟩ := hS _ (List.mem_cons_self)
    dsimp only at h2 h3
    unfold addSecEdges
    cases h1 : lookupIdx m k with
    | none => rfl
    | some p =>
      have he : g.addEdge p n (.secondary (some l)) = .ok (pushEdge g p n (.secondary (some l)), g.edgeSlots) := by
        unfold Graph.addEdge
        rw [h2 p h1, h3, hf]
        simp [pushEdge, hf]
      simp only [Res.ofOption_some, Res.ok_bind, he]
      refine ih hf (fun s hs => hS s (by simp [hs])) ?_
      obtain ⟨s, hs, hn⟩ := hbad
      rw [List.mem_cons] at hs
      rcases hs with rfl | hs
      · dsimp only at hn; rw [h1] at hn; cases hn
      · exact ⟨s, hs, hn⟩

theorem mem_secOf {n : Nat} {a : Attach} {s : Nat × Str × Nat} :
    s ∈ secOf n a ↔ ∃ l k, a.sec = some (l, k) ∧ s = (k, l, n) := by
  unfold secOf
  cases a.sec with
  | none => simp
  | some p => obtain ⟨l, k⟩ := p; simp

theorem mem_atts_zip {T : List TermRow} {τ : List Nat} (hl : τ.length = T.length) {P : Attach → Prop} :
    (∃ x ∈ List.zipWith (fun n (r : TermRow) => (n, r.att)) τ T, P x.2) ↔ ∃ r ∈ T, P r.att := by
  induction T generalizing τ with
  | nil => simp
  | cons r T ih =>
    cases τ with
    | nil => simp at hl
    | cons n τ =>
      simp only [List.length_cons, Nat.add_right_cancel_iff] at hl
      simp only [List.zipWith_cons_cons, List.mem_cons, exists_eq_or_imp, ih hl]

theorem mem_secParents {b : Builder} {T : List TermRow} {N : List NtRow} {τ : List Nat} (h : Core b (atts b T N τ))
    (hl : τ.length = T.length) {k : Nat} : k ∈ secParents T N ↔ ∃ s ∈ b.secEdges, s.1 = k := by
  have h1 : (∃ s ∈ b.secEdges, s.1 = k) ↔ ∃ x ∈ atts b T N τ, ∃ l, x.2.sec = some (l, k) := by
    rw [h.sec]
    simp only [List.mem_flatMap, mem_secOf]
    constructor
    · rintro ⟨s, ⟨x, hx, l, k', h1, rfl⟩, rfl⟩
      exact ⟨x, hx, l, h1⟩
    · rintro ⟨x, hx, l, h1⟩
      exact ⟨_, ⟨x, hx, l, k, h1, rfl⟩, rfl⟩
  rw [h1]
  unfold atts secParents
  simp only [List.mem_append, or_and_right, exists_or]
  rw [mem_atts_zip hl (P := fun a => ∃ l, a.sec = some (l, k))]
  simp only [List.mem_filterMap, Option.map_eq_some_iff, Prod.exists, exists_eq_right, List.mem_map,
    exists_exists_and_eq_and]

theorem secKnown_iff {id : Nat} {b : Builder} {T : List TermRow} {N : List NtRow} {τ : List Nat}
    (h : Inv id b T N τ) : SecKnown T N ↔ ∀ s ∈ b.secEdges, s.1 ∈ keys b := by
  unfold SecKnown
  constructor
  · intro hk s hs
    exact (h.mem_keys _).2 (hk _ ((mem_secParents h.core h.len).2 ⟨s, hs, rfl⟩))
  · intro hk k hm
    obtain ⟨s, hs, rfl⟩ := (mem_secParents h.core h.len).1 hm
    exact (h.mem_keys _).1 (hk s hs)

theorem complete_iff {id : Nat} {b : Builder} {T : List TermRow} {N : List NtRow} {τ : List Nat}
    (h : Inv id b T N τ) : Complete T N ↔ b.processedNts = b.ntIndices.length := by
  unfold Complete
  have h1 : (keys b).toFinset = insert 0 (parents T N).toFinset := by
    ext k
    simp [h.mem_keys]
  have h2 : (keys b).length = b.ntIndices.length := by simp [keys]
  rw [h.proc, ← h1, List.toFinset_card_of_nodup h.core.keys_nodup, h2]

theorem sec_target {id : Nat} {b : Builder} {T : List TermRow} {N : List NtRow} {τ : List Nat}
    (h : Inv id b T N τ) {s : Nat × Str × Nat} (hs : s ∈ b.secEdges) : s.2.2 < b.graph.nodes.length := by
  rw [h.core.sec, List.mem_flatMap] at hs
  obtain ⟨x, hx, hs⟩ := hs
  obtain ⟨l, k, _, rfl⟩ := mem_secOf.1 hs
  have hm : (idx b x.2.parent, x.1, Edge.primary x.2.edge) ∈ b.graph.edges.map (fun r => (r.src, r.tgt, r.w)) := by
    rw [h.core.edges, List.mem_reverse, List.mem_map]
    exact ⟨x, hx, rfl⟩
  obtain ⟨e, he1, he2⟩ := List.mem_map.1 hm
  simp only [Prod.mk.injEq] at he2
  have := h.good.ends e he1
  rw [he2.2.1] at this
  exact this

theorem withSec_nodes (m : List (Nat × Nat)) (S : List (Nat × Str × Nat)) (g : Graph) :
    (withSec m S g).nodes = g.nodes := by
  induction S generalizing g with
  | nil => rfl
  | cons s S ih => unfold withSec; rw [ih]; rfl

/-- The tree of a sentence. -/
def finish (b : Builder) (root : Nat) (x : NonTerminal) : Tree where
  graph := (withSec b.ntIndices b.secEdges b.graph).setNode root (.nt { x with span := ⟨0, b.nTerminals, none⟩ })
  nTerminals := b.nTerminals
  root := root
  numDisc := b.numNonProjective

theorem footer_err {id : Nat} {b : Builder} {T : List TermRow} {N : List NtRow} {τ : List Nat} (h : Inv id b T N τ)
    {raw : Str} (h1 : startsWith eos (trim raw) = true) (h2 : ¬ Closes raw id) :
    ∃ e, tryIntoTree b (trim raw) = .ok (.error e) := by
  unfold tryIntoTree
  rw [h1]
  simp only [Res.assert_true, Res.ok_bind]
  cases hs : (splitWs (trim raw))[1]? with
  | none => exact ⟨_, rfl⟩
  | some w =>
    simp only [strField]
    rw [if_pos]
    · exact ⟨_, rfl⟩
    · rintro rfl
      exact h2 ⟨h1, by rw [hs, h.sid]⟩

theorem footer_ok {id : Nat} {b : Builder} {T : List TermRow} {N : List NtRow} {τ : List Nat} (h : Inv id b T N τ)
    {raw : Str} (hc : Closes raw id) :
    (¬ SecKnown T N ∧ tryIntoTree b (trim raw) = .panic) ∨
    (SecKnown T N ∧ ¬ Complete T N ∧ ∃ e, tryIntoTree b (trim raw) = .ok (.error e)) ∨
    (SecKnown T N ∧ Complete T N ∧ T = [] ∧ tryIntoTree b (trim raw) = .panic) ∨
    (SecKnown T N ∧ Complete T N ∧ T ≠ [] ∧ ∃ root x, lookupIdx b.ntIndices 0 = some root ∧
      b.graph.node? root = some (.nt x) ∧ tryIntoTree b (trim raw) = .ok (.ok (finish b root x))) := by
  have hrun : tryIntoTree b (trim raw) = (do
      let g ← addSecEdges b.ntIndices b.secEdges b.graph
      let root ← Res.ofOption (lookupIdx b.ntIndices 0)
      if b.processedNts ≠ b.ntIndices.length then return .error (.parse 26)
      else do
        let span ← Span.new 0 b.nTerminals
        let nd ← Res.ofOption (g.node? root)
        match nd.setSpan span with
        | .error e => return .error e
        | .ok nd' => return .ok ⟨g.setNode root nd', b.nTerminals, root, b.numNonProjective⟩) := by
    unfold tryIntoTree
    rw [hc.1, hc.2]
    simp only [Res.assert_true, Res.ok_bind, strField]
    rw [if_neg (by simp [h.sid])]
    rfl
  rw [hrun]
  have hlive : ∀ {k n}, lookupIdx b.ntIndices k = some n → b.graph.contains n = true := by
    intro k n hk
    obtain ⟨x, hx⟩ := h.good.nts k n hk
    exact contains_of hx
  have htgt : ∀ s ∈ b.secEdges, b.graph.contains s.2.2 = true := fun s hs => h.good.contains (sec_target h hs)
  by_cases hk : SecKnown T N
  · have hk' := (secKnown_iff h).1 hk
    rw [addSecEdges_ok h.good.freeEdges fun s hs => ⟨⟨_, lookup_of_mem (hk' s hs), hlive (lookup_of_mem (hk' s hs))⟩,
      htgt s hs⟩]
    obtain ⟨root, hr⟩ := h.good.root
    obtain ⟨x, hx⟩ := h.good.nts _ _ hr
    rw [hr]
    simp only [Res.ok_bind, Res.ofOption_some]
    by_cases hcm : Complete T N
    · rw [if_neg (by simpa using (complete_iff h).1 hcm)]
      by_cases hT : T = []
      · right; right; left
        refine ⟨hk, hcm, hT, ?_⟩
        have : b.nTerminals = 0 := by rw [h.nterm, hT]; rfl
        rw [this]
        simp [Span.new]
      · right; right; right
        refine ⟨hk, hcm, hT, root, x, rfl, hx, ?_⟩
        have hpos : 0 < b.nTerminals := by rw [h.nterm]; exact List.length_pos_iff.2 hT
        have hnd : (withSec b.ntIndices b.secEdges b.graph).node? root = some (.nt x) := by
          unfold Graph.node?
          rw [withSec_nodes]
          exact hx
        simp only [Span.new, hpos, decide_true, Res.assert_true, Res.ok_bind, Res.pure_eq, hnd, Res.ofOption_some]
        rfl
    · right; left
      refine ⟨hk, hcm, ?_⟩
      rw [if_pos (by simpa using mt (complete_iff h).2 hcm)]
      exact ⟨_, rfl⟩
  · left
    refine ⟨hk, ?_⟩
    have hbad : ∃ s ∈ b.secEdges, lookupIdx b.ntIndices s.1 = none := by
      by_contra hne
      push Not at hne
      refine hk ((secKnown_iff h).2 fun s hs => ?_)
      by_contra hkk
      exact hne s hs (lookup_none_iff.2 hkk)
    rw [addSecEdges_panic h.good.freeEdges (fun s hs => ⟨fun n hn => hlive hn, htgt s hs⟩) hbad]
    rfl

/-! ## Calls -/

theorem acc_rows {ls T N} : Acc [] [] ls T N ↔ Rows ls T N ∧ Processable T N := by
  rw [acc_iff]
  simp

theorem eos_not_bos {l : Str} (h : startsWith eos l = true) : startsWith bos l = false := by
  have e1 : bos = '#' :: 'B' :: "OS".toList := by decide
  have e2 : eos = '#' :: 'E' :: "OS".toList := by decide
  unfold startsWith at h ⊢
  rw [e2] at h
  rw [e1]
  match l, h with
  | [c], h => simp [List.isPrefixOf] at h
  | c :: d :: r, h =>
    simp only [List.isPrefixOf, Bool.and_eq_true, beq_iff_eq] at h
    simp [List.isPrefixOf, ← h.2.1]

theorem split_frames (ls : List Str) : ∃ pre post, ls = pre ++ post ∧ (∀ l ∈ pre, ¬ IsFrame l) ∧
    (post = [] ∨ ∃ f r, post = f :: r ∧ IsFrame f) := by
  induction ls with
  | nil => exact ⟨[], [], rfl, by simp, .inl rfl⟩
  | cons l ls ih =>
    by_cases hl : IsFrame l
    · exact ⟨[], l :: ls, rfl, by simp, .inr ⟨l, ls, rfl, hl⟩⟩
    · obtain ⟨pre, post, rfl, h1, h2⟩ := ih
      refine ⟨l :: pre, post, rfl, ?_, h2⟩
      intro x hx
      rw [List.mem_cons] at hx
      rcases hx with rfl | hx
      · exact hl
      · exact h1 x hx

theorem next_outside {pre : List Str} (h : ∀ l ∈ pre, ¬ IsFrame l) (ls : List Str) :
    readerNext (pre ++ ls) = readerNext ls := by
  induction pre with
  | nil => rfl
  | cons l pre ih =>
    have hl := h l (by simp)
    have h1 : ¬ startsWith bos (trim l) = true := fun h => hl (.inl h)
    have h2 : ¬ startsWith eos (trim l) = true := fun h => hl (.inr h)
    unfold readerNext
    rw [List.cons_append, nextFrom]
    simp only [if_neg h1, if_neg h2]
    exact ih fun l hl => h l (by simp [hl])

theorem next_unmatched {f : Str} (h : startsWith eos (trim f) = true) (rest : List Str) :
    ∃ e, readerNext (f :: rest) = .ok (some (.error e), rest) := by
  unfold readerNext
  rw [nextFrom]
  simp only [eos_not_bos h, h, if_true]
  exact ⟨_, rfl⟩

theorem next_bad_header {f : Str} (h : startsWith bos (trim f) = true) (hn : ∀ id info, ¬ Opens f id info)
    (rest : List Str) : ∃ e, readerNext (f :: rest) = .ok (some (.error e), rest) := by
  obtain ⟨e, he⟩ := fromHeader_err h hn
  refine ⟨e, ?_⟩
  unfold readerNext
  rw [nextFrom]
  simp only [h, if_true, he, Res.ok_bind]
  rfl

theorem next_opens {f : Str} {id : Nat} {info : Option Str} (h : Opens f id info) (rest : List Str) :
    readerNext (f :: rest) = nextFrom rest (some (begun id info)) := by
  unfold readerNext
  rw [nextFrom]
  simp only [h.1, if_true, fromHeader_ok h, Res.ok_bind]

theorem next_nested {f : Str} (h : startsWith bos (trim f) = true) (b : Builder) (rest : List Str) :
    ∃ e, nextFrom (f :: rest) (some b) = .ok (some (.error e), rest) := by
  rw [nextFrom]
  simp only [h, if_true]
  exact ⟨_, rfl⟩

theorem next_footer {f : Str} (h : startsWith eos (trim f) = true) (b : Builder) (rest : List Str) :
    nextFrom (f :: rest) (some b) = (do
      let r ← tryIntoTree b (trim f)
      return (some r, rest)) := by
  rw [nextFrom]
  simp only [eos_not_bos h, h, if_true]
  rfl

/-- Everything a call can do. -/
inductive Call : List Str → Res (Option (Except Err Tree) × List Str) → Prop
  | outside {pre : List Str} : (∀ l ∈ pre, ¬ IsFrame l) → Call pre (.ok (none, []))
  | unmatched {pre f rest e} : (∀ l ∈ pre, ¬ IsFrame l) → startsWith eos (trim f) = true →
      Call (pre ++ f :: rest) (.ok (some (.error e), rest))
  | header {pre f rest e} : (∀ l ∈ pre, ¬ IsFrame l) → startsWith bos (trim f) = true → (∀ id info, ¬ Opens f id info) →
      Call (pre ++ f :: rest) (.ok (some (.error e), rest))
  | unclosed {pre hd id info body T N} : (∀ l ∈ pre, ¬ IsFrame l) → Opens hd id info → (∀ l ∈ body, ¬ IsFrame l) →
      Rows body T N → Processable T N → Call (pre ++ hd :: body) (.ok (none, []))
  | nested {pre hd id info body T N f rest e} : (∀ l ∈ pre, ¬ IsFrame l) → Opens hd id info →
      (∀ l ∈ body, ¬ IsFrame l) → Rows body T N → Processable T N → startsWith bos (trim f) = true →
      Call (pre ++ hd :: (body ++ f :: rest)) (.ok (some (.error e), rest))
  | malformed {pre hd id info body T N bad rest e} : (∀ l ∈ pre, ¬ IsFrame l) → Opens hd id info →
      (∀ l ∈ body, ¬ IsFrame l) → Rows body T N → Processable T N → ¬ IsFrame bad →
      (∀ T' N', ¬ (Rows (body ++ [bad]) T' N' ∧ Processable T' N')) →
      Call (pre ++ hd :: (body ++ bad :: rest)) (.ok (some (.error e), rest))
  | differs {pre hd id info body T N f rest e} : (∀ l ∈ pre, ¬ IsFrame l) → Opens hd id info →
      (∀ l ∈ body, ¬ IsFrame l) → Rows body T N → Processable T N → startsWith eos (trim f) = true → ¬ Closes f id →
      Call (pre ++ hd :: (body ++ f :: rest)) (.ok (some (.error e), rest))
  | incomplete {pre hd id info body T N f rest e} : (∀ l ∈ pre, ¬ IsFrame l) → Opens hd id info →
      (∀ l ∈ body, ¬ IsFrame l) → Rows body T N → Processable T N → Closes f id → SecKnown T N → ¬ Complete T N →
      Call (pre ++ hd :: (body ++ f :: rest)) (.ok (some (.error e), rest))
  | panics {pre hd id info body T N f rest} : (∀ l ∈ pre, ¬ IsFrame l) → Opens hd id info →
      (∀ l ∈ body, ¬ IsFrame l) → Rows body T N → Processable T N → Closes f id → (T = [] ∨ ¬ SecKnown T N) →
      Call (pre ++ hd :: (body ++ f :: rest)) .panic
  | tree {pre hd id info body T N f rest b τ root x} : (∀ l ∈ pre, ¬ IsFrame l) → Opens hd id info →
      (∀ l ∈ body, ¬ IsFrame l) → Rows body T N → Processable T N → Closes f id → T ≠ [] → SecKnown T N →
      Complete T N → Inv id b T N τ →
      (∀ rest, nextFrom (body ++ rest) (some (begun id info)) = nextFrom rest (some b)) →
      lookupIdx b.ntIndices 0 = some root → b.graph.node? root = some (.nt x) →
      Call (pre ++ hd :: (body ++ f :: rest)) (.ok (some (.ok (finish b root x)), rest))

/-- What happens after the lines of a sentence does not depend on what follows. -/
theorem nextFrom_body_acc {id : Nat} {body : List Str} :
    ∀ {b : Builder} {T : List TermRow} {N : List NtRow} {τ : List Nat}, Inv id b T N τ → ∀ {T' N'},
    Acc T N body T' N' → ∃ b' τ', Inv id b' T' N' τ' ∧
      ∀ rest, nextFrom (body ++ rest) (some b) = nextFrom rest (some b') := by
  induction body with
  | nil => intro b T N τ h T' N' ha; cases ha; exact ⟨b, τ, h, fun _ => rfl⟩
  | cons l body ih =>
    intro b T N τ h T' N' ha
    obtain ⟨T1, N1, a1, a2⟩ := Acc.prefix (ls := [l]) ha
    have hl : ¬ IsFrame l := by
      cases a1 with
      | term h1 => exact not_frame_of_term h1
      | nt h1 => exact h1.1
    rcases step h l with ⟨T2, N2, b1, τ1, g1, g2, g3⟩ | hbad
    · obtain ⟨rfl, rfl⟩ := a1.unique g1
      obtain ⟨b', τ', i1, i2⟩ := ih g3 a2
      refine ⟨b', τ', i1, fun rest => ?_⟩
      rw [← i2]
      have h1 : ¬ startsWith bos (trim l) = true := fun h => hl (.inl h)
      have h2 : ¬ startsWith eos (trim l) = true := fun h => hl (.inr h)
      rw [List.cons_append, nextFrom]
      rw [if_neg h1, if_neg h2]
      simp only [g2, Res.ok_bind]
    · exact absurd a1 ((hbad hl).1 _ _)

theorem call (ls : List Str) : Call ls (readerNext ls) := by
  obtain ⟨pre, post, rfl, hpre, hpost⟩ := split_frames ls
  rw [next_outside hpre]
  rcases hpost with rfl | ⟨f, r, rfl, hf⟩
  · rw [List.append_nil]; exact .outside hpre
  by_cases he : startsWith eos (trim f) = true
  · obtain ⟨e, h⟩ := next_unmatched he r
    rw [h]; exact .unmatched hpre he
  have hb : startsWith bos (trim f) = true := hf.resolve_right he
  by_cases ho : ∃ id info, Opens f id info
  swap
  · push Not at ho
    obtain ⟨e, h⟩ := next_bad_header hb ho r
    rw [h]; exact .header hpre hb ho
  obtain ⟨id, info, ho⟩ := ho
  rw [next_opens ho]
  obtain ⟨body, post, rfl, hbody, hpost⟩ := split_frames r
  by_cases hacc : ∃ T N, Acc [] [] body T N
  swap
  · rcases nextFrom_body hbody post (begun_inv id info) with ⟨T, N, _, _, ha, _⟩ |
      ⟨p, bad, q, T, N, e, rfl, h1, h2, h3⟩
    · exact absurd ⟨T, N, ha⟩ hacc
    · rw [h3]
      obtain ⟨g1, g2⟩ := acc_rows.1 h1
      rw [List.append_assoc, List.cons_append]
      refine .malformed hpre ho (fun l hl => hbody l (by simp [hl])) g1 g2 (hbody bad (by simp)) ?_
      intro T' N' hc
      obtain ⟨T1, N1, a1, a2⟩ := (acc_rows.2 hc).prefix
      obtain ⟨rfl, rfl⟩ := h1.unique a1
      exact h2 _ _ a2
  obtain ⟨T, N, ha⟩ := hacc
  obtain ⟨hR, hP⟩ := acc_rows.1 ha
  obtain ⟨b, τ, hi, hrun⟩ := nextFrom_body_acc (begun_inv id info) ha
  rw [hrun]
  rcases hpost with rfl | ⟨f', r', rfl, hf'⟩
  · rw [List.append_nil]; exact .unclosed hpre ho hbody hR hP
  by_cases he' : startsWith eos (trim f') = true
  swap
  · have hb' : startsWith bos (trim f') = true := hf'.resolve_right he'
    obtain ⟨e, h⟩ := next_nested hb' b r'
    rw [h]; exact .nested hpre ho hbody hR hP hb'
  rw [next_footer he']
  by_cases hc : Closes f' id
  swap
  · obtain ⟨e, h⟩ := footer_err hi he' hc
    rw [h]; exact .differs hpre ho hbody hR hP he' hc
  rcases footer_ok hi hc with ⟨h1, h2⟩ | ⟨h1, h2, e, h3⟩ | ⟨h1, h2, h3, h4⟩ | ⟨h1, h2, h3, root, x, h4, h5, h6⟩
  · rw [h2]; exact .panics hpre ho hbody hR hP hc (.inr h1)
  · rw [h3]; exact .incomplete hpre ho hbody hR hP hc h1 h2
  · rw [h4]; exact .panics hpre ho hbody hR hP hc (.inl h3)
  · rw [h6]; exact .tree hpre ho hbody hR hP hc h3 h1 h2 hi hrun h4 h5

end Negra
end Lumberjack
