import Verif.Proofs.NegraWF
import Verif.Proofs.NegraBack
import Verif.Proofs.Equality
import Verif.Props.NegraWrite

/-!
# The NEGRA round trip
-/

namespace Lumberjack
namespace Negra

open Lumberjack.Span Lumberjack.Tree

variable {t t' : Tree} {ns nts : List Nat} {T : List TermRow} {N : List NtRow}

/-- The rows are those of the tree. -/
structure Rendered (t : Tree) (ns nts : List Nat) (T : List TermRow) (N : List NtRow) : Prop where
  leaves : Leaves t ns
  bottom : BottomUp t nts
  terms : List.Forall₂ (IsTermRow t (num t nts)) ns T
  nts : List.Forall₂ (IsNtRow t (num t nts)) nts N

theorem forall₂_right {α β : Type} {R : α → β → Prop} {l : List α} {l' : List β} (h : List.Forall₂ R l l') {i : Nat}
    {a : α} (ha : l[i]? = some a) : ∃ b, l'[i]? = some b ∧ R a b := by
  induction h generalizing i with
  | nil => simp at ha
  | cons h1 _ ih =>
    cases i with
    | zero => simp only [List.getElem?_cons_zero, Option.some.injEq] at ha ⊢; subst ha; exact ⟨_, rfl, h1⟩
    | succ i => simp only [List.getElem?_cons_succ] at ha ⊢; exact ih ha

theorem forall₂_left {α β : Type} {R : α → β → Prop} {l : List α} {l' : List β} (h : List.Forall₂ R l l') {i : Nat}
    {b : β} (hb : l'[i]? = some b) : ∃ a, l[i]? = some a ∧ R a b := by
  obtain ⟨a, h1, h2⟩ := forall₂_right h.flip hb
  exact ⟨a, h1, h2⟩

namespace Rendered

variable (R : Rendered t ns nts T N)

include R

theorem row_term {i : Nat} {r : TermRow} (h : T[i]? = some r) :
    ∃ n, ns[i]? = some n ∧ IsTermRow t (num t nts) n r := forall₂_left R.terms h

theorem row_nt {i : Nat} {r : NtRow} (h : N[i]? = some r) :
    ∃ n, nts[i]? = some n ∧ IsNtRow t (num t nts) n r := forall₂_left R.nts h

theorem row_nt' {r : NtRow} (h : r ∈ N) : ∃ n, t.IsNt n ∧ n ≠ t.root ∧ IsNtRow t (num t nts) n r := by
  obtain ⟨i, hi⟩ := List.mem_iff_getElem?.1 h
  obtain ⟨n, h1, h2⟩ := R.row_nt hi
  obtain ⟨h3, h4⟩ := (R.bottom.mem n).1 (List.mem_of_getElem? h1)
  exact ⟨n, h3, h4, h2⟩

theorem term_row (W : t.WF) {n : Nat} (h : t.IsTerm n) :
    ∃ (i : Nat) (r : TermRow), ns[i]? = some n ∧ T[i]? = some r ∧ IsTermRow t (num t nts) n r ∧ t.TermAt n i := by
  obtain ⟨i, h1, h2⟩ := W.sentence.pos n h
  have hi : ns[i]? = some n := by
    rw [List.getElem?_eq_getElem (by rw [R.leaves.1]; exact h1)]
    congr 1
    exact W.sentence.inj _ _ i (R.leaves.2 i _ (by simp)) h2
  obtain ⟨r, h3, h4⟩ := forall₂_right R.terms hi
  exact ⟨i, r, hi, h3, h4, h2⟩

theorem nt_row {n : Nat} (h : t.IsNt n) (hn : n ≠ t.root) :
    ∃ (i : Nat) (r : NtRow), nts[i]? = some n ∧ N[i]? = some r ∧ IsNtRow t (num t nts) n r := by
  obtain ⟨i, hi⟩ := List.mem_iff_getElem?.1 ((R.bottom.mem n).2 ⟨h, hn⟩)
  obtain ⟨r, h3, h4⟩ := forall₂_right R.nts hi
  exact ⟨i, r, hi, h3, h4⟩

theorem num_lt (E : Exportable t) {n : Nat} (h : t.IsNt n) : num t nts n < 2 ^ 64 := by
  by_cases hn : n = t.root
  · simp [num, hn]
  · have h1 := ((Props.C51_numbers t nts R.bottom).2.2.1 n h hn).2
    have h2 : nts.length + 1 ≤ t.nonterminals.length := by
      have hs : t.root :: nts ⊆ t.nonterminals := fun m hm => by
        rcases List.mem_cons.1 hm with rfl | hm
        · exact mem_nonterminals.2 E.root
        · exact mem_nonterminals.2 ((R.bottom.mem m).1 hm).1
      have hn : (t.root :: nts).Nodup := List.nodup_cons.2 ⟨fun h => ((R.bottom.mem _).1 h).2 rfl, R.bottom.nodup⟩
      simpa using (hn.subperm hs).length_le
    have := E.size
    omega

omit R in
theorem parent_nt (W : t.WF) {p n : Nat} (h : t.IsChild p n) : t.IsNt p := by
  obtain ⟨e, h1, h2, _⟩ := id h
  obtain ⟨nd, hnd⟩ := (W.graph.ends e h1).1
  rw [h2] at hnd
  cases nd with
  | term x => exact absurd h (W.shape.term_leaf p n ⟨x, hnd⟩)
  | nt x => exact ⟨x, hnd⟩

theorem attachOK (E : Exportable t) {n : Nat} {a : Attach} (h : IsAttach t (num t nts) n a) : AttachOK a := by
  obtain ⟨⟨p, h1, h2⟩, h3, h4⟩ := h
  refine ⟨fun s hs => ?_, by rw [h2]; exact R.num_lt E (parent_nt E.wf h1), fun s k hs => ?_⟩
  · obtain ⟨e, g1, g2, g3, g4⟩ := h1
    have := E.edges e g1
    rw [h3, inLabel, ← g3, E.wf.shape.edgeLabel_of_edge g1 g4] at hs
    cases hw : e.w with
    | primary l =>
      rw [hw] at this hs
      exact this s hs
    | secondary l => rw [hw] at g4; cases g4
  · rcases h4 with ⟨h4, _⟩ | ⟨e, g1, g2, g3, _, g4⟩
    · rw [h4] at hs; cases hs
    · have he := E.edges e g1
      have := E.sources e g1 g3
      cases hw : e.w with
      | primary l => rw [hw] at g3; cases g3
      | secondary l =>
        rw [hw] at he g4
        obtain ⟨s', rfl, h5, h6⟩ := he
        rw [g4] at hs
        simp only [Edge.label, Option.getD_some, Option.some.injEq, Prod.mk.injEq] at hs
        obtain ⟨rfl, rfl⟩ := hs
        exact ⟨h5, h6, R.num_lt E this⟩

omit R in
theorem featOf_one (k v : Str) : featOf (some ⟨[(k, some v)]⟩) k = some v := by
  simp [featOf, Features.getVal, Features.lookupEntry]

omit R in
theorem featOf_only {f : Option Features} {k : Str} {P : Str → Prop} (h : OnlyFeature f k P) :
    (∀ v, featOf f k = some v → P v) ∧
      Forest.FeatSame f ((featOf f k).map fun v => (⟨[(k, some v)]⟩ : Features)) := by
  rcases h with h | ⟨v, rfl, hv⟩
  · have : featOf f k = none := by
      cases f with
      | none => rfl
      | some f =>
        have hf : f = Features.empty := h
        subst hf
        rfl
    rw [this]
    exact ⟨fun v hv => (by cases hv), h⟩
  · rw [featOf_one]
    refine ⟨fun w hw => ?_, rfl⟩
    injection hw with hw
    rw [← hw]; exact hv

theorem termOK (E : Exportable t) {i : Nat} {r : TermRow} (h : T[i]? = some r) : TermOK r := by
  obtain ⟨n, _, x, h1, h2, h3, h4, h5, h6⟩ := R.row_term h
  have hx := E.terms n x h1
  exact ⟨by rw [h2]; exact hx.form, by rw [h2]; exact hx.comment, by rw [h4]; exact hx.pos, by rw [h3]; exact hx.lem,
    by rw [h5]; exact (featOf_only hx.features).1, R.attachOK E h6⟩

theorem ntOK (E : Exportable t) {r : NtRow} (h : r ∈ N) : NtOK r := by
  obtain ⟨n, g1, g2, x, h1, h2, h3, h4, h5⟩ := R.row_nt' h
  have hx := E.nts n x g2 h1
  refine ⟨by rw [h2]; exact R.num_lt E g1, by rw [h3]; exact hx.label, by rw [h4]; exact (featOf_only hx.features).1, ?_,
    R.attachOK E h5⟩
  rw [h3, h4]
  refine hx.something.imp_right fun hs hf => hs ?_
  rcases hx.features with h | ⟨v, h, _⟩
  · exact h
  · rw [h, featOf_one] at hf
    cases hf

/-! ## The rows are those of a complete sentence -/

theorem ids : N.map (·.id) = nts.map (num t nts) := by
  have := R.nts
  generalize num t nts = f at this
  clear R
  induction this with
  | nil => rfl
  | cons h _ ih => obtain ⟨x, _, h2, _⟩ := h; simp [h2, ih]

theorem terms_ne_nil (W : t.WF) : T ≠ [] := by
  have : 0 < t.nTerminals := by
    have := W.shape.root_live
    obtain ⟨nd, hnd⟩ := this
    cases nd with
    | term x =>
      obtain ⟨i, hi, _⟩ := W.sentence.pos _ ⟨x, hnd⟩
      omega
    | nt x =>
      obtain ⟨m, h1, y, h2, _⟩ := ((W.spans _ x hnd).2 _).1 (Span.contains_iff.2 (W.spans _ x hnd).1.start_mem)
      obtain ⟨i, hi, _⟩ := W.sentence.pos _ ⟨y, h2⟩
      omega
  have hl := R.terms.length_eq
  rw [R.leaves.1] at hl
  intro h
  rw [h] at hl
  simp only [List.length_nil] at hl
  omega

theorem own : OwnNumbers N := by
  have hn := Props.C51_numbers t nts R.bottom
  unfold OwnNumbers
  rw [R.ids]
  constructor
  · refine List.Nodup.map_on ?_ R.bottom.nodup
    intro a ha b hb h
    exact hn.1 a b ((R.bottom.mem a).1 ha).1 ((R.bottom.mem b).1 hb).1 h
  · intro h
    obtain ⟨a, ha, h⟩ := List.mem_map.1 h
    obtain ⟨h1, h2⟩ := (R.bottom.mem a).1 ha
    have := hn.2.2.1 a h1 h2
    omega

/-- The numbers named as parents are those of the nonterminals. -/
theorem mem_parents (W : t.WF) {k : Nat} : k ∈ parents T N ↔ ∃ n, t.IsNt n ∧ num t nts n = k := by
  unfold parents
  rw [List.mem_append, List.mem_map, List.mem_map]
  constructor
  · rintro (⟨r, h, rfl⟩ | ⟨r, h, rfl⟩)
    · obtain ⟨i, hi⟩ := List.mem_iff_getElem?.1 h
      obtain ⟨n, _, x, _, _, _, _, _, ⟨p, h1, h2⟩, _⟩ := R.row_term hi
      exact ⟨p, parent_nt W h1, h2.symm⟩
    · obtain ⟨n, _, _, x, _, _, _, _, ⟨p, h1, h2⟩, _⟩ := R.row_nt' h
      exact ⟨p, parent_nt W h1, h2.symm⟩
  · rintro ⟨n, h, rfl⟩
    obtain ⟨c, hc⟩ := W.shape.nt_child n h
    obtain ⟨e, h1, h2, h3, h4⟩ := id hc
    obtain ⟨nd, hnd⟩ := (W.graph.ends e h1).2
    rw [h3] at hnd
    cases nd with
    | term x =>
      obtain ⟨i, r, g1, g2, ⟨_, _, _, _, _, _, ⟨p, g3, g4⟩, _⟩, _⟩ := R.term_row W ⟨x, hnd⟩
      rw [W.shape.isChild_unique g3 hc] at g4
      exact .inl ⟨r, List.mem_of_getElem? g2, g4⟩
    | nt x =>
      obtain ⟨i, r, g1, g2, _, _, _, _, _, ⟨p, g3, g4⟩, _⟩ := R.nt_row ⟨x, hnd⟩
        (fun hr => W.shape.root_top n (hr ▸ hc))
      rw [W.shape.isChild_unique g3 hc] at g4
      exact .inr ⟨r, List.mem_of_getElem? g2, g4⟩

theorem processable (W : t.WF) : Processable T N := by
  refine ⟨fun h => absurd h (R.terms_ne_nil W), fun pre r post hN => .inl ?_⟩
  have hi : N[pre.length]? = some r := by rw [hN]; simp
  obtain ⟨n, h1, x, h2, h3, _⟩ := R.row_nt hi
  have hn := (R.bottom.mem n).1 (List.mem_of_getElem? h1)
  obtain ⟨c, hc⟩ := W.shape.nt_child n hn.1
  obtain ⟨e, e1, e2, e3, e4⟩ := id hc
  obtain ⟨nd, hnd⟩ := (W.graph.ends e e1).2
  rw [e3] at hnd
  unfold parents
  rw [List.mem_append, List.mem_map, List.mem_map, h3]
  cases nd with
  | term y =>
    obtain ⟨i, q, g1, g2, ⟨_, _, _, _, _, _, ⟨p, g3, g4⟩, _⟩, _⟩ := R.term_row W ⟨y, hnd⟩
    rw [W.shape.isChild_unique g3 hc] at g4
    exact .inl ⟨q, List.mem_of_getElem? g2, g4⟩
  | nt y =>
    obtain ⟨i, q, g1, g2, _, _, _, _, _, ⟨p, g3, g4⟩, _⟩ := R.nt_row ⟨y, hnd⟩
      (fun hr => W.shape.root_top n (hr ▸ hc))
    rw [W.shape.isChild_unique g3 hc] at g4
    have hlt := R.bottom.order _ _ n c h1 g1 hc
    refine .inr ⟨q, ?_, g4⟩
    rw [hN, List.getElem?_append_left hlt] at g2
    exact List.mem_of_getElem? g2

theorem complete (W : t.WF) : Complete T N := by
  unfold Complete
  have h1 : insert 0 (parents T N).toFinset = (0 :: N.map (·.id)).toFinset := by
    ext k
    rw [Finset.mem_insert, List.mem_toFinset, R.mem_parents W, List.mem_toFinset, List.mem_cons, R.ids, List.mem_map]
    refine ⟨?_, ?_⟩
    · rintro (h | ⟨n, h, rfl⟩)
      · exact .inl h
      · by_cases hn : n = t.root
        · exact .inl (by simp [num, hn])
        · exact .inr ⟨n, (R.bottom.mem n).2 ⟨h, hn⟩, rfl⟩
    · rintro (h | ⟨n, h, rfl⟩)
      · exact .inl h
      · exact .inr ⟨n, ((R.bottom.mem n).1 h).1, rfl⟩
  rw [h1, List.toFinset_card_of_nodup (List.nodup_cons.2 ⟨R.own.2, R.own.1⟩)]
  simp

theorem secKnown (W : t.WF) (hs : ∀ e ∈ t.graph.edges, e.w.isPrimary = false → t.IsNt e.src) : SecKnown T N := by
  have ha : ∀ n a, IsAttach t (num t nts) n a → ∀ k, a.sec.map (·.2) = some k → k ∈ parents T N := by
    rintro n a ⟨_, _, h⟩ k hk
    rcases h with ⟨h, _⟩ | ⟨e, g1, g2, g3, _, g4⟩
    · rw [h] at hk; cases hk
    · rw [g4] at hk
      simp only [Option.map_some, Option.some.injEq] at hk
      exact (R.mem_parents W).2 ⟨e.src, hs e g1 g3, hk⟩
  intro k hk
  refine .inr ?_
  unfold secParents at hk
  rw [List.mem_append, List.mem_filterMap, List.mem_filterMap] at hk
  rcases hk with ⟨r, h, hk⟩ | ⟨r, h, hk⟩
  · obtain ⟨i, hi⟩ := List.mem_iff_getElem?.1 h
    obtain ⟨n, _, x, _, _, _, _, _, h1⟩ := R.row_term hi
    exact ha n _ h1 k hk
  · obtain ⟨n, _, _, x, _, _, _, _, h1⟩ := R.row_nt' h
    exact ha n _ h1 k hk

theorem childrenFirst (W : t.WF) : ChildrenFirst N := by
  intro pre r post hN hm
  have hi : N[pre.length]? = some r := by rw [hN]; simp
  obtain ⟨n, h1, x, h2, h3, _, _, ⟨p, h4, h5⟩, _⟩ := R.row_nt hi
  obtain ⟨q, hq, hqe⟩ := List.mem_map.1 hm
  obtain ⟨j, hj⟩ := List.mem_iff_getElem?.1 hq
  have hlt : j < (pre ++ [r]).length := (List.getElem?_eq_some_iff.1 hj).1
  simp only [List.length_append, List.length_cons, List.length_nil] at hlt
  have hjN : N[j]? = some q := by
    rw [hN, show pre ++ r :: post = (pre ++ [r]) ++ post by simp, List.getElem?_append_left (by simpa using hlt)]
    exact hj
  obtain ⟨m, g1, y, g2, g3, _⟩ := R.row_nt hjN
  have hm' := (R.bottom.mem m).1 (List.mem_of_getElem? g1)
  have : m = p := (Props.C51_numbers t nts R.bottom).1 m p hm'.1 (parent_nt W h4) (by rw [← g3, ← h5, hqe])
  subst this
  have := R.bottom.order _ _ _ _ g1 h1 h4
  omega

end Rendered

/-- What is written for a tree the format can hold: a header, rows and a footer, read as a tree described by its
rows. -/
theorem written_rows (E : Exportable t) {counter id : Nat} {info : Option Str} (H : Head t counter id info) :
    ∃ ns nts T N ls rows, ls = header (natToStr id) info :: (rows ++ [footer (natToStr id)]) ∧ Rows rows T N ∧
      Rendered t ns nts T N ∧ (∀ l ∈ ls, '\n' ∉ l ∧ Tight l) ∧
      writeTree counter t = .ok (unlines (ls ++ [[]]),
        if (featOf (rootFeatures t) "sentence_id".toList).isSome then counter else counter + 1) ∧
      ∀ rest, ∃ t' τ ν, readerNext (ls ++ rest) = .ok (some (.ok t'), rest) ∧ Described id info T N t' τ ν ∧ t'.WF := by
  obtain ⟨ns, nts, T, N, tl, nl, h1, h2, h3, h4, h5, h6, h7⟩ := writeTree_spec E.wf E.root E.sources counter
  have R : Rendered t ns nts T N := ⟨h1, h2, h3, h4⟩
  have ht : ∀ l ∈ tl, ∃ r, TermOK r ∧ Columns l r.columns := by
    intro l hl
    obtain ⟨i, hi⟩ := List.mem_iff_getElem?.1 hl
    obtain ⟨r, g1, g2⟩ := forall₂_right h5 hi
    exact ⟨r, R.termOK E g1, g2⟩
  have hn : ∀ l ∈ nl, ∃ r, NtOK r ∧ Columns l r.columns := by
    intro l hl
    obtain ⟨i, hi⟩ := List.mem_iff_getElem?.1 hl
    obtain ⟨r, g1, g2⟩ := forall₂_right h6 hi
    exact ⟨r, R.ntOK E (List.mem_of_getElem? g1), g2⟩
  have hrows : Rows (tl ++ nl) T N := by
    refine ⟨tl, nl, rfl, ?_, ?_⟩
    · rw [List.forall₂_iff_get] at h5 ⊢
      exact ⟨h5.1, fun i a b => (R.termOK E (List.getElem?_eq_getElem b)).line (h5.2 i a b)⟩
    · rw [List.forall₂_iff_get] at h6 ⊢
      exact ⟨h6.1, fun i a b => (R.ntOK E (List.getElem_mem b)).line (h6.2 i a b)⟩
  have hid : (featOf (rootFeatures t) sentenceIdKey).getD (natToStr counter) = natToStr id := H.number
  have hmd : featOf (rootFeatures t) metadataKey = info := H.metadata
  rw [hid, hmd] at h7
  refine ⟨ns, nts, T, N, header (natToStr id) info :: (tl ++ nl ++ [footer (natToStr id)]), tl ++ nl, rfl, hrows, R,
    ?_, ?_, ?_⟩
  · intro l hl
    simp only [List.mem_cons, List.mem_append, List.not_mem_nil, or_false] at hl
    rcases hl with rfl | (hl | hl) | rfl
    · exact ⟨header_no_newline id H.clean, header_tight id H.clean⟩
    · obtain ⟨r, g1, g2⟩ := ht l hl
      exact ⟨g2.no_newline g1.fields, g2.tight g1.fields⟩
    · obtain ⟨r, g1, g2⟩ := hn l hl
      exact ⟨g2.no_newline g1.fields, g2.tight g1.fields⟩
    · exact ⟨footer_no_newline id, footer_tight id⟩
  · rw [h7]
    simp only [List.append_assoc, List.cons_append, List.nil_append]
    rfl
  · intro rest
    obtain ⟨b, τ, i1, i2, i3, i4⟩ := sentence_inv (id := id) (info := info) hrows (R.processable E.wf)
    have ho := R.own
    have hc := R.childrenFirst E.wf
    have e : header (natToStr id) info :: (tl ++ nl ++ [footer (natToStr id)]) ++ rest =
        header (natToStr id) info :: ((tl ++ nl) ++ footer (natToStr id) :: rest) := by simp
    rw [e, next_opens (header_opens H.fits H.clean), i4, next_footer (footer_closes id).1]
    rcases footer_ok i1 (footer_closes id) with ⟨g1, _⟩ | ⟨_, g1, _⟩ | ⟨_, _, g1, _⟩ | ⟨g1, g2, g3, root, x, g4, g5, g6⟩
    · exact absurd (R.secKnown E.wf E.sources) g1
    · exact absurd (R.complete E.wf) g1
    · exact absurd g1 (R.terms_ne_nil E.wf)
    · rw [g6]
      exact ⟨_, _, _, rfl, finish_described i1 (i2 ho) ho (R.secKnown E.wf E.sources) (R.complete E.wf) g4 g5,
        finish_wf i1 (i2 ho) (i3 ho hc) ho hc (R.terms_ne_nil E.wf) (R.secKnown E.wf E.sources)
          (R.complete E.wf) g4 g5⟩

/-- What is written for a tree the format can hold is read as a tree described by its rows. -/
theorem written_read (E : Exportable t) {counter id : Nat} {info : Option Str} (H : Head t counter id info) :
    ∃ ns nts T N ls, Rendered t ns nts T N ∧ (∀ l ∈ ls, '\n' ∉ l ∧ Tight l) ∧
      writeTree counter t = .ok (unlines (ls ++ [[]]),
        if (featOf (rootFeatures t) "sentence_id".toList).isSome then counter else counter + 1) ∧
      ∀ rest, ∃ t' τ ν, readerNext (ls ++ rest) = .ok (some (.ok t'), rest) ∧ Described id info T N t' τ ν ∧ t'.WF := by
  obtain ⟨ns, nts, T, N, ls, rows, -, -, h⟩ := written_rows E H
  exact ⟨ns, nts, T, N, ls, h⟩

end Negra
end Lumberjack
