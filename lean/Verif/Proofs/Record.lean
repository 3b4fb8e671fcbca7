import Verif.Spec.Record
import Verif.Props.Projectivize
import Verif.Props.NegraTrip
import Verif.Proofs.NegraFix
import Verif.Proofs.AlikeMods
import Verif.Proofs.Convert

/-!
# Recovering a tree from its recorded moves: proofs
-/

namespace Lumberjack
namespace Convert

open Lumberjack.Tree Negra

variable {t u r t' t'' : Tree} {pick : Tree → Finset Nat → Option Nat}

theorem moveLabel_inj {l m : Option Str} (h : moveLabel l = moveLabel m) : l = m := by
  cases l <;> cases m
  · rfl
  · simp [moveLabel] at h
  · simp [moveLabel] at h
  · simp [moveLabel] at h
    rw [h]

theorem moveLabel_field {l : Option Str} (h : ∀ s, l = some s → Negra.Field s) :
    Negra.Field (moveLabel l) ∧ (moveLabel l).head? ≠ some '%' := by
  cases l with
  | none =>
    unfold Negra.Field
    exact ⟨by decide, by decide⟩
  | some s =>
    refine ⟨⟨by simp [moveLabel], ?_⟩, by simp [moveLabel]⟩
    intro c hc
    simp only [moveLabel, List.mem_append] at hc
    rcases hc with hc | hc
    · have : ∀ c ∈ "np_".toList, isWs c = false := by decide
      exact this c hc
    · exact (h s rfl).2 c hc

theorem link_unique (W : t.WF) {p q n : Nat} {l m : Option Str} (h1 : t.Link p n (.primary l))
    (h2 : t.Link q n (.primary m)) : p = q ∧ l = m := by
  obtain ⟨e, a1, a2, a3, a4⟩ := h1
  obtain ⟨f, b1, b2, b3, b4⟩ := h2
  have := W.shape.unique e a1 f b1 (a3.trans b3.symm) (by rw [a4]; rfl) (by rw [b4]; rfl)
  subst this
  rw [a4] at b4
  exact ⟨a2.symm.trans b2, by injection b4⟩

/-- The tree that the tool writes. -/
structure Kept (pick : Tree → Finset Nat → Option Nat) (t t'' : Tree) : Prop where
  run : process pick recording none t = .ok (.ok t'')
  wf : t''.WF
  gapless : ∀ n, t''.Live n → t''.Gapless n
  content : ∀ n, t''.content n = t.content n
  termAt : ∀ n i, t''.TermAt n i ↔ t.TermAt n i
  root : t''.root = t.root
  nterm : t''.nTerminals = t.nTerminals
  len : t''.graph.nodes.length = t.graph.nodes.length
  link : ∀ p n l, t.Link p n (.primary l) ↔ t''.Recalls p n l
  edges : ∀ e ∈ t''.graph.edges, e.tgt ≠ t''.root ∧ ((∃ r ∈ t.graph.edges, r.w = e.w) ∨
    (t''.IsNt e.src ∧ ∃ r ∈ t.graph.edges, ∃ l, r.w = .primary l ∧ e.w = .secondary (some (moveLabel l))))
  one : ∀ e ∈ t''.graph.edges, ∀ e' ∈ t''.graph.edges, e.w.isPrimary = false → e'.w.isPrimary = false →
    e.tgt = e'.tgt → e.src = e'.src ∧ e.w = e'.w
  sec : ∀ e ∈ t''.graph.edges, e.w.isPrimary = false → t''.IsNt e.src

theorem process_recording : process pick recording none t = stepProjectivize pick recording (.ok t) := by
  unfold process
  rw [show stepDummies recording (.ok t) = .ok (.ok t) from rfl, Res.ok_bind]
  cases stepProjectivize pick recording (.ok t) with
  | panic => rfl
  | diverge => rfl
  | ok r => cases r <;> rfl

theorem nodup_key {log : List Move} (h : (log.map (·.2.2)).Nodup) {a b : Move} (ha : a ∈ log) (hb : b ∈ log)
    (e : a.2.2 = b.2.2) : a = b := by
  induction log with
  | nil => cases ha
  | cons x log ih =>
    simp only [List.map_cons, List.nodup_cons, List.mem_map, not_exists, not_and] at h
    rcases List.mem_cons.1 ha with rfl | ha'
    · rcases List.mem_cons.1 hb with rfl | hb'
      · rfl
      · exact absurd e.symm (h.1 b hb')
    · rcases List.mem_cons.1 hb with rfl | hb'
      · exact absurd e (h.1 a ha')
      · exact ih h.2 ha' hb'

theorem isChild_of_link {p n : Nat} {l : Option Str} (h : t.Link p n (.primary l)) : t.IsChild p n := by
  obtain ⟨e, a1, a2, a3, a4⟩ := h
  exact ⟨e, a1, a2, a3, by rw [a4]; rfl⟩

theorem kept_of (W : t.WF) (hpick : IsOrder pick) (hs : t.NoSecondary) (hm : MovedOnce pick t) :
    ∃ t'', Kept pick t t'' := by
  have hnot : ∀ q n s, ¬ t.Link q n (.secondary s) := by
    rintro q n s ⟨e, h1, _, _, h4⟩
    have := hs e h1
    rw [h4] at this
    cases this
  by_cases hg : ∀ n, t.Live n → t.Gapless n
  · refine ⟨t, ?_, W, hg, fun _ => rfl, fun _ _ => Iff.rfl, rfl, rfl, rfl, ?_, ?_, ?_, ?_⟩
    · rw [process_recording]
      show (do let (t', log) ← t.projectivize pick; _) = _
      rw [Props.C22_projective_unchanged t W pick hg]
      rfl
    · intro p n l
      exact ⟨fun h => .inr ⟨h, fun q s => hnot q n s⟩, fun h => h.elim (fun h => absurd h (hnot _ _ _)) (·.1)⟩
    · intro e he
      refine ⟨fun h => W.shape.root_top e.src ⟨e, he, rfl, h, hs e he⟩, .inl ⟨e, he, rfl⟩⟩
    · intro e he _ _ hw
      rw [hs e he] at hw
      cases hw
    · intro e he hw
      rw [hs e he] at hw
      cases hw
  · have hp : t.isProjective = false := by
      cases h : t.isProjective with
      | false => rfl
      | true =>
        exfalso
        apply hg
        intro n hn
        have := (isProjective_iff W.count).1 h n
        rw [disc_iff W] at this
        simp only [not_and, not_not] at this
        obtain ⟨nd, hnd⟩ := hn
        cases nd with
        | nt x => exact this ⟨x, hnd⟩
        | term x => exact gapless_term W ⟨x, hnd⟩
    obtain ⟨t', log, h1, W', M, hg', hlen⟩ := projectivize_slots hpick W hp
    have hnd := hm t' log h1
    obtain ⟨t'', k1, W'', R, hpr⟩ := addMoves_spec log W' M.ends
    obtain ⟨_, b1, _, _, _, _, _⟩ := addMoves_into log W' k1
    obtain ⟨new, e1, e2⟩ := R.edges
    have hnew : ∀ p n w, (∃ e ∈ new, e.src = p ∧ e.tgt = n ∧ e.w = w) ↔
        ∃ m ∈ log, m.1 = p ∧ m.2.2 = n ∧ w = .secondary (some (moveLabel m.2.1.label)) := by
      intro p n w
      have : (p, n, w) ∈ new.reverse.map (fun r => (r.src, r.tgt, r.w)) ↔
        (p, n, w) ∈ log.map fun m => (m.1, m.2.2, Edge.secondary (some (moveLabel m.2.1.label))) := by rw [e2]
      simpa only [List.mem_map, List.mem_reverse, Prod.mk.injEq, eq_comm (b := w)] using this
    have hold : ∀ e ∈ t'.graph.edges, e.w.isPrimary = true := by
      intro e he
      cases hw : e.w.isPrimary with
      | true => rfl
      | false =>
        have := hs e ((M.secondary hw).1 he)
        rw [hw] at this
        cases this
    have hsec : ∀ p n s, t''.Link p n (.secondary s) ↔
        ∃ m ∈ log, m.1 = p ∧ m.2.2 = n ∧ s = some (moveLabel m.2.1.label) := by
      intro p n s
      have := hnew p n (.secondary s)
      simp only [Edge.secondary.injEq] at this
      rw [← this]
      unfold Link
      rw [e1]
      constructor
      · rintro ⟨e, h, h2⟩
        rcases List.mem_append.1 h with h | h
        · exact ⟨e, h, h2⟩
        · have := hold e h
          rw [h2.2.2] at this
          cases this
      · rintro ⟨e, h, h2⟩
        exact ⟨e, List.mem_append_left _ h, h2⟩
    have hprim : ∀ p n l, t''.Link p n (.primary l) ↔ t'.Link p n (.primary l) := by
      intro p n l
      unfold Link
      rw [e1]
      constructor
      · rintro ⟨e, h, h2⟩
        rcases List.mem_append.1 h with h | h
        · obtain ⟨m, _, _, _, hw⟩ := (hnew p n (.primary l)).1 ⟨e, h, h2⟩
          cases hw
        · exact ⟨e, h, h2⟩
      · rintro ⟨e, h, h2⟩
        exact ⟨e, List.mem_append_right _ h, h2⟩
    have hfirst : ∀ m ∈ log, ∃ l, m.2.1 = .primary l ∧ t.Link m.1 m.2.2 (.primary l) := by
      intro m hmem
      obtain ⟨pre, post, rfl⟩ := List.append_of_mem hmem
      have hf : ∀ m' ∈ pre, m'.2.2 ≠ m.2.2 := by
        intro m' hm' he
        simp only [List.map_append, List.map_cons, List.nodup_append] at hnd
        exact hnd.2.2 _ (List.mem_map.2 ⟨m', hm', rfl⟩) _ (List.mem_cons_self ..) he
      obtain ⟨hw, id, hmem'⟩ := M.first rfl hf
      cases hw' : m.2.1 with
      | secondary s => rw [hw'] at hw; cases hw
      | primary l => exact ⟨l, rfl, _, hmem', rfl, rfl, hw'⟩
    refine ⟨t'', ?_, W'', ?_, ?_, ?_, R.root.trans M.root.1, R.nterm.trans M.root.2, ?_, ?_, ?_, ?_, ?_⟩
    · rw [process_recording]
      show (do let (t', log) ← t.projectivize pick; _) = _
      rw [h1, Res.ok_bind]
      show (do let t'' ← addMoves log t'; _) = _
      rw [k1]
      rfl
    · have hp'' : t''.isProjective = true := by
        rw [hpr, isProjective_iff W'.count]
        intro n hn
        have := (disc_iff W').1 hn
        exact this.2 (hg' n this.1.live')
      intro n hn
      have := (isProjective_iff W''.count).1 hp'' n
      rw [disc_iff W''] at this
      simp only [not_and, not_not] at this
      obtain ⟨nd, hnd⟩ := hn
      cases nd with
      | nt x => exact this ⟨x, hnd⟩
      | term x => exact gapless_term W'' ⟨x, hnd⟩
    · intro n
      rw [← M.content n]
      unfold Tree.content
      rw [R.node]
    · intro n i
      rw [← M.termAt n i]
      unfold Tree.TermAt
      rw [R.node]
    · rw [b1, hlen]
    · intro p n l
      unfold Recalls
      rw [hsec, hprim]
      simp only [hsec, Option.some.injEq]
      by_cases hn : ∃ m ∈ log, m.2.2 = n
      · obtain ⟨m, hmem, rfl⟩ := hn
        obtain ⟨l0, hl0, hlink⟩ := hfirst m hmem
        constructor
        · intro h
          obtain ⟨rfl, rfl⟩ := link_unique W h hlink
          exact .inl ⟨m, hmem, rfl, rfl, by rw [hl0]; rfl⟩
        · rintro (⟨m', hm', rfl, he, hl⟩ | ⟨_, h⟩)
          · have := nodup_key hnd hm' hmem he
            subst this
            rw [hl0] at hl
            rw [moveLabel_inj hl]
            exact hlink
          · exact absurd ⟨m, hmem, rfl, rfl, rfl⟩ (h m.1 _)
      · have hn' : ∀ m ∈ log, m.2.2 ≠ n := fun m hm e => hn ⟨m, hm, e⟩
        have hk : t'.Link p n (.primary l) ↔ t.Link p n (.primary l) := by
          unfold Link
          constructor
          · rintro ⟨e, h, h2, h3, h4⟩
            exact ⟨e, (M.kept (by rw [h4]; rfl) (by rw [h3]; exact hn')).1 h, h2, h3, h4⟩
          · rintro ⟨e, h, h2, h3, h4⟩
            exact ⟨e, (M.kept (by rw [h4]; rfl) (by rw [h3]; exact hn')).2 h, h2, h3, h4⟩
        rw [hk]
        constructor
        · intro h
          exact .inr ⟨h, fun q s ⟨m, hm, _, he, _⟩ => hn' m hm he⟩
        · rintro (⟨m, hm, _, he, _⟩ | ⟨h, _⟩)
          · exact absurd he (hn' m hm)
          · exact h
    · intro e he
      rw [e1] at he
      rcases List.mem_append.1 he with he | he
      · obtain ⟨m, hmem, a1, a2, a3⟩ := (hnew e.src e.tgt e.w).1 ⟨e, he, rfl, rfl, rfl⟩
        obtain ⟨l0, hl0, hlink⟩ := hfirst m hmem
        refine ⟨?_, .inr ⟨?_, ?_⟩⟩
        · rw [R.root, M.root.1, ← a2]
          intro hr
          exact W.shape.root_top _ (hr ▸ isChild_of_link hlink)
        · obtain ⟨x, hx⟩ := (M.ends m hmem).1
          exact ⟨x, by rw [R.node, ← a1]; exact hx⟩
        · obtain ⟨r, hr, _, _, hw⟩ := hlink
          exact ⟨r, hr, l0, hw, by rw [a3, hl0]; rfl⟩
      · refine ⟨?_, .inl ?_⟩
        · rw [R.root]
          intro hr
          exact W'.shape.root_top e.src ⟨e, he, rfl, hr, hold e he⟩
        · obtain ⟨r, hr, _, hw⟩ := M.weight.1 ⟨e, he, rfl, rfl⟩
          exact ⟨r, hr, hw⟩
    · intro e he e' he' hw hw' ht
      rw [e1] at he he'
      rcases List.mem_append.1 he with he | he
      · rcases List.mem_append.1 he' with he' | he'
        · obtain ⟨m, hmem, a1, a2, a3⟩ := (hnew e.src e.tgt e.w).1 ⟨e, he, rfl, rfl, rfl⟩
          obtain ⟨m', hmem', c1, c2, c3⟩ := (hnew e'.src e'.tgt e'.w).1 ⟨e', he', rfl, rfl, rfl⟩
          have := nodup_key hnd hmem hmem' (by rw [a2, c2, ht])
          subst this
          exact ⟨a1.symm.trans c1, a3.trans c3.symm⟩
        · rw [hold e' he'] at hw'
          cases hw'
      · rw [hold e he] at hw
        cases hw
    · intro e he hw
      rw [e1] at he
      rcases List.mem_append.1 he with he | he
      · obtain ⟨m, hmem, a1, _, _⟩ := (hnew e.src e.tgt e.w).1 ⟨e, he, rfl, rfl, rfl⟩
        obtain ⟨x, hx⟩ := (M.ends m hmem).1
        exact ⟨x, by rw [R.node, ← a1]; exact hx⟩
      · rw [hold e he] at hw
        cases hw

namespace Kept

variable (K : Kept pick t t'') (W : t.WF)

include K

theorem live (n : Nat) : t''.Live n ↔ t.Live n := by
  have h := K.content n
  unfold Tree.content at h
  constructor
  · rintro ⟨nd, hnd⟩
    rw [show t''.graph.node? n = some nd from hnd] at h
    cases hx : t.graph.node? n with
    | none => rw [hx] at h; cases h
    | some x => exact ⟨x, hx⟩
  · rintro ⟨nd, hnd⟩
    rw [show t.graph.node? n = some nd from hnd] at h
    cases hx : t''.graph.node? n with
    | none => rw [hx] at h; cases h
    | some x => exact ⟨x, hx⟩

theorem nt {n : Nat} {x : NonTerminal} (h : t.graph.node? n = some (.nt x)) :
    ∃ y, t''.graph.node? n = some (.nt y) ∧ y.label = x.label ∧ y.features = x.features := by
  have hc := K.content n
  unfold Tree.content at hc
  rw [h] at hc
  cases hx : t''.graph.node? n with
  | none => rw [hx] at hc; cases hc
  | some nd =>
    rw [hx] at hc
    cases nd with
    | term y => simp [Node.replaceSpan] at hc
    | nt y =>
      simp only [Option.map_some, Node.replaceSpan, Option.some.injEq, Node.nt.injEq] at hc
      cases x; cases y
      simp_all

theorem nt_from {n : Nat} {y : NonTerminal} (h : t''.graph.node? n = some (.nt y)) :
    ∃ x, t.graph.node? n = some (.nt x) ∧ y.label = x.label ∧ y.features = x.features := by
  have hc := K.content n
  unfold Tree.content at hc
  rw [h] at hc
  cases hx : t.graph.node? n with
  | none => rw [hx] at hc; cases hc
  | some nd =>
    rw [hx] at hc
    cases nd with
    | term y => simp [Node.replaceSpan] at hc
    | nt x =>
      simp only [Option.map_some, Node.replaceSpan, Option.some.injEq, Node.nt.injEq] at hc
      cases x; cases y
      simp_all

theorem term {n : Nat} {x : Terminal} (W : t.WF) :
    t''.graph.node? n = some (.term x) ↔ t.graph.node? n = some (.term x) := by
  have hc := K.content n
  unfold Tree.content at hc
  constructor
  · intro h
    obtain ⟨i, _, hi⟩ := K.wf.sentence.pos n ⟨x, h⟩
    obtain ⟨y, hy, hyi⟩ := (K.termAt n i).1 hi
    obtain ⟨x', hx', hxi⟩ := hi
    rw [h] at hx'
    cases hx'
    rw [h, hy] at hc
    simp only [Option.map_some, Option.some.injEq] at hc
    rw [hy, node_ext hc (hxi.trans hyi.symm)]
  · intro h
    obtain ⟨i, _, hi⟩ := W.sentence.pos n ⟨x, h⟩
    obtain ⟨y, hy, hyi⟩ := (K.termAt n i).2 hi
    obtain ⟨x', hx', hxi⟩ := hi
    rw [h] at hx'
    cases hx'
    rw [h, hy] at hc
    simp only [Option.map_some, Option.some.injEq] at hc
    rw [hy, node_ext hc (hyi.trans hxi.symm)]

theorem rootFeatures (hr : t.IsNt t.root) : rootFeatures t'' = rootFeatures t := by
  obtain ⟨x, hx⟩ := hr
  obtain ⟨y, hy, _, hf⟩ := K.nt hx
  unfold Negra.rootFeatures
  rw [K.root, hx, hy]
  exact hf

theorem exportable (E : Exportable t) : Exportable t'' where
  wf := K.wf
  root := by
    obtain ⟨x, hx⟩ := E.root
    obtain ⟨y, hy, _⟩ := K.nt hx
    rw [K.root]
    exact ⟨y, hy⟩
  terms n x hx := E.terms n x ((K.term E.wf).1 hx)
  nts n y hn hy := by
    obtain ⟨x, hx, h1, h2⟩ := K.nt_from hy
    have := E.nts n x (K.root ▸ hn) hx
    refine ⟨?_, ?_, ?_⟩
    · rw [h1]; exact this.label
    · rw [h2]; exact this.features
    · rw [h1, h2]; exact this.something
  edges e he := by
    rcases (K.edges e he).2 with ⟨r, hr, hw⟩ | ⟨_, r, hr, l, hw, hl⟩
    · rw [← hw]; exact E.edges r hr
    · have := E.edges r hr
      rw [hw] at this
      rw [hl]
      exact ⟨_, rfl, moveLabel_field fun s hs => (this s hs).1⟩
  sources := K.sec
  size := by
    have hs : t''.nonterminals ⊆ t.nonterminals := fun n hn => by
      obtain ⟨y, hy⟩ := mem_nonterminals.1 hn
      obtain ⟨x, hx, _⟩ := K.nt_from hy
      exact mem_nonterminals.2 ⟨x, hx⟩
    have := (nonterminals_nodup.subperm hs).length_le
    have := E.size
    omega

theorem head (hr : t.IsNt t.root) {c id : Nat} {info : Option Str} (H : Head t c id info) : Head t'' c id info := by
  have := K.rootFeatures hr
  exact ⟨by rw [this]; exact H.number, H.fits, by rw [this]; exact H.metadata, H.clean⟩

theorem copy_covers {id : Nat} {info : Option Str} {φ : Nat → Nat} (C : Copy id info t'' r φ) {n : Nat} (hn : t''.Live n)
    (i : Nat) : r.Covers (φ n) i ↔ t''.Covers n i := by
  have key : ∀ nd nd', t''.graph.node? n = some nd → r.graph.node? (φ n) = some nd' → nd'.span = nd.span →
      (r.Covers (φ n) i ↔ t''.Covers n i) := by
    intro nd nd' h h' e
    rw [← (C.wf.span_spec h').2, ← (K.wf.span_spec h).2, e]
  obtain ⟨nd, hnd⟩ := hn
  cases nd with
  | term x =>
    obtain ⟨f, h, _⟩ := C.terms n x hnd
    exact key _ _ hnd h rfl
  | nt x =>
    by_cases hr : n = t''.root
    · subst hr
      obtain ⟨y, h1, h2⟩ := C.root_node
      rw [C.root] at h2
      exact key _ _ h1 h2 rfl
    · obtain ⟨f, h, _⟩ := C.nts n x hr hnd
      exact key _ _ hnd h rfl

/-- What is read back recalls the tree. -/
theorem recalled (W : t.WF) {id : Nat} {info : Option Str} {φ : Nat → Nat} (C : Copy id info t'' r φ) : Recalled t r φ where
  root := by rw [C.root, K.root]
  root_nt := ⟨_, C.root_node.choose_spec.2⟩
  inj n m hn hm h := C.inj n m ((K.live n).2 hn) ((K.live m).2 hm) h
  onto n' hn' := by
    obtain ⟨n, h1, h2⟩ := C.onto n' hn'
    exact ⟨n, (K.live n).1 h1, h2⟩
  terms n x hx := C.terms n x ((K.term W).2 hx)
  nts n x hn hx := by
    obtain ⟨y, hy, h1, h2⟩ := K.nt hx
    obtain ⟨f, h3, h4⟩ := C.nts n y (by rw [K.root]; exact hn) hy
    exact ⟨_, h3, h1, by rw [← h2]; exact h4⟩
  link p n l hp hn := by
    rw [K.link p n l]
    have hp' := (K.live p).2 hp
    have hn' := (K.live n).2 hn
    have hlive : ∀ e ∈ t''.graph.edges, t''.Live e.src ∧ t''.Live e.tgt := fun e he => K.wf.graph.ends e he
    have hprim : t''.Link p n (.primary l) ↔ r.Link (φ p) (φ n) (.primary l) := C.primary p n l hp' hn'
    have hsec : ∀ s, t''.Link p n (.secondary s) ↔ r.Link (φ p) (φ n) (.secondary s) := by
      intro s
      constructor
      · rintro ⟨e, h1, h2, h3, h4⟩
        have hw : e.w.isPrimary = false := by rw [h4]; rfl
        obtain ⟨e', g1, g2, g3⟩ := C.sec_to e h1 hw (K.edges e h1).1
        obtain ⟨f, k1, _, k2, k3, k4⟩ := C.sec_from e' g1 g2
        have ht : e.tgt = f.tgt := C.inj _ _ (hlive e h1).2 (hlive f k1).2 (by rw [k3, g3])
        obtain ⟨a, b⟩ := K.one e h1 f k1 hw (by rw [k4]; exact g2) ht
        exact ⟨e', g1, by rw [← k2, ← a, h2], by rw [g3, h3], by rw [← k4, ← b, h4]⟩
      · rintro ⟨e', h1, h2, h3, h4⟩
        obtain ⟨f, k1, _, k2, k3, k4⟩ := C.sec_from e' h1 (by rw [h4]; rfl)
        refine ⟨f, k1, C.inj _ _ (hlive f k1).1 hp' (k2.trans h2), C.inj _ _ (hlive f k1).2 hn' (k3.trans h3), k4.trans h4⟩
    have hno : (∀ q s, ¬ t''.Link q n (.secondary s)) ↔ ∀ q s, ¬ r.Link q (φ n) (.secondary s) := by
      constructor
      · rintro h q s ⟨e', h1, h2, h3, h4⟩
        obtain ⟨f, k1, _, k2, k3, k4⟩ := C.sec_from e' h1 (by rw [h4]; rfl)
        exact h f.src s ⟨f, k1, rfl, C.inj _ _ (hlive f k1).2 hn' (k3.trans h3), k4.trans h4⟩
      · rintro h q s ⟨e, h1, h2, h3, h4⟩
        obtain ⟨e', g1, g2, g3⟩ := C.sec_to e h1 (by rw [h4]; rfl) (K.edges e h1).1
        cases hw : e'.w with
        | primary l => rw [hw] at g2; cases g2
        | secondary s' => exact h e'.src s' ⟨e', g1, rfl, by rw [g3, h3], hw⟩
    unfold Recalls
    rw [hprim, hsec, hno]

end Kept

/-! ## Two trees recalled by the same one -/

theorem _root_.Lumberjack.Tree.Recalled.live {φ : Nat → Nat} (R : Recalled t r φ) {n : Nat} (hn : t.Live n) : r.Live (φ n) := by
  obtain ⟨nd, hnd⟩ := hn
  cases nd with
  | term x =>
    obtain ⟨f, h, _⟩ := R.terms n x hnd
    exact ⟨_, h⟩
  | nt x =>
    by_cases hr : n = t.root
    · subst hr
      obtain ⟨_, h⟩ := R.root_nt
      rw [R.root] at h
      exact ⟨_, h⟩
    · obtain ⟨f, h, _⟩ := R.nts n x hr hnd
      exact ⟨_, h⟩

section
variable {φ ψ : Nat → Nat} (R : Recalled t r φ) (S : Recalled u r ψ)

include R S

theorem recalled_term {n n' : Nat} {x : Terminal} (hn : u.Live n') (he : ψ n' = φ n)
    (hx : t.graph.node? n = some (.term x)) :
    ∃ f, u.graph.node? n' = some (.term { x with features := f }) ∧ Forest.FeatSame x.features f := by
  obtain ⟨f, h1, h2⟩ := R.terms n x hx
  obtain ⟨nd, hnd⟩ := hn
  cases nd with
  | term y =>
    obtain ⟨g, g1, g2⟩ := S.terms n' y hnd
    rw [he, h1] at g1
    simp only [Option.some.injEq, Node.term.injEq] at g1
    refine ⟨y.features, ?_, ?_⟩
    · rw [show u.graph.node? n' = some (.term y) from hnd]
      cases x; cases y
      simp_all
    · have : f = g := by
        cases x; cases y
        simp_all
      subst this
      exact h2.trans g2.symm
  | nt y =>
    exfalso
    by_cases hr : n' = u.root
    · subst hr
      obtain ⟨z, hz⟩ := S.root_nt
      rw [S.root, he, h1] at hz
      cases hz
    · obtain ⟨z, hz, _⟩ := S.nts n' y hr hnd
      rw [he, h1] at hz
      cases hz

theorem recalled_covers (W : t.WF) {n n' i : Nat} (hn' : u.Live n') (he : ψ n' = φ n)
    (h : t.Covers n i) : u.Covers n' i := by
  obtain ⟨m, hd, hm⟩ := h
  have key : ∃ m', u.Live m' ∧ ψ m' = φ m ∧ u.Dom n' m' := by
    unfold Tree.Dom at hd
    clear hm
    induction hd with
    | refl => exact ⟨n', hn', he, .refl⟩
    | @tail a b hab hc ih =>
      obtain ⟨a', h1, h2, h3⟩ := ih
      obtain ⟨e, e1, e2, e3, e4⟩ := hc
      obtain ⟨la, lb⟩ := W.graph.ends e e1
      rw [e2] at la
      rw [e3] at lb
      obtain ⟨b', k1, k2⟩ := S.onto (φ b) (R.live lb)
      cases hw : e.w with
      | secondary l => rw [hw] at e4; cases e4
      | primary l =>
        have := (R.link a b l la lb).1 ⟨e, e1, e2, e3, hw⟩
        rw [← h2, ← k2] at this
        have := (S.link a' b' l h1 k1).2 this
        exact ⟨b', k1, k2, h3.tail (isChild_of_link this)⟩
  obtain ⟨m', h1, h2, h3⟩ := key
  obtain ⟨x, hx, hi⟩ := hm
  obtain ⟨f, hf, _⟩ := recalled_term R S h1 h2 hx
  exact ⟨m', h3, _, hf, hi⟩

theorem recalled_body (W : t.WF) (Wu : u.WF) (hs : t.NoSecondary) (hu : u.NoSecondary) (hru : u.IsNt u.root) :
    ∃ θ, Body t u θ := by
  have hex : ∀ n, ∃ n', t.Live n → u.Live n' ∧ ψ n' = φ n := by
    intro n
    by_cases hn : t.Live n
    · obtain ⟨n', h1, h2⟩ := S.onto (φ n) (R.live hn)
      exact ⟨n', fun _ => ⟨h1, h2⟩⟩
    · exact ⟨0, fun h => absurd h hn⟩
  choose θ hθ using hex
  have hroot : u.root = θ t.root := by
    obtain ⟨h1, h2⟩ := hθ t.root W.shape.root_live
    exact (S.inj _ _ h1 Wu.shape.root_live (by rw [h2, ← R.root, S.root])).symm
  refine ⟨θ, Wu, hroot, hru, ?_, ?_, ?_, ?_, ?_, ?_, ?_⟩
  · intro n m hn hm h
    exact R.inj n m hn hm (by rw [← (hθ n hn).2, ← (hθ m hm).2, h])
  · intro n' hn'
    obtain ⟨n, h1, h2⟩ := R.onto (ψ n') (S.live hn')
    exact ⟨n, h1, S.inj _ _ (hθ n h1).1 hn' ((hθ n h1).2.trans h2)⟩
  · intro n x hx
    exact recalled_term R S (hθ n ⟨_, hx⟩).1 (hθ n ⟨_, hx⟩).2 hx
  · intro n x hn hx
    obtain ⟨h1, h2⟩ := hθ n ⟨_, hx⟩
    obtain ⟨y, k1, k2, k3⟩ := R.nts n x hn hx
    have h1' := h1
    obtain ⟨nd, hnd⟩ := h1'
    cases nd with
    | term z =>
      exfalso
      obtain ⟨f, hf, _⟩ := S.terms _ z hnd
      rw [h2, k1] at hf
      cases hf
    | nt z =>
      have hne : θ n ≠ u.root := by
        intro h
        exact hn (R.inj n t.root ⟨_, hx⟩ W.shape.root_live (by rw [← h2, h, ← S.root, R.root]))
      obtain ⟨y', g1, g2, g3⟩ := S.nts _ z hne hnd
      rw [h2, k1] at g1
      simp only [Option.some.injEq, Node.nt.injEq] at g1
      subst g1
      refine ⟨z.features, ?_, k3.trans g3.symm⟩
      obtain ⟨v1, c1⟩ := W.span_spec hx
      obtain ⟨v2, c2⟩ := Wu.span_spec hnd
      have hsp : z.span = x.span := by
        refine Span.Valid.ext v2 v1 ?_
        ext i
        refine (c2 i).trans (Iff.trans ?_ (c1 i).symm)
        exact ⟨fun h => recalled_covers S R Wu ⟨_, hx⟩ h2.symm h, fun h => recalled_covers R S W h1 h2 h⟩
      rw [show u.graph.node? (θ n) = some (.nt z) from hnd]
      have hl : z.label = x.label := g2.symm.trans k2
      cases x; cases z
      simp_all
  · intro p n l hp hn
    have a := R.link p n l hp hn
    have b := S.link (θ p) (θ n) l (hθ p hp).1 (hθ n hn).1
    rw [(hθ p hp).2, (hθ n hn).2] at b
    exact a.trans b.symm
  · refine second_of W Wu ?_ (fun e he hw => ?_) fun e he hw => ?_
    · intro n m hn hm h
      exact R.inj n m hn hm (by rw [← (hθ n hn).2, ← (hθ m hm).2, h])
    · rw [hu e he] at hw
      cases hw
    · rw [hs e he] at hw
      cases hw
  · intro e he hw
    rw [hu e he] at hw
    cases hw

end

end Convert
end Lumberjack
