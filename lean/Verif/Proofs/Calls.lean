import Verif.Spec.Calls
import Verif.Proofs.History
import Verif.Proofs.Runs
import Verif.Proofs.Restore
import Verif.Proofs.Convert
import Verif.Props.Filter
import Verif.Props.Reattach
import Verif.Props.Encode

/-!
# The calls that work on the whole tree, with arbitrary closures
-/

namespace Lumberjack
namespace Tree

open Relation

variable {t t' t'' : Tree}

/-- Same words, same tags. -/
def Keep (t t' : Tree) : Prop := SameWords t t' ∧ SameTags t t'

theorem Keep.refl (t : Tree) : Keep t t := by
  refine ⟨SameWords.refl t, fun n x y h h' => ?_⟩
  rw [h] at h'; cases h'; rfl

theorem Keep.trans (h : Keep t t') (h' : Keep t' t'') : Keep t t'' := by
  refine ⟨⟨h'.1.len.trans h.1.len, fun n hn => h.1.terms n (h'.1.terms n hn), ?_⟩, ?_⟩
  · intro n x hx
    obtain ⟨y, hy, a1, a2, a3⟩ := h.1.kept n x hx
    obtain ⟨z, hz, b1, b2, b3⟩ := h'.1.kept n y hy
    exact ⟨z, hz, b1.trans a1, b2.trans a2, b3.trans a3⟩
  · intro n x z hx hz
    obtain ⟨y, hy, _⟩ := h.1.kept n x hx
    exact (h'.2 n y z hy hz).trans (h.2 n x y hx hy)

/-- All terminals unchanged. -/
theorem Keep.of (hn : t'.nTerminals = t.nTerminals) (h : ∀ n x, t'.graph.node? n = some (.term x) ↔ t.graph.node? n = some (.term x)) :
    Keep t t' := by
  refine ⟨⟨hn, ?_, fun n x hx => ⟨x, (h n x).2 hx, rfl, rfl, rfl⟩⟩, ?_⟩
  · rintro n ⟨x, hx⟩; exact ⟨x, (h n x).1 hx⟩
  · intro n x y hx hy
    rw [(h n y).1 hy] at hx; cases hx; rfl

theorem TermEdit.keep {g : Nat → Terminal → Terminal} (E : TermEdit t t' g)
    (hg : ∀ n x, (g n x).form = x.form ∧ (g n x).lem = x.lem ∧ (g n x).span = x.span) (hp : ∀ n x, (g n x).pos = x.pos) : Keep t t' := by
  refine ⟨E.sameWords hg, fun n x y hx hy => ?_⟩
  rw [E.term n x hx] at hy; cases hy; exact hp n x

theorem Removed.keep {R : Nat → Prop} (H : Removed t t' R) (hR : ∀ n, R n → t.IsNt n) : Keep t t' := by
  refine Keep.of H.nTerm fun n x => ?_
  by_cases h : R n
  · constructor
    · intro hx; exact absurd ⟨_, hx⟩ (H.gone n h)
    · intro hx; obtain ⟨y, hy⟩ := hR n h; rw [hx] at hy; cases hy
  · rw [H.node n h]

theorem Moves.keep {log : List Move} (W : t.WF) (M : Moves t log t') : Keep t t' := by
  refine ⟨M.sameWords W, fun n x y hx hy => ?_⟩
  have hc := M.content n
  unfold Tree.content at hc
  rw [hx, hy] at hc
  simp only [Option.map_some, Node.replaceSpan, Option.some.injEq, Node.term.injEq] at hc
  cases x; cases y; simp_all

theorem Gathered.keep {a : Nat} {M : Nat → Prop} (H : Gathered t a M t') : Keep t t' := by
  refine Keep.of H.nterm fun n x => ⟨fun hx => ?_, H.term n x⟩
  obtain ⟨y, hy⟩ := (H.isTerm n).1 ⟨x, hx⟩
  have := H.term n y hy
  rw [hx] at this; cases this; exact hy

theorem Inserted.keep {K : Nat → Nat → Prop} {lab : Nat → Str} (H : Inserted t K lab t') : Keep t t' := by
  refine Keep.of H.nterm fun n x => ⟨fun hx => ?_, fun hx => ?_⟩
  · rw [← H.old n (H.term_old ⟨x, hx⟩).live]; exact hx
  · rw [H.old n ⟨_, hx⟩]; exact hx

/-! ## filter_nonterminals, remove_dummy_nodes -/

theorem filterNonterminals_any (W : t.WF) (f : Tree → Nat → Bool) :
    ∃ t', t.filterNonterminals f = .ok (t', .ok ()) ∧ t'.WF ∧ Keep t t' ∧ t'.root = t.root := by
  unfold filterNonterminals
  have := forE_rule (f := fun (t : Tree) n =>
    if !(f t n) then do
      let (t', r) ← t.removeNode n
      match r with
      | .ok _ => return (t', .ok ())
      | .error e => return (t', .error (ε := Err) e)
    else
      .ok (t, .ok ()))
    (fun as t1 => as.Nodup ∧ (∀ n ∈ as, t1.IsNt n ∧ n ≠ t.root) ∧ t1.root = t.root ∧ t1.WF ∧ Keep t t1) ?_
    (t.nonterminals.filter (· ≠ t.root)) t ⟨nonterminals_nodup.filter _, ?_, rfl, W, Keep.refl t⟩
  · obtain ⟨t', h1, _, _, h2, h3, h4⟩ := this
    exact ⟨t', h1, h3, h4, h2⟩
  · rintro n as t1 ⟨h1, h2, h3, h4, h5⟩
    obtain ⟨⟨x, hx⟩, hnr⟩ := h2 n (by simp)
    have hnas := (List.nodup_cons.1 h1).1
    cases hfv : f t1 n with
    | true =>
      exact ⟨t1, by simp, h1.of_cons, fun m hm => h2 m (by simp [hm]), h3, h4, h5⟩
    | false =>
      obtain ⟨t2, k1, k2, k3, k4⟩ := removed_inner h4 hx (by rw [h3]; exact hnr)
      refine ⟨t2, by simp [k1], h1.of_cons, fun m hm => ?_, k3.trans h3, k2.wf,
        h5.trans (k2.keep (by rintro _ rfl; exact ⟨x, hx⟩))⟩
      obtain ⟨⟨y, hy⟩, hy2⟩ := h2 m (by simp [hm])
      exact ⟨⟨y, by rw [k2.node m (by rintro rfl; exact hnas hm)]; exact hy⟩, hy2⟩
  · intro n hn
    rw [List.mem_filter, mem_nonterminals] at hn
    simpa using hn

/-! ## map_climber_path -/

/-- `map_climber_path` with any closure that keeps the invariant, if the invariant fixes the edges of
the tree. -/
theorem mapClimberPath_any {σ : Type} (W : t.WF) {cl : σ → Tree → Nat → Nat → Res (σ × Tree × Bool)} (Inv : σ → Tree → Prop)
    (hst : ∀ s t1, Inv s t1 → t1.Shape ∧ t1.IsChild = t.IsChild)
    (hcl : ∀ s t1 p n, Inv s t1 → t.IsNt p → t.IsTerm n → ∃ s' t' b, cl s t1 p n = .ok (s', t', b) ∧ Inv s' t')
    (s : σ) (h0 : Inv s t) : ∃ s' t', mapClimberPath t.climbFuel cl s t = .ok (s', t') ∧ Inv s' t' := by
  unfold mapClimberPath
  have := forM'_rule (f := fun (s : σ × Tree) terminal =>
    loopM (fun (x : (σ × Tree) × Option (Nat × Nat)) =>
      match x.1.2.climberNext x.2 with
      | (some (p, _), cur') => do
        let (s', t', stop) ← cl x.1.1 x.1.2 p terminal
        if stop then return .inr (s', t') else return .inl ((s', t'), cur')
      | (none, _) => .ok (.inr x.1)) t.climbFuel (s, s.2.climberNew terminal))
    (fun as s => (∀ n ∈ as, t.IsTerm n) ∧ Inv s.1 s.2) ?_ t.terminals (s, t) ⟨fun n hn => mem_terminals.1 hn, h0⟩
  · obtain ⟨s', h1, h2⟩ := this
    exact ⟨s'.1, s'.2, h1, h2.2⟩
  · rintro n as ⟨s, t1⟩ ⟨hl, hP⟩
    have hn := hl n (by simp)
    obtain ⟨l, ha⟩ := W.shape.exists_anc hn.live
    have hlen : l.length < t.climbFuel := by
      have := ha.length_lt W.graph W.shape hn.live; unfold climbFuel; omega
    have loop : ∀ (l : List Nat) (m fuel : Nat) (cur : Option (Nat × Nat)) (s : σ) (t1 : Tree), t.Anc m l → l.length < fuel →
        cur.map (·.1) = l.head? → Inv s t1 → ∃ s', 
          loopM (fun (x : (σ × Tree) × Option (Nat × Nat)) =>
            match x.1.2.climberNext x.2 with
            | (some (p, _), cur') => do
              let (s', t', stop) ← cl x.1.1 x.1.2 p n
              if stop then return .inr (s', t') else return .inl ((s', t'), cur')
            | (none, _) => .ok (.inr x.1)) fuel ((s, t1), cur) = .ok s' ∧ Inv s'.1 s'.2 := by
      intro l
      induction l with
      | nil =>
        intro m fuel cur s t1 ha hfu hc hI
        obtain ⟨k, rfl⟩ : ∃ k, fuel = k + 1 := ⟨fuel - 1, by omega⟩
        have : cur = none := by cases cur <;> simp_all
        subst this
        exact ⟨(s, t1), by rw [loopM_succ_inr (b := (s, t1))]; rfl, hI⟩
      | cons p l ih =>
        intro m fuel cur s t1 ha hfu hc hI
        obtain ⟨k, rfl⟩ : ∃ k, fuel = k + 1 := ⟨fuel - 1, by omega⟩
        obtain ⟨e, rfl⟩ : ∃ e, cur = some (p, e) := by
          cases cur with
          | none => simp at hc
          | some q => simp at hc; exact ⟨q.2, by rw [← hc]⟩
        obtain ⟨s', t', b, k1, k2⟩ := hcl s t1 p n hI (W.shape.parent_isNt W.graph ha.1) hn
        obtain ⟨S1, hch⟩ := hst _ _ hI
        cases b with
        | true =>
          refine ⟨(s', t'), ?_, k2⟩
          rw [loopM_succ_inr (b := (s', t'))]
          simp only [climberNext, k1, Res.ok_bind, if_true, Res.pure_eq]
        | false =>
          have hpar : (t1.parent p).map (·.1) = l.head? := parent_of_anc S1 (ha.2.congr hch)
          obtain ⟨s2, k3, k4⟩ := ih p k (t1.parent p) s' t' ha.2 (by simpa using hfu) hpar k2
          refine ⟨s2, ?_, k4⟩
          rw [loopM_succ_inl (s' := ((s', t'), t1.parent p))]
          · exact k3
          · simp only [climberNext, k1, Res.ok_bind, Res.pure_eq]
            simp
    have hpar : (t1.parent n).map (·.1) = l.head? := by
      obtain ⟨S1, hch⟩ := hst _ _ hP
      exact parent_of_anc S1 (ha.congr hch)
    obtain ⟨s', h1, h2⟩ := loop l n t.climbFuel (t1.parent n) s t1 ha hlen hpar hP
    exact ⟨s', h1, fun m hm => hl m (by simp [hm]), h2⟩

/-- Changing the features of terminals. -/
structure FeatEdit (t t' : Tree) : Prop where
  wf : t'.WF
  child : t'.IsChild = t.IsChild
  keep : Keep t t'
  nt : ∀ n, t'.IsNt n ↔ t.IsNt n

theorem FeatEdit.refl (W : t.WF) : FeatEdit t t := ⟨W, rfl, Keep.refl t, fun _ => Iff.rfl⟩

theorem FeatEdit.insert {n : Nat} {name v : Str} (E : FeatEdit t t') (hn : t.IsTerm n) :
    ∃ t'', t'.insertFeature n name v = .ok t'' ∧ FeatEdit t t'' := by
  obtain ⟨x0, hx0⟩ := hn
  obtain ⟨x, hx, _⟩ := E.keep.1.kept n x0 hx0
  have hE : TermEdit t' (t'.setNode n (.term (withFeature name v x)))
      (fun m y => if m = n then withFeature name v y else y) := by
    refine termEdit_iff.2 ((NodeEdit.set hx (.term (withFeature name v x))).congr ?_)
    intro m nd hm
    by_cases e : m = n
    · subst e; rw [hx] at hm; cases hm; simp [onTerm]
    · cases nd <;> simp [onTerm, e]
  have hNE := termEdit_iff.1 hE
  refine ⟨_, insertFeature_term hx, hE.wf ?_ E.wf, hNE.isChild.trans E.child, E.keep.trans (hE.keep ?_ ?_),
    fun m => (hNE.isNt (onTerm_kind _) m).trans (E.nt m)⟩
  · intro m y; split <;> rfl
  · intro m y; split <;> exact ⟨rfl, rfl, rfl⟩
  · intro m y; split <;> rfl

theorem projectTagSet_any (W : t.WF) (name : Str) (f : Tree → Nat → Bool) :
    ∃ t', t.projectTagSet name f = .ok t' ∧ t'.WF ∧ Keep t t' := by
  obtain ⟨s', t', h1, h2⟩ := mapClimberPath_any (σ := Unit) W (cl := fun (_ : Unit) t p terminal =>
    if f t p then do
      let nd ← t.node p
      let t' ← t.insertFeature terminal name nd.label
      return ((), t', true)
    else
      .ok ((), t, false)) (fun _ t1 => FeatEdit t t1) (fun _ t1 h => ⟨h.wf.shape, h.child⟩) (by
    intro s t1 p n hI hp hn
    cases hf : f t1 p with
    | false => exact ⟨(), t1, false, by simp, hI⟩
    | true =>
      obtain ⟨y, hy⟩ := (hI.nt p).2 hp
      obtain ⟨t2, k1, k2⟩ := hI.insert (name := name) (v := (Node.nt y).label) hn
      exact ⟨(), t2, true, by simp only [if_true, node_eq hy, Res.ok_bind, k1]; rfl, k2⟩) () (FeatEdit.refl W)
  refine ⟨t', ?_, h2.wf, h2.keep⟩
  unfold projectTagSet
  exact Res.bind_eq_ok.2 ⟨_, h1, rfl⟩

theorem projectIds_any (W : t.WF) (name : Str) (f : Tree → Nat → Bool) :
    ∃ t', t.projectIds name f = .ok t' ∧ t'.WF ∧ Keep t t' := by
  obtain ⟨s', t', h1, h2⟩ := mapClimberPath_any (σ := List Nat) W (cl := fun (keys : List Nat) t p terminal =>
    if f t p then do
      let keys' := if p ∈ keys then keys else keys ++ [p]
      let t' ← t.insertFeature terminal name (natToStr (keys'.idxOf p))
      return (keys', t', true)
    else
      .ok (keys, t, false)) (fun _ t1 => FeatEdit t t1) (fun _ t1 h => ⟨h.wf.shape, h.child⟩) (by
    intro s t1 p n hI hp hn
    cases hf : f t1 p with
    | false => exact ⟨s, t1, false, by simp, hI⟩
    | true =>
      obtain ⟨t2, k1, k2⟩ := hI.insert (name := name) (v := natToStr ((if p ∈ s then s else s ++ [p]).idxOf p)) hn
      exact ⟨_, t2, true, by simp only [if_true, k1, Res.ok_bind]; rfl, k2⟩) [] (FeatEdit.refl W)
  refine ⟨t', ?_, h2.wf, h2.keep⟩
  unfold projectIds
  exact Res.bind_eq_ok.2 ⟨_, h1, rfl⟩

/-! ## remove_dummy_nodes -/

theorem removeDummyNodes_any (W : t.WF) : ∃ t', t.removeDummyNodes = .ok (t', .ok ()) ∧ t'.WF ∧ Keep t t' := by
  obtain ⟨t', R, h1, h2, h3, _⟩ := Props.C40_remove_dummy_nodes t W
  refine ⟨t', h1, h2.wf, h2.keep fun n hn => ?_⟩
  obtain ⟨x, hx, _⟩ := h3 n hn
  exact ⟨x, hx⟩

/-! ## insert_intermediate -/

theorem intermediateStep_any (W : t.WF) (f : Tree → Nat → Option Str) (vis : Finset Nat) {T : Nat} (hT : t.IsTerm T) :
    ∃ t' vis' r, intermediateStep f (t, vis) T = .ok ((t', vis'), r) ∧ t'.WF ∧ Keep t t' := by
  by_cases hv : T ∈ vis
  · refine ⟨t, vis, .ok (), ?_, W, Keep.refl t⟩
    unfold intermediateStep
    simp only [if_pos hv]
    rfl
  · obtain ⟨x, hx⟩ := id hT
    cases hpar : t.parent T with
    | none =>
      refine ⟨t, insert T vis, .error .terminalNoParent, ?_, W, Keep.refl t⟩
      unfold intermediateStep
      simp only [if_neg hv, hpar, node_eq hx]
      rfl
    | some pe =>
      obtain ⟨p, e⟩ := pe
      have hp : t.IsChild p T := by
        obtain ⟨r, k1, k2, k3, _, k5⟩ := parent_some hpar
        exact ⟨r, k1, k2, k3, k5⟩
      cases hl : f t p with
      | none =>
        refine ⟨t, insert T vis, .ok (), ?_, W, Keep.refl t⟩
        unfold intermediateStep
        simp only [if_neg hv, hpar, hl]
        rfl
      | some l =>
        have hrec : ∀ x ∈ t.termKids p, t.IsTerm x.1 ∧
            ∃ r ∈ t.graph.edges, r.src = p ∧ r.tgt = x.1 ∧ r.w.isPrimary = true ∧ r.id = x.2 := by
          rintro ⟨c, e'⟩ hx
          obtain ⟨u1, u2⟩ := mem_termKids.1 hx
          obtain ⟨r', v1, v2, v3, v4, v5⟩ := mem_children.1 u1
          exact ⟨u2, r', v1, v2, v3, v5, v4⟩
        have hsort := termKids_sorted W p
        have hTk : T ∈ (t.termKids p).map (·.1) := mem_termKids_fst.2 ⟨hp, hT⟩
        cases hk : t.termKids p with
        | nil => rw [hk] at hTk; simp at hTk
        | cons y l' =>
          obtain ⟨c, e'⟩ := y
          rw [hk] at hsort hrec
          rw [List.pairwise_cons] at hsort
          obtain ⟨u1, u2⟩ := mem_termKids_fst.1 (show c ∈ (t.termKids p).map (·.1) by rw [hk]; simp)
          obtain ⟨i, _, hi⟩ := W.sentence.pos c u2
          have J : Inserted t (fun _ _ => False) (fun _ => l) t := Inserted.start W (fun _ _ h => h) _
          obtain ⟨t1, ins, g1, g2, g3, g4⟩ := J.single W (fun _ _ h => h.elim) u1 hi id (fun e h => h.elim) (fun e k h => h.elim)
          have hlt : ∀ x ∈ l', i < t.startOf x.1 := by
            intro x hx
            have h := hsort.1 x hx
            simp only at h
            rwa [hi.startOf] at h
          obtain ⟨t2, ins2, prev2, q1, q2⟩ := intermediateInner_spec W (p := p) l' (vis := insert T vis)
            (KOK.add (fun _ _ h => h.elim) u1 u2) g2
            ⟨c, .inr ⟨rfl, rfl⟩, hi, g3⟩ g4 (by
              rintro d k (h | ⟨_, rfl⟩) hd
              · exact h.elim
              · rw [hd.pos_unique hi])
            (fun x hx => hrec x (by simp [hx])) hlt hsort.2
          refine ⟨t2, insert T vis ∪ (l'.map (·.1)).toFinset, .ok (), ?_, q2.wf, q2.keep⟩
          obtain ⟨x, hx, hxs⟩ := g2.termAt hi
          have hxs' : (Node.term x).span.start = i := by
            have : (Node.term x).span = x.span := rfl
            rw [this, hxs]; rfl
          unfold intermediateStep
          simp only [if_neg hv, hpar, hl, hk, g1, Res.ok_bind, node_eq hx, hxs', q1]
          rfl

/-- `forE` with a step that always returns. -/
theorem forE_total {α σ ε : Type} {f : σ → α → Res (σ × Except ε Unit)} (Inv : σ → Prop) (l : List α)
    (h : ∀ a ∈ l, ∀ s, Inv s → ∃ s' r, f s a = .ok (s', r) ∧ Inv s') :
    ∀ s, Inv s → ∃ s' r, forE f l s = .ok (s', r) ∧ Inv s' := by
  induction l with
  | nil => intro s hs; exact ⟨s, .ok (), rfl, hs⟩
  | cons a as ih =>
    intro s hs
    obtain ⟨s', r, h1, h2⟩ := h a (by simp) s hs
    cases r with
    | ok u =>
      obtain ⟨s2, r2, h3, h4⟩ := ih (fun b hb => h b (by simp [hb])) s' h2
      exact ⟨s2, r2, by simp only [forE, h1, Res.ok_bind]; exact h3, h4⟩
    | error e => exact ⟨s', .error e, by simp only [forE, h1, Res.ok_bind], h2⟩

theorem insertIntermediate_any (W : t.WF) (f : Tree → Nat → Option Str) :
    ∃ t' r, t.insertIntermediate f = .ok (t', r) ∧ t'.WF ∧ Keep t t' := by
  obtain ⟨⟨t', vis⟩, r, h1, h2, h3⟩ := forE_total (f := intermediateStep f) (fun s => s.1.WF ∧ Keep t s.1) t.terminals (by
    rintro n hn ⟨t1, vis⟩ ⟨W1, K1⟩
    obtain ⟨x, hx⟩ := mem_terminals.1 hn
    obtain ⟨y, hy, _⟩ := K1.1.kept n x hx
    obtain ⟨t2, vis2, r, k1, k2, k3⟩ := intermediateStep_any W1 f vis (T := n) ⟨y, hy⟩
    exact ⟨(t2, vis2), r, k1, k2, K1.trans k3⟩) (t, ∅) ⟨W, Keep.refl t⟩
  refine ⟨t', r, ?_, h2, h3⟩
  unfold insertIntermediate
  rw [h1]; rfl

/-! ## reattach_terminals -/

theorem reattachLoop_any {t0 : Tree} (W0 : t0.WF) {a : Nat} (ha : t0.IsNt a) {f : Tree → Nat → Bool} :
    ∀ (l : List Nat) {t : Tree} {M : Nat → Prop}, (∀ m, M m → t0.IsTerm m) → Gath t0 a M t → l.Nodup →
    (∀ m ∈ l, t0.IsTerm m ∧ ¬ M m) →
    (∀ T, l.find? (fun m => f t m) = some T → ∃ m, t0.IsTerm m ∧ m ≠ T ∧ t.Dom a m) →
    ∃ t' M', forM' (reattachTerminalStep a f) l t = .ok t' ∧ Gath t0 a M' t' := by
  intro l
  induction l with
  | nil => intro t M hM I _ _ _; exact ⟨t, M, rfl, I⟩
  | cons T l ih =>
    intro t M hM I hnd hl h2
    rw [List.nodup_cons] at hnd
    obtain ⟨hT, hMT⟩ := hl T (by simp)
    rw [forM'_cons]
    cases h : f t T with
    | true =>
      obtain ⟨m0, g1, g2, g3⟩ := h2 T (by rw [List.find?_cons_of_pos h])
      obtain ⟨t1, k1, k2⟩ := reattachTerminalStep_spec W0 ha hM I hT hMT h g1 g2 g3
      rw [k1, Res.ok_bind]
      exact ih (fun m hm => hm.elim (hM m) (fun e => e ▸ hT)) k2 hnd.2 (fun m hm =>
        ⟨(hl m (by simp [hm])).1, not_or.2 ⟨(hl m (by simp [hm])).2, fun e => hnd.1 (e ▸ hm)⟩⟩)
        (fun T' hT' => ⟨T, hT, by rintro rfl; exact hnd.1 (List.mem_of_find?_eq_some hT'),
          .single ((k2.child a T).2 (.inr ⟨rfl, .inr rfl⟩))⟩)
    | false =>
      have : reattachTerminalStep a f t T = .ok t := by
        unfold reattachTerminalStep
        rw [if_neg (by rw [h]; simp)]; rfl
      rw [this, Res.ok_bind]
      exact ih hM I hnd.2 (fun m hm => hl m (by simp [hm]))
        (fun T' hT' => h2 T' (by rw [List.find?_cons_of_neg (by simp [h])]; exact hT'))

theorem reattachTerminals_any (W : t.WF) {a : Nat} {f : Tree → Nat → Bool} (h : t.reattachTerminals a f = .ok t') :
    t'.WF ∧ Keep t t' := by
  cases hfind : t.terminals.find? (fun m => f t m) with
  | none =>
    rw [List.find?_eq_none] at hfind
    rw [reattachTerminals_none W (fun m hm => by simpa using hfind m (mem_terminals.2 hm))] at h
    cases h
    exact ⟨W, Keep.refl t⟩
  | some T =>
    obtain ⟨hT, hf, hfirst⟩ := find_terminal.1 hfind
    have hone : t.nTerminals ≠ 1 := by
      intro h1
      rw [(Props.C25_diverges t W a T f hT hf hfirst (.inr h1)).1] at h; cases h
    have htwo : 2 ≤ t.nTerminals := by
      obtain ⟨i, hi, _⟩ := W.sentence.pos T hT
      omega
    by_cases ha : t.IsNt a
    · by_cases hs : ∀ m, t.IsTerm m → t.Dom a m → m = T
      · rw [(Props.C25_diverges t W a T f hT hf hfirst (.inl ⟨ha, hs⟩)).1] at h; cases h
      · push Not at hs
        obtain ⟨m, m1, m2, m3⟩ := hs
        obtain ⟨t1, M', k1, k2⟩ := reattachLoop_any W ha (f := f) t.terminals (fun m h => h.elim) (Gath.start W a) terminals_nodup
          (fun m hm => ⟨mem_terminals.1 hm, id⟩) (fun T' hT' => by
            rw [hfind] at hT'; cases hT'; exact ⟨m, m1, m3, m2⟩)
        obtain ⟨t2, k3, k4⟩ := k2.finish
        unfold reattachTerminals at h
        rw [k1, Res.ok_bind, k3] at h
        cases h
        exact ⟨k4.wf, k4.keep⟩
    · rw [Props.C25_bad_attachment t W htwo a T f ha hT hf] at h; cases h

/-! ## restore_unary_chains -/

theorem insertUnaryAbove_keep (C : t.Core) {n : Nat} {nd : Node} (hn : t.graph.node? n = some nd) (l : Str) :
    ∃ t' ins, t.insertUnaryAbove n l = .ok (t', ins) ∧ t'.Core ∧ t'.numDisc = t.numDisc ∧ Keep t t' ∧ ¬ t.Live ins ∧
      t'.graph.node? ins = some (.nt (NonTerminal.new l nd.span)) ∧ ∀ m, m ≠ ins → t'.graph.node? m = t.graph.node? m := by
  obtain ⟨t', ins, h1, h2, h3, h4, h5, h6, _⟩ := insertUnaryAbove_spec C hn l
  have hdead : ¬ t.Live ins := by rintro ⟨y, hy⟩; rw [h3.dead] at hy; simp at hy
  refine ⟨t', ins, h1, h2, h5, Keep.of h6 fun m x => ?_, hdead, h4, fun m hm => (h3.node m hm).symm⟩
  by_cases e : m = ins
  · subst e
    rw [h4, h3.dead]; simp
  · rw [h3.node m e]

/-- The nodes inserted above one node. -/
theorem restoreLabels_any (ls : List Str) : ∀ {t : Tree} {n : Nat} {nd : Node}, t.Core → t.graph.node? n = some nd →
    ∃ t' n', forM' (fun (s : Tree × Nat) label => s.1.insertUnaryAbove s.2 label) ls (t, n) = .ok (t', n') ∧ t'.Core ∧ Keep t t' ∧
      (∀ m, t.Live m → t'.graph.node? m = t.graph.node? m) ∧ (t.WF → ¬ t.Disc n → t'.WF) := by
  induction ls with
  | nil => intro t n nd C hn; exact ⟨t, n, rfl, C, Keep.refl t, fun _ _ => rfl, fun W _ => W⟩
  | cons l ls ih =>
    intro t n nd C hn
    obtain ⟨t1, ins, h1, h2, h3, h4, h5, h6, h7⟩ := insertUnaryAbove_keep C hn l
    obtain ⟨t2, n', k1, k2, k3, k4, k5⟩ := ih h2 h6
    refine ⟨t2, n', by rw [forM'_cons]; simp only [h1, Res.ok_bind, k1], k2, h4.trans k3, ?_, ?_⟩
    · intro m hm
      have hne : m ≠ ins := by rintro rfl; exact h5 hm
      rw [k4 m (by obtain ⟨y, hy⟩ := hm; exact ⟨y, by rw [h7 m hne]; exact hy⟩), h7 m hne]
    · intro W hd
      obtain ⟨t3, ins3, g1, _, _, _, _, _, _, _, _, _, _, _, _, _, g2⟩ := Props.C17_insert_unary_above t W n nd l hn
      rw [h1] at g1; cases g1
      refine k5 (g2.2 hd) ?_
      rintro ⟨x, hx, hxs⟩
      rw [h6] at hx
      simp only [Option.some.injEq, Node.nt.injEq] at hx
      subst hx
      cases nd with
      | nt y => exact hd ⟨y, hn, hxs⟩
      | term y =>
        obtain ⟨i, _, hi⟩ := C.sentence.pos n ⟨y, hn⟩
        obtain ⟨z, hz, hzi⟩ := hi
        rw [hn] at hz; cases hz
        have : (NonTerminal.new l (Node.term y).span).span = Span.ofIdx i := hzi
        rw [this] at hxs
        simp [Span.ofIdx] at hxs

theorem restoreNode_any (C : t.Core) (delim : Str) {n : Nat} {nd : Node} (hn : t.graph.node? n = some nd) :
    ∃ t' r, t.restoreNode delim n = .ok (t', r) ∧ t'.Core ∧ Keep t t' ∧ (∀ m, t.Live m → m ≠ n → t'.graph.node? m = t.graph.node? m) ∧
      (∀ m, t.Live m → t'.Live m) ∧
      (t.WF → (∀ chain, (nd.features.getD Features.empty).getVal unaryKey = some (some chain) → ¬ t.Disc n) → t'.WF) := by
  have E := setFeats_edit hn strip
  have C1 := setFeats_core C hn strip
  have hset : nd.setFeatures (some (nd.featuresMut.remove unaryKey).1) = withFeats strip nd := by cases nd <;> rfl
  have hn1 : (t.setNode n (withFeats strip nd)).graph.node? n = some (withFeats strip nd) := by
    rw [E.node, hn]; simp
  have hkind : KeepsKind (fun k y => if k = n then withFeats strip y else y) := by
    intro k y; simp only; split
    · exact withFeats_kind _ _
    · rfl
  have hspan : ∀ k y, ((fun k y => if k = n then withFeats strip y else y) k y : Node).span = y.span := by
    intro k y; simp only; split
    · exact withFeats_span _ _
    · rfl
  have K1 : Keep t (t.setNode n (withFeats strip nd)) := by
    refine ⟨⟨E.nTerm, fun m hm => (E.isTerm hkind m).1 hm, fun m x hx => ?_⟩, fun m x y hx hy => ?_⟩
    · by_cases e : m = n
      · subst e
        exact ⟨{ x with features := strip x.features }, by rw [E.node, hx]; simp [withFeats], rfl, rfl, rfl⟩
      · exact ⟨x, by rw [E.node, hx]; simp [e], rfl, rfl, rfl⟩
    · rw [E.node, hx] at hy
      by_cases e : m = n
      · subst e; simp [withFeats] at hy; rw [← hy]
      · simp [e] at hy; rw [hy]
  have W1 : t.WF → (t.setNode n (withFeats strip nd)).WF := fun W => E.wf hkind hspan W
  have hoth : ∀ m, m ≠ n → (t.setNode n (withFeats strip nd)).graph.node? m = t.graph.node? m := by
    intro m hm; rw [E.node]; simp [hm]
  have hrem : (nd.featuresMut.remove unaryKey).2 = (nd.features.getD Features.empty).getVal unaryKey := rfl
  cases hv : (nd.features.getD Features.empty).getVal unaryKey with
  | none =>
    refine ⟨_, .ok (), ?_, C1, K1, fun m _ hm => hoth m hm, fun m hm => (E.live m).2 hm, fun W _ => W1 W⟩
    unfold restoreNode
    rw [node_eq hn]
    simp only [Res.ok_bind, hset, hrem, hv]
    rfl
  | some o =>
    cases o with
    | none =>
      refine ⟨_, .error .chainNoValue, ?_, C1, K1, fun m _ hm => hoth m hm, fun m hm => (E.live m).2 hm, fun W _ => W1 W⟩
      unfold restoreNode
      rw [node_eq hn]
      simp only [Res.ok_bind, hset, hrem, hv]
      rfl
    | some chain =>
      obtain ⟨t2, n', k1, k2, k3, k4, k5⟩ := restoreLabels_any (splitStr delim chain) C1 hn1
      refine ⟨t2, .ok (), ?_, k2, K1.trans k3, ?_, ?_, ?_⟩
      · unfold restoreNode
        rw [node_eq hn]
        simp only [Res.ok_bind, hset, hrem, hv, k1]
        rfl
      · intro m hm hne
        rw [k4 m ((E.live m).2 hm), hoth m hne]
      · intro m hm
        obtain ⟨y, hy⟩ := (E.live m).2 hm
        exact ⟨y, by rw [k4 m ⟨y, hy⟩]; exact hy⟩
      · intro W hd
        refine k5 (W1 W) ?_
        rintro ⟨x, hx, hxs⟩
        rw [hn1] at hx
        refine hd chain rfl ?_
        cases nd with
        | term y => simp [withFeats] at hx
        | nt y =>
          simp only [withFeats, Option.some.injEq, Node.nt.injEq] at hx
          subst hx
          exact ⟨y, hn, hxs⟩

theorem restoreUnaryChains_any (W : t.WF) (delim : Str) :
    ∃ t' r, t.restoreUnaryChains delim = .ok (t', r) ∧ Keep t t' ∧ ((Batch.restoreUnaryChains delim).Sound t → t'.WF) := by
  unfold restoreUnaryChains
  have key : ∀ (l : List Nat), l.Nodup → ∀ t1 : Tree, t1.Core → Keep t t1 → (∀ n ∈ l, t1.Live n ∧ t1.graph.node? n = t.graph.node? n) →
      ∃ t' r, forE (restoreNode delim) l t1 = .ok (t', r) ∧ Keep t t' ∧
        ((Batch.restoreUnaryChains delim).Sound t → t1.WF → t'.WF) := by
    intro l
    induction l with
    | nil => intro _ t1 _ K _; exact ⟨t1, .ok (), rfl, K, fun _ h => h⟩
    | cons n l ih =>
      intro hnd t1 C K h
      rw [List.nodup_cons] at hnd
      obtain ⟨⟨nd, hn⟩, hn0⟩ := h n (by simp)
      obtain ⟨t2, r, k1, k2, k3, k4, k5, k6⟩ := restoreNode_any C delim hn
      have hw : (Batch.restoreUnaryChains delim).Sound t → t1.WF → t2.WF := by
        intro hs W1
        refine k6 W1 fun chain hc => ?_
        have hn' := hn
        rw [hn0] at hn'
        have := hs n nd chain hn' hc
        rintro ⟨x, hx, hxs⟩
        exact this ⟨x, by rw [← hn0]; exact hx, hxs⟩
      cases r with
      | error e =>
        exact ⟨t2, .error e, by simp only [forE, k1, Res.ok_bind], K.trans k3, hw⟩
      | ok u =>
        obtain ⟨t3, r3, g1, g2, g3⟩ := ih hnd.2 t2 k2 (K.trans k3) (fun m hm => by
          obtain ⟨h1, h2⟩ := h m (by simp [hm])
          exact ⟨k5 m h1, (k4 m h1 (by rintro rfl; exact hnd.1 hm)).trans h2⟩)
        exact ⟨t3, r3, by simp only [forE, k1, Res.ok_bind]; exact g1, g2, fun hs W1 => g3 hs (hw hs W1)⟩
  obtain ⟨t', r, h1, h2, h3⟩ := key t.graph.nodeIndices (Graph.nodeIndices_nodup _) t W.core (Keep.refl t)
    (fun n hn => ⟨Graph.mem_nodeIndices.1 hn, rfl⟩)
  exact ⟨t', r, h1, h2, fun hs => h3 hs W⟩

/-! ## All of them -/

/-- Only `reattach_terminals` can fail to return. -/
theorem batch_total (W : t.WF) (b : Batch) (hb : ∀ a f, b ≠ .reattachTerminals a f) :
    ∃ t', b.run t = .ok t' ∧ (b.Sound t → t'.WF) ∧ SameWords t t' ∧ (b.retags = false → SameTags t t') := by
  cases b with
  | annotatePos tags =>
    obtain ⟨t', r, h1, _, _, _, pos, h2, _⟩ := Props.C29_annotate_pos t W tags
    exact ⟨t', by simp only [Batch.run, h1, Res.ok_bind]; rfl, fun _ => h2.wf (fun _ _ => rfl) W,
      h2.sameWords (fun _ _ => ⟨rfl, rfl, rfl⟩), fun h => by cases h⟩
  | annotateParentTag name =>
    obtain ⟨h1, h2⟩ := Props.C30_parent_tag t W name
    rcases live_iff.1 W.shape.root_live with hr | hr
    · exact ⟨t, by simp only [Batch.run, h2 hr, Res.ok_bind]; rfl, fun _ => W, (Keep.refl t).1, fun _ => (Keep.refl t).2⟩
    · obtain ⟨t', val, k1, k2, _⟩ := h1 hr
      have K := k2.keep (fun _ _ => ⟨rfl, rfl, rfl⟩) (fun _ _ => rfl)
      exact ⟨t', by simp only [Batch.run, k1, Res.ok_bind]; rfl, fun _ => k2.wf (fun _ _ => rfl) W, K.1, fun _ => K.2⟩
  | insertIntermediate f =>
    obtain ⟨t', r, h1, h2, h3⟩ := insertIntermediate_any W f
    exact ⟨t', by simp only [Batch.run, h1, Res.ok_bind]; rfl, fun _ => h2, h3.1, fun _ => h3.2⟩
  | filterNonterminals f =>
    obtain ⟨t', h1, h2, h3, _⟩ := filterNonterminals_any W f
    exact ⟨t', by simp only [Batch.run, h1, Res.ok_bind]; rfl, fun _ => h2, h3.1, fun _ => h3.2⟩
  | reattachTerminals a f => exact absurd rfl (hb a f)
  | collapseUnaryChains d =>
    obtain ⟨F, hF⟩ := W.is_exists
    obtain ⟨t', h1, I, _⟩ := collapseUnaryChains_spec W d hF
    have K : Keep t t' := by
      refine ⟨⟨I.nterm, fun n hn => (I.term n).1 hn, fun n x hx => ?_⟩, fun n x y hx hy => ?_⟩
      · obtain ⟨y, hy⟩ := (I.term n).2 ⟨x, hx⟩
        obtain ⟨nd0, g, k1, k2⟩ := I.kept n _ hy
        rw [hx] at k1; cases k1
        simp only [withFeats, Node.term.injEq] at k2
        exact ⟨y, hy, by rw [k2], by rw [k2], by rw [k2]⟩
      · obtain ⟨nd0, g, k1, k2⟩ := I.kept n _ hy
        rw [hx] at k1; cases k1
        simp only [withFeats, Node.term.injEq] at k2
        rw [k2]
    exact ⟨t', h1, fun _ => I.wf, K.1, fun _ => K.2⟩
  | restoreUnaryChains d =>
    obtain ⟨t', r, h1, h2, h3⟩ := restoreUnaryChains_any W d
    exact ⟨t', by simp only [Batch.run, h1, Res.ok_bind]; rfl, h3, h2.1, fun _ => h2.2⟩
  | projectivize pick ho =>
    cases hp : t.isProjective with
    | true =>
      have : t.projectivize pick = .ok (t, none) := by
        unfold projectivize
        simp only [hp, Bool.not_true]
        rfl
      exact ⟨t, by simp only [Batch.run, this, Res.ok_bind]; rfl, fun _ => W, (Keep.refl t).1, fun _ => (Keep.refl t).2⟩
    | false =>
      obtain ⟨t', log, h1, h2, h3, _⟩ := projectivize_spec ho W hp
      have K := h3.keep W
      exact ⟨t', by simp only [Batch.run, h1, Res.ok_bind]; rfl, fun _ => h2, K.1, fun _ => K.2⟩
  | projectTagSet name f =>
    obtain ⟨t', h1, h2, h3⟩ := projectTagSet_any W name f
    exact ⟨t', h1, fun _ => h2, h3.1, fun _ => h3.2⟩
  | projectIds name f =>
    obtain ⟨t', h1, h2, h3⟩ := projectIds_any W name f
    exact ⟨t', h1, fun _ => h2, h3.1, fun _ => h3.2⟩
  | annotateAbsolute =>
    cases hp : t.isProjective with
    | false => exact ⟨t, by simp only [Batch.run, (Props.C38_annotate_nonprojective t hp).1, Res.ok_bind]; rfl, fun _ => W,
        (Keep.refl t).1, fun _ => (Keep.refl t).2⟩
    | true =>
      obtain ⟨e, t', _, _, h1, h2, h3⟩ := Props.C38_annotate_absolute t W hp
      have K := h3.keep (fun _ _ => ⟨rfl, rfl, rfl⟩) (fun _ _ => rfl)
      exact ⟨t', by simp only [Batch.run, h1, Res.ok_bind]; rfl, fun _ => h2, K.1, fun _ => K.2⟩
  | annotateRelative =>
    cases hp : t.isProjective with
    | false => exact ⟨t, by simp only [Batch.run, (Props.C38_annotate_nonprojective t hp).2, Res.ok_bind]; rfl, fun _ => W,
        (Keep.refl t).1, fun _ => (Keep.refl t).2⟩
    | true =>
      obtain ⟨e, t', _, _, h1, h2, h3⟩ := Props.C38_annotate_relative t W hp
      have K := h3.keep (fun _ _ => ⟨rfl, rfl, rfl⟩) (fun _ _ => rfl)
      exact ⟨t', by simp only [Batch.run, h1, Res.ok_bind]; rfl, fun _ => h2, K.1, fun _ => K.2⟩
  | removeDummyNodes =>
    obtain ⟨t', h1, h2, h3⟩ := removeDummyNodes_any W
    exact ⟨t', by simp only [Batch.run, h1, Res.ok_bind]; rfl, fun _ => h2, h3.1, fun _ => h3.2⟩

/-- What a call does that returns. -/
theorem batch_step (W : t.WF) (b : Batch) (h : b.run t = .ok t') :
    (b.Sound t → t'.WF) ∧ SameWords t t' ∧ (b.retags = false → SameTags t t') := by
  by_cases hb : ∃ a f, b = .reattachTerminals a f
  · obtain ⟨a, f, rfl⟩ := hb
    obtain ⟨h1, h2⟩ := reattachTerminals_any W h
    exact ⟨fun _ => h1, h2.1, fun _ => h2.2⟩
  · push Not at hb
    obtain ⟨t2, h1, h2⟩ := batch_total W b hb
    rw [h] at h1; cases h1
    exact h2

end Tree
end Lumberjack
