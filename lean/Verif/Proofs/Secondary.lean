import Verif.Proofs.Context
import Verif.Proofs.IsoSteps
import Verif.Spec.Secondary

/-!
# The steps of the conversion tool do not look at secondary edges
-/

namespace Lumberjack
namespace Tree

variable {t t' u : Tree} {φ : Nat → Nat}

/-- The tree without its secondary edges. -/
def bare (t : Tree) : Tree := { t with graph := { t.graph with edges := t.graph.edges.filter (·.w.isPrimary) } }

theorem mem_bare {e : EdgeRec} : e ∈ t.bare.graph.edges ↔ e ∈ t.graph.edges ∧ e.w.isPrimary = true := by
  simp [bare, List.mem_filter]

theorem bare_node (t : Tree) (n : Nat) : t.bare.graph.node? n = t.graph.node? n := rfl

theorem bare_prim (t : Tree) : t.bare.primEdges = t.primEdges := by
  unfold primEdges bare
  simp [List.filter_filter]

theorem bare_isChild (t : Tree) : t.bare.IsChild = t.IsChild := isChild_congr' t.bare_prim

theorem bare_dom (t : Tree) : t.bare.Dom = t.Dom := dom_congr t.bare_isChild

theorem bare_live (t : Tree) : t.bare.Live = t.Live := rfl

theorem bare_covers (t : Tree) : t.bare.Covers = t.Covers := by
  unfold Covers
  rw [bare_dom]
  rfl

theorem find_filter {α : Type} (p q : α → Bool) : ∀ l : List α, (l.filter q).find? (fun x => p x && q x) = l.find? (fun x => p x && q x)
  | [] => rfl
  | a :: l => by
    cases hq : q a with
    | true => simp [List.find?_cons, hq, find_filter p q l]
    | false => simp [hq, find_filter p q l]

theorem bare_edgeLabel (t : Tree) (n : Nat) : t.bare.edgeLabel n = t.edgeLabel n := by
  unfold edgeLabel bare
  simp only
  rw [find_filter (fun r : EdgeRec => decide (r.tgt = n)) (fun r => r.w.isPrimary)]

theorem bare_inLabel (t : Tree) : t.bare.inLabel = t.inLabel := by
  funext n
  unfold inLabel
  rw [bare_edgeLabel]

theorem WF.bare (W : t.WF) : t.bare.WF := by
  refine W.congr ⟨?_, ?_, W.graph.freeEdges_nodup, ?_, W.graph.freeNodes_nodup, W.graph.freeNodes, ?_⟩ t.bare_prim rfl rfl rfl (fun _ => rfl)
  · exact W.graph.ids_nodup.sublist (List.filter_sublist.map _)
  · exact fun r hr => W.graph.ids_lt r (mem_bare.1 hr).1
  · exact fun i hi => ⟨(W.graph.freeEdges i hi).1, fun r hr => (W.graph.freeEdges i hi).2 r (mem_bare.1 hr).1⟩
  · exact fun r hr => W.graph.ends r (mem_bare.1 hr).1

theorem bare_is (t : Tree) (f : Forest) (h : t.Is f) : t.bare.Is f :=
  Rep.congr h fun _ _ m _ => ⟨rfl, by rw [bare_inLabel], fun b => by rw [bare_isChild]⟩

theorem bare_is' (t : Tree) (f : Forest) (h : t.bare.Is f) : t.Is f :=
  Rep.congr h fun _ _ m _ => ⟨rfl, by rw [bare_inLabel], fun b => by rw [bare_isChild]⟩

theorem bare_run (t : Tree) : t.bare.Run = t.Run := rfl

theorem bare_closest (t : Tree) {f : Tree → Nat → Bool} (h : ∀ n, f t.bare n = f t n) : t.bare.Closest f = t.Closest f := by
  funext n a
  unfold Closest
  simp only [bare_dom, h]

theorem Removed.bare {R : Nat → Prop} (H : Removed t t' R) : Removed t.bare t'.bare R where
  wf := H.wf.bare
  nTerm := H.nTerm
  gone := H.gone
  node := H.node
  dom a b := by rw [bare_dom, bare_dom]; exact H.dom a b
  edges r hr h1 h2 := by
    rw [mem_bare] at hr ⊢
    exact ⟨H.edges r hr.1 h1 h2, hr.2⟩
  added r hr := by
    rw [mem_bare] at hr
    rw [mem_bare, bare_dom]
    exact (H.added r hr.1).imp_left fun h => ⟨h, hr.2⟩

theorem TermEdit.bare {g : Nat → Terminal → Terminal} (E : TermEdit t t' g) : TermEdit t.bare t'.bare g where
  graph := by
    have := E.graph
    unfold Tree.bare
    simp only
    rw [this]
  root := E.root
  nTerm := E.nTerm
  disc := E.disc
  len := E.len
  none := E.none
  nt := E.nt
  term := E.term

theorem Gathered.bare {a : Nat} {M : Nat → Prop} (G : Gathered t a M t') : Gathered t.bare a M t'.bare where
  wf := G.wf.bare
  root := G.root
  nterm := G.nterm
  len := G.len
  term := G.term
  content := G.content
  live n := by rw [bare_dom]; exact G.live n
  child p c := by rw [bare_isChild, bare_isChild]; exact G.child p c
  moved c h := by rw [bare_inLabel]; exact G.moved c h
  label c h1 h2 := by rw [bare_inLabel, bare_inLabel]; exact G.label c h1 h2
  secondary r hr := by
    rw [mem_bare, mem_bare, hr]
    simp

theorem Inserted.bare {K : Nat → Nat → Prop} {lab : Nat → Str} (H : Inserted t K lab t') : Inserted t.bare K lab t'.bare where
  wf := H.wf.bare
  root := H.root
  nterm := H.nterm
  old := H.old
  child a b ha hb := by rw [bare_isChild, bare_isChild]; exact H.child a b ha hb
  cover p c h := by rw [bare_isChild]; exact H.cover p c h
  new n h1 h2 := by rw [bare_isChild, bare_inLabel]; exact H.new n h1 h2
  edges r hr h := by
    rw [mem_bare] at hr ⊢
    exact ⟨H.edges r hr.1 h, hr.2⟩
  follow := by rw [bare_inLabel]; exact H.follow
  first := by rw [bare_inLabel, bare_inLabel]; exact H.first
  secondary r hr hw := by
    rw [mem_bare] at hr ⊢
    exact ⟨H.secondary r hr.1 hw, hr.2⟩

theorem SamePrimary.bare (P : SamePrimary t u φ) : Iso t.bare u.bare φ where
  root := P.root
  inj := P.inj
  onto := P.onto
  node := P.node
  edge p n w hp hn := by
    constructor
    · rintro ⟨e, he, h1, h2, rfl⟩
      rw [mem_bare] at he
      obtain ⟨e', k1, k2, k3, k4⟩ := (P.edge p n e.w hp hn he.2).1 ⟨e, he.1, h1, h2, rfl⟩
      exact ⟨e', mem_bare.2 ⟨k1, by rw [k4]; exact he.2⟩, k2, k3, k4⟩
    · rintro ⟨e, he, h1, h2, rfl⟩
      rw [mem_bare] at he
      obtain ⟨e', k1, k2, k3, k4⟩ := (P.edge p n e.w hp hn he.2).2 ⟨e, he.1, h1, h2, rfl⟩
      exact ⟨e', mem_bare.2 ⟨k1, by rw [k4]; exact he.2⟩, k2, k3, k4⟩

end Tree

namespace Convert

open Lumberjack.Tree

variable {t t' u u' : Tree} {φ : Nat → Nat}

theorem Fit.bare (F : Fit t) : Fit t.bare where
  wf := F.wf.bare
  rootNt := F.rootNt
  order := F.order
  sec r hr hw := by
    rw [mem_bare] at hr
    rw [hr.2] at hw; cases hw

theorem Suits.bare {o : Options} (S : Suits o t) : Suits o t.bare := ⟨S.fit.bare, S.words⟩

theorem dummies_bare (h : DummiesRemoved t t') : DummiesRemoved t.bare t'.bare := by
  obtain ⟨R, H, h1, h2⟩ := h
  refine ⟨R, H.bare, h1, ?_⟩
  rw [bare_isChild]
  exact h2

theorem gapless_bare (t : Tree) : t.bare.Gapless = t.Gapless := by
  unfold Gapless
  rw [bare_covers]

theorem ids_bare {name : Str} {s : LabelSet} (h : IdsProjected name s t t') : IdsProjected name s t.bare t'.bare := by
  obtain ⟨num, E, h1, h2⟩ := h
  refine ⟨num, E.bare, ?_, h2⟩
  rw [bare_closest t (f := idNode s) fun n => rfl]
  exact h1

theorem parents_bare {name : Str} (h : ParentTagged name t t') : ParentTagged name t.bare t'.bare := by
  obtain ⟨val, E, h1⟩ := h
  refine ⟨val, E.bare, ?_⟩
  rw [bare_isChild]
  exact h1

theorem runs_bare {s : LabelSet} {l : Str} (h : RunsInserted s l t t') : RunsInserted s l t.bare t'.bare := by
  unfold RunsInserted
  rw [bare_isChild]
  exact Inserted.bare h

theorem opt_bare {α : Type} {a : Option α} {R : α → Tree → Tree → Prop} (hR : ∀ v t t', R v t t' → R v t.bare t'.bare)
    (h : Opt a R t t') : Opt a R t.bare t'.bare := by
  cases a with
  | none => exact congrArg Tree.bare h
  | some v => exact hR v t t' h

/-- The steps after projectivization. -/
theorem pipeline_bare {o : Options} {tags : Option (List Str)} {t2 : Tree}
    (h : ∃ t3 t4 t5 t6 t7 : Tree, Opt tags PosTagged t2 t3 ∧
      Opt o.reattachLabel PrefixGathered t3 t4 ∧
      Opt o.idSet (IdsProjected o.idFeatureName) t4 t5 ∧
      Opt o.filterSet Filtered t5 t6 ∧
      Opt o.insertionSet (fun s => RunsInserted s o.insertionLabel) t6 t7 ∧
      Opt o.parentFeature ParentTagged t7 t') :
    Pipeline { o with removeDummies := false, projectivize := false } tags t2.bare t'.bare := by
  obtain ⟨t3, t4, t5, t6, t7, b3, b4, b5, b6, b7, b8⟩ := h
  refine ⟨t2.bare, t2.bare, t3.bare, t4.bare, t5.bare, t6.bare, t7.bare, ⟨by simp, fun _ => rfl⟩, ⟨by simp, fun _ => rfl⟩,
    opt_bare (fun _ _ _ h => TermEdit.bare h) b3, opt_bare (fun _ _ _ h => Gathered.bare h) b4,
    opt_bare (fun _ _ _ h => ids_bare h) b5, opt_bare (fun _ _ _ h => ⟨h.1, Removed.bare h.2⟩) b6,
    opt_bare (fun _ _ _ h => runs_bare h) b7, opt_bare (fun _ _ _ h => parents_bare h) b8⟩

/-- The options without the first two steps. -/
def off (o : Options) : Options := { o with removeDummies := false, projectivize := false }

/-- The steps after the first two do not look at secondary edges. -/
theorem rest_same {o : Options} (I : Iso t.bare u.bare φ) (S : Suits (off o) t) (S' : Suits (off o) u) (ho : o.out ≠ .negra)
    {pick pick' : Tree → Finset Nat → Option Nat} (hpick : IsOrder pick) (hpick' : IsOrder pick') (tags : Option PosItem) (c : Nat) :
    convertTree pick' (off o) tags c u = convertTree pick (off o) tags c t := by
  have hn : u.nTerminals = t.nTerminals := I.nTerminals S.fit.wf.bare S'.fit.wf.bare
  have main : ∀ l : Option (List Str), (∀ x, l = some x → x.length = t.nTerminals) →
      convertTree pick' (off o) (l.map .ok) c u = convertTree pick (off o) (l.map .ok) c t := by
    intro l hl
    obtain ⟨t', a1, a2, _, a4⟩ := process_spec hpick (off o) l S hl
    obtain ⟨u', b1, b2, _, b4⟩ := process_spec hpick' (off o) l S' (by rw [hn]; exact hl)
    have low : ∀ {t t' : Tree}, Pipeline (off o) l t t' → Pipeline (off o) l t.bare t'.bare := by
      rintro t t' ⟨t1, t2, t3, t4, t5, t6, t7, b1, b2, b3, b4, b5, b6, b7, b8⟩
      rw [b1.2 rfl] at b2
      rw [b2.2 rfl] at b3
      exact pipeline_bare ⟨t3, t4, t5, t6, t7, b3, b4, b5, b6, b7, b8⟩
    have B := pipeline_iso I S.bare S'.bare (fun h => by cases h) (low a1) (low b1)
    obtain ⟨ψ, I'⟩ := B.iso
    have W1 := a2.fit.wf
    have W2 := b2.fit.wf
    have := same_convert (fun f h => bare_is' u' f (I'.is W1.bare W2.bare (bare_is t' f h))) (I'.projective W1.bare W2.bare)
      (fun ts h => I'.terminals W1.bare W2.bare h) W1 W2 o.out c (fun h => absurd h ho) pick pick'
    rw [convert_encode, convert_encode] at this
    unfold convertTree
    rw [a4, b4]
    exact this
  match tags with
  | none => exact main none (by simp)
  | some (.error e) =>
    unfold convertTree
    rw [process_posError hpick (off o) e S, process_posError hpick' (off o) e S']
  | some (.ok l) =>
    by_cases hl : l.length = t.nTerminals
    · exact main (some l) (by simpa using hl)
    · unfold convertTree
      rw [process_tags hpick (off o) l S hl, process_tags hpick' (off o) l S' (by rw [hn]; exact hl), hn]

theorem convert_off {pick : Tree → Finset Nat → Option Nat} {o : Options} {t1 t2 : Tree}
    (h : stepDummies o (.ok t) = .ok (.ok t1)) (h' : stepProjectivize pick o (.ok t1) = .ok (.ok t2)) (tags : Option PosItem) (c : Nat) :
    convertTree pick o tags c t = convertTree pick (off o) tags c t2 := by
  unfold convertTree process
  rw [h, Res.ok_bind, h', Res.ok_bind]
  rfl

theorem suits_off {o : Options} {t1 : Tree} (S : Suits o t) {p : Bool} (G : Good p t t1) : Suits (off o) t1 :=
  ⟨G.fit, S.words.imp (fun h => by rw [G.words.len]; exact h) fun h => ⟨rfl, h.2⟩⟩

/-- What is written does not depend on the secondary edges. -/
theorem secondary_convert {o : Options} (P : SamePrimary t u φ) (S : Suits o t) (S' : Suits o u) (ho : o.out ≠ .negra)
    (hp : o.projectivize = true → t.isProjective = true)
    {pick pick' : Tree → Finset Nat → Option Nat} (hpick : IsOrder pick) (hpick' : IsOrder pick') (tags : Option PosItem) (c : Nat) :
    convertTree pick' o tags c u = convertTree pick o tags c t := by
  obtain ⟨t1, a1, b1, c1⟩ := stepDummies_spec o S.fit (S.words.imp_right And.left)
  obtain ⟨t2, a2, b2, c2, d2⟩ := stepProjectivize_spec hpick o c1.fit
  obtain ⟨u1, a1', b1', c1'⟩ := stepDummies_spec o S'.fit (S'.words.imp_right And.left)
  obtain ⟨u2, a2', b2', c2', d2'⟩ := stepProjectivize_spec hpick' o c1'.fit
  rw [convert_off a1 a2, convert_off a1' a2']
  have I := P.bare
  have I1 : Iso t1.bare u1.bare φ := by
    cases h : o.removeDummies with
    | false => rw [b1.2 h, b1'.2 h]; exact I
    | true => exact I.dummies S.fit.wf.bare S'.fit.wf.bare (dummies_bare (b1.1 h)) (dummies_bare (b1'.1 h))
  have I2 : Iso t2.bare u2.bare φ := by
    cases h : o.projectivize with
    | false => rw [b2.2 h, b2'.2 h]; exact I1
    | true =>
      have h1 := c1.proj rfl (hp h)
      have h2 : u1.isProjective = true := (I1.projective c1.fit.wf.bare c1'.fit.wf.bare).trans h1
      have same : ∀ {t t' : Tree}, t.WF → t.isProjective = true → Projectivized o.secEdges t t' → t' = t := by
        intro t t' W hpr hP
        rcases hP with ⟨_, h⟩ | ⟨⟨n, hn, hg⟩, _⟩
        · exact h
        · exact absurd ((noGaps_iff W).1 hpr n hn) hg
      rw [same c1.fit.wf h1 (b2.1 h), same c1'.fit.wf h2 (b2'.1 h)]
      exact I1
  exact rest_same I2 (suits_off S (c1.trans c2)) (suits_off S' (c1'.trans c2')) ho hpick hpick' tags c

theorem recorded_same {log : List Move} (R : Recorded log t t') : SamePrimary t t' id := by
  obtain ⟨new, e1, e2⟩ := R.edges
  have hw : ∀ r ∈ new, r.w.isPrimary = false := by
    intro r hr
    have : (r.src, r.tgt, r.w) ∈ new.reverse.map (fun r => (r.src, r.tgt, r.w)) := List.mem_map_of_mem (List.mem_reverse.2 hr)
    rw [e2] at this
    obtain ⟨m, _, h⟩ := List.mem_map.1 this
    simp only [Prod.mk.injEq] at h
    rw [← h.2.2]
    rfl
  refine ⟨R.root, fun _ _ _ _ h => h, fun n ⟨x, h⟩ => ⟨n, ⟨x, by rw [← h]; exact (R.node n).symm⟩, rfl⟩, fun n _ => R.node n, ?_⟩
  rintro p n w _ _ h
  rw [e1]
  constructor
  · rintro ⟨e, he, h⟩
    exact ⟨e, List.mem_append_right _ he, h⟩
  · rintro ⟨e, he, h1, h2, rfl⟩
    rcases List.mem_append.1 he with he | he
    · rw [hw e he] at h; cases h
    · exact ⟨e, he, h1, h2, rfl⟩

theorem SamePrimary_refl (t : Tree) : SamePrimary t t id :=
  ⟨rfl, fun _ _ _ _ h => h, fun n h => ⟨n, h, rfl⟩, fun _ _ => rfl, fun _ _ _ _ _ _ => Iff.rfl⟩

/-- `--sec_edges` only shows in NEGRA output. -/
theorem secEdges_convert (o : Options) (S : Suits o t) (ho : o.out ≠ .negra) (b : Bool)
    {pick : Tree → Finset Nat → Option Nat} (hpick : IsOrder pick) (tags : Option PosItem) (c : Nat) :
    convertTree pick { o with secEdges := b } tags c t = convertTree pick o tags c t := by
  suffices h : ∀ b, convertTree pick { o with secEdges := b } tags c t = convertTree pick { o with secEdges := false } tags c t from
    (h b).trans (h o.secEdges).symm
  intro b
  cases b with
  | false => rfl
  | true =>
  obtain ⟨t1, a1, b1, c1⟩ := stepDummies_spec o S.fit (S.words.imp_right And.left)
  have key : ∃ t2 u2, stepProjectivize pick { o with secEdges := false } (.ok t1) = .ok (.ok t2) ∧
      stepProjectivize pick { o with secEdges := true } (.ok t1) = .ok (.ok u2) ∧ SamePrimary t2 u2 id := by
    unfold stepProjectivize
    cases h : o.projectivize with
    | false => exact ⟨t1, t1, rfl, rfl, SamePrimary_refl _⟩
    | true =>
      rw [stepIf_true, stepIf_true]
      by_cases hg : ∀ n, t1.Live n → t1.Gapless n
      · refine ⟨t1, t1, ?_, ?_, SamePrimary_refl _⟩
        all_goals rw [Props.C22_projective_unchanged t1 c1.fit.wf pick hg]; rfl
      · push Not at hg
        obtain ⟨tp, log, h1, W1, hp1, hg1⟩ := Props.C22_projectivize t1 c1.fit.wf pick hpick hg
        have M := Props.C23_moves t1 c1.fit.wf pick hpick h1
        obtain ⟨t2, k1, k2, k3, k4⟩ := addMoves_spec log W1 M.ends
        refine ⟨tp, t2, ?_, ?_, recorded_same k3⟩
        · rw [h1, Res.ok_bind]; rfl
        · rw [h1, Res.ok_bind]
          simp only [if_true, k1, Res.ok_bind]
          rfl
  obtain ⟨t2, u2, e1, e2, P⟩ := key
  obtain ⟨t2', a2, _, c2, _⟩ := stepProjectivize_spec hpick { o with secEdges := false } c1.fit
  obtain ⟨u2', a2', _, c2', _⟩ := stepProjectivize_spec hpick { o with secEdges := true } c1.fit
  rw [e1] at a2
  rw [e2] at a2'
  cases a2
  cases a2'
  rw [convert_off (o := { o with secEdges := false }) a1 e1, convert_off (o := { o with secEdges := true }) a1 e2]
  exact rest_same (o := o) P.bare (suits_off S (c1.trans c2)) (suits_off S (c1.trans c2')) ho hpick hpick tags c

end Convert
end Lumberjack
