import Verif.Proofs.Climb
import Verif.Props.TreeEdit

/-!
# The documented use of `map_climber_path`
-/

namespace Lumberjack
namespace Tree

open Relation Lumberjack.Props

theorem sound_wf : Sound WF := fun _ W => ⟨W.graph, W.shape⟩

theorem insertFeature_edit {t t' : Tree} {n : Nat} {name v : Str} (h : t.insertFeature n name v = .ok t') :
    t.Live n ∧ NodeEdit t t' (fun m nd => if m = n then
      nd.setFeatures (some (nd.featuresMut.insert name (some v)).1) else nd) := by
  unfold insertFeature at h
  obtain ⟨nd, hnd, h⟩ := Res.bind_eq_ok.1 h
  have hn : t.graph.node? n = some nd := by
    unfold Tree.node at hnd
    exact Res.ofOption_eq_ok.1 hnd
  simp only [Res.pure_eq, Res.ok.injEq] at h
  subst h
  refine ⟨⟨nd, hn⟩, rfl, rfl, rfl, rfl, by simp [setNode], fun m => ?_⟩
  show (t.graph.setNode n _).node? m = _
  rw [Graph.node?_setNode ⟨nd, hn⟩]
  by_cases e : m = n
  · subst e; simp [hn]
  · simp [e]

theorem insertFeature_wf {t t' : Tree} {n : Nat} {name v : Str} (W : t.WF) (h : t.insertFeature n name v = .ok t') :
    t'.WF := by
  refine (insertFeature_edit h).2.wf ?_ ?_ W
  · intro m nd
    by_cases e : m = n <;> simp [e]
    cases nd <;> rfl
  · intro m nd
    by_cases e : m = n <;> simp [e]
    cases nd <;> rfl

theorem isNt_of_above {t : Tree} (W : t.WF) {q p : Nat} (hne : q ≠ p) (h : t.Dom q p) : t.IsNt q := by
  rcases ReflTransGen.cases_head h with e | ⟨c, hc, _⟩
  · exact absurd e hne
  · exact W.shape.parent_isNt W.graph hc

theorem removeNode_above {t t' : Tree} (W : t.WF) {p : Nat} (hp : t.IsNt p) {nd : Node}
    (h : t.removeNode p = .ok (t', .ok nd)) : t'.WF ∧ ∀ q, q ≠ p → t.Dom q p → t'.IsNt q ∧ ∀ a, t'.IsChild a q ↔ t.IsChild a q := by
  obtain ⟨x, hx⟩ := hp
  by_cases hr : p = t.root
  · rw [hr] at hx h ⊢
    obtain ⟨c, hc⟩ := W.shape.nt_child _ ⟨x, hx⟩
    have hone : ∀ c', t.IsChild t.root c' ↔ c' = c := by
      intro c'
      constructor
      · intro h'
        by_contra hne
        rw [C11_remove_root_multiple t W c c' hc h' (Ne.symm hne)] at h
        simp at h
      · rintro rfl; exact hc
    obtain ⟨t1, h1, h2, _⟩ := C11_remove_root t W c x hx hone
    rw [h] at h1
    simp only [Res.ok.injEq, Prod.mk.injEq] at h1
    obtain ⟨rfl, _⟩ := h1
    refine ⟨h2, fun q hq hd => ?_⟩
    rcases Dom.cases_parent hd with e | ⟨d, _, hd'⟩
    · exact absurd e.symm hq
    · exact absurd hd' (W.shape.root_top d)
  · obtain ⟨par, hpar⟩ := W.shape.exists_parent (n := p) ⟨_, hx⟩ hr
    obtain ⟨t1, h1, h2, _, h4, h5, _⟩ := C11_remove_nonterminal t W p par x hx hpar
    rw [h] at h1
    simp only [Res.ok.injEq, Prod.mk.injEq] at h1
    obtain ⟨rfl, _⟩ := h1
    refine ⟨h2, fun q hq hd => ⟨?_, fun a => ?_⟩⟩
    · obtain ⟨y, hy⟩ := isNt_of_above W hq hd
      exact ⟨_, (h4 q hq).trans hy⟩
    · have hnc : ¬ t.IsChild p q := by
        intro hc
        exact hq (W.shape.dom_antisymm W.graph hd (Dom.single hc))
      rw [h5]
      constructor
      · rintro (⟨h, _⟩ | ⟨_, h⟩)
        · exact h
        · exact absurd h hnc
      · intro h'
        refine .inl ⟨h', ?_, hq⟩
        rintro rfl
        exact hnc h'

theorem climbMapStep_keeps (rm top : Str → Bool) (name : Str) : KeepsAbove WF (climbMapStep rm top name) := by
  intro s t p n s' t' b W hp h
  unfold climbMapStep at h
  obtain ⟨nd, hnd, h⟩ := Res.bind_eq_ok.1 h
  split at h
  · obtain ⟨⟨t1, r⟩, h1, h⟩ := Res.bind_eq_ok.1 h
    cases r with
    | error e => cases h
    | ok nd' =>
      simp only [Res.pure_eq, Res.ok.injEq, Prod.mk.injEq] at h
      obtain ⟨_, rfl, _⟩ := h
      exact removeNode_above W hp h1
  · split at h
    · obtain ⟨t1, h1, h⟩ := Res.bind_eq_ok.1 h
      simp only [Res.pure_eq, Res.ok.injEq, Prod.mk.injEq] at h
      obtain ⟨_, rfl, _⟩ := h
      have E := (insertFeature_edit h1).2
      refine ⟨insertFeature_wf W h1, fun q hq hd => ⟨?_, fun a => ?_⟩⟩
      · obtain ⟨y, hy⟩ := isNt_of_above W hq hd
        rcases E.node q with h2
        rw [hy] at h2
        by_cases e : q = n
        · exact ⟨_, by rw [h2, Option.map_some, if_pos e]; rfl⟩
        · exact ⟨y, by rw [h2, Option.map_some, if_neg e]⟩
      · unfold IsChild; rw [E.graph]; exact Iff.rfl
    · simp only [Res.pure_eq, Res.ok.injEq, Prod.mk.injEq] at h
      obtain ⟨_, rfl, _⟩ := h
      refine ⟨W, fun q hq hd => ⟨?_, fun a => Iff.rfl⟩⟩
      obtain ⟨y, hy⟩ := isNt_of_above W hq hd
      exact ⟨_, hy⟩

theorem hasLabel_iff {P : Str → Bool} {t : Tree} {n : Nat} : hasLabel P t n = true ↔ HasLabel P t n := by
  unfold hasLabel HasLabel
  cases h : t.graph.node? n with
  | none => simp
  | some nd => cases nd <;> simp

theorem hasLabel_nt {P : Str → Bool} {t : Tree} {n : Nat} {x : NonTerminal} (h : t.graph.node? n = some (.nt x)) :
    hasLabel P t n = P x.label := by
  unfold hasLabel; rw [h]

section
variable {t u : Tree} {R : Nat → Prop} {g : Nat → Terminal → Terminal}

theorem Pruned.start (W : t.WF) : Pruned t t (fun _ => False) (fun _ x => x) :=
  ⟨W, rfl, rfl, fun _ h => h.elim, fun _ h => h, fun _ _ _ h => h, fun _ _ h => h, fun _ _ _ _ => Iff.rfl,
    fun _ h _ _ => h, fun _ h => .inl h⟩

theorem Pruned.congr {R' : Nat → Prop} {g' : Nat → Terminal → Terminal} (h : Pruned t u R g) (hR : ∀ n, R' n ↔ R n)
    (hg : ∀ n x, t.graph.node? n = some (.term x) → g' n x = g n x) : Pruned t u R' g' := by
  have : R' = R := funext fun n => propext (hR n)
  subst this
  exact ⟨h.wf, h.root, h.nTerm, h.gone, h.old, h.nt, fun n x hx => by rw [hg n x hx]; exact h.term n x hx, h.dom, h.kept, h.added⟩

theorem Pruned.remove (h : Pruned t u R g) {p : Nat} {x : NonTerminal} (hx : t.graph.node? p = some (.nt x)) (hR : ¬ R p)
    (hr : p ≠ t.root) : ∃ u', u.removeNode p = .ok (u', .ok (.nt x)) ∧ Pruned t u' (fun n => R n ∨ n = p) g := by
  have hx' := h.nt p x hR hx
  obtain ⟨q, hq⟩ := h.wf.shape.exists_parent (n := p) ⟨_, hx'⟩ (by rw [h.root]; exact hr)
  obtain ⟨u', h1, h2, h3, h4, h5, h6, h7, h8, h9, h10, h11⟩ := C11_remove_nonterminal u h.wf p q x hx' hq
  refine ⟨u', h1, h2, h8.trans h.root, h9.trans h.nTerm, ?_, ?_, ?_, ?_, ?_, ?_, ?_⟩
  · rintro n (hn | rfl)
    · intro hl
      have hne : n ≠ p := by rintro rfl; exact hR hn
      obtain ⟨nd, hnd⟩ := hl
      exact h.gone n hn ⟨nd, (h4 n hne).symm.trans hnd⟩
    · exact h3
  · rintro n ⟨nd, hnd⟩
    have hne : n ≠ p := by rintro rfl; exact h3 ⟨nd, hnd⟩
    exact h.old n ⟨nd, (h4 n hne).symm.trans hnd⟩
  · intro n y hn hy
    rw [not_or] at hn
    rw [h4 n hn.2]; exact h.nt n y hn.1 hy
  · intro n y hy
    have hne : n ≠ p := by rintro rfl; rw [hx] at hy; simp at hy
    rw [h4 n hne]; exact h.term n y hy
  · intro a b ha hb
    rw [not_or] at ha hb
    rw [h6 a b ha.2 hb.2]; exact h.dom a b ha.1 hb.1
  · intro r hr' ha hb
    rw [not_or] at ha hb
    exact h10 r (h.kept r hr' ha.1 hb.1) ha.2 hb.2
  · intro r hr'
    rcases h11 r hr' with hr' | ⟨k1, k2, k3⟩
    · exact h.added r hr'
    · refine .inr ⟨?_, k3⟩
      have hd : u.Dom r.src r.tgt := by rw [k1]; exact (Dom.single hq).trans (Dom.single k2)
      refine (h.dom _ _ ?_ ?_).1 hd
      · intro hc; exact h.gone _ hc (by rw [k1]; exact (isChild_live h.wf.graph hq).1)
      · intro hc; exact h.gone _ hc (isChild_live h.wf.graph k2).2

theorem Pruned.feature (h : Pruned t u R g) {n : Nat} {x : Terminal} (hx : t.graph.node? n = some (.term x)) (name v : Str) :
    ∃ u', u.insertFeature n name v = .ok u' ∧
      Pruned t u' R (fun m y => if m = n then withFeature name v (g m y) else g m y) := by
  have hx' := h.term n x hx
  have h1 := insertFeature_term (name := name) (v := v) hx'
  have hnode : ∀ m, (u.setNode n (.term (withFeature name v (g n x)))).graph.node? m =
      if m = n then some (.term (withFeature name v (g n x))) else u.graph.node? m := by
    intro m
    show (u.graph.setNode n _).node? m = _
    rw [Graph.node?_setNode ⟨_, hx'⟩]
  have hlive : ∀ m, (u.setNode n (.term (withFeature name v (g n x)))).Live m ↔ u.Live m := by
    intro m
    exact Graph.setNode_live ⟨_, hx'⟩ _ m
  refine ⟨_, h1, insertFeature_wf h.wf h1, h.root, h.nTerm, ?_, ?_, ?_, ?_, h.dom, h.kept, h.added⟩
  · intro m hm; rw [hlive]; exact h.gone m hm
  · intro m hm; exact h.old m ((hlive m).1 hm)
  · intro m y hm hy
    have hne : m ≠ n := by rintro rfl; rw [hx] at hy; simp at hy
    rw [hnode, if_neg hne]; exact h.nt m y hm hy
  · intro m y hy
    rw [hnode]
    by_cases e : m = n
    · subst e
      rw [hx] at hy
      simp only [Option.some.injEq, Node.term.injEq] at hy
      subst hy
      simp
    · simp only [if_neg e]; exact h.term m y hy

/-- One terminal. -/
theorem visit_prune {rm top : Str → Bool} {name : Str} {n : Nat} {x : Terminal} (hx : t.graph.node? n = some (.term x)) :
    ∀ (l : List Nat) (u : Tree) (R : Nat → Prop) (g : Nat → Terminal → Terminal), Pruned t u R g →
    (∀ a ∈ l, ¬ R a ∧ t.IsNt a ∧ (HasLabel rm t a → a ≠ t.root)) → l.Nodup →
    ∃ u', visitPath (climbMapStep rm top name) n l ((), u) = .ok ((), u') ∧
      Pruned t u' (fun m => R m ∨ (m ∈ l.takeWhile (fun a => !hasLabel (stopAt rm top) t a) ∧ HasLabel rm t m))
        (fun m y => match (if m = n then (l.find? (hasLabel (stopAt rm top) t)).map t.labelAt else none) with
          | some v => withFeature name v (g m y)
          | none => g m y) := by
  intro l
  induction l with
  | nil =>
    intro u R g h _ _
    refine ⟨u, rfl, h.congr (by simp) ?_⟩
    intro m y _
    by_cases e : m = n <;> simp [e]
  | cons a l ih =>
    intro u R g h hl hnd
    obtain ⟨h1, ⟨y, hy⟩, h2⟩ := hl a (by simp)
    have hy' := h.nt a y h1 hy
    rw [visitPath]
    have hnode : u.node a = .ok (.nt y) := node_eq hy'
    rw [List.nodup_cons] at hnd
    by_cases hrm : rm y.label = true
    · obtain ⟨u1, k1, k2⟩ := h.remove hy h1 (h2 ⟨y, hy, hrm⟩)
      have hns : hasLabel (stopAt rm top) t a = false := by rw [hasLabel_nt hy]; simp [stopAt, hrm]
      obtain ⟨u', k3, k4⟩ := ih u1 _ g k2 (by
        intro b hb
        refine ⟨?_, (hl b (List.mem_cons_of_mem _ hb)).2⟩
        rintro (hc | rfl)
        · exact (hl b (List.mem_cons_of_mem _ hb)).1 hc
        · exact hnd.1 hb) hnd.2
      refine ⟨u', ?_, k4.congr ?_ ?_⟩
      · have : climbMapStep rm top name () u a n = .ok ((), u1, false) := by
          unfold climbMapStep
          rw [hnode]
          simp only [Res.ok_bind, Node.label, hrm, if_true, k1]
          rfl
        rw [this]
        exact k3
      · intro m
        simp only [List.takeWhile_cons, hns, Bool.not_false, if_true, List.mem_cons]
        constructor
        · rintro (h | ⟨rfl | h, h'⟩)
          · exact .inl (.inl h)
          · exact .inl (.inr rfl)
          · exact .inr ⟨h, h'⟩
        · rintro ((h | rfl) | ⟨h, h'⟩)
          · exact .inl h
          · exact .inr ⟨.inl rfl, ⟨y, hy, hrm⟩⟩
          · exact .inr ⟨.inr h, h'⟩
      · intro m z _
        simp only [List.find?_cons, hns]
    · by_cases htop : top y.label = true
      · obtain ⟨u1, k1, k2⟩ := h.feature hx name y.label
        have hns : hasLabel (stopAt rm top) t a = true := by rw [hasLabel_nt hy]; simp [stopAt, hrm, htop]
        refine ⟨u1, ?_, k2.congr ?_ ?_⟩
        · have : climbMapStep rm top name () u a n = .ok ((), u1, true) := by
            unfold climbMapStep
            rw [hnode]
            simp only [Res.ok_bind, Node.label, hrm, htop, if_true, k1]
            rfl
          rw [this]
          rfl
        · intro m
          simp [hns]
        · intro m z _
          simp only [List.find?_cons, hns]
          by_cases e : m = n
          · simp [e, labelAt, hy, Node.label]
          · simp [e]
      · have hns : hasLabel (stopAt rm top) t a = false := by rw [hasLabel_nt hy]; simp [stopAt, htop]
        obtain ⟨u', k3, k4⟩ := ih u R g h (fun b hb => hl b (List.mem_cons_of_mem _ hb)) hnd.2
        refine ⟨u', ?_, k4.congr ?_ ?_⟩
        · have : climbMapStep rm top name () u a n = .ok ((), u, false) := by
            unfold climbMapStep
            rw [hnode]
            simp only [Res.ok_bind]
            rw [if_neg (show ¬ rm (Node.nt y).label = true from hrm), if_neg (show ¬ top (Node.nt y).label = true from htop)]
            rfl
          rw [this]
          exact k3
        · intro m
          simp only [List.takeWhile_cons, hns, Bool.not_false, if_true, List.mem_cons]
          constructor
          · rintro (h | ⟨rfl | h, h'⟩)
            · exact .inl h
            · obtain ⟨z, hz, hz'⟩ := h'
              rw [hy] at hz
              simp only [Option.some.injEq, Node.nt.injEq] at hz
              subst hz
              exact absurd hz' hrm
            · exact .inr ⟨h, h'⟩
          · rintro (h | ⟨h, h'⟩)
            · exact .inl h
            · exact .inr ⟨.inr h, h'⟩
        · intro m z _
          simp only [List.find?_cons, hns]

end

theorem stop_not_rm {t : Tree} {rm top : Str → Bool} {a : Nat} (h : HasLabel (stopAt rm top) t a) : ¬ HasLabel rm t a := by
  obtain ⟨x, hx, h⟩ := h
  rintro ⟨y, hy, h'⟩
  rw [hx] at hy
  simp only [Option.some.injEq, Node.nt.injEq] at hy
  subst hy
  simp [stopAt, h'] at h

theorem Anc.before {t : Tree} {l : List Nat} {P : Nat → Bool} : ∀ {n : Nat}, t.Anc n l → ∀ {a b : Nat},
    a ∈ l.takeWhile (fun c => !P c) → b ∈ l → P b = true → t.Dom b a := by
  induction l with
  | nil => intro n _ a b ha; simp at ha
  | cons p l ih =>
    intro n h a b ha hb hP
    rw [List.takeWhile_cons] at ha
    cases hp : P p with
    | true => rw [hp] at ha; simp at ha
    | false =>
      rw [hp] at ha
      simp only [Bool.not_false, if_true, List.mem_cons] at ha
      rcases List.mem_cons.1 hb with rfl | hb'
      · rw [hp] at hP; simp at hP
      · rcases ha with rfl | ha
        · exact (h.2.mem hb').to_reflTransGen
        · exact ih h.2 ha hb' hP

theorem Anc.mem_takeWhile {t : Tree} (G : t.graph.OK) (S : t.Shape) {l : List Nat} {P : Nat → Bool} : ∀ {n : Nat}, t.Anc n l →
    ∀ {a : Nat}, a ∈ l → P a = false → (∀ b ∈ l, P b = true → t.Dom b a) → a ∈ l.takeWhile (fun c => !P c) := by
  induction l with
  | nil => intro n _ a ha; simp at ha
  | cons p l ih =>
    intro n h a ha hPa hall
    rw [List.takeWhile_cons]
    cases hp : P p with
    | true =>
      exfalso
      have h1 := hall p (by simp) hp
      have hne : a ≠ p := by rintro rfl; rw [hp] at hPa; simp at hPa
      rcases List.mem_cons.1 ha with e | ha
      · exact hne e
      · exact hne (S.dom_antisymm G (h.2.mem ha).to_reflTransGen h1)
    | false =>
      simp only [Bool.not_false, if_true, List.mem_cons]
      rcases List.mem_cons.1 ha with e | ha
      · exact .inl e
      · exact .inr (ih h.2 ha hPa (fun b hb => hall b (List.mem_cons_of_mem _ hb)))

/-- All terminals. -/
theorem climbMap_visits {t : Tree} (W : t.WF) {rm top : Str → Bool} {name : Str} (hroot : ¬ HasLabel rm t t.root) :
    ∀ (ns : List Nat) (D : List Nat) (u : Tree) (r : Res (Unit × Tree)), (∀ n ∈ ns, t.IsTerm n) → (D ++ ns).Nodup →
    Pruned t u (fun a => ∃ n ∈ D, GoneOn t rm top n a)
      (fun m y => match (if m ∈ D then ((t.ancList m).find? (hasLabel (stopAt rm top) t)).map t.labelAt else none) with
        | some v => withFeature name v y
        | none => y) →
    Visits (climbMapStep rm top name) ns ((), u) r →
    ∃ u', r = .ok ((), u') ∧ Pruned t u' (fun a => ∃ n ∈ D ++ ns, GoneOn t rm top n a)
      (fun m y => match (if m ∈ D ++ ns then ((t.ancList m).find? (hasLabel (stopAt rm top) t)).map t.labelAt else none) with
        | some v => withFeature name v y
        | none => y) := by
  intro ns
  induction ns with
  | nil =>
    intro D u r _ _ h hv
    cases hv
    exact ⟨u, rfl, by simpa using h⟩
  | cons n ns ih =>
    intro D u r hns hnd h hv
    obtain ⟨x, hx⟩ := hns n (by simp)
    have hun := h.term n x hx
    have hnD : n ∉ D := fun hc => (List.nodup_append.1 hnd).2.2 n hc n (by simp) rfl
    have hnR : ∀ m, t.IsTerm m → ¬ ∃ k ∈ D, GoneOn t rm top k m := by
      rintro m ⟨y, hy⟩ ⟨k, _, ⟨z, hz, _⟩, _⟩
      rw [hy] at hz; simp at hz
    -- what is found on the path in the current tree
    have path : ∀ l, u.PathUp n l → ∃ u', visitPath (climbMapStep rm top name) n l ((), u) = .ok ((), u') ∧
        Pruned t u' (fun a => ∃ k ∈ D ++ [n], GoneOn t rm top k a)
          (fun m y => match (if m ∈ D ++ [n] then ((t.ancList m).find? (hasLabel (stopAt rm top) t)).map t.labelAt
              else none) with
            | some v => withFeature name v y
            | none => y) := by
      intro l hl
      have Wu := h.wf
      have hal := (pathUp_iff Wu.shape (n := n) ⟨_, hun⟩).1 hl
      have hat := ancList_anc W.shape (n := n) ⟨_, hx⟩
      -- members of the path
      have hmem : ∀ a, a ∈ l ↔ (a ≠ n ∧ t.Dom a n ∧ ¬ ∃ k ∈ D, GoneOn t rm top k a) := by
        intro a
        rw [hal.mem_iff Wu.shape]
        constructor
        · intro ha
          have hla : u.Live a := by
            obtain ⟨c, hd, hc⟩ := transGen_iff.1 ha
            exact hd.live_left Wu.graph (isChild_live Wu.graph hc).1
          have hR : ¬ ∃ k ∈ D, GoneOn t rm top k a := fun hc => h.gone a hc hla
          refine ⟨by rintro rfl; exact Wu.shape.acyclic Wu.graph a ha, (h.dom a n hR (hnR n ⟨x, hx⟩)).1 ha.to_reflTransGen, hR⟩
        · rintro ⟨h1, h2, h3⟩
          have := (h.dom a n h3 (hnR n ⟨x, hx⟩)).2 h2
          rcases Relation.reflTransGen_iff_eq_or_transGen.1 this with e | h
          · exact absurd e.symm h1
          · exact h
      have hstop : ∀ a, HasLabel (stopAt rm top) t a → ¬ ∃ k ∈ D, GoneOn t rm top k a := by
        rintro a ha ⟨k, _, hk, _⟩
        exact stop_not_rm ha hk
      have hdom : ∀ a ∈ l, ∀ b ∈ l, u.Dom a b ↔ t.Dom a b := by
        intro a ha b hb
        exact h.dom a b ((hmem a).1 ha).2.2 ((hmem b).1 hb).2.2
      obtain ⟨u', k1, k2⟩ := visit_prune (rm := rm) (top := top) (name := name) hx l u _ _ h (by
        intro a ha
        obtain ⟨h1, h2, h3⟩ := (hmem a).1 ha
        refine ⟨h3, isNt_of_above W h1 h2, ?_⟩
        rintro hl rfl
        exact hroot hl) (List.nodup_cons.1 (hal.nodup Wu.graph Wu.shape)).2
      refine ⟨u', k1, k2.congr ?_ ?_⟩
      · intro a
        simp only [List.mem_append, List.mem_singleton]
        constructor
        · rintro ⟨k, hk | rfl, hg⟩
          · exact .inl ⟨k, hk, hg⟩
          · by_cases hD : ∃ k ∈ D, GoneOn t rm top k a
            · exact .inl hD
            · right
              obtain ⟨g1, g2, g3⟩ := hg
              have hne : a ≠ k := by
                rintro rfl
                obtain ⟨y, hy, _⟩ := g1
                rw [hx] at hy; simp at hy
              have hal' := (hmem a).2 ⟨hne, g2, hD⟩
              refine ⟨hal.mem_takeWhile Wu.graph Wu.shape hal' ?_ ?_, g1⟩
              · cases hc : hasLabel (stopAt rm top) t a with
                | false => rfl
                | true => exact absurd g1 (stop_not_rm (hasLabel_iff.1 hc))
              · intro b hb hP
                exact (hdom b hb a hal').2 (g3 b (hasLabel_iff.1 hP) ((hmem b).1 hb).2.1)
        · rintro (⟨k, hk, hg⟩ | ⟨h1, h2⟩)
          · exact ⟨k, .inl hk, hg⟩
          · have hal' := List.takeWhile_subset _ h1
            obtain ⟨m1, m2, m3⟩ := (hmem a).1 hal'
            refine ⟨n, .inr rfl, h2, m2, fun b hb hd => ?_⟩
            have hbn : b ≠ n := by
              rintro rfl
              obtain ⟨y, hy, _⟩ := hb
              rw [hx] at hy; simp at hy
            have hbl := (hmem b).2 ⟨hbn, hd, hstop b hb⟩
            exact (hdom b hbl a hal').1 (hal.before h1 hbl (hasLabel_iff.2 hb))
      · intro m y hy
        have hfind : l.find? (hasLabel (stopAt rm top) t) = (t.ancList n).find? (hasLabel (stopAt rm top) t) := by
          have hany : ∀ a, l.find? (hasLabel (stopAt rm top) t) = some a →
              (t.ancList n).find? (hasLabel (stopAt rm top) t) = some a := by
            intro a ha
            have h1 := List.mem_of_find?_eq_some ha
            have h2 := List.find?_some ha
            obtain ⟨m1, m2, m3⟩ := (hmem a).1 h1
            refine (closest_find W hat).2 ⟨⟨m1, m2, h2⟩, fun b hb hd hP => ?_⟩
            have hbl := (hmem b).2 ⟨hb, hd, hstop b (hasLabel_iff.1 hP)⟩
            exact (hdom b hbl a h1).1 (hal.dom_of_find ha b hbl hP)
          cases hf : l.find? (hasLabel (stopAt rm top) t) with
          | some a => exact (hany a hf).symm
          | none =>
            symm
            rw [List.find?_eq_none]
            intro a ha hP
            have ha' := hat.mem ha
            have hne : a ≠ n := by rintro rfl; exact W.shape.acyclic W.graph a ha'
            have := (hmem a).2 ⟨hne, ha'.to_reflTransGen, hstop a (hasLabel_iff.1 hP)⟩
            exact List.find?_eq_none.1 hf a this hP
        by_cases e : m = n
        · subst e
          simp [hnD, hfind]
        · simp [e]
    have hrest : (D ++ [n] ++ ns).Nodup := by simpa using hnd
    cases hv with
    | gone _ _ _ _ hn _ => exact absurd ⟨_, hun⟩ hn
    | next _ y _ _ l _ hp hv1 hv2 =>
      obtain ⟨u', k1, k2⟩ := path l hp
      rw [k1] at hv1
      simp only [Res.ok.injEq] at hv1
      subst hv1
      obtain ⟨v, k3, k4⟩ := ih (D ++ [n]) u' r (fun m hm => hns m (List.mem_cons_of_mem _ hm)) hrest k2 hv2
      exact ⟨v, k3, by simpa using k4⟩
    | panics _ _ _ l hp hv1 => obtain ⟨u', k1, _⟩ := path l hp; rw [k1] at hv1; cases hv1
    | diverges _ _ _ l hp hv1 => obtain ⟨u', k1, _⟩ := path l hp; rw [k1] at hv1; cases hv1

end Tree
end Lumberjack
