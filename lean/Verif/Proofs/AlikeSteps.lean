import Verif.Proofs.AlikeTree
import Verif.Proofs.Runs
import Verif.Proofs.History
import Verif.Model.Encode

/-!
# The steps of the conversion tool on twins
-/

namespace Lumberjack
namespace Tree

variable {t u t' u' a b : Tree}

/-- Well-formed twins. -/
structure Pair (t u : Tree) : Prop where
  alike : Alike t u
  left : t.WF
  right : u.WF

/-- Results of fallible operations: the same outcome, and twins. -/
def Same (R : Tree → Tree → Prop) {α : Type} (x y : Tree × α) : Prop := R x.1 y.1 ∧ x.2 = y.2

/-- Overwriting a node with one of the same kind and span. -/
theorem Pair.setNode (h : Pair t u) {n : Nat} {nd nd' : Node} (hn : t.graph.node? n = some nd)
    (hk : nd'.isTerminal = nd.isTerminal) (hs : nd'.span = nd.span) : Pair (t.setNode n nd') (u.setNode n nd') := by
  have key : ∀ {t : Tree}, t.WF → t.graph.node? n = some nd → (t.setNode n nd').WF := by
    intro t W hn
    have hE := NodeEdit.set (t := t) hn nd'
    have hE' := hE.congr (g := fun k y => if k = n then (if y = nd then nd' else y) else y) (by
      intro m nd' hm
      by_cases e : m = n
      · subst e; rw [hn] at hm; simp only [Option.some.injEq] at hm; simp [hm]
      · simp [e])
    refine hE'.wf ?_ ?_ W
    · intro n y; simp only; split
      · split
        · rename_i e; rw [e]; exact hk
        · rfl
      · rfl
    · intro n y; split
      · split
        · rename_i e; rw [e]; exact hs
        · rfl
      · rfl
  exact ⟨h.alike.setNode ⟨_, hn⟩ _, key h.left hn, key h.right (h.alike.node? n ▸ hn)⟩

theorem Pair.setFeatures (h : Pair t u) {n : Nat} {nd : Node} (hn : t.graph.node? n = some nd) (g : Option Features) :
    Pair (t.setNode n (nd.setFeatures g)) (u.setNode n (nd.setFeatures g)) :=
  h.setNode hn (by cases nd <;> rfl) (by cases nd <;> rfl)

theorem Pair.insertFeature (h : Pair t u) (n : Nat) (name value : Str) :
    Rel Pair (t.insertFeature n name value) (u.insertFeature n name value) := by
  unfold Tree.insertFeature
  refine h.alike.bind_node n fun nd hn => ?_
  exact .ok (h.setFeatures hn _)

/-! ### Annotations of terminals -/

theorem Pair.annotatePosLoop (h : Pair t u) : ∀ (ns : List Nat) (tags : List Str),
    Rel (Same Pair) (annotatePosLoop ns tags t) (annotatePosLoop ns tags u) := by
  intro ns
  induction ns generalizing t u with
  | nil => intro tags; unfold Tree.annotatePosLoop; exact .ok ⟨h, rfl⟩
  | cons n ns ih =>
    intro tags
    cases tags with
    | nil => unfold Tree.annotatePosLoop; exact .ok ⟨h, rfl⟩
    | cons tag tags =>
      unfold Tree.annotatePosLoop
      refine h.alike.bind_node n fun nd hn => ?_
      cases nd with
      | nt x => exact .panic
      | term x => exact ih (h.setNode (nd' := .term { x with pos := tag }) hn rfl rfl) tags

theorem Pair.annotatePos (h : Pair t u) (tags : List Str) :
    Rel (Same Pair) (t.annotatePos tags) (u.annotatePos tags) := by
  unfold Tree.annotatePos
  rw [h.alike.terminals]
  refine (h.annotatePosLoop _ tags).bind ?_
  rintro ⟨a, r⟩ ⟨b, r'⟩ ⟨h1, h2⟩
  simp only at h1 h2
  subst h2
  cases r with
  | error e => exact .ok ⟨h1, rfl⟩
  | ok l => cases l <;> exact .ok ⟨h1, rfl⟩

/-- Loops over the same nodes that may fail. -/
theorem Pair.forE {σ : Type} (h : Pair t u) {f g : Tree → σ → Res (Tree × Except Err Unit)} (l : List σ)
    (hf : ∀ a b n, Pair a b → Rel (Same Pair) (f a n) (g b n)) :
    Rel (Same Pair) (forE f l t) (forE g l u) := by
  refine (Rel.forE (fun l l' a b => l = l' ∧ Pair a b) Pair (fun _ _ h => h.2) (fun _ _ _ _ h => by rw [h.1]) ?_
    l l t u ⟨rfl, h⟩).mono fun _ _ h => ⟨h.2, h.1⟩
  rintro i is j js a b ⟨hl, hab⟩
  simp only [List.cons.injEq] at hl
  obtain ⟨rfl, rfl⟩ := hl
  exact (hf a b i hab).mono fun _ _ h => ⟨h.2, h.1, fun _ => ⟨rfl, h.1⟩⟩

theorem Pair.annotateParentTag (h : Pair t u) (name : Str) :
    Rel (Same Pair) (t.annotateParentTag name) (u.annotateParentTag name) := by
  unfold Tree.annotateParentTag
  rw [h.alike.terminals]
  refine h.forE _ ?_
  intro a b n hab
  rcases (hab.alike.parent n).cases with ⟨h1, h2⟩ | ⟨p, e, e', h1, h2⟩
  · simp only [h1, h2]
    refine hab.alike.bind_node n fun nd hn => ?_
    exact .ok ⟨hab, rfl⟩
  · simp only [h1, h2]
    refine hab.alike.bind_node p fun nd _ => ?_
    refine (hab.insertFeature n name nd.label).bind ?_
    intro a' b' h'
    exact .ok ⟨h', rfl⟩

theorem Pair.mapClimberPath {σ : Type} (h : Pair t u) {f g : σ → Tree → Nat → Nat → Res (σ × Tree × Bool)} (k : Nat)
    (hf : ∀ s a b p n, Pair a b → Rel (fun x y => x.1 = y.1 ∧ Pair x.2.1 y.2.1 ∧ x.2.2 = y.2.2) (f s a p n) (g s b p n))
    (s : σ) : Rel (fun x y => x.1 = y.1 ∧ Pair x.2 y.2) (mapClimberPath k f s t) (mapClimberPath k g s u) := by
  unfold Tree.mapClimberPath
  rw [h.alike.terminals]
  refine Rel.forM (fun _ (x y : σ × Tree) => x.1 = y.1 ∧ Pair x.2 y.2) ?_ _ _ _ ⟨rfl, h⟩
  rintro i is ⟨s, a⟩ ⟨s', b⟩ ⟨hs, hab⟩
  simp only at hs hab
  subst hs
  refine Rel.loop (R := fun (x y : (σ × Tree) × Option (Nat × Nat)) =>
    (x.1.1 = y.1.1 ∧ Pair x.1.2 y.1.2) ∧ Cur x.2 y.2) ?_ _ _ _ ⟨⟨rfl, hab⟩, hab.alike.parent i⟩
  rintro ⟨⟨s1, a1⟩, c⟩ ⟨⟨s2, b1⟩, c'⟩ ⟨⟨hs, hab⟩, hc⟩
  simp only at hs hab hc
  subst hs
  simp only
  rcases hab.alike.climberNext hc with ⟨_, _, h3, h4⟩ | ⟨x, e, e', _, _, h3, h4⟩
  · rw [h3, h4]
    exact .ok (.inr ⟨rfl, hab⟩)
  · rw [h3, h4]
    simp only
    refine (hf s1 a1 b1 x i hab).bind ?_
    rintro ⟨s3, a3, st⟩ ⟨s4, b4, st'⟩ ⟨k1, k2, k3⟩
    simp only at k1 k2 k3
    subst k1 k3
    simp only
    split
    · exact .ok (.inr ⟨rfl, k2⟩)
    · exact .ok (.inl ⟨⟨rfl, k2⟩, hab.alike.parent x⟩)

theorem Pair.projectIds (h : Pair t u) (name : Str) {f : Tree → Nat → Bool} (hf : ∀ a b n, Alike a b → f a n = f b n) :
    Rel Pair (t.projectIds name f) (u.projectIds name f) := by
  unfold Tree.projectIds
  rw [h.alike.climbFuel]
  refine (h.mapClimberPath _ ?_ []).bind ?_
  · intro keys a b p n hab
    rw [hf a b p hab.alike]
    split
    · refine (hab.insertFeature n name _).bind ?_
      intro a' b' h'
      exact .ok ⟨rfl, h', rfl⟩
    · exact .ok ⟨rfl, hab, rfl⟩
  · rintro ⟨_, a⟩ ⟨_, b⟩ ⟨_, hab⟩
    exact .ok hab

/-! ### Encodings -/

theorem Alike.getCommon (h : Alike t u) (n : Nat) : Rel Eq (t.getCommon n) (u.getCommon n) := by
  unfold Tree.getCommon
  refine h.bind_node n fun nd _ => ?_
  rw [h.climbFuel]
  refine Rel.loop (R := fun x y => Cur x.1 y.1 ∧ x.2 = y.2) ?_ _ _ _ ⟨h.parent n, rfl⟩
  rintro ⟨c, l, k⟩ ⟨c', l', k'⟩ ⟨hc, hl⟩
  simp only [Prod.mk.injEq] at hc hl
  obtain ⟨rfl, rfl⟩ := hl
  unfold commonStep
  simp only
  rcases h.climberNext hc with ⟨_, _, h3, h4⟩ | ⟨x, e, e', _, _, h3, h4⟩
  · rw [h3, h4]
    exact .ok (.inr rfl)
  · rw [h3, h4]
    simp only
    refine h.bind_node x fun nd _ => ?_
    split
    · exact .ok (.inr rfl)
    · split
      · cases nd with
        | term x => exact .ok (.inr rfl)
        | nt x => exact .ok (.inl ⟨h.parent _, rfl⟩)
      · split
        · exact .ok (.inl ⟨h.parent x, rfl⟩)
        · exact .ok (.inl ⟨h.parent x, rfl⟩)

theorem Alike.isProjective (h : Alike t u) : t.isProjective = u.isProjective := by
  unfold Tree.isProjective; rw [h.numDisc]

theorem Pair.annotateAbsolute (h : Pair t u) : Rel (Same Pair) t.annotateAbsolute u.annotateAbsolute := by
  unfold Tree.annotateAbsolute
  rw [h.alike.isProjective, h.alike.terminals, h.alike.sortIndices]
  split
  · exact .ok ⟨h, rfl⟩
  · refine h.forE _ ?_
    intro a b n hab
    unfold annotateAbsStep
    refine (hab.alike.getCommon n).bind ?_
    rintro r _ rfl
    cases r with
    | error e => exact .ok ⟨hab, rfl⟩
    | ok c =>
      simp only
      refine hab.alike.bind_node n fun nd _ => ?_
      refine (hab.insertFeature n _ _).bind ?_
      intro a' b' h'
      exact .ok ⟨h', rfl⟩

theorem Pair.annotateRelative (h : Pair t u) : Rel (Same Pair) t.annotateRelative u.annotateRelative := by
  unfold Tree.annotateRelative
  rw [h.alike.isProjective, h.alike.terminals, h.alike.sortIndices]
  split
  · exact .ok ⟨h, rfl⟩
  · have key := Rel.forE (f := annotateRelStep) (g := annotateRelStep)
      (fun l l' x y => l = l' ∧ Pair x.1 y.1 ∧ x.2 = y.2) (fun x y => Pair x.1 y.1 ∧ x.2 = y.2)
      (fun _ _ h => h.2) (fun _ _ _ _ h => by rw [h.1]) ?_ (u.sortIndices u.terminals) (u.sortIndices u.terminals)
      (t, 0) (u, 0) ⟨rfl, h, rfl⟩
    · refine key.bind ?_
      rintro ⟨⟨a, i⟩, r⟩ ⟨⟨b, j⟩, r'⟩ ⟨h1, h2, _⟩
      exact .ok ⟨h2, h1⟩
    · rintro i is j js ⟨a, k⟩ ⟨b, k'⟩ ⟨hl, hab, hk⟩
      simp only [List.cons.injEq] at hl hab hk
      obtain ⟨rfl, rfl⟩ := hl
      subst hk
      unfold annotateRelStep
      refine (hab.alike.getCommon i).bind ?_
      rintro r _ rfl
      cases r with
      | error e => exact .ok ⟨rfl, ⟨hab, rfl⟩, nofun⟩
      | ok c =>
        cases c with
        | none =>
          simp only
          refine hab.alike.bind_node i fun nd _ => ?_
          refine (hab.insertFeature i _ _).bind ?_
          intro a' b' h'
          exact .ok ⟨rfl, ⟨h', rfl⟩, fun _ => ⟨by trivial, h', rfl⟩⟩
        | some c =>
          simp only
          refine hab.alike.bind_node i fun nd _ => ?_
          refine (hab.insertFeature i _ _).bind ?_
          intro a' b' h'
          exact .ok ⟨rfl, ⟨h', rfl⟩, fun _ => ⟨by trivial, h', rfl⟩⟩

/-! ### Removal of nonterminals -/

theorem removeNonterminal_node {n : Nat} {r : Except Err Node} (h : t.removeNonterminal n = .ok (t', r)) (k : Nat) :
    t'.graph.node? k = none ∨ t'.graph.node? k = t.graph.node? k := by
  have fin : ∀ {s s' : Tree} {r : Except Err Node}, s.finishRemove n = .ok (s', r) →
      s'.graph.node? k = none ∨ s'.graph.node? k = s.graph.node? k := by
    intro s s' r h
    unfold finishRemove at h
    obtain ⟨⟨g, nd⟩, h1, h⟩ := Res.bind_eq_ok.1 h
    rw [Res.ofOption_eq_ok] at h1
    have hg : g.nodes = s.graph.nodes.set n none := by
      unfold Graph.removeNode at h1
      split at h1
      · simp only [Option.some.injEq, Prod.mk.injEq] at h1
        rw [← h1.1]
      · cases h1
    have hs : s'.graph = g := by
      simp only at h
      split at h
      · obtain ⟨k, _, h⟩ := Res.bind_eq_ok.1 h
        simp only [Res.pure_eq, Res.ok.injEq, Prod.mk.injEq] at h
        rw [← h.1]
      · simp only [Res.pure_eq, Res.ok.injEq, Prod.mk.injEq] at h
        rw [← h.1]
    unfold Graph.node?
    rw [hs, hg, List.getElem?_set]
    split
    · left; split <;> rfl
    · right; rfl
  unfold removeNonterminal at h
  obtain ⟨nd, _, h⟩ := Res.bind_eq_ok.1 h
  obtain ⟨_, _, h⟩ := Res.bind_eq_ok.1 h
  split at h
  · obtain ⟨g, h1, h⟩ := Res.bind_eq_ok.1 h
    have hg : g.nodes = t.graph.nodes := by
      refine forM'_partial (fun _ (s : Graph) => s.nodes = t.graph.nodes) ?_ _ _ _ rfl h1
      intro c cs s s' hs hc
      obtain ⟨⟨g', e⟩, h2, hc⟩ := Res.bind_eq_ok.1 hc
      simp only [Res.pure_eq, Res.ok.injEq] at hc
      subst hc
      rw [← hs]
      unfold Graph.addEdge at h2
      obtain ⟨_, _, h2⟩ := Res.bind_eq_ok.1 h2
      split at h2
      · simp only [Res.pure_eq, Res.ok.injEq, Prod.mk.injEq] at h2; rw [← h2.1]
      · simp only [Res.pure_eq, Res.ok.injEq, Prod.mk.injEq] at h2; rw [← h2.1]
    have := fin h
    unfold Graph.node? at this ⊢
    simp only [hg] at this
    exact this
  · split at h
    · rename_i c _ _
      have := fin (s := { t with root := c }) h
      exact this
    · simp only [Res.pure_eq, Res.ok.injEq, Prod.mk.injEq] at h
      rw [← h.1]
      exact .inr rfl

/-- Nonterminals do not become terminals when another nonterminal is removed. -/
theorem removeNode_isTerm {n : Nat} (hn : ¬ t.IsTerm n) {r : Except Err Node} (h : t.removeNode n = .ok (t', r)) {k : Nat}
    (hk : t'.IsTerm k) : t.IsTerm k := by
  obtain ⟨x, hx⟩ := hk
  have h' : t.removeNonterminal n = .ok (t', r) := by
    unfold removeNode at h
    obtain ⟨_, _, h⟩ := Res.bind_eq_ok.1 h
    obtain ⟨nd, h1, h⟩ := Res.bind_eq_ok.1 h
    rw [node_ok] at h1
    cases nd with
    | term x => exact absurd ⟨x, h1⟩ hn
    | nt x => exact h
  rcases removeNonterminal_node h' k with h1 | h1
  · rw [h1] at hx; cases hx
  · exact ⟨x, by rw [← h1]; exact hx⟩

theorem Pair.removeNode (h : Pair t u) {n : Nat} (hn : ¬ t.IsTerm n) :
    Rel (Same Pair) (t.removeNode n) (u.removeNode n) := by
  rintro ⟨t', r⟩ ⟨u', r'⟩ h1 h2
  obtain ⟨k1, k2⟩ := h.alike.removeNode hn _ _ h1 h2
  have hn' : ¬ u.IsTerm n := by
    rintro ⟨x, hx⟩
    exact hn ⟨x, by rw [h.alike.node?]; exact hx⟩
  refine ⟨⟨k1, ?_, ?_⟩, k2⟩
  · exact (op_step h.left (.removeNode n) (t' := t') (v := none)
      (by simp only [Op.run, h1, Res.ok_bind, Res.pure_eq])).2.2 fun hh => absurd hh hn
  · exact (op_step h.right (.removeNode n) (t' := u') (v := none)
      (by simp only [Op.run, h2, Res.ok_bind, Res.pure_eq])).2.2 fun hh => absurd hh hn'

theorem Pair.filterNonterminals (h : Pair t u) {f : Tree → Nat → Bool} (hf : ∀ a b n, Alike a b → f a n = f b n) :
    Rel (Same Pair) (t.filterNonterminals f) (u.filterNonterminals f) := by
  unfold Tree.filterNonterminals
  rw [h.alike.nonterminals, h.alike.root]
  refine (Rel.forE (fun l l' a b => l = l' ∧ Pair a b ∧ ∀ n ∈ l, ¬ a.IsTerm n) Pair (fun _ _ h => h.2.1)
    (fun _ _ _ _ h => by rw [h.1]) ?_ _ _ t u ⟨rfl, h, ?_⟩).mono fun _ _ h => ⟨h.2, h.1⟩
  · rintro i is j js a b ⟨hl, hab, hi⟩
    simp only [List.cons.injEq] at hl
    obtain ⟨rfl, rfl⟩ := hl
    rw [hf a b i hab.alike]
    split
    · have key : Rel (fun x y => (Pair x.1 y.1 ∧ ∀ n ∈ is, ¬ x.1.IsTerm n) ∧ x.2 = y.2) (a.removeNode i) (b.removeNode i) := by
        intro x y hx hy
        obtain ⟨k1, k2⟩ := hab.removeNode (hi i (by simp)) x y hx hy
        exact ⟨⟨k1, fun n hn hh => hi n (by simp [hn]) (removeNode_isTerm (hi i (by simp)) hx hh)⟩, k2⟩
      refine key.bind ?_
      rintro ⟨a', r⟩ ⟨b', r'⟩ ⟨⟨h1, h2⟩, h3⟩
      simp only at h1 h2 h3
      subst h3
      cases r with
      | ok nd => exact .ok ⟨rfl, h1, fun _ => ⟨rfl, h1, h2⟩⟩
      | error e => exact .ok ⟨rfl, h1, nofun⟩
    · exact .ok ⟨rfl, hab, fun _ => ⟨rfl, hab, fun n hn => hi n (by simp [hn])⟩⟩
  · intro n hn
    have := List.mem_of_mem_filter hn
    rw [← h.alike.nonterminals] at this
    unfold Tree.nonterminals at this
    rintro ⟨x, hx⟩
    have h2 := (List.mem_filter.1 this).2
    rw [hx] at h2
    simp [Node.isTerminal] at h2

/-! ### Unary chains -/

theorem parent_not_term (S : t.Shape) {c p e : Nat} (h : t.parent c = some (p, e)) : ¬ t.IsTerm p := by
  exact fun hp => S.term_leaf _ _ hp (parent_isChild h)

end Tree
end Lumberjack
