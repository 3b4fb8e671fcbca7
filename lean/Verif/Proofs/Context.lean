import Verif.Proofs.Forest
import Verif.Proofs.NodeEdit

/-!
# Replacing a subtree
-/

namespace Lumberjack

/-- A forest with a hole in the place of one tree. -/
inductive Ctx where
  | hole (rest : Forest)
  | overLeaf (e : Option Str) (x : Terminal) (C : Ctx)
  | overNode (e : Option Str) (x : NonTerminal) (k : Forest) (C : Ctx)
  | inside (e : Option Str) (x : NonTerminal) (C : Ctx) (rest : Forest)

/-- Fill the hole. -/
def Ctx.plug (g : Forest) : Ctx → Forest
  | hole r => g.append r
  | overLeaf e x C => .leaf e x (C.plug g)
  | overNode e x k C => .node e x k (C.plug g)
  | inside e x C r => .node e x (C.plug g) r

namespace Tree

variable {t t' t'' : Tree}

/-- Outside of the subtree at `c`, the tree `t'` is `t` with `c` replaced by `v`. -/
structure Outside (t t' : Tree) (c v : Nat) : Prop where
  node : ∀ m, t.Live m → ¬ t.Dom c m → t'.graph.node? m = t.graph.node? m
  label : ∀ m, t.Live m → ¬ t.Dom c m → t'.inLabel m = t.inLabel m
  child : ∀ m b, t.Live m → ¬ t.Dom c m →
    (t'.IsChild m b ↔ (t.IsChild m b ∧ b ≠ c) ∨ (b = v ∧ t.IsChild m c))
  start : t'.startOf v = t.startOf c
  dom : ∀ m, t.Live m → ¬ t.Dom c m → ¬ t'.Dom v m
  root : t'.root = if t.root = c then v else t.root

theorem startOf_congr {m : Nat} (h : t'.graph.node? m = t.graph.node? m) : t'.startOf m = t.startOf m := by
  unfold startOf; rw [h]

theorem Outside.trans (G : t.graph.OK) (S : t.Shape) {c v w : Nat} (h : Outside t t' c v) (h' : Outside t' t'' v w) :
    Outside t t'' c w := by
  have hl : ∀ m, t.Live m → ¬ t.Dom c m → t'.Live m := by
    rintro m ⟨x, hx⟩ hm
    exact ⟨x, by show t'.graph.node? m = _; rw [h.node m ⟨x, hx⟩ hm]; exact hx⟩
  refine ⟨?_, ?_, ?_, h'.start.trans h.start, ?_, ?_⟩
  · intro m hm hc
    rw [h'.node m (hl m hm hc) (h.dom m hm hc), h.node m hm hc]
  · intro m hm hc
    rw [h'.label m (hl m hm hc) (h.dom m hm hc), h.label m hm hc]
  · intro m b hm hc
    rw [h'.child m b (hl m hm hc) (h.dom m hm hc), h.child m b hm hc, h.child m v hm hc]
    constructor
    · rintro (⟨(⟨h1, h2⟩ | ⟨h1, h2⟩), h3⟩ | ⟨rfl, (⟨h1, h2⟩ | ⟨_, h2⟩)⟩)
      · exact .inl ⟨h1, h2⟩
      · exact absurd h1 h3
      · exfalso
        have hv : ¬ t.Dom c v := by
          intro hd
          rcases hd.cases_parent with e | ⟨p, hp, hp'⟩
          · exact h2 e
          · rw [S.isChild_unique hp' h1] at hp
            exact hc hp
        exact h.dom v (isChild_live G h1).2 hv Dom.refl
      · exact .inr ⟨rfl, h2⟩
    · rintro (⟨h1, h2⟩ | ⟨rfl, h2⟩)
      · refine .inl ⟨.inl ⟨h1, h2⟩, ?_⟩
        rintro rfl
        have hv : ¬ t.Dom c b := by
          intro hd
          rcases hd.cases_parent with e | ⟨p, hp, hp'⟩
          · exact h2 e
          · rw [S.isChild_unique hp' h1] at hp
            exact hc hp
        exact h.dom b (isChild_live G h1).2 hv Dom.refl
      · exact .inr ⟨rfl, .inr ⟨rfl, h2⟩⟩
  · intro m hm hc
    exact h'.dom m (hl m hm hc) (h.dom m hm hc)
  · rw [h'.root, h.root]
    by_cases e : t.root = c
    · simp [e]
    · have hd : ¬ t.Dom c t.root := by
        intro hd
        rcases hd.cases_parent with e' | ⟨p, _, hp'⟩
        · exact e e'
        · exact S.root_top p hp'
      have := h.dom t.root S.root_live hd
      rw [if_neg e, if_neg e, if_neg]
      rintro rfl
      exact this Dom.refl

theorem Rep.live {f : Forest} : ∀ {ids : List Nat}, t.Rep ids f → ∀ n ∈ ids, t.Live n := by
  induction f with
  | nil => intro ids h n hn; rw [show ids = [] from h] at hn; simp at hn
  | leaf e x r ih =>
    rintro ids ⟨n, ns, rfl, h4, h5, h6⟩ m hm
    rcases List.mem_cons.1 hm with rfl | hm
    · exact ⟨_, h4⟩
    · exact ih h6 m hm
  | node e x k r _ ih =>
    rintro ids ⟨n, ns, ks, rfl, h4, h5, h6, h7, h8⟩ m hm
    rcases List.mem_cons.1 hm with rfl | hm
    · exact ⟨_, h4⟩
    · exact ih h8 m hm

/-- The forest depends on the nodes dominated only. -/
theorem Rep.congr {f : Forest} : ∀ {ids : List Nat}, t.Rep ids f →
    (∀ a ∈ ids, ∀ m, t.Dom a m → t'.graph.node? m = t.graph.node? m ∧ t'.inLabel m = t.inLabel m ∧
      ∀ b, t'.IsChild m b ↔ t.IsChild m b) → t'.Rep ids f := by
  induction f with
  | nil => intro ids h _; exact h
  | leaf e x r ih =>
    rintro ids ⟨n, ns, rfl, h4, h5, h6⟩ hs
    obtain ⟨g1, g2, _⟩ := hs n (by simp) n Dom.refl
    exact ⟨n, ns, rfl, g1.trans h4, g2.trans h5, ih h6 (fun a ha => hs a (by simp [ha]))⟩
  | node e x k r ihk ih =>
    rintro ids ⟨n, ns, ks, rfl, h4, h5, h6, h7, h8⟩ hs
    obtain ⟨g1, g2, g3⟩ := hs n (by simp) n Dom.refl
    refine ⟨n, ns, ks, rfl, g1.trans h4, g2.trans h5, ⟨fun c => (h6.1 c).trans (g3 c).symm, ?_⟩,
      ihk h7 ?_, ih h8 (fun a ha => hs a (by simp [ha]))⟩
    · refine h6.2.imp_of_mem fun ha hb hab => ?_
      rw [startOf_congr (hs n (by simp) _ (.single ((h6.1 _).1 ha))).1,
        startOf_congr (hs n (by simp) _ (.single ((h6.1 _).1 hb))).1]
      exact hab
    · intro a ha m hm
      exact hs n (by simp) m (.head ((h6.1 a).1 ha) hm)

/-- No node is dominated by two of the nodes. -/
def Apart (t : Tree) (ids : List Nat) : Prop := ids.Pairwise (fun a b => ∀ m, t.Dom a m → ¬ t.Dom b m)

theorem Kids.apart (G : t.graph.OK) (S : t.Shape) {n : Nat} {ks : List Nat} (h : t.Kids n ks) : t.Apart ks := by
  refine h.2.imp_of_mem fun {a b} ha hb hab m h1 h2 => ?_
  have hne : a ≠ b := by rintro rfl; omega
  have key : ∀ {a b}, t.IsChild n a → t.IsChild n b → a ≠ b → ¬ t.Dom a b := by
    intro a b ha hb hne hd
    rcases hd.cases_parent with e | ⟨p, hp, hp'⟩
    · exact hne e.symm
    · rw [S.isChild_unique hp' hb] at hp
      exact S.acyclic G a (transGen_iff.2 ⟨n, hp, ha⟩)
  rcases S.dom_linear h1 h2 with h3 | h3
  · exact key ((h.1 a).1 ha) ((h.1 b).1 hb) hne h3
  · exact key ((h.1 b).1 hb) ((h.1 a).1 ha) hne.symm h3

theorem Outside.rep (G : t.graph.OK) (S : t.Shape) {c v : Nat} (h : Outside t t' c v) {ids : List Nat}
    {f : Forest} (hf : t.Rep ids f) (hd : ∀ a ∈ ids, ¬ t.Dom a c ∧ ¬ t.Dom c a) : t'.Rep ids f := by
  refine hf.congr fun a ha m hm => ?_
  have hl : t.Live m := Dom.live G hm (hf.live a ha)
  have hcm : ¬ t.Dom c m := by
    intro hc
    rcases S.dom_linear hm hc with h1 | h1
    · exact (hd a ha).1 h1
    · exact (hd a ha).2 h1
  refine ⟨h.node m hl hcm, h.label m hl hcm, fun b => ?_⟩
  rw [h.child m b hl hcm]
  constructor
  · rintro (⟨h1, _⟩ | ⟨_, h1⟩)
    · exact h1
    · exact absurd (hm.tail h1) (hd a ha).1
  · intro h1
    refine .inl ⟨h1, ?_⟩
    rintro rfl
    exact (hd a ha).1 (hm.tail h1)

/-- The subtree at `c` can be replaced. -/
theorem Rep.locate (G : t.graph.OK) (S : t.Shape) {c : Nat} {f : Forest} : ∀ {ids : List Nat},
    t.Rep ids f → (∃ a ∈ ids, t.Dom a c) → t.Apart ids →
    ∃ (C : Ctx) (g : Forest), f = C.plug g ∧ t.Rep [c] g ∧ ∀ t' v g', Outside t t' c v → t'.Rep [v] g' →
      t'.Rep (ids.map (fun m => if m = c then v else m)) (C.plug g') := by
  have hid : ∀ {ns : List Nat} {v}, (∀ a ∈ ns, ¬ t.Dom a c) →
      ns.map (fun m => if m = c then v else m) = ns := by
    intro ns v h
    conv_rhs => rw [← List.map_id ns]
    apply List.map_congr_left
    intro a ha
    rw [if_neg]
    · rfl
    · rintro rfl; exact h a ha Dom.refl
  induction f with
  | nil => rintro ids h ⟨a, ha, _⟩; rw [show ids = [] from h] at ha; simp at ha
  | leaf e x r ih =>
    rintro ids ⟨n, ns, rfl, h4, h5, h6⟩ ha hap
    obtain ⟨hap1, hap2⟩ := List.pairwise_cons.1 hap
    by_cases hn : n = c
    · subst hn
      refine ⟨.hole r, .leaf e x .nil, rfl, ⟨n, [], rfl, h4, h5, rfl⟩, fun t' v g' ho hg => ?_⟩
      have h1 : ∀ a ∈ ns, ¬ t.Dom a n := fun a ha hd => hap1 a ha n Dom.refl hd
      rw [List.map_cons, if_pos rfl, hid h1]
      exact hg.append (ho.rep G S h6 (fun a ha => ⟨h1 a ha, fun h => hap1 a ha a h Dom.refl⟩))
    · have ha' : ∃ a ∈ ns, t.Dom a c := by
        obtain ⟨a, ha, hd⟩ := ha
        rcases List.mem_cons.1 ha with rfl | ha
        · exact absurd (S.dom_term ⟨x, h4⟩ hd).symm hn
        · exact ⟨a, ha, hd⟩
      obtain ⟨C, g, k1, k2, k3⟩ := ih h6 ha' hap2
      refine ⟨.overLeaf e x C, g, by rw [k1]; rfl, k2, fun t' v g' ho hg => ?_⟩
      obtain ⟨a, ha, hd⟩ := ha'
      have hcn : ¬ t.Dom c n := fun h => hap1 a ha n Dom.refl (hd.trans h)
      rw [List.map_cons, if_neg hn]
      exact ⟨n, _, rfl, (ho.node n ⟨_, h4⟩ hcn).trans h4, (ho.label n ⟨_, h4⟩ hcn).trans h5, k3 t' v g' ho hg⟩
  | node e x k r ihk ih =>
    rintro ids ⟨n, ns, ks, rfl, h4, h5, h6, h7, h8⟩ ha hap
    obtain ⟨hap1, hap2⟩ := List.pairwise_cons.1 hap
    by_cases hn : n = c
    · subst hn
      refine ⟨.hole r, .node e x k .nil, rfl, ⟨n, [], ks, rfl, h4, h5, h6, h7, rfl⟩, fun t' v g' ho hg => ?_⟩
      have h1 : ∀ a ∈ ns, ¬ t.Dom a n := fun a ha hd => hap1 a ha n Dom.refl hd
      rw [List.map_cons, if_pos rfl, hid h1]
      exact hg.append (ho.rep G S h8 (fun a ha => ⟨h1 a ha, fun h => hap1 a ha a h Dom.refl⟩))
    · by_cases hnc : t.Dom n c
      · have hk : ∃ a ∈ ks, t.Dom a c := by
          rcases hnc.cases_child with h | ⟨a, h1, h2⟩
          · exact absurd h hn
          · exact ⟨a, (h6.1 a).2 h1, h2⟩
        obtain ⟨C, g, k1, k2, k3⟩ := ihk h7 hk (h6.apart G S)
        refine ⟨.inside e x C r, g, by rw [k1]; rfl, k2, fun t' v g' ho hg => ?_⟩
        have hcn : ¬ t.Dom c n := fun h => hn (S.dom_antisymm G hnc h)
        have h1 : ∀ a ∈ ns, ¬ t.Dom a c := fun a ha hd => hap1 a ha c hnc hd
        rw [List.map_cons, if_neg hn, hid h1]
        refine ⟨n, ns, _, rfl, (ho.node n ⟨_, h4⟩ hcn).trans h4, (ho.label n ⟨_, h4⟩ hcn).trans h5, ⟨?_, ?_⟩,
          k3 t' v g' ho hg, ho.rep G S h8 (fun a ha => ⟨h1 a ha, fun h => hap1 a ha a (hnc.trans h) Dom.refl⟩)⟩
        · intro b
          rw [ho.child n b ⟨_, h4⟩ hcn, List.mem_map]
          constructor
          · rintro ⟨a, ha, rfl⟩
            by_cases e : a = c
            · exact .inr ⟨by simp [e], e ▸ (h6.1 a).1 ha⟩
            · simp only [if_neg e]; exact .inl ⟨(h6.1 a).1 ha, e⟩
          · rintro (⟨h1, h2⟩ | ⟨rfl, h1⟩)
            · exact ⟨b, (h6.1 b).2 h1, if_neg h2⟩
            · exact ⟨c, (h6.1 c).2 h1, if_pos rfl⟩
        · have hst : ∀ a ∈ ks, t'.startOf (if a = c then v else a) = t.startOf a := by
            intro a ha
            by_cases e : a = c
            · rw [if_pos e, e]; exact ho.start
            · rw [if_neg e]
              have hch := (h6.1 a).1 ha
              refine startOf_congr (ho.node a (isChild_live G hch).2 fun hd => ?_)
              rcases hd.cases_parent with e' | ⟨p, hp, hp'⟩
              · exact e e'
              · rw [S.isChild_unique hp' hch] at hp
                exact hcn hp
          rw [List.pairwise_map]
          refine h6.2.imp_of_mem fun ha hb hab => ?_
          rw [hst _ ha, hst _ hb]; exact hab
      · have ha' : ∃ a ∈ ns, t.Dom a c := by
          obtain ⟨a, ha, hd⟩ := ha
          rcases List.mem_cons.1 ha with rfl | ha
          · exact absurd hd hnc
          · exact ⟨a, ha, hd⟩
        obtain ⟨C, g, k1, k2, k3⟩ := ih h8 ha' hap2
        refine ⟨.overNode e x k C, g, by rw [k1]; rfl, k2, fun t' v g' ho hg => ?_⟩
        obtain ⟨a, ha, hd⟩ := ha'
        have hcn : ¬ t.Dom c n := fun h => hap1 a ha n Dom.refl (hd.trans h)
        have hone : t.Rep [n] (.node e x k .nil) := ⟨n, [], ks, rfl, h4, h5, h6, h7, rfl⟩
        have := ho.rep G S hone (by simpa using ⟨hnc, hcn⟩)
        obtain ⟨n', ns', ks', q1, q2, q3, q4, q5, _⟩ := this
        simp only [List.cons.injEq] at q1
        obtain ⟨rfl, rfl⟩ := q1
        rw [List.map_cons, if_neg hn]
        exact ⟨n, _, ks', rfl, q2, q3, q4, q5, k3 t' v g' ho hg⟩

/-- The same for the whole tree. -/
theorem Is.locate (G : t.graph.OK) (S : t.Shape) {c : Nat} (hc : t.Live c) {f : Forest} (h : t.Is f) :
    ∃ (C : Ctx) (g : Forest), f = C.plug g ∧ t.Rep [c] g ∧ ∀ t' v g', Outside t t' c v → t'.Rep [v] g' →
      t'.Is (C.plug g') := by
  obtain ⟨C, g, h1, h2, h3⟩ := Rep.locate G S h ⟨t.root, by simp, S.reach c hc⟩ (List.pairwise_singleton _ _)
  refine ⟨C, g, h1, h2, fun t' v g' ho hg => ?_⟩
  have := h3 t' v g' ho hg
  unfold Is
  rw [ho.root]
  simpa using this

end Tree
end Lumberjack
