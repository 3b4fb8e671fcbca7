import Verif.Proofs.Chains
import Verif.Proofs.Features

/-!
# Restoring unary chains
-/

namespace Lumberjack

namespace Forest

theorem norm_append (f g : Forest) : (f.append g).norm = f.norm.append g.norm := by
  induction f with
  | nil => rfl
  | leaf e x r ih => simp [append, norm, ih]
  | node e x k r _ ih => simp [append, norm, ih]

theorem wrap_append_labels (s : Span) (ls : List Str) (l : Str) (g : Forest) :
    wrap s (ls ++ [l]) g = node none (NonTerminal.new l s) (wrap s ls g) nil := by
  induction ls generalizing g with
  | nil => rfl
  | cons a ls ih => simp [wrap, ih]

theorem restore_append (delim : Str) (f g : Forest) :
    (f.append g).restore delim = (f.restore delim).append (g.restore delim) := by
  induction f with
  | nil => rfl
  | leaf e x r ih => simp [append, restore, ih, append_assoc]
  | node e x k r _ ih => simp [append, restore, ih, append_assoc]

/-- Equal up to restoring. -/
def REq (delim : Str) (f g : Forest) : Prop := (f.restore delim).norm = (g.restore delim).norm

theorem norm_wrap (s : Span) (ls : List Str) (g g' : Forest) (h : g.norm = g'.norm) :
    (wrap s ls g).norm = (wrap s ls g').norm := by
  induction ls generalizing g g' with
  | nil => exact h
  | cons a ls ih => exact ih _ _ (by simp [norm, h])

theorem REq.plug {delim : Str} {g g' : Forest} (h : REq delim g g') (C : Ctx) : REq delim (C.plug g) (C.plug g') := by
  unfold REq at h ⊢
  induction C with
  | hole r => rw [Ctx.plug, Ctx.plug, restore_append, restore_append, norm_append, norm_append, h]
  | overLeaf e x C ih => simp only [Ctx.plug, restore, norm_append, ih]
  | overNode e x k C ih => simp only [Ctx.plug, restore, norm_append, ih]
  | inside e x C r ih =>
    simp only [Ctx.plug, restore, norm_append]
    congr 1
    exact norm_wrap _ _ _ _ (by simp only [norm, ih])

theorem restore_wrap (delim : Str) (s : Span) (ls : List Str) (g : Forest) :
    (wrap s ls g).restore delim = wrap s ls (g.restore delim) := by
  induction ls generalizing g with
  | nil => rfl
  | cons a ls ih =>
    rw [wrap, ih, wrap]
    rfl

/-- The chain feature is absent. -/
def ChainFree (fs : Option Features) : Prop := (fs.getD Features.empty).getVal chainKey = none

theorem remove_absent {k : Str} {l : List (Str × Option Str)} (h : Features.lookupEntry k l = none) :
    Features.removeEntry k l = l := by
  induction l with
  | nil => rfl
  | cons e l ih =>
    simp only [Features.lookupEntry] at h
    simp only [Features.removeEntry]
    split at h
    · simp at h
    · rename_i hne; rw [if_neg hne, ih h]

theorem ChainFree.unchain {fs : Option Features} (h : ChainFree fs) : Forest.unchain fs = fs := by
  cases fs with
  | none => rfl
  | some f =>
    have : Features.removeEntry chainKey f.entries = f.entries := remove_absent h
    simp [Forest.unchain, Features.remove, this]

theorem ChainFree.chainOf {delim : Str} {fs : Option Features} (h : ChainFree fs) : chainOf delim fs = [] := by
  unfold Forest.chainOf; rw [h]

/-- All nodes of a forest satisfy a property. -/
def All (P : Node → Prop) : Forest → Prop
  | nil => True
  | leaf _ x r => P (.term x) ∧ r.All P
  | node _ x k r => P (.nt x) ∧ k.All P ∧ r.All P

/-- All nodes of a forest satisfy a property of features. -/
def AllFeats (P : Option Features → Prop) (f : Forest) : Prop := f.All (fun nd => P nd.features)

theorem restore_chainFree {delim : Str} {f : Forest} (h : f.AllFeats ChainFree) : f.restore delim = f := by
  induction f with
  | nil => rfl
  | leaf e x r ih =>
    obtain ⟨h1, h2⟩ := h
    have h1 : ChainFree x.features := h1
    rw [restore, h1.chainOf, h1.unchain, ih h2]; rfl
  | node e x k r ihk ih =>
    obtain ⟨h1, h2, h3⟩ := h
    have h1 : ChainFree x.features := h1
    rw [restore, h1.chainOf, h1.unchain, ihk h2, ih h3]; rfl

end Forest

namespace Tree

open Relation

variable {t t' : Tree}

theorem Rep.all {P : Node → Prop} {f : Forest} : ∀ {ids : List Nat}, t.Rep ids f →
    (∀ n nd, t.graph.node? n = some nd → P nd) → f.All P := by
  induction f with
  | nil => intro ids _ _; trivial
  | leaf e x r ih => rintro ids ⟨n, ns, rfl, h4, h5, h6⟩ hP; exact ⟨hP n _ h4, ih h6 hP⟩
  | node e x k r ihk ih =>
    rintro ids ⟨n, ns, ks, rfl, h4, h5, h6, h7, h8⟩ hP
    exact ⟨hP n _ h4, ihk h7 hP, ih h8 hP⟩

theorem Rep.allFeats {P : Option Features → Prop} {f : Forest} {ids : List Nat} (h : t.Rep ids f)
    (hP : ∀ n nd, t.graph.node? n = some nd → P nd.features) : f.AllFeats P := h.all hP

theorem Rep.all_conv (S : t.Shape) {P : Node → Prop} {f : Forest} : ∀ {ids : List Nat}, t.Rep ids f → f.All P →
    ∀ a ∈ ids, ∀ m nd, t.Dom a m → t.graph.node? m = some nd → P nd := by
  induction f with
  | nil => intro ids h _ a ha; rw [show ids = [] from h] at ha; simp at ha
  | leaf e x r ih =>
    rintro ids ⟨n, ns, rfl, h4, h5, h6⟩ ⟨g1, g2⟩ a ha m nd hd hm
    rcases List.mem_cons.1 ha with rfl | ha
    · have := S.dom_term ⟨x, h4⟩ hd
      subst this
      rw [h4] at hm; simp only [Option.some.injEq] at hm; subst hm; exact g1
    · exact ih h6 g2 a ha m nd hd hm
  | node e x k r ihk ih =>
    rintro ids ⟨n, ns, ks, rfl, h4, h5, h6, h7, h8⟩ ⟨g1, g2, g3⟩ a ha m nd hd hm
    rcases List.mem_cons.1 ha with rfl | ha
    · rcases ReflTransGen.cases_head hd with rfl | ⟨b, hb, hd⟩
      · rw [h4] at hm; simp only [Option.some.injEq] at hm; subst hm; exact g1
      · exact ihk h7 g2 b ((h6.1 b).2 hb) m nd hd hm
    · exact ih h8 g3 a ha m nd hd hm

theorem Is.all_conv (S : t.Shape) {P : Node → Prop} {f : Forest} (h : t.Is f) (hf : f.All P) {m : Nat} {nd : Node}
    (hm : t.graph.node? m = some nd) : P nd :=
  Rep.all_conv S h hf t.root (by simp) m nd (S.reach m ⟨_, hm⟩) hm

/-- Changing one node in place, as replacing a subtree. -/
theorem outside_edit {n : Nat} {nd nd' : Node} (hn : t.graph.node? n = some nd) (hs : nd'.span = nd.span) :
    Outside t (t.setNode n nd') n n := by
  have E := NodeEdit.set (t := t) hn nd'
  have hne : ∀ m, ¬ t.Dom n m → m ≠ n := by rintro m hm rfl; exact hm Dom.refl
  refine ⟨?_, fun m _ _ => E.inLabel m, ?_, ?_, ?_, ?_⟩
  · intro m _ hm
    rw [E.node]; simp [hne m hm]
  · intro m b _ hm
    rw [E.isChild]
    constructor
    · intro h
      by_cases e : b = n
      · exact .inr ⟨e, e ▸ h⟩
      · exact .inl ⟨h, e⟩
    · rintro (⟨h, _⟩ | ⟨rfl, h⟩) <;> exact h
  · rw [startOf_of_node? hn, startOf_of_node? (nd := nd') (by rw [E.node, hn]; simp), hs]
  · intro m _ hm
    rw [E.dom]; exact hm
  · show t.root = _
    split
    · rename_i e; exact e
    · rfl

/-- Inserting a unary node, as replacing a subtree. -/
theorem insertUnaryAbove_outside (C : t.Core) {c : Nat} {nd : Node} (hc : t.graph.node? c = some nd)
    (label : Str) :
    ∃ t' ins, t.insertUnaryAbove c label = .ok (t', ins) ∧ t'.Core ∧ Outside t t' c ins ∧
      t.graph.node? ins = none ∧ t'.graph.node? ins = some (.nt (NonTerminal.new label nd.span)) ∧
      (∀ m, m ≠ ins → t'.graph.node? m = t.graph.node? m) ∧
      t'.numDisc = t.numDisc ∧ t'.nTerminals = t.nTerminals ∧
      ∀ g, t.Rep [c] g → t'.Rep [ins] (.node none (NonTerminal.new label nd.span) g .nil) := by
  obtain ⟨t', ins, h1, C', h3, h4, h5, h6, h7, h8, h9, h10⟩ := insertUnaryAbove_spec C hc label
  have S := C.shape
  have G := C.graph
  have hcins : c ≠ ins := by rintro rfl; rw [h3.dead] at hc; simp at hc
  have hlive : ∀ m, t.Live m → m ≠ ins := by
    rintro m ⟨x, hx⟩ rfl; rw [h3.dead] at hx; simp at hx
  have hnode : ∀ m, m ≠ ins → t'.graph.node? m = t.graph.node? m := fun m hm => (h3.node m hm).symm
  have hself : ¬ t'.IsChild ins ins := C'.shape.not_isChild_self C'.graph ins
  have hdom : ∀ a b, a ≠ ins → b ≠ ins → (t.Dom a b ↔ t'.Dom a b) := fun a b ha hb =>
    h3.splice.dom_iff hself ha hb
  have hlab : ∀ m, t.Live m → m ≠ c → t'.inLabel m = t.inLabel m := by
    intro m hm hmc
    refine inLabel_congr S C'.shape ?_ ?_
    · rintro r hr _ rfl
      exact ⟨r, h9 r hr (.inr hmc), rfl, rfl⟩
    · intro p hp
      rcases (h7 p m).1 hp with ⟨h, _⟩ | ⟨_, h⟩ | ⟨_, h⟩
      · exact ⟨p, h⟩
      · exact absurd h (hlive m hm)
      · exact absurd h hmc
  have hlabc : t'.inLabel c = t.inLabel c := by
    have hch : t'.IsChild ins c := (h7 ins c).2 (.inr (.inr ⟨rfl, rfl⟩))
    obtain ⟨r, hr, hrs, hrt, hw⟩ := hch
    have hl := C'.shape.edgeLabel_of_edge hr hw
    rw [hrt] at hl
    unfold inLabel
    rw [hl]
    rcases h10 r hr with h | ⟨_, h, _⟩ | ⟨_, _, _, ⟨s, hs, hst, hsw⟩ | ⟨h, hw'⟩⟩
    · exact absurd hrs (hlive r.src (G.ends r h).1)
    · exact absurd (hrt.symm.trans h) hcins
    · have := S.edgeLabel_of_edge hs (by rw [hsw]; exact hw)
      rw [hst, hsw] at this
      rw [this]
    · rw [edgeLabel_none h, hw']; rfl
  refine ⟨t', ins, h1, C', ⟨fun m hm _ => hnode m (hlive m hm), ?_, ?_, ?_, ?_, ?_⟩, h3.dead, h4, hnode, h5, h6, ?_⟩
  · intro m hm hd
    exact hlab m hm (by rintro rfl; exact hd Dom.refl)
  · intro m b hm hd
    rw [h7]
    constructor
    · rintro (h | ⟨h, rfl⟩ | ⟨h, _⟩)
      · exact .inl h
      · exact .inr ⟨rfl, h⟩
      · exact absurd h (hlive m hm)
    · rintro (h | ⟨rfl, h⟩)
      · exact .inl h
      · exact .inr (.inl ⟨h, rfl⟩)
  · rw [startOf_of_node? h4, startOf_of_node? hc]; rfl
  · intro m hm hd hd'
    rcases hd'.cases_child with e | ⟨b, hb, hb'⟩
    · exact hlive m hm e.symm
    · rcases (h7 ins b).1 hb with ⟨h, _⟩ | ⟨h, _⟩ | ⟨_, rfl⟩
      · exact hlive ins (isChild_live G h).1 rfl
      · exact hlive ins (isChild_live G h).1 rfl
      · exact hd ((hdom b m hcins (hlive m hm)).2 hb')
  · rw [h8]
    by_cases e : c = t.root
    · simp [e]
    · rw [if_neg e, if_neg (Ne.symm e)]
  · intro g hg
    refine ⟨ins, [], [c], rfl, h4, ?_, ⟨?_, List.pairwise_singleton _ _⟩, hg.congr ?_, rfl⟩
    · unfold inLabel
      by_cases hp : ∃ p, t.IsChild p c
      · obtain ⟨p, hp⟩ := hp
        have hch : t'.IsChild p ins := (h7 p ins).2 (.inr (.inl ⟨hp, rfl⟩))
        obtain ⟨r, hr, hrs, hrt, hw⟩ := hch
        have hl := C'.shape.edgeLabel_of_edge hr hw
        rw [hrt] at hl
        rw [hl]
        rcases h10 r hr with h | ⟨_, _, h⟩ | ⟨_, h, _⟩
        · exact absurd hrt (hlive r.tgt (G.ends r h).2)
        · rw [h]; rfl
        · exact absurd (hrt.symm.trans h) hcins.symm
      · rw [edgeLabel_none]
        · rfl
        · intro p hp'
          rcases (h7 p ins).1 hp' with ⟨h, _⟩ | ⟨h, _⟩ | ⟨_, h⟩
          · exact hlive ins (isChild_live G h).2 rfl
          · exact hp ⟨p, h⟩
          · exact hcins h.symm
    · intro b
      rw [h7, List.mem_singleton]
      constructor
      · rintro rfl; exact .inr (.inr ⟨rfl, rfl⟩)
      · rintro (⟨h, _⟩ | ⟨h, _⟩ | ⟨_, h⟩)
        · exact absurd rfl (hlive ins (isChild_live G h).1)
        · exact absurd rfl (hlive ins (isChild_live G h).1)
        · exact h
    · intro a ha m hm
      obtain rfl : a = c := by simpa using ha
      have hml : t.Live m := Dom.live G hm ⟨_, hc⟩
      refine ⟨hnode m (hlive m hml), ?_, ?_⟩
      · by_cases e : m = a
        · rw [e]; exact hlabc
        · exact hlab m hml e
      · intro b
        rw [h7]
        constructor
        · rintro (⟨h, _⟩ | ⟨h, _⟩ | ⟨h, _⟩)
          · exact h
          · exact absurd (transGen_iff.2 ⟨m, hm, h⟩) (S.acyclic G a)
          · exact absurd h (hlive m hml)
        · intro h
          refine .inl ⟨h, ?_⟩
          rintro rfl
          exact S.acyclic G b (transGen_iff.2 ⟨m, hm, h⟩)

/-- Building a tower above `c`. -/
theorem wrapLoop_spec (ls : List Str) : ∀ {t : Tree} {c : Nat} {nd : Node} {g : Forest}, t.Core →
    t.graph.node? c = some nd → t.Rep [c] g →
    ∃ t' top, forM' (fun (s : Tree × Nat) label => s.1.insertUnaryAbove s.2 label) ls (t, c) = .ok (t', top) ∧
      t'.Core ∧ Outside t t' c top ∧ t'.Rep [top] (Forest.wrap nd.span ls g) ∧
      (∀ m, t.Live m → t'.graph.node? m = t.graph.node? m) ∧
      (∀ m nd', t'.graph.node? m = some nd' → t.Live m ∨ nd'.features = none) ∧
      t'.numDisc = t.numDisc ∧ t'.nTerminals = t.nTerminals := by
  induction ls with
  | nil =>
    intro t c nd g C hc hg
    refine ⟨t, c, rfl, C, ?_, hg, fun _ _ => rfl, fun m nd' h => .inl ⟨_, h⟩, rfl, rfl⟩
    refine ⟨fun _ _ _ => rfl, fun _ _ _ => rfl, ?_, rfl, fun _ _ h => h, ?_⟩
    · intro m b _ _
      constructor
      · intro h
        by_cases e : b = c
        · exact .inr ⟨e, e ▸ h⟩
        · exact .inl ⟨h, e⟩
      · rintro (⟨h, _⟩ | ⟨rfl, h⟩) <;> exact h
    · split
      · rename_i e; exact e
      · rfl
  | cons l ls ih =>
    intro t c nd g C hc hg
    obtain ⟨t1, ins, h1, C1, O1, h3, h4, h5, h6, h7, h8⟩ := insertUnaryAbove_outside C hc l
    obtain ⟨t2, top, k1, C2, O2, k4, k5, k6, k7, k8⟩ := ih C1 h4 (h8 g hg)
    refine ⟨t2, top, ?_, C2, O1.trans C.graph C.shape O2, k4, ?_, ?_, k7.trans h6, k8.trans h7⟩
    · rw [forM'_cons]
      simp only [h1, Res.ok_bind]
      exact k1
    · rintro m ⟨x, hx⟩
      have hm : m ≠ ins := by rintro rfl; rw [h3] at hx; simp at hx
      rw [k5 m ⟨x, (h5 m hm).trans hx⟩, h5 m hm]
    · intro m nd' hnd'
      rcases k6 m nd' hnd' with ⟨x, hx⟩ | h
      · by_cases hm : m = ins
        · subst hm
          rw [k5 m ⟨x, hx⟩, h4] at hnd'
          simp only [Option.some.injEq] at hnd'
          exact .inr (by rw [← hnd']; rfl)
        · exact .inl ⟨x, (h5 m hm).symm.trans hx⟩
      · exact .inr h

theorem setFeats_edit {n : Nat} {nd : Node} (hn : t.graph.node? n = some nd) (g : Option Features → Option Features) :
    NodeEdit t (t.setNode n (withFeats g nd)) (fun k y => if k = n then withFeats g y else y) := by
  refine (NodeEdit.set (t := t) hn (withFeats g nd)).congr ?_
  intro m nd' hm
  by_cases e : m = n
  · subst e; rw [hn] at hm; simp only [Option.some.injEq] at hm; simp [hm]
  · simp [e]

theorem setFeats_core (C : t.Core) {n : Nat} {nd : Node} (hn : t.graph.node? n = some nd)
    (g : Option Features → Option Features) : (t.setNode n (withFeats g nd)).Core := by
  refine (setFeats_edit hn g).core ?_ ?_ C
  · intro n nd; simp only; split
    · exact withFeats_kind _ _
    · rfl
  · intro n nd; split
    · exact withFeats_span _ _
    · rfl

theorem withFeats_features (g : Option Features → Option Features) (nd : Node) :
    (withFeats g nd).features = g nd.features := by
  cases nd <;> rfl

/-- The features left by `restore_unary_chains`. -/
def strip (fs : Option Features) : Option Features := some ((fs.getD Features.empty).remove Forest.chainKey).1

theorem strip_chainFree {fs : Option Features} (h : (fs.getD Features.empty).Sorted) : Forest.ChainFree (strip fs) := by
  unfold Forest.ChainFree strip Features.remove Features.getVal
  simp only [Option.getD_some]
  rw [Features.lookup_remove h]; simp

theorem strip_norm (fs : Option Features) :
    some ((strip fs).getD Features.empty) = some ((Forest.unchain fs).getD Features.empty) := by
  cases fs <;> rfl

theorem restoreNode_spec (C : t.Core) (delim : Str) {n : Nat} {nd : Node} (hn : t.graph.node? n = some nd)
    (hs : (nd.features.getD Features.empty).Sorted)
    (hv : (nd.features.getD Features.empty).getVal Forest.chainKey ≠ some none) {f : Forest} (hf : t.Is f) :
    ∃ t', t.restoreNode delim n = .ok (t', .ok ()) ∧ t'.Core ∧ (∃ f', t'.Is f' ∧ Forest.REq delim f' f) ∧
      (∀ m, t.Live m → m ≠ n → t'.graph.node? m = t.graph.node? m) ∧
      (∀ m nd', t'.graph.node? m = some nd' → (t.Live m ∧ m ≠ n) ∨ Forest.ChainFree nd'.features) ∧
      t'.numDisc = t.numDisc ∧ t'.nTerminals = t.nTerminals ∧ t'.graph.node? n = some (withFeats strip nd) := by
  have E := setFeats_edit hn strip
  have C1 := setFeats_core C hn strip
  have hn1 : (t.setNode n (withFeats strip nd)).graph.node? n = some (withFeats strip nd) := by
    rw [E.node, hn]; simp
  obtain ⟨K, g, rfl, hg, hrep⟩ := Is.locate C.graph C.shape ⟨_, hn⟩ hf
  have hO : Outside t (t.setNode n (withFeats strip nd)) n n := outside_edit hn (withFeats_span _ _)
  -- the subtree with the features changed
  obtain ⟨g1, hg1, hreq⟩ : ∃ g1, (t.setNode n (withFeats strip nd)).Rep [n] g1 ∧
      Forest.REq delim (Forest.wrap nd.span (Forest.chainOf delim nd.features) g1) g := by
    cases g with
    | nil => exact absurd hg (by simp [Rep])
    | leaf e x r =>
      obtain ⟨n', ns, q1, q2, q3, q4⟩ := hg
      simp only [List.cons.injEq] at q1
      obtain ⟨rfl, rfl⟩ := q1
      have hr : r = .nil := by cases r <;> simp [Rep] at q4 ⊢
      subst hr
      rw [hn] at q2
      simp only [Option.some.injEq] at q2
      subst q2
      refine ⟨.leaf e { x with features := strip x.features } .nil,
        ⟨n, [], rfl, hn1, (E.inLabel n).trans q3, rfl⟩, ?_⟩
      unfold Forest.REq
      rw [Forest.restore_wrap]
      have hcf : Forest.ChainFree (strip x.features) := strip_chainFree hs
      rw [Forest.restore_chainFree (f := .leaf e { x with features := strip x.features } .nil) ⟨hcf, trivial⟩,
        Forest.restore, Forest.restore, Forest.append_nil]
      refine Forest.norm_wrap _ _ _ _ ?_
      simp only [Forest.norm, strip_norm]
    | node e x k r =>
      obtain ⟨n', ns, ks, q1, q2, q3, q4, q5, q6⟩ := hg
      simp only [List.cons.injEq] at q1
      obtain ⟨rfl, rfl⟩ := q1
      have hr : r = .nil := by cases r <;> simp [Rep] at q6 ⊢
      subst hr
      rw [hn] at q2
      simp only [Option.some.injEq] at q2
      subst q2
      have hbelow : ∀ a, t.IsChild n a → ∀ m, t.Dom a m → m ≠ n := by
        rintro a ha m hm rfl
        exact C.shape.acyclic C.graph m (TransGen.head' ha hm)
      refine ⟨.node e { x with features := strip x.features } k .nil,
        ⟨n, [], ks, rfl, hn1, (E.inLabel n).trans q3, ⟨fun b => by rw [E.isChild]; exact q4.1 b, ?_⟩, q5.congr ?_, rfl⟩, ?_⟩
      · refine q4.2.imp_of_mem fun {a b} ha hb hab => ?_
        have hst : ∀ c ∈ ks, (t.setNode n (withFeats strip (.nt x))).startOf c = t.startOf c := by
          intro c hc
          refine startOf_congr ?_
          rw [E.node]
          simp [hbelow c ((q4.1 c).1 hc) c Dom.refl]
        rw [hst a ha, hst b hb]; exact hab
      · intro a ha m hm
        refine ⟨?_, E.inLabel m, fun b => by rw [E.isChild]⟩
        rw [E.node]
        simp [hbelow a ((q4.1 a).1 ha) m hm]
      · unfold Forest.REq
        rw [Forest.restore_wrap]
        have hcf : Forest.ChainFree (strip x.features) := strip_chainFree hs
        simp only [Forest.restore, Forest.append_nil]
        refine Forest.norm_wrap _ _ _ _ ?_
        rw [hcf.chainOf, hcf.unchain]
        simp only [Forest.wrap, Forest.norm, strip_norm]
  obtain ⟨t2, top, k1, C2, O2, k4, k5, k6, k7, k8⟩ :=
    wrapLoop_spec (Forest.chainOf delim nd.features) C1 hn1 hg1
  rw [withFeats_span] at k4
  refine ⟨t2, ?_, C2, ⟨_, hrep t2 top _ (hO.trans C.graph C.shape O2) k4, hreq.plug K⟩, ?_, ?_, k7, k8, (k5 n ((E.live n).2 ⟨_, hn⟩)).trans hn1⟩
  · unfold restoreNode
    rw [node_eq hn]
    simp only [Res.ok_bind]
    have hset : nd.setFeatures (some (nd.featuresMut.remove unaryKey).1) = withFeats strip nd := by
      cases nd <;> rfl
    have hrem : (nd.featuresMut.remove unaryKey).2 = (nd.features.getD Features.empty).getVal Forest.chainKey := rfl
    rw [hset, hrem]
    cases hg' : (nd.features.getD Features.empty).getVal Forest.chainKey with
    | none =>
      have : Forest.chainOf delim nd.features = [] := by unfold Forest.chainOf; rw [hg']
      rw [this] at k1
      simp only [forM', Res.ok.injEq, Prod.mk.injEq] at k1
      obtain ⟨rfl, rfl⟩ := k1
      rfl
    | some v =>
      cases v with
      | none => exact absurd hg' hv
      | some chain =>
        have : Forest.chainOf delim nd.features = splitStr delim chain := by unfold Forest.chainOf; rw [hg']
        rw [this] at k1
        exact Res.bind_eq_ok.2 ⟨_, k1, rfl⟩
  · intro m hm hmn
    rw [k5 m ((E.live m).2 hm), E.node]
    simp [hmn]
  · intro m nd' hnd'
    rcases k6 m nd' hnd' with h | h
    · by_cases e : m = n
      · subst e
        rw [k5 m h, hn1] at hnd'
        simp only [Option.some.injEq] at hnd'
        refine .inr ?_
        rw [← hnd', withFeats_features]
        exact strip_chainFree hs
      · exact .inl ⟨(E.live m).1 h, e⟩
    · refine .inr ?_
      unfold Forest.ChainFree
      rw [h]; rfl

/-- `restore_unary_chains` as a function on forests. -/
theorem restoreUnaryChains_exact (C : t.Core) (delim : Str) {f : Forest} (hf : t.Is f)
    (hs : ∀ n nd, t.graph.node? n = some nd → (nd.features.getD Features.empty).Sorted)
    (hv : ∀ n nd, t.graph.node? n = some nd → (nd.features.getD Features.empty).getVal Forest.chainKey ≠ some none) :
    ∃ t', t.restoreUnaryChains delim = .ok (t', .ok ()) ∧ t'.Core ∧ t'.numDisc = t.numDisc ∧
      t'.nTerminals = t.nTerminals ∧ (∀ n nd, t'.graph.node? n = some nd → Forest.ChainFree nd.features) ∧
      (∃ f', t'.Is f' ∧ f'.norm = (f.restore delim).norm) ∧
      ∀ n nd, t.graph.node? n = some nd → t'.graph.node? n = some (withFeats strip nd) := by
  unfold restoreUnaryChains
  have key := forE_rule (f := restoreNode delim)
    (fun as t1 => as.Nodup ∧ t1.Core ∧ t1.numDisc = t.numDisc ∧ t1.nTerminals = t.nTerminals ∧
      (∃ f', t1.Is f' ∧ Forest.REq delim f' f) ∧
      (∀ n ∈ as, t.Live n ∧ t1.graph.node? n = t.graph.node? n) ∧
      (∀ n nd, t1.graph.node? n = some nd → n ∈ as ∨ Forest.ChainFree nd.features) ∧
      ∀ n nd, t.graph.node? n = some nd → n ∈ as ∨ t1.graph.node? n = some (withFeats strip nd)) ?_ t.graph.nodeIndices t
    ⟨Graph.nodeIndices_nodup _, C, rfl, rfl, ⟨f, hf, rfl⟩, fun n hn => ⟨Graph.mem_nodeIndices.1 hn, rfl⟩,
      fun n nd hn => (.inl (Graph.mem_nodeIndices.2 ⟨_, hn⟩)), fun n nd hn => (.inl (Graph.mem_nodeIndices.2 ⟨_, hn⟩))⟩
  · obtain ⟨t', h1, _, C', h2, h3, ⟨f', h4, h5⟩, _, h6, h8⟩ := key
    have hcf : ∀ n nd, t'.graph.node? n = some nd → Forest.ChainFree nd.features := by
      intro n nd hn
      rcases h6 n nd hn with h | h
      · simp at h
      · exact h
    refine ⟨t', h1, C', h2, h3, hcf, ⟨f', h4, ?_⟩, fun n nd hn => (h8 n nd hn).resolve_left (by simp)⟩
    unfold Forest.REq at h5
    rw [← h5, Forest.restore_chainFree (h4.allFeats hcf)]
  · rintro n as t1 ⟨hnd, C1, h2, h3, ⟨f', h4, h5⟩, h6, h7, h8⟩
    obtain ⟨⟨nd, hn⟩, hn1⟩ := h6 n (by simp)
    rw [show t.graph.node? n = some nd from hn] at hn1
    obtain ⟨t2, k1, C2, ⟨f2, k2, k3⟩, k4, k5, k6, k7, k8⟩ :=
      restoreNode_spec C1 delim hn1 (hs n nd hn) (hv n nd hn) h4
    refine ⟨t2, k1, hnd.of_cons, C2, k6.trans h2, k7.trans h3, ⟨f2, k2, k3.trans h5⟩, ?_, ?_, ?_⟩
    · intro m hm
      obtain ⟨g1, g2⟩ := h6 m (by simp [hm])
      have hmn : m ≠ n := by rintro rfl; exact (List.nodup_cons.1 hnd).1 hm
      refine ⟨g1, ?_⟩
      rw [k4 m ?_ hmn, g2]
      obtain ⟨y, hy⟩ := g1
      exact ⟨y, g2.trans hy⟩
    · intro m nd' hm
      rcases k5 m nd' hm with ⟨h, hmn⟩ | h
      · have := hm
        rw [k4 m h hmn] at this
        rcases h7 m nd' this with h | h
        · rcases List.mem_cons.1 h with h | h
          · exact absurd h hmn
          · exact .inl h
        · exact .inr h
      · exact .inr h
    · intro m nd' hm
      by_cases e : m = n
      · subst e
        rw [hn] at hm
        cases hm
        exact .inr k8
      · rcases h8 m nd' hm with h | h
        · rcases List.mem_cons.1 h with h | h
          · exact absurd h e
          · exact .inl h
        · exact .inr ((k4 m ⟨_, h⟩ e).trans h)

theorem restoreUnaryChains_spec (C : t.Core) (delim : Str) {f : Forest} (hf : t.Is f)
    (hs : ∀ n nd, t.graph.node? n = some nd → (nd.features.getD Features.empty).Sorted)
    (hv : ∀ n nd, t.graph.node? n = some nd → (nd.features.getD Features.empty).getVal Forest.chainKey ≠ some none) :
    ∃ t', t.restoreUnaryChains delim = .ok (t', .ok ()) ∧ t'.Core ∧ t'.numDisc = t.numDisc ∧
      t'.nTerminals = t.nTerminals ∧ (∀ n nd, t'.graph.node? n = some nd → Forest.ChainFree nd.features) ∧
      ∃ f', t'.Is f' ∧ f'.norm = (f.restore delim).norm := by
  obtain ⟨t', h1, h2, h3, h4, h5, h6, _⟩ := restoreUnaryChains_exact C delim hf hs hv
  exact ⟨t', h1, h2, h3, h4, h5, h6⟩

end Tree
end Lumberjack
