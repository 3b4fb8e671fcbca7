import Verif.Proofs.Stable
import Verif.Spec.Iso

/-!
# Trees that differ in their inner representation only
-/

namespace Lumberjack
namespace Tree

variable {t u : Tree} {φ : Nat → Nat}

/-! ## Trees that stand for the same forest -/

/-- The nodes at the same place of the two trees. -/
inductive Match (t u : Tree) : Nat → Nat → Prop
  | root : Match t u t.root u.root
  | child {n n' : Nat} {ks ks' : List Nat} {i k k' : Nat} : Match t u n n' → t.Kids n ks → u.Kids n' ks' →
      ks[i]? = some k → ks'[i]? = some k' → Match t u k k'

theorem Match.symm {n n' : Nat} (h : Match t u n n') : Match u t n' n := by
  induction h with
  | root => exact .root
  | child _ h1 h2 h3 h4 ih => exact .child ih h2 h1 h4 h3

theorem Rep.pick {f : Forest} : ∀ {ks ks' : List Nat}, t.Rep ks f → u.Rep ks' f → ∀ {i k k' : Nat}, ks[i]? = some k →
    ks'[i]? = some k' → ∃ g, t.Rep [k] g ∧ u.Rep [k'] g := by
  induction f with
  | nil =>
    intro ks ks' h h' i k k' hk
    have h : ks = [] := h
    subst h; simp at hk
  | leaf e x r ih =>
    rintro ks ks' ⟨n, ns, rfl, h1, h2, h3⟩ ⟨n', ns', rfl, h1', h2', h3'⟩ i k k' hk hk'
    cases i with
    | zero =>
      simp only [List.getElem?_cons_zero, Option.some.injEq] at hk hk'
      subst hk hk'
      exact ⟨.leaf e x .nil, ⟨n, [], rfl, h1, h2, rfl⟩, ⟨n', [], rfl, h1', h2', rfl⟩⟩
    | succ i => exact ih h3 h3' (i := i) (by simpa using hk) (by simpa using hk')
  | node e x kd r ihk ih =>
    rintro ks ks' ⟨n, ns, ls, rfl, h1, h2, h4, h5, h3⟩ ⟨n', ns', ls', rfl, h1', h2', h4', h5', h3'⟩ i k k' hk hk'
    cases i with
    | zero =>
      simp only [List.getElem?_cons_zero, Option.some.injEq] at hk hk'
      subst hk hk'
      exact ⟨.node e x kd .nil, ⟨n, [], ls, rfl, h1, h2, h4, h5, rfl⟩, ⟨n', [], ls', rfl, h1', h2', h4', h5', rfl⟩⟩
    | succ i => exact ih h3 h3' (i := i) (by simpa using hk) (by simpa using hk')

section same

variable (W : t.WF) (W' : u.WF) {f : Forest} (hf : t.Is f) (hf' : u.Is f)

include W hf hf'

theorem Match.same {n n' : Nat} (h : Match t u n n') : ∃ g, t.Rep [n] g ∧ u.Rep [n'] g := by
  induction h with
  | root => exact ⟨f, hf, hf'⟩
  | @child n n' ks ks' i k k' _ h1 h2 h3 h4 ih =>
    obtain ⟨g, g1, g2⟩ := ih
    cases g with
    | nil => cases (show [n] = [] from g1)
    | leaf e x r =>
      obtain ⟨_, _, e1, hx, _⟩ := g1
      cases e1
      obtain ⟨y, hy⟩ := W.shape.parent_isNt W.graph ((h1.1 k).1 (List.mem_of_getElem? h3))
      rw [hx] at hy; cases hy
    | node e x kd r =>
      obtain ⟨_, _, ls, e1, _, _, a1, a2, _⟩ := g1
      obtain ⟨_, _, ls', e2, _, _, b1, b2, _⟩ := g2
      cases e1; cases e2
      rw [Kids.unique h1 a1] at h3
      rw [Kids.unique h2 b1] at h4
      exact Rep.pick a2 b2 h3 h4

theorem Match.node {n n' : Nat} (h : Match t u n n') : t.Live n ∧ u.graph.node? n' = t.graph.node? n ∧ u.inLabel n' = t.inLabel n := by
  obtain ⟨g, g1, g2⟩ := h.same W hf hf'
  cases g with
  | nil => cases (show [n] = [] from g1)
  | leaf e x r =>
    obtain ⟨_, _, e1, a1, a2, _⟩ := g1
    obtain ⟨_, _, e2, b1, b2, _⟩ := g2
    cases e1; cases e2
    exact ⟨⟨_, a1⟩, by rw [a1, b1], by rw [a2, b2]⟩
  | node e x kd r =>
    obtain ⟨_, _, ls, e1, a1, a2, _⟩ := g1
    obtain ⟨_, _, ls', e2, b1, b2, _⟩ := g2
    cases e1; cases e2
    exact ⟨⟨_, a1⟩, by rw [a1, b1], by rw [a2, b2]⟩

omit hf hf' in
theorem Match.functional {n a b : Nat} (h : Match t u n a) (h' : Match t u n b) : a = b := by
  induction h generalizing b with
  | root =>
    cases h' with
    | root => rfl
    | child _ h1 _ h3 _ => exact absurd ((h1.1 _).1 (List.mem_of_getElem? h3)) (W.shape.root_top _)
  | @child n n' ks ks' i k k' hm h1 h2 h3 h4 ih =>
    have hc := (h1.1 _).1 (List.mem_of_getElem? h3)
    cases h' with
    | root => exact absurd hc (W.shape.root_top _)
    | @child m m' ls ls' j _ _ hm' g1 g2 g3 g4 =>
      have hc' := (g1.1 _).1 (List.mem_of_getElem? g3)
      have : m = n := W.shape.isChild_unique hc' hc
      subst this
      have := ih hm'
      subst this
      rw [Kids.unique g1 h1] at g3
      rw [Kids.unique g2 h2] at g4
      obtain ⟨hi, e1⟩ := List.getElem?_eq_some_iff.1 h3
      obtain ⟨hj, e2⟩ := List.getElem?_eq_some_iff.1 g3
      have : i = j := (h1.nodup.getElem_inj_iff (hi := hi) (hj := hj)).1 (e1.trans e2.symm)
      subst this
      rw [h4] at g4; cases g4; rfl

theorem Match.total {n : Nat} (hn : t.Live n) : ∃ n', Match t u n n' := by
  have hd := W.shape.reach n hn
  clear hn
  induction hd with
  | refl => exact ⟨_, .root⟩
  | @tail p c _ hc ih =>
    obtain ⟨p', hm⟩ := ih
    obtain ⟨g, g1, g2⟩ := hm.same W hf hf'
    cases g with
    | nil => cases (show [p] = [] from g1)
    | leaf e x r =>
      obtain ⟨_, _, e1, hx, _⟩ := g1
      cases e1
      obtain ⟨y, hy⟩ := W.shape.parent_isNt W.graph hc
      rw [hx] at hy; cases hy
    | node e x kd r =>
      obtain ⟨_, _, ls, e1, _, _, a1, a2, _⟩ := g1
      obtain ⟨_, _, ls', e2, _, _, b1, b2, _⟩ := g2
      cases e1; cases e2
      obtain ⟨i, hi⟩ := List.getElem?_of_mem ((a1.1 c).2 hc)
      have hl : i < ls'.length := by
        rw [← b2.width, a2.width]
        exact (List.getElem?_eq_some_iff.1 hi).1
      exact ⟨ls'[i], .child hm a1 b1 hi (List.getElem?_eq_getElem hl)⟩

omit hf hf' in
/-- The children of nodes at the same place are at the same places. -/
theorem Match.isChild {p p' n n' : Nat} (hp : Match t u p p') (hn : Match t u n n') (h : t.IsChild p n) : u.IsChild p' n' := by
  cases hn with
  | root => exact absurd h (W.shape.root_top _)
  | @child m m' ks ks' i _ _ hm h1 h2 h3 h4 =>
    have := W.shape.isChild_unique h ((h1.1 _).1 (List.mem_of_getElem? h3))
    subst this
    rw [hp.functional W hm]
    exact (h2.1 _).1 (List.mem_of_getElem? h4)

include W' in
/-- Trees without secondary edges that stand for the same forest differ in their inner representation only. -/
theorem iso_of_is (hs : t.NoSecondary) (hs' : u.NoSecondary) : ∃ φ, Iso t u φ := by
  have hex : ∀ n, ∃ n', t.Live n → Match t u n n' := by
    intro n
    by_cases hn : t.Live n
    · obtain ⟨n', h⟩ := Match.total W hf hf' hn
      exact ⟨n', fun _ => h⟩
    · exact ⟨0, fun h => absurd h hn⟩
  choose φ hφ using hex
  have hback : ∀ n m, t.Live n → t.Live m → φ n = φ m → n = m := by
    intro n m hn hm e
    have h1 := (hφ n hn).symm
    rw [e] at h1
    exact h1.functional W' (hφ m hm).symm
  refine ⟨φ, (hφ _ W.shape.root_live |>.functional W .root).symm, hback, ?_, fun n hn => ((hφ n hn).node W hf hf').2.1, ?_⟩
  · intro n' hn'
    obtain ⟨n, h⟩ := Match.total W' hf' hf hn'
    have hn := (h.symm.node W hf hf').1
    exact ⟨n, hn, (hφ n hn).functional W h.symm⟩
  · intro p n w hp hn
    have hMp := hφ p hp
    have hMn := hφ n hn
    have hlab := (hMn.node W hf hf').2.2
    constructor
    · rintro ⟨e, h1, rfl, rfl, rfl⟩
      have hpr := hs e h1
      have hc := hMp.isChild W hMn ⟨e, h1, rfl, rfl, hpr⟩
      obtain ⟨e', g1, g2, g3, g4⟩ := (show _ from hc)
      refine ⟨e', g1, g2, g3, ?_⟩
      have k1 := W.shape.edgeLabel_of_edge h1 hpr
      have k2 := W'.shape.edgeLabel_of_edge g1 g4
      rw [g3, edgeLabel_eq_of_inLabel W'.shape hc, hlab] at k2
      rw [edgeLabel_eq_of_inLabel W.shape ⟨e, h1, rfl, rfl, hpr⟩, k2] at k1
      injection k1
    · rintro ⟨e', g1, g2, g3, rfl⟩
      have hpr := hs' e' g1
      have hc' : u.IsChild (φ p) (φ n) := ⟨e', g1, g2, g3, hpr⟩
      have hc := hMp.symm.isChild W' hMn.symm hc'
      obtain ⟨e, h1, h2, h3, h4⟩ := (show _ from hc)
      refine ⟨e, h1, h2, h3, ?_⟩
      have k1 := W.shape.edgeLabel_of_edge h1 h4
      have k2 := W'.shape.edgeLabel_of_edge g1 hpr
      rw [g3, edgeLabel_eq_of_inLabel W'.shape hc', hlab] at k2
      rw [h3, edgeLabel_eq_of_inLabel W.shape hc, k2] at k1
      injection k1 with k1
      exact k1.symm

end same

/-! ## What they have in common -/

namespace Iso

variable (I : Iso t u φ) (W : t.WF) (W' : u.WF)

include I

theorem child {p n : Nat} (hp : t.Live p) (hn : t.Live n) : u.IsChild (φ p) (φ n) ↔ t.IsChild p n := by
  constructor
  · rintro ⟨e, h1, h2, h3, h4⟩
    obtain ⟨e', g1, g2, g3, g4⟩ := (I.edge p n e.w hp hn).2 ⟨e, h1, h2, h3, rfl⟩
    exact ⟨e', g1, g2, g3, g4 ▸ h4⟩
  · rintro ⟨e, h1, h2, h3, h4⟩
    obtain ⟨e', g1, g2, g3, g4⟩ := (I.edge p n e.w hp hn).1 ⟨e, h1, h2, h3, rfl⟩
    exact ⟨e', g1, g2, g3, g4 ▸ h4⟩

theorem startOf {n : Nat} (hn : t.Live n) : u.startOf (φ n) = t.startOf n := by
  unfold Tree.startOf
  rw [I.node n hn]

include W W'

theorem inLabel {n : Nat} (hn : t.Live n) : u.inLabel (φ n) = t.inLabel n := by
  by_cases h : n = t.root
  · rw [h, ← I.root, inLabel_root W'.shape, inLabel_root W.shape]
  · obtain ⟨p, e, h1, h2, h3, h4⟩ := W.shape.exists_parent hn h
    have hp := (W.graph.ends e h1).1
    rw [h2] at hp
    obtain ⟨e', k1, k2, k3, k4⟩ := (I.edge p n e.w hp hn).1 ⟨e, h1, h2, h3, rfl⟩
    unfold Tree.inLabel
    rw [← h3, W.shape.edgeLabel_of_edge h1 h4, h3, ← k3, W'.shape.edgeLabel_of_edge k1 (k4 ▸ h4), k4]

theorem kids {n : Nat} (hn : t.Live n) {ks : List Nat} (h : t.Kids n ks) :
    u.Kids (φ n) (ks.map φ) ∧ ∀ k ∈ ks, t.Live k := by
  have hl : ∀ k ∈ ks, t.Live k := by
    intro k hk
    obtain ⟨e, h1, _, h3, _⟩ := (h.1 k).1 hk
    exact h3 ▸ (W.graph.ends e h1).2
  refine ⟨⟨fun c => ?_, ?_⟩, hl⟩
  · rw [List.mem_map]
    constructor
    · rintro ⟨k, hk, rfl⟩
      exact (I.child hn (hl k hk)).2 ((h.1 k).1 hk)
    · intro hc
      obtain ⟨e, h1, _, h3, _⟩ := (show _ from hc)
      obtain ⟨k, k1, rfl⟩ := I.onto c (h3 ▸ (W'.graph.ends e h1).2)
      exact ⟨k, (h.1 k).2 ((I.child hn k1).1 hc), rfl⟩
  · rw [List.pairwise_map]
    refine h.2.imp_of_mem fun {a b} ha hb hab => ?_
    rwa [I.startOf (hl a ha), I.startOf (hl b hb)]

theorem rep {f : Forest} : ∀ {ids : List Nat}, (∀ n ∈ ids, t.Live n) → t.Rep ids f → u.Rep (ids.map φ) f := by
  induction f with
  | nil =>
    intro ids _ h
    have h : ids = [] := h
    subst h
    rfl
  | leaf e x r ih =>
    rintro ids hl ⟨n, ns, rfl, h1, h2, h3⟩
    refine ⟨φ n, ns.map φ, rfl, ?_, ?_, ih (fun m hm => hl m (by simp [hm])) h3⟩
    · rw [I.node n ⟨_, h1⟩, h1]
    · rw [I.inLabel W W' ⟨_, h1⟩, h2]
  | node e x k r ihk ihr =>
    rintro ids hl ⟨n, ns, ks, rfl, h1, h2, h3, h4, h5⟩
    obtain ⟨c1, c2⟩ := I.kids W W' (n := n) ⟨_, h1⟩ h3
    refine ⟨φ n, ns.map φ, ks.map φ, rfl, ?_, ?_, c1, ihk c2 h4, ihr (fun m hm => hl m (by simp [hm])) h5⟩
    · rw [I.node n ⟨_, h1⟩, h1]
    · rw [I.inLabel W W' ⟨_, h1⟩, h2]

/-- They stand for the same forest. -/
theorem is {f : Forest} (hf : t.Is f) : u.Is f := by
  have := I.rep W W' (ids := [t.root]) (by simpa using W.shape.root_live) hf
  unfold Is
  rw [I.root]
  exact this

theorem projective : u.isProjective = t.isProjective := by
  rw [Bool.eq_iff_iff, isProjective_iff W.count, isProjective_iff W'.count]
  constructor
  · rintro h n ⟨x, hx, hs⟩
    exact h (φ n) ⟨x, by rw [I.node n ⟨_, hx⟩, hx], hs⟩
  · rintro h n' ⟨x, hx, hs⟩
    obtain ⟨n, hn, rfl⟩ := I.onto n' ⟨_, hx⟩
    rw [I.node n hn] at hx
    exact h n ⟨x, hx, hs⟩

theorem nTerminals : u.nTerminals = t.nTerminals := by
  have key : ∀ i, i < t.nTerminals ↔ i < u.nTerminals := by
    intro i
    constructor
    · intro h
      obtain ⟨n, x, hx, hi⟩ := W.sentence.occupied i h
      exact Negra.termAt_lt W' (n := φ n) ⟨x, by rw [I.node n ⟨_, hx⟩, hx], hi⟩
    · intro h
      obtain ⟨n', x, hx, hi⟩ := W'.sentence.occupied i h
      obtain ⟨n, hn, rfl⟩ := I.onto n' ⟨_, hx⟩
      rw [I.node n hn] at hx
      exact Negra.termAt_lt W ⟨x, hx, hi⟩
  rcases Nat.lt_trichotomy t.nTerminals u.nTerminals with h | h | h
  · have := (key t.nTerminals).2 h; omega
  · exact h.symm
  · have := (key u.nTerminals).1 h; omega

theorem terminals {ts : List Terminal} (h : t.Terminals ts) : u.Terminals ts := by
  refine ⟨by rw [I.nTerminals W W', h.1], ?_⟩
  rintro n' x i hx ⟨y, hy, hi⟩
  obtain ⟨n, hn, rfl⟩ := I.onto n' ⟨_, hx⟩
  rw [I.node n hn] at hx hy
  exact h.2 n x i hx ⟨y, hy, hi⟩

omit W W' in
theorem isNt {n : Nat} (h : t.IsNt n) : u.IsNt (φ n) := by
  obtain ⟨x, hx⟩ := h
  exact ⟨x, by rw [I.node n ⟨_, hx⟩, hx]⟩

theorem body (hr : t.IsNt t.root) (hs : t.OneSecondary)
    (hn : ∀ r ∈ t.graph.edges, r.w.isPrimary = false → t.IsNt r.src) : Negra.Body t u φ where
  wf := W'
  root := I.root
  root_nt := by rw [I.root]; exact I.isNt hr
  inj := I.inj
  onto := I.onto
  terms n x hx := ⟨x.features, by rw [I.node n ⟨_, hx⟩, hx], rfl⟩
  nts n x _ hx := ⟨x.features, by rw [I.node n ⟨_, hx⟩, hx], rfl⟩
  primary p n l hp hn := I.edge p n (.primary l) hp hn
  second := by
    refine Negra.second_of W W' I.inj (fun e' h1 h2 => ?_) (fun e h1 h2 _ => ?_)
    · obtain ⟨p, hp, e1⟩ := I.onto e'.src (W'.graph.ends e' h1).1
      obtain ⟨n, hn, e2⟩ := I.onto e'.tgt (W'.graph.ends e' h1).2
      obtain ⟨e, g1, g2, g3, g4⟩ := (I.edge p n e'.w hp hn).2 ⟨e', h1, e1.symm, e2.symm, rfl⟩
      refine ⟨e, g1, ?_, by rw [g2, e1], by rw [g3, e2], g4⟩
      cases hsp : t.secondaryParent e.tgt with
      | none =>
        have := Negra.secondaryParent_none hsp e g1 rfl
        rw [g4, h2] at this; cases this
      | some y =>
        obtain ⟨q, i⟩ := y
        obtain ⟨r, k1, k2, k3, k4, k5⟩ := Negra.secondaryParent_some hsp
        have := hs r k1 e g1 k5 (by rw [g4]; exact h2) k3
        subst this
        rw [k2, k4]
    · obtain ⟨hp, hn⟩ := W.graph.ends e h1
      obtain ⟨e', g1, g2, g3, g4⟩ := (I.edge e.src e.tgt e.w hp hn).1 ⟨e, h1, rfl, rfl, rfl⟩
      exact ⟨e', g1, by rw [g4]; exact h2, g3⟩
  sources r h1 h2 := by
    obtain ⟨p, hp, e1⟩ := I.onto r.src (W'.graph.ends r h1).1
    obtain ⟨n, hn', e2⟩ := I.onto r.tgt (W'.graph.ends r h1).2
    obtain ⟨e, g1, g2, g3, g4⟩ := (I.edge p n r.w hp hn').2 ⟨r, h1, e1.symm, e2.symm, rfl⟩
    rw [← e1, ← g2]
    exact I.isNt (hn e g1 (by rw [g4]; exact h2))

/-- They are written the same in the NEGRA format. -/
theorem writeTree (hr : t.IsNt t.root) (hs : t.OneSecondary)
    (hn : ∀ r ∈ t.graph.edges, r.w.isPrimary = false → t.IsNt r.src) (c : Nat) :
    Negra.writeTree c u = Negra.writeTree c t := by
  obtain ⟨ls, h⟩ := (I.body W W' hr hs hn).writeTree W hr hn c c
  have : Negra.rootFeatures u = Negra.rootFeatures t := by
    unfold Negra.rootFeatures
    rw [I.root, I.node _ W.shape.root_live]
  rw [h t c (.inl ⟨rfl, rfl⟩), h u c (.inr ⟨rfl, rfl⟩), this]

end Iso
end Tree

namespace Convert

open Lumberjack.Tree

variable {t t' t1 u : Tree} {φ : Nat → Nat}

/-- The words of a tree with tags. -/
theorem tagged_terminals (W : t.WF) (hN : NoGaps t) {f : Forest} (hf : t.Is f) (W1 : t1.WF)
    (hf1 : t1.Is (f.collapse ['_'])) {g : Terminal → Terminal} (E : TermEdit t1 t' (fun _ x => g x))
    (hg : ∀ x, (g x).span = x.span) : t'.Terminals ((f.collapse ['_']).leaves.map g) := by
  obtain ⟨t2, a1, W2, _, hlive, hnode, _, _, _⟩ := Props.C26_collapse t W ['_']
  obtain ⟨t2', a2, hf2⟩ := Props.C26_collapsed_tree t W ['_'] f hf
  rw [a1] at a2
  cases a2
  have hp2 : t2.isProjective = true := by
    rw [collapse_projective W W2 hlive hnode, noGaps_iff W]; exact hN
  have hp1 : t1.isProjective = true := by
    rw [isProjective_iff W1.count]
    rintro n ⟨x, hx, hs⟩
    have hA : (f.collapse ['_']).All (fun nd => nd.span.skips = none) :=
      Rep.all hf2 fun n nd hn => projective_skips W2 hp2 n nd hn
    have := Is.all_conv W1.shape hf1 hA hx
    simp only [Node.span] at this
    rw [this] at hs; cases hs
  exact TermEdit.terminals E hg (terminals_leaves W1 hp1 hf1)

theorem convert_encode (pick : Tree → Finset Nat → Option Nat) (out : OutFormat) (c : Nat) (t : Tree) :
    convertTree pick (plain out) none c t = (stepEncode (plain out) (.ok t) >>= fun r => match r with
      | .error e => .ok (.error e)
      | .ok t' => write out c t') := rfl

/-- Trees with the same constituents and words are written the same in all formats if they are in NEGRA. -/
theorem same_convert (hIs : ∀ f, t.Is f → u.Is f) (hPr : u.isProjective = t.isProjective)
    (hTs : ∀ ts, t.Terminals ts → u.Terminals ts) (W : t.WF) (W' : u.WF) (out : OutFormat) (c : Nat)
    (h : out = .negra → Negra.writeTree c u = Negra.writeTree c t) (pick pick' : Tree → Finset Nat → Option Nat) :
    convertTree pick' (plain out) none c u = convertTree pick (plain out) none c t := by
  obtain ⟨f, hf⟩ := W.is_exists
  have hf' := hIs f hf
  have hN : NoGaps u ↔ NoGaps t := by rw [← noGaps_iff W, ← noGaps_iff W', hPr]
  obtain ⟨a1, a2, a3⟩ := stepEncode_spec (plain out) W
  obtain ⟨b1, b2, b3⟩ := stepEncode_spec (plain out) W'
  have ho : (plain out).out = out := rfl
  rw [ho] at a1 a2 a3 b1 b2 b3
  rw [convert_encode, convert_encode]
  have tags : ∀ (T : Tree → Tree → Prop) (val : Forest → Terminal → Terminal), (∀ f x, (val f x).span = x.span) →
      (∀ t t', T t t' ↔ ∃ f t1, t.Is f ∧ t1.WF ∧ t1.Is (f.collapse ['_']) ∧ TermEdit t1 t' fun _ x => val f x) →
      ∀ t' u', T t t' → T u u' → NoGaps t → Conllx.toConllx u' = Conllx.toConllx t' := by
    intro T val hv hT t' u' h1 h2 hg
    obtain ⟨F, t1, k1, k2, k3, k4⟩ := (hT _ _).1 h1
    obtain ⟨F', u1, m1, m2, m3, m4⟩ := (hT _ _).1 h2
    rw [Rep.unique k1 hf] at k3 k4
    rw [Rep.unique m1 hf'] at m3 m4
    have e1 := tagged_terminals W hg hf k2 k3 k4 (hv f)
    have e2 := tagged_terminals W' (hN.2 hg) hf' m2 m3 m4 (hv f)
    rw [(Props.C52_tokens t' (k4.wf (fun _ => hv f) k2) _ e1).1, (Props.C52_tokens u' (m4.wf (fun _ => hv f) m2) _ e2).1]
  have viaPtb : ∀ f, writePtb f u = writePtb f t := by
    intro fm
    by_cases hg : NoGaps t
    · obtain ⟨s, ⟨F, b, h1, h2, rfl⟩, h3⟩ := (writePtb_spec W fm).1 hg
      obtain ⟨s', ⟨F', b', h1', h2', rfl⟩, h3'⟩ := (writePtb_spec W' fm).1 (hN.2 hg)
      rw [Rep.unique h1 hf] at h2
      rw [Rep.unique h1' hf', h2] at h2'
      cases h2'
      rw [h3, h3']
    · rw [(writePtb_spec W fm).2 hg, (writePtb_spec W' fm).2 (fun g => hg (hN.1 g))]
  cases out with
  | absolute =>
    by_cases hg : NoGaps t
    · obtain ⟨t', e, hT, _⟩ := (a1 rfl).1 hg
      obtain ⟨u', e', hT', _⟩ := (b1 rfl).1 (hN.2 hg)
      rw [e, e', Res.ok_bind, Res.ok_bind]
      simp only [write, tags AbsTagged (fun f x => withFeature "abs_ancestor".toList
        (absText (((f.collapse ['_']).encoding 0 [] none)[x.span.start]?.getD (none, none))) x) (fun f x => rfl) (fun t t' => Iff.rfl) t' u' hT hT' hg]
    · rw [(a1 rfl).2 hg, (b1 rfl).2 (fun g => hg (hN.1 g))]
  | relative =>
    by_cases hg : NoGaps t
    · obtain ⟨t', e, hT, _⟩ := (a2 rfl).1 hg
      obtain ⟨u', e', hT', _⟩ := (b2 rfl).1 (hN.2 hg)
      rw [e, e', Res.ok_bind, Res.ok_bind]
      simp only [write, tags RelTagged (fun f x => withFeature "rel_ancestor".toList
        (relText ((relFromAbs ((f.collapse ['_']).encoding 0 [] none))[x.span.start]?.getD (none, none))) x) (fun f x => rfl) (fun t t' => Iff.rfl) t' u' hT hT' hg]
    · rw [(a2 rfl).2 hg, (b2 rfl).2 (fun g => hg (hN.1 g))]
  | conllx =>
    rw [a3 (by simp) (by simp), b3 (by simp) (by simp), Res.ok_bind, Res.ok_bind]
    obtain ⟨ts, hts, _⟩ := Props.C52_terminals t W
    simp only [write, (Props.C52_tokens t W ts hts).1, (Props.C52_tokens u W' ts (hTs _ hts)).1]
  | negra =>
    rw [a3 (by simp) (by simp), b3 (by simp) (by simp), Res.ok_bind, Res.ok_bind]
    simp only [write, h rfl]
  | ptb =>
    rw [a3 (by simp) (by simp), b3 (by simp) (by simp), Res.ok_bind, Res.ok_bind]
    simp only [write, viaPtb]
  | simple =>
    rw [a3 (by simp) (by simp), b3 (by simp) (by simp), Res.ok_bind, Res.ok_bind]
    simp only [write, viaPtb]
  | tueba =>
    rw [a3 (by simp) (by simp), b3 (by simp) (by simp), Res.ok_bind, Res.ok_bind]
    simp only [write, viaPtb]

/-- They are written the same in all formats. -/
theorem iso_convert (I : Iso t u φ) (W : t.WF) (W' : u.WF) (out : OutFormat)
    (h : out = .negra → t.IsNt t.root ∧ t.OneSecondary ∧ ∀ r ∈ t.graph.edges, r.w.isPrimary = false → t.IsNt r.src)
    (pick pick' : Tree → Finset Nat → Option Nat) (c : Nat) :
    convertTree pick' (plain out) none c u = convertTree pick (plain out) none c t :=
  same_convert (fun _ h => I.is W W' h) (I.projective W W') (fun _ h => I.terminals W W' h) W W' out c
    (fun ho => by obtain ⟨h1, h2, h3⟩ := h ho; exact I.writeTree W W' h1 h2 h3 c) pick pick'

/-- Runs over the same trees. -/
theorem iso_loop {f f' : InFormat} {m m' : Bool} {pick pick' : Tree → Finset Nat → Option Nat} {out : OutFormat}
    {ts us : List Tree}
    (h : List.Forall₂ (fun t u => t.WF ∧ u.WF ∧ (out = .negra → t.IsNt t.root ∧ t.OneSecondary ∧ t.SecondaryNt) ∧
      ∃ φ, Iso t u φ) ts us) : ∀ {src src' : Source} {k k' c : Nat}, Stream f m src (ts.map .ok) true →
    Stream f' m' src' (us.map .ok) true → ts.length < k → us.length < k' →
    loop f m pick (plain out) k src none c = loop f' m' pick' (plain out) k' src' none c := by
  induction h with
  | nil =>
    intro src src' k k' c hs hs' hk hk'
    obtain ⟨k, rfl⟩ : ∃ j, k = j + 1 := ⟨k - 1, by simp at hk; omega⟩
    obtain ⟨k', rfl⟩ : ∃ j, k' = j + 1 := ⟨k' - 1, by simp at hk'; omega⟩
    cases hs with
    | stop hn => cases hs' with
      | stop hn' => rw [loop, loop, hn, hn']
  | @cons t u ts us h _ ih =>
    intro src src' k k' c hs hs' hk hk'
    obtain ⟨k, rfl⟩ : ∃ j, k = j + 1 := ⟨k - 1, by simp at hk; omega⟩
    obtain ⟨k', rfl⟩ : ∃ j, k' = j + 1 := ⟨k' - 1, by simp at hk'; omega⟩
    obtain ⟨W, W', hn, φ, I⟩ := h
    cases hs with
    | item h1 hs => cases hs' with
      | item h1' hs' =>
        rw [loop, loop, h1, h1']
        simp only [nextPos]
        rw [iso_convert I W W' out hn pick pick' c]
        cases convertTree pick (plain out) none c t with
        | panic => rfl
        | diverge => rfl
        | ok r => cases r with
          | error e => rfl
          | ok r =>
            simp only
            rw [ih (c := r.2) hs hs' (by simpa using hk) (by simpa using hk')]

end Convert
end Lumberjack
