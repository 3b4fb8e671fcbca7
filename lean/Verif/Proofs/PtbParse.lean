import Verif.Proofs.Bracket
import Verif.Proofs.Seq

/-!
# The graph built by the parser of bracketed text
-/

namespace Lumberjack
namespace Ptb

open Bracketed

/-! ## Tags -/

theorem splitFirstIncl_eq (c : Char) (s : Str) : splitFirstIncl c s =
    (after c s).map (fun r => (before c s, c :: r)) := by
  induction s with
  | nil => simp [splitFirstIncl, after]
  | cons x s ih =>
    unfold splitFirstIncl
    by_cases h : x = c
    · subst h; simp [after, before]
    · rw [if_neg h, ih]
      by_cases hm : c ∈ s
      · simp [after, before, h, hm, Ne.symm h]
      · simp [after, hm, Ne.symm h]

theorem splitOn_eq (c : Char) (s : Str) : splitOn c s =
    before c s :: (match after c s with | some r => splitOn c r | none => []) := by
  induction s with
  | nil => simp [splitOn, after, before]
  | cons x s ih =>
    by_cases h : x = c
    · subst h; simp [splitOn, after, before]
    · rw [splitOn, if_neg h, ih]
      by_cases hm : c ∈ s
      · simp [after, before, h, hm, Ne.symm h]
      · simp [after, before, h, hm, Ne.symm h]

theorem splitOn_headD (c : Char) (s : Str) : (splitOn c s).headD [] = before c s := by
  rw [splitOn_eq]; rfl

theorem splitOn_second (c : Char) (s : Str) :
    (splitOn c s).tail.head? = (after c s).map (before c) := by
  rw [splitOn_eq]
  cases after c s with
  | none => rfl
  | some r => rw [List.tail_cons]; simp only; rw [splitOn_eq]; rfl

theorem before_of_not_mem {c : Char} {s : Str} (h : c ∉ s) : before c s = s := by
  induction s with
  | nil => rfl
  | cons x s ih =>
    rw [List.mem_cons, not_or] at h
    have := ih h.2
    unfold before at this ⊢
    rw [List.takeWhile_cons_of_pos (by simpa using Ne.symm h.1), this]

theorem processLabel_eq (f : Format) (s : Str) : processLabel f s = readTag f s := by
  cases f with
  | simple => rfl
  | ptb =>
    simp only [processLabel, readTag, splitFirstIncl_eq]
    cases h : after '-' s with
    | some r => rfl
    | none =>
      have : '-' ∉ s := by intro hm; simp [after, hm] at h
      have hb : before '-' s = s := by
        exact before_of_not_mem this
      simp [hb]
  | tueba =>
    simp only [processLabel, readTag, splitOn_headD, splitOn_second]
    rfl

theorem annotated_eq (a : Option Str) : annotationFeatures a = annotated a := by
  cases a <;> rfl

/-! ## Size of a bracketing -/

/-- Number of nodes. -/
def _root_.Lumberjack.Brackets.size : Brackets → Nat
  | .nil => 0
  | .leaf _ _ r => r.size + 1
  | .node _ k r => k.size + r.size + 1

theorem len_br (p : Pair) (b : Brackets) : (p.br b).len = (p.br .nil).len + b.len := by
  cases p <;> simp [Pair.br, Brackets.len, Nat.add_comm]

theorem size_br (p : Pair) (b : Brackets) : (p.br b).size = (p.br .nil).size + b.size := by
  cases p <;> simp [Pair.br, Brackets.size] <;> omega

theorem forest_br (f : Format) (p : Pair) (b : Brackets) (k : Nat) :
    (p.br b).forest f k = ((p.br .nil).forest f k).append (b.forest f (k + (p.br .nil).len)) := by
  cases p <;> simp [Pair.br, Brackets.forest, Forest.append, Brackets.len]

theorem len_pos {b : Brackets} (h : b.Full) (hb : b ≠ .nil) : 0 < b.len := by
  induction b with
  | nil => exact absurd rfl hb
  | leaf tag w r => simp [Brackets.len]
  | node tag k r ihk =>
    have := ihk h.2.1 h.1
    simp only [Brackets.len]; omega

/-- The edge label of the bracketing of a `Pair`. -/
def edgeOf (f : Format) : Pair → Option Str
  | .pre l _ => (readTag f l).2.1
  | .nont l _ => (readTag f l).2.1

theorem setTop_edgeOf (f : Format) (p : Pair) (k : Nat) :
    ((p.br .nil).forest f k).setTop (edgeOf f p) = (p.br .nil).forest f k := by
  cases p <;> rfl

open Lumberjack.Tree

theorem _root_.Lumberjack.Tree.Lay.append {t : Tree} {F : Forest} : ∀ {par : Option Nat} {G : Forest}
    {ts is ts' is' : List Nat}, t.Lay par F ts is → t.Lay par G ts' is' →
    t.Lay par (F.append G) (ts ++ ts') (is ++ is') := by
  induction F with
  | nil => rintro par G ts is ts' is' ⟨rfl, rfl⟩ h; exact h
  | leaf e x r ih =>
    rintro par G ts is ts' is' ⟨n, ns, is, rfl, rfl, h1, h2, h3, h4⟩ h
    exact ⟨n, _, _, rfl, rfl, h1, h2, h3, ih h4 h⟩
  | node e x k r _ ih =>
    rintro par G ts is ts' is' ⟨n, ns, ks, ik, is, rfl, rfl, h1, h2, h3, h4, h5⟩ h
    exact ⟨n, _, ks, ik, _, rfl, by simp, h1, h2, h3, h4, ih h5 h⟩

theorem _root_.Lumberjack.Tree.Lay.attach {t : Tree} {F : Forest} : ∀ {p : Nat} {ts is : List Nat},
    t.Lay (some p) F ts is → ∀ c ∈ ts, ∃ r ∈ t.graph.edges, r.src = p ∧ r.tgt = c ∧
      ∃ e, r.w = .primary e := by
  induction F with
  | nil => rintro p ts is ⟨rfl, rfl⟩; simp
  | leaf e x r ih =>
    rintro p ts is ⟨n, ns, is, rfl, rfl, h1, ⟨d, hd, h2, h3, h4⟩, -, h5⟩ c hc
    rcases List.mem_cons.1 hc with rfl | hc
    · exact ⟨d, hd, h2, h3, e, h4⟩
    · exact ih h5 c hc
  | node e x k r _ ih =>
    rintro p ts is ⟨n, ns, ks, ik, is, rfl, rfl, h1, ⟨d, hd, h2, h3, h4⟩, -, -, h5⟩ c hc
    rcases List.mem_cons.1 hc with rfl | hc
    · exact ⟨d, hd, h2, h3, e, h4⟩
    · exact ih h5 c hc

/-- The graph agrees with `g` about the nodes `lo ≤ n < hi` and the edges leaving them. -/
def Agrees (t : Tree) (g : Graph) (lo hi : Nat) : Prop :=
  ∀ n, lo ≤ n → n < hi → t.graph.node? n = g.node? n ∧
    ∀ r, r.src = n → (r ∈ t.graph.edges ↔ r ∈ g.edges)

/-- What a parsing step does to the graph `g`: it adds the nodes `N ≤ n < N + size` and edges into
them. -/
structure Grown (g g' : Graph) (size : Nat) (new : List EdgeRec) : Prop where
  ok : g'.OK
  free : g'.freeNodes = []
  length : g'.nodes.length = g.nodes.length + size
  keep : ∀ n, n < g.nodes.length → g'.node? n = g.node? n
  edges : g'.edges = new ++ g.edges
  tgt_nodup : (new.map (·.tgt)).Nodup
  tgt : ∀ r ∈ new, g.nodes.length ≤ r.tgt ∧ r.tgt < g.nodes.length + size

theorem addNode_free {g : Graph} (G : g.OK) (hfree : g.freeNodes = []) (nd : Node) :
    ∃ g1, g.addNode nd = (g1, g.nodes.length) ∧ g1.OK ∧ g1.freeNodes = [] ∧
      g1.nodes.length = g.nodes.length + 1 ∧
      (∀ k, g1.node? k = if k = g.nodes.length then some nd else g.node? k) ∧ g1.edges = g.edges := by
  obtain ⟨-, h2, h3, h4, -, -, -, -, -⟩ := Graph.addNode_spec G nd
  have e : g.addNode nd = ({ g with nodes := g.nodes ++ [some nd] }, g.nodes.length) := by
    unfold Graph.addNode; rw [hfree]
  rw [e] at h2 h3 h4
  exact ⟨_, e, h4, hfree, by simp, h2, h3⟩

theorem OK.src_lt {g : Graph} (G : g.OK) {r : EdgeRec} (h : r ∈ g.edges) : r.src < g.nodes.length :=
  (G.ends r h).1.lt

theorem OK.tgt_lt {g : Graph} (G : g.OK) {r : EdgeRec} (h : r ∈ g.edges) : r.tgt < g.nodes.length :=
  (G.ends r h).2.lt

theorem brs_ne_nil {ps : List Pair} (h : brs ps ≠ .nil) : ps ≠ [] := by
  rintro rfl; exact h rfl

mutual
theorem parseValue_spec (f : Format) : ∀ (p : Pair) (g : Graph) (k : Nat), g.OK → g.freeNodes = [] →
    (p.br .nil).Full →
    ∃ g' new, parseValue f p (g, k) =
        .ok ((⟨k, k + (p.br .nil).len, none⟩, g.nodes.length, .primary (edgeOf f p)),
          (g', k + (p.br .nil).len)) ∧
      Grown g g' (p.br .nil).size new ∧ (∀ r ∈ new, g.nodes.length ≤ r.src) ∧
      (∀ r ∈ new, g.nodes.length < r.tgt) ∧
      g'.Live g.nodes.length ∧
      ∀ (t : Tree) (par : Option Nat) (e : Option Str),
        Agrees t g' g.nodes.length (g.nodes.length + (p.br .nil).size) →
        t.Attach par g.nodes.length e →
        t.Lay par (((p.br .nil).forest f k).setTop e) [g.nodes.length]
          (List.range' g.nodes.length (p.br .nil).size)
  | .pre label form, g, k, G, hfree, hF => by
    obtain ⟨g1, e1, G1, f1, l1, n1, d1⟩ :=
      addNode_free G hfree (.term (Terminal.new form (readTag f label).1 k))
    refine ⟨g1, [], ?_, ⟨G1, f1, l1, ?_, d1, List.nodup_nil, by simp⟩, by simp, by simp, ⟨_, by rw [n1, if_pos rfl]⟩, ?_⟩
    · simp only [parseValue, processLabel_eq, e1]
      rfl
    · intro n hn; rw [n1, if_neg (by omega)]
    · intro t par e ha hat
      refine ⟨_, [], [], rfl, rfl, ?_, hat, ?_, rfl, rfl⟩
      · rw [(ha _ (Nat.le_refl _) (by simp [Pair.br, Brackets.size])).1, n1, if_pos rfl]; rfl
      · rintro c ⟨r, hr, h1, h2, h3⟩
        rw [(ha _ (Nat.le_refl _) (by simp [Pair.br, Brackets.size])).2 r h1, d1] at hr
        have := OK.src_lt G hr
        omega
  | .nont label children, g, k, G, hfree, hF => by
    obtain ⟨g1, e1, G1, f1, l1, n1, d1⟩ :=
      addNode_free G hfree (.nt ⟨(readTag f label).1, annotated (readTag f label).2.2, Span.ofIdx 0⟩)
    obtain ⟨g2, new, tops, e2, R, hs, ht, hl⟩ := parseValues_spec f children g.nodes.length true (0, 0)
      g1 k G1 f1 ⟨_, by rw [n1, if_pos rfl]⟩ hF.2.1
    have hpos := len_pos hF.2.1 hF.1
    rw [if_neg (brs_ne_nil hF.1)] at e2
    have n2 : g2.node? g.nodes.length = some (.nt ⟨(readTag f label).1, annotated (readTag f label).2.2, Span.ofIdx 0⟩) := by
      rw [R.keep _ (by omega), n1, if_pos rfl]
    have hspan : Span.new k (k + (brs children).len) = .ok ⟨k, k + (brs children).len, none⟩ :=
      Span.new_ok (by omega)
    refine ⟨g2.setNode g.nodes.length (.nt ⟨(readTag f label).1, annotated (readTag f label).2.2,
        ⟨k, k + (brs children).len, none⟩⟩), new, ?_, ?_, ?_, ?_, ?_, ?_⟩
    · simp only [parseValue, processLabel_eq, annotated_eq, e1, e2, Res.ok_bind, if_true, hspan, n2,
        Res.ofOption_some, Node.nonterminal, Res.pure_eq]
      simp [Pair.br, Brackets.len, edgeOf]
    · refine ⟨R.ok.setNode ⟨_, n2⟩ _, R.free, ?_, ?_, ?_, R.tgt_nodup, ?_⟩
      · show (g2.nodes.set _ _).length = _
        rw [List.length_set, R.length, l1]; simp only [Pair.br, Brackets.size]; omega
      · intro n hn
        rw [Graph.node?_setNode ⟨_, n2⟩, if_neg (by omega), R.keep _ (by omega), n1, if_neg (by omega)]
      · show g2.edges = _
        rw [R.edges, d1]
      · intro r hr
        have := R.tgt r hr
        simp only [Pair.br, Brackets.size]; omega
    · intro r hr
      rcases hs r hr with h | h <;> omega
    · intro r hr
      have := R.tgt r hr
      omega
    · exact ⟨_, by rw [Graph.node?_setNode ⟨_, n2⟩, if_pos rfl]⟩
    · intro t par e ha hat
      have hsz : (Pair.br (.nont label children) .nil).size = (brs children).size + 1 := by
        simp [Pair.br, Brackets.size]
      rw [hsz] at ha
      have hNi : t.graph.node? g.nodes.length = _ ∧ _ := ha _ (Nat.le_refl _) (by omega)
      have hedges : ∀ r, r.src = g.nodes.length → (r ∈ t.graph.edges ↔ r ∈ new) := by
        intro r hr
        rw [hNi.2 r hr]
        show r ∈ g2.edges ↔ _
        rw [R.edges, List.mem_append, d1]
        refine ⟨fun h => h.resolve_right fun h => ?_, Or.inl⟩
        have := OK.src_lt G h; omega
      have hlay := hl t (by
        intro n h1 h2
        have := ha n (by omega) (by omega)
        rw [Graph.node?_setNode ⟨_, n2⟩, if_neg (by omega)] at this
        exact this) (fun r hr h => (hedges r h).2 hr)
      rw [hsz, List.range'_succ]
      refine ⟨_, [], tops, _, [], rfl, ?_, ?_, hat, ?_, hlay, rfl, rfl⟩
      · rw [l1, List.append_nil]
      · rw [hNi.1, Graph.node?_setNode ⟨_, n2⟩, if_pos rfl]
      · intro c
        constructor
        · rintro ⟨r, hr, h1, h2, h3⟩
          rw [← h2]; exact ht r ((hedges r h1).1 hr) h1
        · intro hc
          obtain ⟨r, hr, h1, h2, e, h3⟩ := hlay.attach c hc
          exact ⟨r, hr, h1, h2, by rw [h3]; rfl⟩
theorem parseValues_spec (f : Format) : ∀ (ps : List Pair) (parent : Nat) (first : Bool)
    (bounds : Nat × Nat) (g : Graph) (k : Nat), g.OK → g.freeNodes = [] → g.Live parent →
    (brs ps).Full →
    ∃ g' new tops, parseValues f parent ps first bounds (g, k) =
        .ok (if ps = [] then bounds else (if first then k else bounds.1, k + (brs ps).len),
          (g', k + (brs ps).len)) ∧
      Grown g g' (brs ps).size new ∧ (∀ r ∈ new, r.src = parent ∨ g.nodes.length ≤ r.src) ∧
      (∀ r ∈ new, r.src = parent → r.tgt ∈ tops) ∧
      ∀ (t : Tree), Agrees t g' g.nodes.length (g.nodes.length + (brs ps).size) →
        (∀ r ∈ new, r.src = parent → r ∈ t.graph.edges) →
        t.Lay (some parent) ((brs ps).forest f k) tops
          (List.range' g.nodes.length (brs ps).size)
  | [], parent, first, bounds, g, k, G, hfree, hp, hF => by
    refine ⟨g, [], [], rfl, ⟨G, hfree, rfl, fun _ _ => rfl, rfl, List.nodup_nil, by simp⟩, by simp,
      by simp, fun t _ _ => ⟨rfl, rfl⟩⟩
  | p :: ps, parent, first, bounds, g, k, G, hfree, hp, hF => by
    have hplt := hp.lt
    rw [brs, full_br] at hF
    obtain ⟨g1, new1, e1, R1, s1, t1, lv, lay1⟩ := parseValue_spec f p g k G hfree hF.1
    obtain ⟨ndp, hndp⟩ := hp
    obtain ⟨g2, e, e2, d2, n2, f2, -, G2⟩ := Graph.addEdge_spec R1.ok (a := parent) (b := g.nodes.length)
      ⟨ndp, by rw [R1.keep _ hplt]; exact hndp⟩ lv (.primary (edgeOf f p))
    have nd2 : ∀ n, g2.node? n = g1.node? n := fun n => by unfold Graph.node?; rw [n2]
    have len2 : g2.nodes.length = g.nodes.length + (p.br .nil).size := by rw [n2, R1.length]
    obtain ⟨g3, new3, tops, e3, R3, s3, t3, lay3⟩ := parseValues_spec f ps parent false
      (if first then k else bounds.1, k + (p.br .nil).len) g2 (k + (p.br .nil).len) G2 (by rw [f2, R1.free])
      ⟨ndp, by rw [nd2, R1.keep _ hplt]; exact hndp⟩ hF.2
    have hs1 : 0 < (p.br .nil).size := by cases p <;> simp [Pair.br, Brackets.size]
    refine ⟨g3, new3 ++ (⟨e, parent, g.nodes.length, .primary (edgeOf f p)⟩ :: new1), g.nodes.length :: tops,
      ?_, ⟨R3.ok, R3.free, ?_, ?_, ?_, ?_, ?_⟩, ?_, ?_, ?_⟩
    · simp only [parseValues, e1, e2, e3, Res.ok_bind, brs]
      rw [len_br p (brs ps), if_neg (List.cons_ne_nil p ps)]
      by_cases hps : ps = []
      · subst hps; simp [brs, Brackets.len]
      · simp [hps, Nat.add_assoc]
    · rw [R3.length, len2, brs, size_br p (brs ps)]; omega
    · intro n hn
      rw [R3.keep _ (by omega), nd2, R1.keep _ hn]
    · rw [R3.edges, d2, R1.edges]; simp
    · rw [List.map_append, List.map_cons, List.nodup_append, List.nodup_cons]
      refine ⟨R3.tgt_nodup, ⟨?_, R1.tgt_nodup⟩, ?_⟩
      · intro h
        obtain ⟨r, hr, he⟩ := List.mem_map.1 h
        have := t1 r hr
        exact absurd he (by show r.tgt ≠ g.nodes.length; omega)
      · intro a ha b hb
        obtain ⟨r, hr, rfl⟩ := List.mem_map.1 ha
        have h1 := R3.tgt r hr
        rcases List.mem_cons.1 hb with rfl | hb
        · show r.tgt ≠ g.nodes.length; omega
        · obtain ⟨r', hr', rfl⟩ := List.mem_map.1 hb
          have h2 := R1.tgt r' hr'
          omega
    · intro r hr
      rw [brs, size_br p (brs ps)]
      rcases List.mem_append.1 hr with hr | hr
      · have := R3.tgt r hr; omega
      · rcases List.mem_cons.1 hr with rfl | hr
        · exact ⟨Nat.le_refl _, by show g.nodes.length < _; omega⟩
        · have := R1.tgt r hr; omega
    · intro r hr
      rcases List.mem_append.1 hr with hr | hr
      · rcases s3 r hr with h | h
        · exact .inl h
        · right; omega
      · rcases List.mem_cons.1 hr with rfl | hr
        · exact .inl rfl
        · exact .inr (s1 r hr)
    · intro r hr hsrc
      rcases List.mem_append.1 hr with hr | hr
      · exact List.mem_cons_of_mem _ (t3 r hr hsrc)
      · rcases List.mem_cons.1 hr with rfl | hr
        · exact List.mem_cons_self
        · have := s1 r hr; omega
    · intro t ha hed
      rw [brs, size_br p (brs ps)] at ha
      have h1 := lay1 t (some parent) (edgeOf f p) (by
        intro n hn1 hn2
        obtain ⟨a1, a2⟩ := ha n hn1 (by omega)
        refine ⟨by rw [a1, R3.keep _ (by omega), nd2], fun r hr => ?_⟩
        rw [a2 r hr, R3.edges, d2, List.mem_append, List.mem_cons]
        constructor
        · rintro (h | rfl | h)
          · rcases s3 r h with h | h <;> omega
          · simp only at hr; omega
          · exact h
        · exact fun h => .inr (.inr h)) ⟨_, hed _ (List.mem_append_right _ List.mem_cons_self) rfl, rfl, rfl, rfl⟩
      rw [setTop_edgeOf] at h1
      have h2 := lay3 t (by
        intro n hn1 hn2
        exact ha n (by omega) (by omega)) (fun r hr h => hed r (List.mem_append_left _ hr) h)
      have h3 := h1.append h2
      rw [brs, forest_br f p (brs ps), size_br p (brs ps)]
      rw [len2] at h3
      rw [← List.range'_append_1]
      exact h3
end

theorem forest_leaves {f : Format} {b : Brackets} : ∀ {k : Nat},
    (b.forest f k).leaves.map (·.form) = b.words ∧ (b.forest f k).leaves.length = b.len := by
  induction b with
  | nil => intro k; exact ⟨rfl, rfl⟩
  | leaf tag w r ih =>
    intro k
    simp only [Brackets.forest, Forest.leaves, List.map_cons, List.length_cons, Brackets.words, Brackets.len,
      (ih (k := k + 1)).1, (ih (k := k + 1)).2, and_self]
  | node tag ks r ihk ih =>
    intro k
    simp only [Brackets.forest, Forest.leaves, List.map_append, List.length_append, Brackets.words,
      Brackets.len, (ih (k := k + ks.len)).1, (ih (k := k + ks.len)).2, (ihk (k := k)).1, (ihk (k := k)).2, and_self]

theorem forest_seq {f : Format} {b : Brackets} : ∀ {k : Nat}, b.Full → (b.forest f k).Seq k := by
  induction b with
  | nil => intro k _; trivial
  | leaf tag w r ih => intro k h; exact ⟨rfl, ih h⟩
  | node tag ks r ihk ih =>
    intro k h
    have hl := (forest_leaves (f := f) (b := ks) (k := k)).2
    refine ⟨?_, by rw [hl], ihk h.2.1, by rw [hl]; exact ih h.2.2⟩
    cases ks with
    | nil => exact absurd rfl h.1
    | leaf => simp [Brackets.forest]
    | node => simp [Brackets.forest]

theorem setTop_seq {e : Option Str} {F : Forest} {k : Nat} (h : F.Seq k) : (F.setTop e).Seq k := by
  cases F with
  | nil => exact h
  | leaf => exact h
  | node => exact h

theorem setTop_leaves (e : Option Str) (F : Forest) : (F.setTop e).leaves = F.leaves := by
  cases F <;> rfl

/-- Parsing a bracketing gives a well-formed projective tree standing for what the bracketing says. -/
theorem stringToTree_ok {f : Format} {s : Str} {b : Brackets} (h : Reads s b) (hb : b.Single) :
    ∃ t, stringToTree f s = .ok (.ok t) ∧ t.WF ∧ t.isProjective = true ∧
      t.Is ((b.forest f 0).setTop none) := by
  obtain ⟨p, hp, rfl⟩ := parsePairs_complete h hb
  have hF := (reads_toks h []).2
  have G0 : Graph.empty.OK := by
    constructor <;> simp [Graph.empty]
  obtain ⟨g, new, e1, R, s1, t1, lv, lay⟩ := parseValue_spec f p Graph.empty 0 G0 rfl hF
  have hed : g.edges = new := by rw [R.edges]; simp [Graph.empty]
  have hlen : g.nodes.length = (p.br .nil).size := by rw [R.length]; simp [Graph.empty]
  refine ⟨⟨g, 0 + (p.br .nil).len, 0, 0⟩, ?_, ?_⟩
  · unfold stringToTree
    rw [hp]
    simp only [e1, Res.ok_bind]
    rfl
  · have hl := lay ⟨g, 0 + (p.br .nil).len, 0, 0⟩ none none (fun n _ _ => ⟨rfl, fun r _ => Iff.rfl⟩) rfl
    refine wf_of_seq R.ok hl List.nodup_range' ?_ ?_ (setTop_seq (forest_seq hF)) ?_ rfl
    · intro n hn
      have := hn.lt
      rw [List.mem_range'_1]
      simp only [Graph.empty, List.length_nil]
      simp only at this
      omega
    · intro r hr r' hr' _ ht _ _
      have hr : r ∈ new := by rw [← hed]; exact hr
      have hr' : r' ∈ new := by rw [← hed]; exact hr'
      exact List.inj_on_of_nodup_map R.tgt_nodup hr hr' ht
    · rw [setTop_leaves, (forest_leaves).2, Nat.zero_add]

theorem stringToTree_err {f : Format} {s : Str} (h : ¬ ∃ b, b.Single ∧ Reads s b) :
    stringToTree f s = .ok (.error (.parse 10)) := by
  unfold stringToTree
  cases hp : parsePairs s with
  | none => rfl
  | some p => exact absurd ⟨_, single_br p, parsePairs_sound hp⟩ h

theorem reads_unique {s : Str} {b b' : Brackets} (h : Reads s b) (h' : Reads s b') (hb : b.Single)
    (hb' : b'.Single) : b = b' := by
  obtain ⟨p, h1, rfl⟩ := parsePairs_complete h hb
  obtain ⟨p', h2, rfl⟩ := parsePairs_complete h' hb'
  rw [h1] at h2; simp at h2; rw [h2]

end Ptb
end Lumberjack
