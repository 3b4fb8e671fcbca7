import Verif.Proofs.AlikeMods
import Verif.Proofs.ConvertRun
import Verif.Proofs.ConvertRead
import Verif.Props.ProjectivizeOrder

/-!
# The conversion tool and the order of hash sets
-/

namespace Lumberjack

open Lumberjack.Tree

variable {t u : Tree}

/-! ### Writers -/

namespace Tree

/-- The first secondary edge into a node. -/
def secRec (t : Tree) (n : Nat) : Option EdgeRec := (t.graph.inEdges n).find? fun r => !r.w.isPrimary

theorem secondaryParent_eq (t : Tree) (n : Nat) : t.secondaryParent n = (t.secRec n).map fun r => (r.src, r.id) := rfl

theorem secRec_mem {n : Nat} {r : EdgeRec} (h : t.secRec n = some r) : r ∈ t.graph.edges :=
  (List.mem_filter.1 (List.mem_of_find?_eq_some h)).1

theorem Alike.secRec (h : Alike t u) (n : Nat) :
    (t.secRec n).map (fun r => (r.src, r.w)) = (u.secRec n).map fun r => (r.src, r.w) := by
  have key : ∀ t : Tree, (t.secRec n).map (fun r => (r.src, r.w)) = (t.graph.into n).find? fun x => !x.2.isPrimary := by
    intro t
    unfold Tree.secRec Graph.into
    rw [List.find?_map]; rfl
  rw [key, key, h.graph.into]

theorem edge_eq (G : t.graph.OK) {r : EdgeRec} (hr : r ∈ t.graph.edges) : t.edge r.id = .ok r.w := by
  unfold Tree.edge
  rw [(Graph.edge?_eq G).2 ⟨hr, rfl⟩]
  rfl

theorem Alike.all_children (h : Alike t u) (p : Nat) (f : Nat → Bool) :
    (t.children p).all (fun c => f c.1) = (u.children p).all (fun c => f c.1) := by
  have := h.children p
  rw [Bool.eq_iff_iff, List.all_eq_true, List.all_eq_true]
  constructor
  · intro hh c hc
    obtain ⟨d, hd, e⟩ := List.mem_map.1 (this.mem_iff.2 (List.mem_map.2 ⟨c, hc, rfl⟩))
    rw [← e]; exact hh d hd
  · intro hh c hc
    obtain ⟨d, hd, e⟩ := List.mem_map.1 (this.mem_iff.1 (List.mem_map.2 ⟨c, hc, rfl⟩))
    rw [← e]; exact hh d hd

end Tree

namespace Negra

theorem alike_parentEdgeRep (h : Alike t u) (ids : List (Nat × Str)) (n : Nat) :
    parentEdgeRep t ids n = parentEdgeRep u ids n := by
  unfold parentEdgeRep
  rw [parent_eq, parent_eq, secondaryParent_eq, secondaryParent_eq]
  have hp := h.graph.parentRec n
  have hs := h.secRec n
  cases h1 : t.graph.parentRec n with
  | none =>
    rw [h1] at hp
    cases h2 : u.graph.parentRec n with
    | none => rfl
    | some r => rw [h2] at hp; cases hp
  | some r =>
    rw [h1] at hp
    cases h2 : u.graph.parentRec n with
    | none => rw [h2] at hp; cases hp
    | some r' =>
      rw [h2] at hp
      simp only [Option.map_some, Option.some.injEq, Prod.mk.injEq] at hp
      simp only [Option.map_some, Res.ofOption_some, Res.ok_bind, edge_eq h.graph.left (Graph.parentRec_mem h1).1,
        edge_eq h.graph.right (Graph.parentRec_mem h2).1, hp.1, hp.2]
      cases h3 : t.secRec n with
      | none =>
        rw [h3] at hs
        cases h4 : u.secRec n with
        | none => rfl
        | some s => rw [h4] at hs; cases hs
      | some s =>
        rw [h3] at hs
        cases h4 : u.secRec n with
        | none => rw [h4] at hs; cases hs
        | some s' =>
          rw [h4] at hs
          simp only [Option.map_some, Option.some.injEq, Prod.mk.injEq] at hs
          simp only [Option.map_some, edge_eq h.graph.left (secRec_mem h3), edge_eq h.graph.right (secRec_mem h4),
            Res.ok_bind, hs.1, hs.2]

theorem alike_initialQueue (h : Alike t u) : ∀ ns, initialQueue t ns = initialQueue u ns := by
  intro ns
  induction ns with
  | nil => rfl
  | cons n ns ih =>
    unfold initialQueue
    rcases (h.parent n).cases with ⟨h1, h2⟩ | ⟨p, e, e', h1, h2⟩
    · simp only [h1, h2, ih]
    · simp only [h1, h2, ih, h.node?]
      rw [h.all_children p fun k => (u.graph.node? k).any Node.isTerminal]

theorem alike_numberStep (h : Alike t u) (s : NumState) : numberStep t s = numberStep u s := by
  unfold numberStep
  cases s.queue with
  | nil => rfl
  | cons n q =>
    simp only [h.root]
    split
    · rfl
    · rcases (h.parent n).cases with ⟨h1, h2⟩ | ⟨p, e, e', h1, h2⟩
      · simp only [h1, h2]
      · simp only [h1, h2]
        rw [h.all_children p fun k => decide (k ∈ insert n s.visited)]

theorem alike_number (h : Alike t u) (ns : List Nat) : number t ns = number u ns := by
  unfold number
  rw [alike_initialQueue h, h.graph.nodes, h.root, show numberStep t = numberStep u from funext (alike_numberStep h)]

theorem alike_terminalLines (h : Alike t u) (ids : List (Nat × Str)) : ∀ ns, terminalLines t ids ns = terminalLines u ids ns := by
  intro ns
  induction ns with
  | nil => rfl
  | cons n ns ih => unfold terminalLines; rw [h.node, ih, alike_parentEdgeRep h]

theorem alike_nonterminalLines (h : Alike t u) (ids : List (Nat × Str)) :
    ∀ ns, nonterminalLines t ids ns = nonterminalLines u ids ns := by
  intro ns
  induction ns with
  | nil => rfl
  | cons n ns ih => unfold nonterminalLines; rw [h.node, ih, alike_parentEdgeRep h]

/-- Twins have the same NEGRA text. -/
theorem alike_writeTree (h : Alike t u) (counter : Nat) : writeTree counter t = writeTree counter u := by
  unfold writeTree sentenceId
  rw [h.root, h.node, h.sortIndices, h.terminals]
  simp only [alike_number h, alike_terminalLines h, alike_nonterminalLines h]

end Negra

namespace Conllx

theorem alike_terminalsOf (h : Alike t u) : ∀ ns, terminalsOf t ns = terminalsOf u ns := by
  intro ns
  induction ns with
  | nil => rfl
  | cons n ns ih => unfold terminalsOf; rw [h.node, ih]

theorem alike_toConllx (h : Alike t u) : toConllx t = toConllx u := by
  unfold toConllx
  rw [h.sortIndices, h.terminals, alike_terminalsOf h]

end Conllx

namespace Ptb

theorem pair_treeToString (h : Tree.Pair t u) (f : Format) : treeToString f t = treeToString f u := by
  cases hp : t.isProjective with
  | false =>
    have hp' : u.isProjective = false := by rw [← h.alike.isProjective]; exact hp
    unfold treeToString
    rw [hp, hp']
    rfl
  | true =>
    have hp' : u.isProjective = true := by rw [← h.alike.isProjective]; exact hp
    obtain ⟨F, hF⟩ := h.left.is_exists
    obtain ⟨s, h1, h2⟩ := Props.C44_text t h.left hp F hF f
    obtain ⟨s', h3, h4⟩ := Props.C44_text u h.right hp' F ((h.alike.twin.is F).1 hF) f
    rw [h2] at h4
    simp only [List.cons.injEq, and_true] at h4
    rw [h1, h3, h4]

end Ptb

namespace Convert

theorem pair_write (h : Pair t u) (out : OutFormat) (counter : Nat) : write out counter t = write out counter u := by
  unfold write writePtb
  simp only [Negra.alike_writeTree h.alike, Conllx.alike_toConllx h.alike, Ptb.pair_treeToString h]

/-! ### Steps -/

/-- The same error, or twins. -/
inductive Both : Except Err Tree → Except Err Tree → Prop
  | error (e : Err) : Both (.error e) (.error e)
  | ok {t u : Tree} : Pair t u → Both (.ok t) (.ok u)

theorem Both.stepIf {x y : Except Err Tree} (h : Both x y) (b : Bool) {f g : Tree → Res (Except Err Tree)}
    (hf : ∀ t u, Pair t u → Rel Both (f t) (g u)) : Rel Both (stepIf b f x) (stepIf b g y) := by
  unfold Convert.stepIf
  cases h with
  | error e => exact .ok (.error e)
  | ok h =>
    simp only
    split
    · exact hf _ _ h
    · exact .ok (.ok h)

theorem Both.orExit {α : Type} {x y : Tree × Except Err α} (h : Same Pair x y) : Both (orExit x) (orExit y) := by
  obtain ⟨t, r⟩ := x
  obtain ⟨u, r'⟩ := y
  obtain ⟨h1, h2⟩ := h
  simp only at h1 h2
  subst h2
  unfold Convert.orExit
  cases r with
  | ok a => exact .ok h1
  | error e => exact .error e

theorem Both.projectivize {pick pick' : Tree → Finset Nat → Option Nat} (hp : IsOrder pick) (hp' : IsOrder pick') (o : Options)
    {x : Except Err Tree} (hx : ∀ t, x = .ok t → t.WF) :
    Rel Both (stepProjectivize pick o x) (stepProjectivize pick' o x) := by
  unfold stepProjectivize Convert.stepIf
  cases x with
  | error e => exact .ok (.error e)
  | ok t =>
    have W := hx t rfl
    have hr : Pair t t := ⟨(Twin.refl t).alike W.graph W.graph, W, W⟩
    simp only
    split
    · intro v w hv hw
      obtain ⟨⟨a, l⟩, h1, hv⟩ := Res.bind_eq_ok.1 hv
      obtain ⟨⟨b, l'⟩, h2, hw⟩ := Res.bind_eq_ok.1 hw
      by_cases hproj : t.isProjective = true
      · unfold Tree.projectivize at h1 h2
        simp only [hproj, Bool.not_true, Bool.false_eq_true, if_false, Res.pure_eq, Res.ok.injEq, Prod.mk.injEq] at h1 h2
        obtain ⟨rfl, rfl⟩ := h1
        obtain ⟨rfl, rfl⟩ := h2
        simp only [Res.pure_eq, Res.ok.injEq] at hv hw
        subst hv hw
        exact .ok hr
      · have hs : ∀ {pick a l}, t.projectivize pick = .ok (a, l) → ∃ log, l = some log := by
          intro pick a l h
          unfold Tree.projectivize at h
          simp only [hproj, Bool.not_false, if_true] at h
          obtain ⟨⟨_, log⟩, _, h⟩ := Res.bind_eq_ok.1 h
          simp only [Res.pure_eq, Res.ok.injEq, Prod.mk.injEq] at h
          exact ⟨log, h.2.symm⟩
        obtain ⟨log, rfl⟩ := hs h1
        obtain ⟨log', rfl⟩ := hs h2
        obtain ⟨k1, k2⟩ := projectivize_order hp hp' W h1 h2
        have W1 := (Props.projectivize_wf W hp h1).1
        have W2 := (Props.projectivize_wf W hp' h2).1
        have P : Pair a b := ⟨k1.alike W1.graph W2.graph, W1, W2⟩
        simp only at hv hw
        split at hv
        · rename_i hsec
          rw [if_pos hsec] at hw
          obtain ⟨a', h3, hv⟩ := Res.bind_eq_ok.1 hv
          obtain ⟨b', h4, hw⟩ := Res.bind_eq_ok.1 hw
          simp only [Res.pure_eq, Res.ok.injEq] at hv hw
          subst hv hw
          exact .ok (addMoves_pair P k2 h3 h4)
        · rename_i hsec
          rw [if_neg hsec] at hw
          simp only [Res.pure_eq, Res.ok.injEq] at hv hw
          subst hv hw
          exact .ok P
    · exact .ok (.ok hr)

theorem Both.pos {x y : Except Err Tree} (h : Both x y) (tags : Option PosItem) : Rel Both (stepPos tags x) (stepPos tags y) := by
  refine h.stepIf _ fun t u h => ?_
  cases tags.getD (.ok []) with
  | error e => exact .ok (.error e)
  | ok l =>
    refine (h.annotatePos l).bind fun a b hab => ?_
    exact .ok (.orExit hab)

theorem Both.reattach {x y : Except Err Tree} (h : Both x y) (o : Options) : Rel Both (stepReattach o x) (stepReattach o y) := by
  refine h.stepIf _ fun t u h => ?_
  refine (h.reattachTerminals ?_).bind fun a b hab => .ok (.ok hab)
  intro a b n hab
  rw [hab.node?]

theorem Both.ids {x y : Except Err Tree} (h : Both x y) (o : Options) : Rel Both (stepIds o x) (stepIds o y) := by
  refine h.stepIf _ fun t u h => ?_
  refine (h.projectIds _ ?_).bind fun a b hab => .ok (.ok hab)
  intro a b n hab
  rw [hab.node?, hab.root]

theorem Both.filter {x y : Except Err Tree} (h : Both x y) (o : Options) : Rel Both (stepFilter o x) (stepFilter o y) := by
  refine h.stepIf _ fun t u h => ?_
  refine (h.filterNonterminals ?_).bind fun a b hab => .ok (.orExit hab)
  intro a b n hab
  rw [hab.node?]

theorem Both.insert {x y : Except Err Tree} (h : Both x y) (o : Options) : Rel Both (stepInsert o x) (stepInsert o y) := by
  refine h.stepIf _ fun t u h => ?_
  refine (h.insertIntermediate ?_).bind fun a b hab => .ok (.orExit hab)
  intro a b n hab
  rw [hab.node?]

theorem Both.parent {x y : Except Err Tree} (h : Both x y) (o : Options) : Rel Both (stepParent o x) (stepParent o y) := by
  refine h.stepIf _ fun t u h => ?_
  exact (h.annotateParentTag _).bind fun a b hab => .ok (.orExit hab)

theorem Both.encode {x y : Except Err Tree} (h : Both x y) (o : Options) : Rel Both (stepEncode o x) (stepEncode o y) := by
  refine h.stepIf _ fun t u h => ?_
  refine (h.collapseUnaryChains _).bind fun a b hab => ?_
  split
  · exact hab.annotateAbsolute.bind fun a b hab => .ok (.orExit hab)
  · exact hab.annotateRelative.bind fun a b hab => .ok (.orExit hab)

theorem process_order {pick pick' : Tree → Finset Nat → Option Nat} (hp : IsOrder pick) (hp' : IsOrder pick') (o : Options)
    (tags : Option PosItem) (S : Suits o t) : Rel Both (process pick o tags t) (process pick' o tags t) := by
  obtain ⟨t', h1, _, h2⟩ := stepDummies_spec o S.fit (S.words.imp id fun h => h.1)
  unfold process
  rw [h1]
  simp only [Res.ok_bind]
  refine (Both.projectivize hp hp' o (by rintro t ⟨⟩; exact h2.fit.wf)).bind fun x y h => ?_
  refine (h.pos tags).bind fun x y h => ?_
  refine (h.reattach o).bind fun x y h => ?_
  refine (h.ids o).bind fun x y h => ?_
  refine (h.filter o).bind fun x y h => ?_
  refine (h.insert o).bind fun x y h => ?_
  refine (h.parent o).bind fun x y h => ?_
  exact h.encode o

theorem convertTree_order {pick pick' : Tree → Finset Nat → Option Nat} (hp : IsOrder pick) (hp' : IsOrder pick') (o : Options)
    (tags : Option PosItem) (counter : Nat) (S : Suits o t) :
    Rel Eq (convertTree pick o tags counter t) (convertTree pick' o tags counter t) := by
  unfold convertTree
  refine (process_order hp hp' o tags S).bind fun x y h => ?_
  cases h with
  | error e => exact .ok rfl
  | ok h =>
    simp only [pair_write h]
    exact .rfl

/-- Converting a tree the tool can handle returns. -/
theorem convertTree_returns {pick : Tree → Finset Nat → Option Nat} (hp : IsOrder pick) (o : Options)
    (tags : Option PosItem) (counter : Nat) (S : Suits o t) : ∃ r, convertTree pick o tags counter t = .ok r := by
  have stop : ∀ e, process pick o tags t = .ok (.error e) → ∃ r, convertTree pick o tags counter t = .ok r := by
    intro e h
    unfold convertTree
    rw [h]
    exact ⟨_, rfl⟩
  have go : ∀ l : Option (List Str), tags = l.map .ok → (∀ k, l = some k → k.length = t.nTerminals) →
      ∃ r, convertTree pick o tags counter t = .ok r := by
    rintro l rfl hl
    obtain ⟨_, _, _, _, ⟨_, _, _, h⟩ | ⟨_, _, h⟩⟩ := convertTree_spec hp o l counter S hl
    · exact ⟨_, h⟩
    · exact ⟨_, h⟩
  cases tags with
  | none => exact go none rfl (by simp)
  | some p =>
    cases p with
    | error e => exact stop _ (process_posError hp o _ S)
    | ok l =>
      by_cases hl : l.length = t.nTerminals
      · exact go (some l) rfl (by rintro k ⟨⟩; exact hl)
      · exact stop _ (process_tags hp o l S hl)

theorem convertTree_eq {pick pick' : Tree → Finset Nat → Option Nat} (hp : IsOrder pick) (hp' : IsOrder pick') (o : Options)
    (tags : Option PosItem) (counter : Nat) (S : Suits o t) :
    convertTree pick o tags counter t = convertTree pick' o tags counter t := by
  obtain ⟨r, h1⟩ := convertTree_returns hp o tags counter S
  obtain ⟨r', h2⟩ := convertTree_returns hp' o tags counter S
  rw [h1, h2, convertTree_order hp hp' o tags counter S r r' h1 h2]

theorem loop_eq {pick pick' : Tree → Finset Nat → Option Nat} (hp : IsOrder pick) (hp' : IsOrder pick') (f : InFormat)
    (multiline : Bool) (o : Options) {src : Source} {items : List (Except Err Tree)} {b : Bool} (h : Stream f multiline src items b) :
    ∀ (pos : Option (List PosItem)) (c fuel : Nat), (∀ t, .ok t ∈ items → Suits o t) →
      loop f multiline pick o fuel src pos c = loop f multiline pick' o fuel src pos c := by
  induction h with
  | @stop src src' hn =>
    intro pos c fuel _
    cases fuel with
    | zero => rfl
    | succ k => unfold loop; rw [hn]
  | @crash src hn =>
    intro pos c fuel _
    cases fuel with
    | zero => rfl
    | succ k => unfold loop; rw [hn]
  | @item src src' r rs b hn hs ih =>
    intro pos c fuel hS
    cases fuel with
    | zero => rfl
    | succ k =>
      unfold loop
      rw [hn]
      cases r with
      | error e => rfl
      | ok t =>
        simp only [convertTree_eq hp hp' o _ c (hS t (by simp))]
        cases convertTree pick' o (nextPos pos).1 c t with
        | panic => rfl
        | diverge => rfl
        | ok x =>
          cases x with
          | error e => rfl
          | ok w => simp only [ih _ _ _ fun t ht => hS t (by simp [ht])]

end Convert
end Lumberjack
