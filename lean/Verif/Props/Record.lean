import Verif.Proofs.Record
import Verif.Props.Undo

/-!
# Recorded moves keep the original tree (C85)
-/

namespace Lumberjack
namespace Props

open Lumberjack.Tree Lumberjack.Convert

/-- C85: `--projectivize --sec_edges` loses nothing of a tree without secondary edges in which no node is moved twice:
the result has the same nodes, and the parent and label of every node before can be told from it. A node was
attached by the edge that its secondary edge names, or by the primary edge it still has. -/
theorem C85_recorded (t : Tree) (W : t.WF) (hs : t.NoSecondary) (pick : Tree → Finset Nat → Option Nat)
    (hpick : IsOrder pick) (hm : MovedOnce pick t) :
    ∃ t', process pick recording none t = .ok (.ok t') ∧ t'.WF ∧ (∀ n, t'.Live n → t'.Gapless n) ∧
      (∀ n, t'.content n = t.content n) ∧ (∀ n i, t'.TermAt n i ↔ t.TermAt n i) ∧ t'.root = t.root ∧
      ∀ p n l, t.Link p n (.primary l) ↔ t'.Recalls p n l := by
  obtain ⟨t', K⟩ := kept_of W hpick hs hm
  exact ⟨t', K.run, K.wf, K.gapless, K.content, K.termAt, K.root, K.link⟩

/-- C85: and nothing is lost in the NEGRA file written: the tree read from it recalls the tree written. -/
theorem C85_read_back (t : Tree) (E : Negra.Exportable t) (hs : t.NoSecondary) (pick : Tree → Finset Nat → Option Nat)
    (hpick : IsOrder pick) (hm : MovedOnce pick t) (c id : Nat) (info : Option Str) (H : Negra.Head t c id info) :
    ∃ s c' r φ, convertTree pick recording none c t = .ok (.ok (.text s, c')) ∧
      Negra.readAll ((Negra.lines s).length + 1) (Negra.lines s) = .ok [.ok r] ∧ r.WF ∧
      (∀ n, r.Live n → r.Gapless n) ∧ Recalled t r φ ∧
      ∃ x, r.graph.node? r.root = some (.nt x) ∧ x.label = "VROOT".toList ∧
        x.features = some (Negra.headFeatures id info) := by
  obtain ⟨t', K⟩ := kept_of E.wf hpick hs hm
  obtain ⟨text, ts', h1, h2, h3, h4⟩ := C48_file [t'] (fun _ => id) (fun _ => info) c (fun i u hu => by
    cases i with
    | succ i => simp at hu
    | zero =>
      simp only [List.getElem?_cons_zero, Option.some.injEq] at hu
      subst hu
      exact ⟨K.exportable E, by simpa using K.head E.root H⟩)
  match ts', h3 with
  | [r], _ =>
    obtain ⟨φ, C⟩ := h4 0 t' r rfl rfl
    rw [Negra.writeTrees] at h1
    obtain ⟨⟨s, c'⟩, k1, k2⟩ := Res.bind_eq_ok.1 h1
    simp only [Negra.writeTrees, Res.ok_bind, Res.pure_eq, List.append_nil, Res.ok.injEq] at k2
    subst k2
    obtain ⟨x, hx, hr⟩ := C.root_node
    refine ⟨s, c', r, φ, ?_, h2, C.wf, ?_, K.recalled E.wf C, _, hr, rfl, rfl⟩
    · unfold convertTree
      rw [K.run]
      show (do let (s, c) ← Negra.writeTree c t'; _) = _
      rw [k1]
      rfl
    · intro n' hn'
      obtain ⟨n, hn, rfl⟩ := C.onto n' hn'
      intro a b d ha hb h1 h2
      rw [K.copy_covers C hn] at ha hb ⊢
      exact K.gapless n hn a b d ha hb h1 h2

/-- C85: so two trees with the same text under `--projectivize --sec_edges` have the same text without. -/
theorem C85_injective (t u : Tree) (Et : Negra.Exportable t) (Eu : Negra.Exportable u) (hst : t.NoSecondary)
    (hsu : u.NoSecondary) (pick : Tree → Finset Nat → Option Nat) (hpick : IsOrder pick) (hmt : MovedOnce pick t)
    (hmu : MovedOnce pick u) (c d id id' : Nat) (info info' : Option Str) (Ht : Negra.Head t c id info)
    (Hu : Negra.Head u d id' info') (s : Str) (c' d' : Nat)
    (h : convertTree pick recording none c t = .ok (.ok (.text s, c')))
    (h' : convertTree pick recording none d u = .ok (.ok (.text s, d'))) :
    ∃ text c'' d'', convertTree pick (plain .negra) none c t = .ok (.ok (.text text, c'')) ∧
      convertTree pick (plain .negra) none d u = .ok (.ok (.text text, d'')) := by
  obtain ⟨s1, _, r1, φ, a1, a2, _, _, R, x, x1, _, x2⟩ := C85_read_back t Et hst pick hpick hmt c id info Ht
  obtain ⟨s2, _, r2, ψ, b1, b2, _, _, S, y, y1, _, y2⟩ := C85_read_back u Eu hsu pick hpick hmu d id' info' Hu
  rw [h] at a1
  rw [h'] at b1
  simp only [Res.ok.injEq, Except.ok.injEq, Prod.mk.injEq, Written.text.injEq] at a1 b1
  obtain ⟨rfl, _⟩ := a1
  obtain ⟨rfl, _⟩ := b1
  rw [a2] at b2
  simp only [Res.ok.injEq, List.cons.injEq, Except.ok.injEq, and_true] at b2
  subst b2
  rw [x1] at y1
  simp only [Option.some.injEq, Node.nt.injEq] at y1
  subst y1
  rw [x2] at y2
  simp only [Option.some.injEq] at y2
  obtain ⟨f1, f2⟩ := Negra.featOf_headFeatures id info
  obtain ⟨g1, g2⟩ := Negra.featOf_headFeatures id' info'
  rw [y2] at f1 f2
  have e1 : natToStr id = natToStr id' := by simpa using f1.symm.trans g1
  have e2 : info = info' := f2.symm.trans g2
  obtain ⟨θ, B⟩ := recalled_body R S Et.wf Eu.wf hst hsu Eu.root
  obtain ⟨ls, hw⟩ := B.writeTree Et.wf Et.root Et.sources c d
  have w1 := hw t c (.inl ⟨rfl, rfl⟩)
  have w2 := hw u d (.inr ⟨rfl, rfl⟩)
  have n1 : (Negra.featOf (Negra.rootFeatures t) Negra.sentenceIdKey).getD (natToStr c) = natToStr id := Ht.number
  have n2 : (Negra.featOf (Negra.rootFeatures u) Negra.sentenceIdKey).getD (natToStr d) = natToStr id' := Hu.number
  have m1 : Negra.featOf (Negra.rootFeatures t) Negra.metadataKey = info := Ht.metadata
  have m2 : Negra.featOf (Negra.rootFeatures u) Negra.metadataKey = info' := Hu.metadata
  rw [n1, m1] at w1
  rw [n2, m2, ← e1, ← e2] at w2
  have hp : ∀ (v : Tree) (k : Nat), convertTree pick (plain .negra) none k v =
      (do let (s, c) ← Negra.writeTree k v; return .ok (.text s, c)) := fun v k => rfl
  exact ⟨_, _, _, by rw [hp, w1]; rfl, by rw [hp, w2]; rfl⟩

/-! ## The hypotheses are met -/

/-- A tree with a gap: the word in it is attached to the root by an edge with a label. -/
def apart : Tree :=
  ⟨⟨[Examples.tm "a" "X" 0, Examples.tm "b" "Y" 1, Examples.tm "c" "Z" 2,
      some (.nt ⟨"A".toList, none, ⟨0, 3, some {1}⟩⟩), some (.nt ⟨"VROOT".toList, none, ⟨0, 3, none⟩⟩)],
    [], [⟨3, 4, 1, .primary (some "SB".toList)⟩, Examples.pe 2 4 3, ⟨1, 3, 2, .primary (some "HD".toList)⟩,
      Examples.pe 0 3 0], 4, []⟩, 3, 4, 1⟩

theorem apart_exportable : Negra.Exportable apart := by
  have hn : ∀ n nd, apart.graph.node? n = some nd → n < 5 := fun n nd h => Negra.node?_lt h
  refine ⟨wf_of_check (by decide +kernel), ⟨_, rfl⟩, ?_, ?_, ?_, ?_, by decide⟩
  · intro n x hx
    have := hn n _ hx
    interval_cases n
    · injection hx with hx
      injection hx with hx
      subst hx
      exact ⟨by unfold Negra.Field; decide, by decide, by unfold Negra.Field; decide, fun l hl => (by cases hl), .inl rfl⟩
    · injection hx with hx
      injection hx with hx
      subst hx
      exact ⟨by unfold Negra.Field; decide, by decide, by unfold Negra.Field; decide, fun l hl => (by cases hl), .inl rfl⟩
    · injection hx with hx
      injection hx with hx
      subst hx
      exact ⟨by unfold Negra.Field; decide, by decide, by unfold Negra.Field; decide, fun l hl => (by cases hl), .inl rfl⟩
    · cases hx
    · cases hx
  · intro n x hr hx
    have := hn n _ hx
    interval_cases n
    · cases hx
    · cases hx
    · cases hx
    · injection hx with hx
      injection hx with hx
      subst hx
      exact ⟨by decide, .inl rfl, .inl (by decide)⟩
    · exact absurd rfl hr
  · intro e he
    simp only [apart, List.mem_cons, List.not_mem_nil, or_false] at he
    rcases he with rfl | rfl | rfl | rfl
    · intro s hs
      injection hs with hs
      subst hs
      unfold Negra.Field
      decide
    · intro s hs; cases hs
    · intro s hs
      injection hs with hs
      subst hs
      unfold Negra.Field
      decide
    · intro s hs; cases hs
  · intro e he hw
    simp only [apart, List.mem_cons, List.not_mem_nil, or_false] at he
    rcases he with rfl | rfl | rfl | rfl
    all_goals cases hw

theorem apart_movedOnce : MovedOnce minPick apart := by
  intro t' log h
  have : (do let r ← apart.projectivize minPick
             return r.2) = .ok (some [(4, .primary (some "SB".toList), 1)]) := by decide +kernel
  rw [h] at this
  simp only [Res.ok_bind, Res.pure_eq, Res.ok.injEq, Option.some.injEq] at this
  subst this
  simp

example : ∃ s c' r φ, convertTree minPick recording none 7 apart = .ok (.ok (.text s, c')) ∧
    Negra.readAll ((Negra.lines s).length + 1) (Negra.lines s) = .ok [.ok r] ∧ r.WF ∧
    (∀ n, r.Live n → r.Gapless n) ∧ Recalled apart r φ ∧
    ∃ x, r.graph.node? r.root = some (.nt x) ∧ x.label = "VROOT".toList ∧
      x.features = some (Negra.headFeatures 7 none) :=
  C85_read_back apart apart_exportable (by unfold NoSecondary; decide) minPick minPick_order apart_movedOnce 7 7 none
    ⟨by decide +kernel, by decide, by decide +kernel, fun m hm => by cases hm⟩

/-- The file, with the record of the move in the row of `b`. -/
example : (match convertTree minPick recording none 7 apart with
    | .ok (.ok (.text s, _)) => (Negra.lines s).map Negra.splitWs
    | _ => []) =
    ["#BOS 7", "a -- X -- -- 500", "b -- Y -- SB 500 np_SB 0", "c -- Z -- HD 500", "#500 -- A -- -- 0", "#EOS 7", ""].map
      fun l => Negra.splitWs l.toList := by decide +kernel

/-! ## A node moved twice -/

/-- `woven` with the word `c` attached to `A` rather than to the root. -/
def woven2 : Tree :=
  ⟨{ nodes := [Examples.tm "a" "X" 0, Examples.tm "b" "X" 1, Examples.tm "c" "X" 2, Examples.tm "d" "X" 3,
       Examples.tm "e" "X" 4, Examples.nt "S" ⟨0, 5, none⟩, Examples.nt "A" ⟨0, 5, some {3, 1}⟩,
       Examples.nt "B" ⟨1, 4, some {2}⟩],
     freeNodes := [],
     edges := [Examples.pe 0 5 7, Examples.pe 1 5 6, Examples.pe 2 6 2, Examples.pe 3 6 0, Examples.pe 4 6 4,
       Examples.pe 5 7 1, Examples.pe 6 7 3],
     edgeSlots := 7, freeEdges := [] }, 5, 5, 2⟩

theorem woven2_wf : woven2.WF := wf_of_check (by decide +kernel)

/-- The NEGRA text of a tree. -/
def negraOf (o : Options) (t : Tree) : Option Str :=
  match convertTree minPick o none 0 t with
  | .ok (.ok (.text s, _)) => some s
  | _ => none

/-- C85: a node that is moved twice keeps only its newest secondary edge in the NEGRA file, so that two different trees
get the same text. -/
theorem C85_moved_twice : negraOf recording woven = negraOf recording woven2 ∧ (negraOf recording woven).isSome ∧
    negraOf (plain .negra) woven ≠ negraOf (plain .negra) woven2 := by decide +kernel

end Props
end Lumberjack
