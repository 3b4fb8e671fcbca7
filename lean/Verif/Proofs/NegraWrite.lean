import Verif.Proofs.NegraNum
import Verif.Proofs.Forest
import Verif.Proofs.Reset
import Verif.Spec.Negra

/-!
# What the NEGRA writer writes
-/

namespace Lumberjack
namespace Negra

open Lumberjack.Tree

variable {t : Tree}

/-! ## Columns -/

theorem Columns.cons {c rest : Str} {cs : List Str} (k : Nat) (hcs : cs ≠ []) (h : Columns rest cs) :
    Columns (c ++ List.replicate (k + 1) ' ' ++ rest) (c :: cs) := by
  cases cs with
  | nil => exact absurd rfl hcs
  | cons d ds => exact ⟨k, rest, rfl, h⟩

theorem bytes_eq (s : Str) : utf8Len s = bytes s := by
  unfold utf8Len bytes
  rw [List.length_flatMap]
  congr 1
  exact List.map_congr_left fun c _ => (String.length_utf8EncodeChar c).symm

theorem aligned_columns {cs : List Str} : ∀ ws, Columns (aligned ws cs) cs := by
  induction cs with
  | nil => exact fun ws => rfl
  | cons c cs ih =>
    intro ws
    cases cs with
    | nil => rfl
    | cons d ds =>
      have e : max 1 (ws.headD 0 - bytes c) = (max 1 (ws.headD 0 - bytes c) - 1) + 1 := by omega
      unfold aligned
      rw [e]
      exact Columns.cons _ (by simp) (ih _)

theorem pad_aligned {c rest : Str} {cs : List Str} {a b w : Nat} {ws : List Nat} (ha : a = bytes c)
    (hw : w = b + 8) (hcs : cs ≠ []) (h : rest = aligned ws cs) :
    c ++ (pad a b ++ rest) = aligned (w :: ws) (c :: cs) := by
  cases cs with
  | nil => exact absurd rfl hcs
  | cons d ds =>
    subst ha hw h
    simp only [aligned, List.append_assoc, List.append_cancel_left_eq, List.headD_cons, List.tail_cons,
      List.append_cancel_right_eq]
    unfold pad
    split
    · rw [show max 1 (b + 8 - bytes c) = 1 by omega]; rfl
    · rw [show max 1 (b + 8 - bytes c) = b + 8 - bytes c by omega]

/-! ## Numbers -/

theorem lookupId_idsOf {root n : Nat} {nts : List Nat} (hr : root ∉ nts) (hn : n = root ∨ n ∈ nts) :
    lookupId (idsOf root nts) n = some (Tree.natToStr (if n = root then 0 else 500 + nts.idxOf n)) := by
  unfold lookupId idsOf
  by_cases e : n = root
  · subst e; simp [Tree.natToStr]
  · have hm : n ∈ nts := by tauto
    rw [if_neg e, List.find?_cons_of_neg (by simpa using fun h => e h.symm)]
    have key : ∀ (l : List Nat) (k : Nat), n ∈ l →
        ((l.zipIdx k).map fun p => (p.1, Tree.natToStr (500 + p.2))).find? (fun p => p.1 = n) =
          some (n, Tree.natToStr (500 + (k + l.idxOf n))) := by
      intro l
      induction l with
      | nil => intro k h; simp at h
      | cons a l ih =>
        intro k h
        by_cases ha : a = n
        · subst ha; simp
        · rw [List.zipIdx_cons, List.map_cons, List.find?_cons_of_neg (by simpa using ha),
            ih (k + 1) (by simpa [Ne.symm ha] using h), List.idxOf_cons_ne _ ha]
          congr 3; omega
    rw [key nts 0 hm]
    simp

/-! ## Attachments -/

theorem secondaryParent_none {n : Nat} (h : t.secondaryParent n = none) :
    ∀ r ∈ t.graph.edges, r.tgt = n → r.w.isPrimary = true := by
  intro r hr e
  unfold secondaryParent at h
  rw [Option.map_eq_none_iff, List.find?_eq_none] at h
  have := h r (by simp [Graph.inEdges, hr, e])
  simpa using this

theorem secondaryParent_some {n p e : Nat} (h : t.secondaryParent n = some (p, e)) :
    ∃ r ∈ t.graph.edges, r.src = p ∧ r.tgt = n ∧ r.id = e ∧ r.w.isPrimary = false := by
  unfold secondaryParent at h
  cases hf : (t.graph.inEdges n).find? (fun r => !r.w.isPrimary) with
  | none => rw [hf] at h; simp at h
  | some r =>
    rw [hf] at h
    simp only [Option.map_some, Option.some.injEq, Prod.mk.injEq] at h
    have h1 := List.mem_of_find?_eq_some hf
    have h2 := List.find?_some hf
    simp only [Graph.inEdges, List.mem_filter, decide_eq_true_eq] at h1
    exact ⟨r, h1.1, h.1, h1.2, h.2, by simpa using h2⟩

theorem edge_ok (G : t.graph.OK) {r : EdgeRec} (hr : r ∈ t.graph.edges) : t.edge r.id = .ok r.w := by
  unfold Tree.edge
  rw [(Graph.edge?_eq G).2 ⟨hr, rfl⟩]
  rfl

theorem edge_columns {x : Attach} : x.columns ≠ [] := by simp [Attach.columns]

theorem parentEdge_ok (W : t.WF) {nts : List Nat} (B : BottomUp t nts)
    (hs : ∀ r ∈ t.graph.edges, r.w.isPrimary = false → t.IsNt r.src) {n : Nat} (hn : t.Live n)
    (hne : n ≠ t.root) :
    ∃ a s, parentEdgeRep t (idsOf t.root nts) n = .ok s ∧ IsAttach t (num t nts) n a ∧
      s = aligned (widths.drop 4) a.columns := by
  obtain ⟨p, hp⟩ := W.shape.exists_parent hn hne
  obtain ⟨e, hpe⟩ := W.shape.parent_of_isChild hp
  obtain ⟨r, hr1, hr2, hr3, hr4, hr5⟩ := parent_some hpe
  have hlab : t.inLabel n = r.w.label := by
    unfold inLabel
    rw [← hr3, W.shape.edgeLabel_of_edge hr1 hr5]
    rfl
  have hroot : t.root ∉ nts := fun h => ((B.mem _).1 h).2 rfl
  have hlook : ∀ q, t.IsNt q → lookupId (idsOf t.root nts) q = some (Tree.natToStr (num t nts q)) := by
    intro q hq
    refine lookupId_idsOf hroot ?_
    by_cases e : q = t.root
    · exact .inl e
    · exact .inr ((B.mem q).2 ⟨hq, e⟩)
  have hpn := W.shape.parent_isNt W.graph hp
  have hed := edge_ok W.graph hr1
  rw [hr4] at hed
  unfold parentEdgeRep
  rw [hpe]
  simp only [Res.ofOption_some, Res.ok_bind, hed, hlook p hpn]
  cases hsp : t.secondaryParent n with
  | none =>
    refine ⟨⟨r.w.label, num t nts p, none⟩, _, rfl, ⟨⟨p, hp, rfl⟩, hlab.symm, .inl ⟨rfl, secondaryParent_none hsp⟩⟩, ?_⟩
    rw [List.append_assoc]
    exact pad_aligned (bytes_eq _) rfl (by simp) rfl
  | some x =>
    obtain ⟨q, se⟩ := x
    obtain ⟨r', hs1, hs2, hs3, hs4, hs5⟩ := secondaryParent_some hsp
    have hq := hs r' hs1 hs5
    have hed' := edge_ok W.graph hs1
    rw [hs4] at hed'
    simp only [hed', Res.ok_bind, hlook q (hs2 ▸ hq), Res.ofOption_some]
    refine ⟨⟨r.w.label, num t nts p, some (r'.w.label.getD Ptb.dashes, num t nts q)⟩, _, rfl,
      ⟨⟨p, hp, rfl⟩, hlab.symm, .inr ⟨r', hs1, hs3, hs5, by rw [hsp, hs2, hs4], ?_⟩⟩, ?_⟩
    · rw [hs2]; rfl
    · simp only [List.append_assoc]
      exact pad_aligned (bytes_eq _) rfl (by simp) (pad_aligned (bytes_eq _) rfl (by simp)
        (pad_aligned (bytes_eq _) rfl (by simp) rfl))

theorem terminal_aligned {x : Terminal} {a : Attach} {s : Str} (h : s = aligned (widths.drop 4) a.columns) :
    terminalRep x ++ s = aligned widths
      (TermRow.columns ⟨x.form, x.lem, x.pos, featOf x.features "morph".toList, a⟩) := by
  unfold terminalRep
  simp only [List.append_assoc]
  exact pad_aligned (bytes_eq _) rfl (by simp) (pad_aligned (bytes_eq _) rfl (by simp)
    (pad_aligned (bytes_eq _) rfl (by simp) (pad_aligned (bytes_eq _) rfl edge_columns h)))

theorem nonterminal_aligned {x : NonTerminal} {id : Nat} {a : Attach} {s : Str}
    (h : s = aligned (widths.drop 4) a.columns) :
    nonterminalRep (Tree.natToStr id) x ++ s = aligned widths
      (NtRow.columns ⟨id, x.label, featOf x.features "node_annotation".toList, a⟩) := by
  unfold nonterminalRep
  have e : ∀ y : Str, ['#'] ++ Tree.natToStr id ++ y = ('#' :: Tree.natToStr id) ++ y := fun y => rfl
  have e' : utf8Len (Tree.natToStr id) + 1 = bytes ('#' :: Tree.natToStr id) := by
    rw [← bytes_eq]; simp [utf8Len]; rw [Nat.add_comm]; congr 1
  rw [e]
  simp only [List.append_assoc]
  refine pad_aligned e' rfl (by simp) (pad_aligned (by rfl) rfl (by simp) ?_)
  have := pad_aligned (c := x.label ++ (match Ptb.annotation x with | some a => '=' :: a | none => []))
    (b := 8) (bytes_eq _) rfl (by simp) (pad_aligned (c := Ptb.dashes) (a := 2) (b := 16) (by rfl) rfl edge_columns h)
  rw [List.append_assoc] at this
  exact this

theorem terminalLines_ok (W : t.WF) {nts : List Nat} (B : BottomUp t nts) (hr : t.IsNt t.root)
    (hs : ∀ r ∈ t.graph.edges, r.w.isPrimary = false → t.IsNt r.src) {ns : List Nat}
    (hns : ∀ n ∈ ns, t.IsTerm n) :
    ∃ T ls, terminalLines t (idsOf t.root nts) ns = .ok ls ∧
      List.Forall₂ (IsTermRow t (num t nts)) ns T ∧
      List.Forall₂ (fun l r => l = aligned widths (TermRow.columns r)) ls T := by
  induction ns with
  | nil => exact ⟨[], [], rfl, .nil, .nil⟩
  | cons n ns ih =>
    obtain ⟨T, ls, h1, h2, h3⟩ := ih (fun m hm => hns m (by simp [hm]))
    have ht := hns n (by simp)
    obtain ⟨x, hx⟩ := ht
    obtain ⟨a, s, g1, g2, g3⟩ := parentEdge_ok W B hs (n := n) ⟨_, hx⟩
      (fun e => not_isTerm_isNt ⟨x, hx⟩ (e ▸ hr))
    refine ⟨_ :: T, _ :: ls, ?_, .cons ?_ h2, .cons (terminal_aligned (x := x) g3) h3⟩
    · simp [terminalLines, node_eq hx, Node.terminal, g1, h1]
    · exact ⟨x, hx, rfl, rfl, rfl, rfl, g2⟩

theorem nonterminalLines_ok (W : t.WF) {nts : List Nat} (B : BottomUp t nts)
    (hs : ∀ r ∈ t.graph.edges, r.w.isPrimary = false → t.IsNt r.src) {ns : List Nat}
    (hns : ∀ n ∈ ns, n ∈ nts) :
    ∃ N ls, nonterminalLines t (idsOf t.root nts) ns = .ok ls ∧
      List.Forall₂ (IsNtRow t (num t nts)) ns N ∧
      List.Forall₂ (fun l r => l = aligned widths (NtRow.columns r)) ls N := by
  induction ns with
  | nil => exact ⟨[], [], rfl, .nil, .nil⟩
  | cons n ns ih =>
    obtain ⟨N, ls, h1, h2, h3⟩ := ih (fun m hm => hns m (by simp [hm]))
    have hm := hns n (by simp)
    obtain ⟨⟨x, hx⟩, hne⟩ := (B.mem n).1 hm
    obtain ⟨a, s, g1, g2, g3⟩ := parentEdge_ok W B hs (n := n) ⟨_, hx⟩ hne
    have hroot : t.root ∉ nts := fun h => ((B.mem _).1 h).2 rfl
    have hl : lookupId (idsOf t.root nts) n = some (Tree.natToStr (num t nts n)) :=
      lookupId_idsOf hroot (.inr hm)
    refine ⟨_ :: N, _ :: ls, ?_, .cons ?_ h2, .cons (nonterminal_aligned (x := x) (id := num t nts n) g3) h3⟩
    · simp [nonterminalLines, node_eq hx, Node.nonterminal, g1, h1, hl]
    · exact ⟨x, hx, rfl, rfl, rfl, g2⟩

theorem bottomUp_of {nts : List Nat} (h1 : nts.Nodup) (h2 : ∀ n, n ∈ nts ↔ t.IsNt n ∧ n ≠ t.root)
    (h3 : ∀ pre a post, nts = pre ++ a :: post → ∀ c, t.IsChild a c → t.IsTerm c ∨ c ∈ pre) :
    BottomUp t nts := by
  refine ⟨h1, h2, fun i j a b ha hb hab => ?_⟩
  obtain ⟨hi, ha'⟩ := List.getElem?_eq_some_iff.1 ha
  have e : nts = nts.take i ++ a :: nts.drop (i + 1) := by
    rw [← ha', List.getElem_cons_drop, List.take_append_drop]
  rcases h3 _ _ _ e b hab with h | h
  · exact (not_isTerm_isNt h ((h2 b).1 (List.mem_of_getElem? hb)).1).elim
  · obtain ⟨k, hk, hk'⟩ := List.mem_iff_getElem.1 h
    rw [List.length_take] at hk
    rw [List.getElem_take] at hk'
    obtain ⟨hj, hb'⟩ := List.getElem?_eq_some_iff.1 hb
    have := (List.Nodup.getElem_inj_iff h1 (hi := by omega) (hj := hj)).1 (hk'.trans hb'.symm)
    omega

theorem leaves_sorted (W : t.WF) : Leaves t (t.sortIndices t.terminals) := by
  refine ⟨sorted_terminals_length W.sentence, fun i n h => ?_⟩
  have hi : i < t.nTerminals := by
    rw [← sorted_terminals_length W.sentence]
    exact (List.getElem?_eq_some_iff.1 h).1
  obtain ⟨m, hm⟩ := W.sentence.occupied i hi
  have := sorted_terminals_get W.sentence hm
  rw [h, Option.some.injEq] at this
  exact this ▸ hm

theorem writeTree_numbered (W : t.WF) (hr : t.IsNt t.root)
    (hs : ∀ r ∈ t.graph.edges, r.w.isPrimary = false → t.IsNt r.src) (counter : Nat) :
    ∃ ns nts T N tl nl, (∃ s, number t (t.sortIndices t.terminals) = .ok s ∧ s.nts = nts) ∧ Leaves t ns ∧ BottomUp t nts ∧
      List.Forall₂ (IsTermRow t (num t nts)) ns T ∧ List.Forall₂ (IsNtRow t (num t nts)) nts N ∧
      List.Forall₂ (fun l r => l = aligned widths (TermRow.columns r)) tl T ∧
      List.Forall₂ (fun l r => l = aligned widths (NtRow.columns r)) nl N ∧
      writeTree counter t = .ok
        (unlines (header ((featOf (rootFeatures t) sentenceIdKey).getD (Tree.natToStr counter))
            (featOf (rootFeatures t) metadataKey) ::
          (tl ++ nl ++ [footer ((featOf (rootFeatures t) sentenceIdKey).getD (Tree.natToStr counter)), []])),
         if (featOf (rootFeatures t) sentenceIdKey).isSome then counter else counter + 1) := by
  have hperm := sortIndices_perm (t := t) t.terminals
  have hl : ∀ n, n ∈ t.sortIndices t.terminals ↔ t.IsTerm n := by
    intro n; rw [hperm.mem_iff]; exact mem_terminals
  obtain ⟨s, h1, h2, h3, h4, h5⟩ := number_ok W.graph W.shape hl
  have B := bottomUp_of h2 h3 h5
  obtain ⟨T, tl, g1, g2, g3⟩ := terminalLines_ok W B hr hs (fun n h => (hl n).1 h)
  obtain ⟨N, nl, k1, k2, k3⟩ := nonterminalLines_ok W B hs (fun n h => h)
  refine ⟨_, s.nts, T, N, tl, nl, ⟨s, h1, rfl⟩, leaves_sorted W, B, g2, k2, g3, k3, ?_⟩
  obtain ⟨x, hx⟩ := hr
  have hf : ∀ k, (Node.nt x).featVal k = featOf (rootFeatures t) k := by
    intro k; unfold Node.featVal featOf rootFeatures; rw [hx]; rfl
  have e1 : ∀ id : Str, footer id = eos ++ [' '] ++ id := fun _ => rfl
  have e2 : ∀ id : Str, header id none = bos ++ [' '] ++ id := fun id => List.append_nil _
  have e3 : ∀ id m : Str, header id (some m) = bos ++ [' '] ++ id ++ [' ', ' '] ++ m := fun id m =>
    (List.append_assoc _ [' ', ' '] m).symm
  have hf1 := hf sentenceIdKey
  have hf2 := hf metadataKey
  rw [← hf1, ← hf2]
  unfold writeTree sentenceId
  simp only [node_eq hx, Res.ok_bind]
  generalize (Node.nt x).featVal sentenceIdKey = a
  generalize (Node.nt x).featVal metadataKey = b
  cases a <;> cases b <;>
    simp only [Res.ok_bind, Res.pure_eq, h1, h4, g1, k1, e1, e2, e3, Option.getD_none, Option.getD_some,
      Option.isSome_none, Option.isSome_some, if_true, Bool.false_eq_true, if_false]

theorem writeTree_layout (W : t.WF) (hr : t.IsNt t.root)
    (hs : ∀ r ∈ t.graph.edges, r.w.isPrimary = false → t.IsNt r.src) (counter : Nat) :
    ∃ ns nts T N tl nl, Leaves t ns ∧ BottomUp t nts ∧
      List.Forall₂ (IsTermRow t (num t nts)) ns T ∧ List.Forall₂ (IsNtRow t (num t nts)) nts N ∧
      List.Forall₂ (fun l r => l = aligned widths (TermRow.columns r)) tl T ∧
      List.Forall₂ (fun l r => l = aligned widths (NtRow.columns r)) nl N ∧
      writeTree counter t = .ok
        (unlines (header ((featOf (rootFeatures t) sentenceIdKey).getD (Tree.natToStr counter))
            (featOf (rootFeatures t) metadataKey) ::
          (tl ++ nl ++ [footer ((featOf (rootFeatures t) sentenceIdKey).getD (Tree.natToStr counter)), []])),
         if (featOf (rootFeatures t) sentenceIdKey).isSome then counter else counter + 1) := by
  obtain ⟨ns, nts, T, N, tl, nl, _, h⟩ := writeTree_numbered W hr hs counter
  exact ⟨ns, nts, T, N, tl, nl, h⟩

theorem writeTree_spec (W : t.WF) (hr : t.IsNt t.root)
    (hs : ∀ r ∈ t.graph.edges, r.w.isPrimary = false → t.IsNt r.src) (counter : Nat) :
    ∃ ns nts T N tl nl, Leaves t ns ∧ BottomUp t nts ∧
      List.Forall₂ (IsTermRow t (num t nts)) ns T ∧ List.Forall₂ (IsNtRow t (num t nts)) nts N ∧
      List.Forall₂ (fun l r => Columns l (TermRow.columns r)) tl T ∧
      List.Forall₂ (fun l r => Columns l (NtRow.columns r)) nl N ∧
      writeTree counter t = .ok
        (unlines (header ((featOf (rootFeatures t) sentenceIdKey).getD (Tree.natToStr counter))
            (featOf (rootFeatures t) metadataKey) ::
          (tl ++ nl ++ [footer ((featOf (rootFeatures t) sentenceIdKey).getD (Tree.natToStr counter)), []])),
         if (featOf (rootFeatures t) sentenceIdKey).isSome then counter else counter + 1) := by
  obtain ⟨ns, nts, T, N, tl, nl, h1, h2, h3, h4, h5, h6, h7⟩ := writeTree_layout W hr hs counter
  exact ⟨ns, nts, T, N, tl, nl, h1, h2, h3, h4, h5.imp fun l r h => h ▸ aligned_columns _,
    h6.imp fun l r h => h ▸ aligned_columns _, h7⟩

end Negra
end Lumberjack
