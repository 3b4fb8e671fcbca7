import Verif.Proofs.PtbParse

/-!
# Writing bracketed text
-/

namespace Lumberjack
namespace Ptb

open Bracketed
open Lumberjack.Tree

variable {t : Tree}

theorem annotation_eq (x : NonTerminal) : annotation x = annotationOf x.features := by
  unfold annotation annotationOf
  cases x.features with
  | none => rfl
  | some f =>
    have key : ∀ (l : List (Str × Option Str)) (k : Str), (Features.lookupEntry k l).bind id =
        match l.find? (fun e => e.1 = k) with
        | some (_, some a) => some a
        | _ => none := by
      intro l k
      induction l with
      | nil => rfl
      | cons e l ih =>
        obtain ⟨k', v⟩ := e
        by_cases h : k' = k
        · subst h; cases v <;> simp [Features.lookupEntry]
        · rw [List.find?_cons_of_neg (by simpa using h), ← ih]
          simp [Features.lookupEntry, Ne.symm h]
    exact key f.entries _

theorem fmtInner_eq (f : Format) (x : NonTerminal) (e : Option Str) :
    fmtInner f x e = writeTag f x.label e (annotationOf x.features) := by
  cases f <;> cases e <;> simp only [fmtInner, writeTag, annotation_eq, dashes] <;>
    cases annotationOf x.features <;> simp

theorem fmtTerm_eq (f : Format) (form pos : Str) (e : Option Str) :
    fmtTerm f form pos e =
      '(' :: (writeTag f (Bracketed.escape pos) e none ++ ' ' :: Bracketed.escape form ++ [')']) := by
  have h : ∀ s, escape s = Bracketed.escape s := fun _ => rfl
  cases f <;> cases e <;> simp [fmtTerm, writeTag, dashes, h]

theorem sortedChildren_kids (W : t.WF) {n : Nat} {ks : List Nat} (h : t.Kids n ks) :
    (sortedChildren t n).map (·.1) = ks := by
  have hl : ∀ c ∈ t.children n, t.IsChild n c.1 := fun c hc => isChild_of_mem_children hc
  have key : sortedChildren t n = (t.children n).insertionSort
      (fun c d => t.startOf c.1 ≤ t.startOf d.1) := by
    unfold sortedChildren
    refine insertionSort_congr _ fun a ha b hb => ?_
    obtain ⟨x, hx⟩ := (isChild_live W.graph (hl a ha)).2
    obtain ⟨y, hy⟩ := (isChild_live W.graph (hl b hb)).2
    rw [startOf_of_node? hx, startOf_of_node? hy, hx, hy]
    simp only
    by_cases e : x.span.start = y.span.start
    · have : a.1 = b.1 := W.startOf_inj_child (hl a ha) (hl b hb) (by
        rw [startOf_of_node? hx, startOf_of_node? hy, e])
      rw [this, hy] at hx
      simp at hx; subst hx
      simp [Span.cmp]
    · unfold Span.cmp
      rw [if_pos e, ne_eq, Nat.compare_eq_gt]; omega
  refine Kids.unique (t := t) (n := n) ⟨fun c => ?_, ?_⟩ h
  · rw [key, ((List.perm_insertionSort _ _).map _).mem_iff, mem_children_fst]
  · have hT : Std.Total (fun x y : Nat × Nat => t.startOf x.1 ≤ t.startOf y.1) := ⟨fun a b => Nat.le_total _ _⟩
    have hTr : IsTrans (Nat × Nat) (fun x y => t.startOf x.1 ≤ t.startOf y.1) :=
      ⟨fun a b c h1 h2 => Nat.le_trans h1 h2⟩
    have hs : (sortedChildren t n).Pairwise (fun x y => t.startOf x.1 ≤ t.startOf y.1) := by
      rw [key]; exact List.pairwise_insertionSort _ _
    have hp : ((sortedChildren t n).map (·.1)).Perm ((t.children n).map (·.1)) := by
      rw [key]; exact (List.perm_insertionSort _ _).map _
    have hnd := hp.nodup_iff.2 (children_nodup W.graph W.shape n)
    have hs' : ((sortedChildren t n).map (·.1)).Pairwise (fun x y => t.startOf x ≤ t.startOf y) :=
      List.pairwise_map.2 hs
    refine (hs'.and hnd).imp_of_mem fun {a b} ha hb hab => ?_
    rcases Nat.lt_or_ge (t.startOf a) (t.startOf b) with h' | h'
    · exact h'
    · exact absurd (W.startOf_inj_child (mem_children_fst.1 (hp.mem_iff.1 ha))
        (mem_children_fst.1 (hp.mem_iff.1 hb)) (by omega)) hab.2

theorem join_eq (sep : Str) (l : List Str) : join sep l = List.intercalate sep l := by
  induction l with
  | nil => rfl
  | cons x l ih =>
    cases l with
    | nil => simp [join]
    | cons y l => rw [join, ih, List.intercalate_cons_cons]

theorem mapM_congr_mem {α β : Type} {f g : α → Res β} {l : List α} (h : ∀ a ∈ l, f a = g a) :
    l.mapM f = l.mapM g := by
  induction l with
  | nil => rfl
  | cons a l ih =>
    rw [List.mapM_cons, List.mapM_cons, h a List.mem_cons_self,
      ih fun b hb => h b (List.mem_cons_of_mem _ hb)]

theorem edge_of_child (W : t.WF) {n : Nat} {c : Nat × Nat} (h : c ∈ t.children n) :
    t.edge c.2 = .ok (.primary (t.inLabel c.1)) := by
  obtain ⟨c, e⟩ := c
  obtain ⟨r, hr, rfl, rfl, rfl, hw⟩ := mem_children.1 h
  have h1 := edgeLabel_eq_of_inLabel W.shape ⟨r, hr, rfl, rfl, hw⟩
  rw [W.shape.edgeLabel_of_edge hr hw] at h1
  simp only [Option.some.injEq] at h1
  unfold Tree.edge
  rw [(Graph.edge?_eq W.graph).2 ⟨hr, rfl⟩]
  show Res.ok r.w = _
  rw [h1]

/-- Writing the trees `ids` one by one. -/
theorem formatSubTree_spec (W : t.WF) (f : Format) {F : Forest} : ∀ {ids : List Nat}, t.Rep ids F →
    ∀ fuel, F.size ≤ fuel → ids.mapM (fun n => formatSubTree f t fuel n (t.inLabel n)) =
      .ok ((F.brackets f).text (sepOf f)) := by
  induction F with
  | nil => intro ids h fuel _; rw [show ids = [] from h]; rfl
  | leaf e x r ih =>
    rintro ids ⟨n, ns, rfl, h1, h2, h3⟩ fuel hf
    simp only [Forest.size] at hf
    rw [List.mapM_cons, ih h3 fuel (by omega)]
    obtain ⟨fuel, rfl⟩ : ∃ k, fuel = k + 1 := ⟨fuel - 1, by omega⟩
    have : t.node n = .ok (.term x) := by unfold Tree.node; rw [h1]; rfl
    simp only [formatSubTree, this, Res.ok_bind, Res.pure_eq, h2, fmtTerm_eq]
    rfl
  | node e x k r ihk ih =>
    rintro ids ⟨n, ns, ks, rfl, h1, h2, h4, h5, h3⟩ fuel hf
    simp only [Forest.size] at hf
    rw [List.mapM_cons, ih h3 fuel (by omega)]
    obtain ⟨fuel, rfl⟩ : ∃ k, fuel = k + 1 := ⟨fuel - 1, by omega⟩
    have hnode : t.node n = .ok (.nt x) := by unfold Tree.node; rw [h1]; rfl
    have hk := ihk h5 fuel (by omega)
    rw [← sortedChildren_kids W h4, List.mapM_map] at hk
    have : (sortedChildren t n).mapM (fun c => do
        let e ← t.edge c.2
        formatSubTree f t fuel c.1 e.label) = .ok ((k.brackets f).text (sepOf f)) := by
      rw [← hk]
      refine mapM_congr_mem fun c hc => ?_
      have hc' : c ∈ t.children n := by
        unfold sortedChildren at hc; rw [List.mem_insertionSort] at hc; exact hc
      rw [edge_of_child W hc']; rfl
    simp only [formatSubTree, hnode, Res.ok_bind, Res.pure_eq, h2, this, fmtInner_eq, join_eq]
    have hsep : nodeSep f = sepOf f := by cases f <;> rfl
    rw [hsep]
    rfl

theorem treeToString_ok (W : t.WF) (hp : t.isProjective = true) {F : Forest} (h : t.Is F) (f : Format) :
    ∃ s, treeToString f t = .ok (.ok s) ∧ (F.brackets f).text (sepOf f) = [s] := by
  have hsize : F.size ≤ t.climbFuel := by
    rw [← W.nodeCount_eq h, Graph.nodeCount, Tree.climbFuel]
    have : t.graph.nodeIndices.length ≤ (List.range t.graph.nodes.length).length := List.length_filter_le _ _
    rw [List.length_range] at this; omega
  have hs := formatSubTree_spec W f h t.climbFuel hsize
  rw [List.mapM_cons, List.mapM_nil, inLabel_root W.shape] at hs
  unfold treeToString
  rw [if_pos hp]
  cases hr : formatSubTree f t t.climbFuel t.root none with
  | ok s =>
    rw [hr] at hs
    simp only [Res.ok_bind, Res.pure_eq, Res.ok.injEq] at hs
    exact ⟨s, rfl, hs.symm⟩
  | panic => rw [hr] at hs; simp at hs
  | diverge => rw [hr] at hs; simp at hs

theorem treeToString_err (hp : ¬ t.isProjective = true) (f : Format) :
    treeToString f t = .ok (.error .nonProjective) := by
  unfold treeToString; rw [if_neg hp]

end Ptb
end Lumberjack
