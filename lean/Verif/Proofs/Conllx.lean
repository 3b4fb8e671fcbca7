import Verif.Proofs.Tags
import Verif.Props.Encode
import Verif.Props.Encoding

/-!
# Conversion to and from tagged sentences
-/

namespace Lumberjack

open Conllx Lumberjack.Tree

variable {t : Tree}

/-! ## To tokens -/

theorem Tree.Terminals.nodes (W : t.WF) {ts : List Terminal} (h : t.Terminals ts) :
    List.Forall₂ (fun n x => t.graph.node? n = some (.term x)) (t.sortIndices t.terminals) ts := by
  rw [List.forall₂_iff_get]
  have hlen := sorted_terminals_length W.sentence
  refine ⟨hlen.trans h.1.symm, fun i h1 h2 => ?_⟩
  obtain ⟨n, hn⟩ := W.sentence.occupied i (by omega)
  obtain ⟨x, hx⟩ := hn.isTerm
  have e1 := sorted_terminals_get W.sentence hn
  have e2 := h.2 n x i hx hn
  rw [List.getElem?_eq_getElem h1, Option.some.injEq] at e1
  rw [List.getElem?_eq_getElem h2, Option.some.injEq] at e2
  simp only [List.get_eq_getElem, e1, e2]
  exact hx

theorem terminalsOf_ok {ns : List Nat} {xs : List Terminal}
    (h : List.Forall₂ (fun n x => t.graph.node? n = some (.term x)) ns xs) : terminalsOf t ns = .ok xs := by
  induction h with
  | nil => rfl
  | cons h1 _ ih => simp [terminalsOf, node_eq h1, Node.terminal, ih]

theorem drainLoop_ok {ns : List Nat} {xs : List Terminal} : ∀ {t : Tree}, ns.Nodup →
    List.Forall₂ (fun n x => t.graph.node? n = some (.term x)) ns xs →
    drainLoop ns t = .ok (xs.map fun x => (tokenOf x, x.span.start)) := by
  induction ns generalizing xs with
  | nil => intro t _ h; cases h; rfl
  | cons n ns ih =>
    intro t hnd h
    cases h with
    | @cons _ x _ xs h1 h2 =>
      rw [List.nodup_cons] at hnd
      have := ih (t := t.setNode n (.term { x with form := [], lem := none, pos := [], features := none })) hnd.2 (by
        rw [List.forall₂_iff_get] at h2 ⊢
        refine ⟨h2.1, fun i a b => ?_⟩
        have := h2.2 i a b
        have hne : ns.get ⟨i, a⟩ ≠ n := fun hc => hnd.1 (hc ▸ List.get_mem _ _)
        show (t.graph.setNode n _).node? _ = _
        rw [Graph.node?_setNode ⟨_, h1⟩, if_neg hne]
        exact this)
      simp only [drainLoop, node_eq h1, Res.ok_bind, Node.terminal, Res.ofOption_some, this]
      rfl

theorem toConllx_eq (W : t.WF) {ts : List Terminal} (h : t.Terminals ts) : toConllx t = .ok (ts.map tokenOf) := by
  unfold toConllx
  rw [terminalsOf_ok (h.nodes W)]
  rfl

theorem Tree.Terminals.span (W : t.WF) {ts : List Terminal} (h : t.Terminals ts) {i : Nat} {x : Terminal} (hx : ts[i]? = some x) :
    x.span = Span.ofIdx i := by
  have hi := (List.getElem?_eq_some_iff.1 hx).1
  obtain ⟨n, hn⟩ := W.sentence.occupied i (by rw [← h.1]; exact hi)
  obtain ⟨y, hy, hs⟩ := hn
  have := h.2 n y i hy ⟨y, hy, hs⟩
  rw [hx] at this
  injection this with this
  subst this
  exact hs

theorem intoConllx_eq (W : t.WF) {ts : List Terminal} (h : t.Terminals ts) : intoConllx t = .ok (ts.map tokenOf) := by
  unfold intoConllx
  have hnd : (t.sortIndices t.terminals).Nodup := (sortIndices_perm _).nodup_iff.2 terminals_nodup
  rw [drainLoop_ok hnd (h.nodes W)]
  simp only [Res.ok_bind, Res.pure_eq]
  rw [List.Pairwise.insertionSort_eq]
  · simp [List.map_map, Function.comp_def]
  · rw [List.pairwise_map, List.pairwise_iff_getElem]
    intro i j hi hj hij
    have e1 := h.span W (List.getElem?_eq_getElem hi)
    have e2 := h.span W (List.getElem?_eq_getElem hj)
    simp only [e1, e2, Span.ofIdx]
    omega

/-! ## From tokens -/

theorem readTokens_ok {α : Type} {key : Str} {parse : Str → Except Err α} {P : Terminal → Token} {text : Terminal → Str} :
    ∀ {xs : List Terminal} {es : List (Option α × Option Str)} {k : Nat},
      (∀ x, (P x).form = x.form ∧ (P x).pos = some x.pos) →
      List.Forall₂ (fun x e => ancestorStr key (P x) = .ok (text x) ∧ splitAncestor parse (text x) = .ok e) xs es →
      (∀ i x, xs[i]? = some x → x.span.start = k + i) →
      readTokens key parse (xs.map P) k = .ok (es, xs.map Forest.bare) := by
  intro xs
  induction xs with
  | nil => intro es k _ h _; cases h; rfl
  | cons x xs ih =>
    intro es k hP h hk
    cases h with
    | @cons _ e _ es h1 h2 =>
      have := ih (k := k + 1) hP h2 (fun i y hy => by rw [hk (i + 1) y (by simpa using hy)]; omega)
      have h0 := hk 0 x (by simp)
      simp only [List.map_cons, readTokens, h1.1, h1.2, this, (hP x).1, (hP x).2, Option.getD_some, Forest.bare]
      rw [h0, Nat.add_zero]

theorem featLookup_tag {key : Str} {fs : Option Features} {v : Str} (hf : Forest.ChainTag fs) (hk : key < Forest.chainKey)
    (hk1 : '|' ∉ key) (hk2 : ':' ∉ key) (hv1 : '|' ∉ v) (hv2 : ':' ∉ v) :
    featLookup key ((fs.getD Features.empty).insert key (some v)).1.toStr = some (some v) := by
  have hp : '|' ∉ Features.printOne (key, some v) := by
    simp only [Features.printOne, List.mem_append, List.mem_singleton, not_or]
    exact ⟨⟨hk1, by decide⟩, hv1⟩
  have hp2 := Features.parseOne_printOne (e := (key, some v)) hk2 (by rintro w hw; injection hw with hw; subst hw; exact hv2)
  rcases hf with h | ⟨c, hc, h⟩
  · have : ((fs.getD Features.empty).insert key (some v)).1.toStr = Features.printOne (key, some v) := by rw [h]; rfl
    rw [this]
    unfold featLookup
    rw [splitOn_of_not_mem hp]
    simp [hp2]
  · have : ((fs.getD Features.empty).insert key (some v)).1.toStr =
        Features.printOne (key, some v) ++ '|' :: Features.printOne (Forest.chainKey, some c) := by
      rw [h]
      have hne : key ≠ Forest.chainKey := ne_of_lt hk
      simp [Features.insert, Features.insertEntry, hk, hne, Features.toStr, join]
    have hq : '|' ∉ Features.printOne (Forest.chainKey, some c) := by
      simp only [Features.printOne, List.mem_append, List.mem_singleton, not_or]
      exact ⟨⟨by decide, by decide⟩, hc.2 _ (by simp)⟩
    have hq2 := Features.parseOne_printOne (e := (Forest.chainKey, some c)) (show ':' ∉ Forest.chainKey by decide)
      (by rintro w hw; injection hw with hw; subst hw; exact hc.2 _ (by simp))
    rw [this]
    unfold featLookup
    rw [splitOn_append hp, splitOn_of_not_mem hq]
    simp [hp2, hq2, (ne_of_lt hk).symm]

theorem ancestorStr_tag {key : Str} {x : Terminal} {v : Str} (hf : Forest.ChainTag x.features) (hk : key < Forest.chainKey)
    (hk1 : '|' ∉ key) (hk2 : ':' ∉ key) (hv1 : '|' ∉ v) (hv2 : ':' ∉ v) :
    ancestorStr key (tokenOf (withFeature key v x)) = .ok v := by
  unfold ancestorStr
  have : (tokenOf (withFeature key v x)).features.bind (featLookup key) = some (some v) := by
    simp only [tokenOf, withFeature, Option.map_some, Option.bind_some]
    exact featLookup_tag hf hk hk1 hk2 hv1 hv2
  rw [this]

/-- The entry of an encoding can be stored in a tag. -/
structure EntryOk (e : Option AbsAncestor × Option Str) : Prop where
  label : ∀ a, e.1 = some a → Forest.ChainStr a.label
  count : ∀ a, e.1 = some a → a.common < 2 ^ 63
  chain : ∀ c, e.2 = some c → Forest.ChainStr c

/-- What follows the ancestor in a tag. -/
def ChainPart (c : Option Str) (u : Str) : Prop := (c = none ∧ u = []) ∨ ∃ d, c = some d ∧ u = '~' :: d ∧ Forest.ChainStr d

theorem splitAncestor_some {α : Type} {parse : Str → Except Err α} {s u : Str} {a : α} {c : Option Str} (h1 : '~' ∉ s)
    (h2 : s ≠ noneMarker) (h3 : parse s = .ok a) (h4 : ChainPart c u) :
    splitAncestor parse (s ++ u) = .ok (some a, c) := by
  unfold splitAncestor
  rcases h4 with ⟨rfl, rfl⟩ | ⟨d, rfl, rfl, hc⟩
  · simp only [List.append_nil]
    rw [splitOn_of_not_mem h1]
    simp [h2, h3]
  · rw [splitOn_append h1, splitOn_of_not_mem (hc.2 _ (by simp))]
    simp [h2, h3, hc.1]

theorem splitAncestor_none {α : Type} {parse : Str → Except Err α} {c : Option Str} {u : Str} (h4 : ChainPart c u) :
    splitAncestor parse ("NONE".toList ++ u) = .ok (none, c) := by
  unfold splitAncestor
  rcases h4 with ⟨rfl, rfl⟩ | ⟨d, rfl, rfl, hc⟩
  · simp only [List.append_nil]
    rw [splitOn_of_not_mem (by decide)]
    simp [noneMarker]
  · rw [splitOn_append (by decide), splitOn_of_not_mem (hc.2 _ (by simp))]
    simp [noneMarker, hc.1]

theorem chainPart {c : Option Str} : (∀ d, c = some d → Forest.ChainStr d) → ChainPart c (match c with
    | some c => '~' :: c
    | none => []) := by
  intro hc
  cases c with
  | none => exact .inl ⟨rfl, rfl⟩
  | some d => exact .inr ⟨d, rfl, rfl, hc d rfl⟩

theorem ChainPart.mem {c : Option Str} {u : Str} (h : ChainPart c u) (ch : Char) (hch : ch = '|' ∨ ch = ':') : ch ∉ u := by
  rcases h with ⟨_, rfl⟩ | ⟨d, _, rfl, hd⟩
  · simp
  · simp only [List.mem_cons, not_or]
    exact ⟨by rcases hch with rfl | rfl <;> decide, hd.2 ch (by rcases hch with rfl | rfl <;> simp)⟩

theorem none_mem (ch : Char) (hch : ch = '|' ∨ ch = ':') : ch ∉ "NONE".toList := by
  rcases hch with rfl | rfl <;> decide

theorem EntryOk.abs {e : Option AbsAncestor × Option Str} (h : EntryOk e) :
    splitAncestor AbsAncestor.parse (absText e) = .ok e ∧ '|' ∉ absText e ∧ ':' ∉ absText e := by
  obtain ⟨a, c⟩ := e
  have hc := h.chain
  simp only at hc
  have hmem : ∀ ch, ch = '|' ∨ ch = ':' → ch ∉ absText (a, c) := by
    intro ch hch
    unfold absText
    rw [List.mem_append, not_or]
    refine ⟨?_, (chainPart hc).mem ch hch⟩
    cases a with
    | none => exact none_mem ch hch
    | some a =>
      have hl := (h.label a rfl).2 ch (by rcases hch with rfl | rfl <;> simp)
      have hd : ch ∉ Tree.natToStr a.common := not_mem_natToStr (by rcases hch with rfl | rfl <;> decide)
      simp only [AbsAncestor.toStr, List.mem_append, List.mem_singleton, not_or]
      exact ⟨⟨hl, by rcases hch with rfl | rfl <;> decide⟩, hd⟩
  refine ⟨?_, hmem _ (.inl rfl), hmem _ (.inr rfl)⟩
  cases a with
  | none => exact splitAncestor_none (chainPart hc)
  | some a =>
    have hl := h.label a rfl
    refine splitAncestor_some (s := a.toStr) ?_ ?_ ?_ (chainPart hc)
    · simp only [AbsAncestor.toStr, List.mem_append, List.mem_singleton, not_or]
      exact ⟨⟨hl.2 _ (by simp), by decide⟩, not_mem_natToStr (by decide)⟩
    · intro hcon
      have : '+' ∈ a.toStr := by simp [AbsAncestor.toStr]
      rw [hcon] at this; exact absurd this (by decide)
    · exact Props.C37_absolute_text a (hl.2 _ (by simp)) (by have := h.count a rfl; unfold UsizeRange; omega)

/-- The entry of a relative encoding can be stored in a tag. -/
structure RelEntryOk (e : Option RelAncestor × Option Str) : Prop where
  label : ∀ a, e.1 = some a → Forest.ChainStr a.lab ∧ a.lab ≠ noneMarker
  count : ∀ o l, e.1 = some (.regular o l) → IsizeRange o
  chain : ∀ c, e.2 = some c → Forest.ChainStr c

theorem RelEntryOk.rel {e : Option RelAncestor × Option Str} (h : RelEntryOk e) :
    splitAncestor RelAncestor.parse (relText e) = .ok e ∧ '|' ∉ relText e ∧ ':' ∉ relText e := by
  obtain ⟨a, c⟩ := e
  have hc := h.chain
  simp only at hc
  have hstr : ∀ ch, ch = '|' ∨ ch = ':' ∨ ch = '~' → ∀ b, a = some b → ch ∉ b.toStr := by
    rintro ch hch b rfl
    have hl := (h.label b rfl).1.2 ch (by rcases hch with rfl | rfl | rfl <;> simp)
    cases b with
    | root l => exact hl
    | regular o l =>
      have hd : ch ∉ intToStr o := not_mem_intToStr (by rcases hch with rfl | rfl | rfl <;> decide)
        (by rcases hch with rfl | rfl | rfl <;> decide)
      simp only [RelAncestor.toStr, List.mem_append, List.mem_singleton, not_or]
      exact ⟨⟨hl, by rcases hch with rfl | rfl | rfl <;> decide⟩, hd⟩
  have hmem : ∀ ch, ch = '|' ∨ ch = ':' → ch ∉ relText (a, c) := by
    intro ch hch
    unfold relText
    rw [List.mem_append, not_or]
    refine ⟨?_, (chainPart hc).mem ch hch⟩
    cases a with
    | none => exact none_mem ch hch
    | some a => exact hstr ch (by tauto) a rfl
  refine ⟨?_, hmem _ (.inl rfl), hmem _ (.inr rfl)⟩
  cases a with
  | none => exact splitAncestor_none (chainPart hc)
  | some a =>
    obtain ⟨hl, hn⟩ := h.label a rfl
    refine splitAncestor_some (s := a.toStr) (hstr _ (by tauto) a rfl) ?_ ?_ (chainPart hc)
    · intro hcon
      cases a with
      | root l => exact hn hcon
      | regular o l =>
        have : '+' ∈ (RelAncestor.regular o l).toStr := by simp [RelAncestor.toStr]
        rw [hcon] at this; exact absurd this (by decide)
    · refine Props.C37_relative_text a (hl.2 _ (by simp)) hl.1 (fun o l hol => ?_)
      subst hol; exact h.count o l rfl

end Lumberjack
