import Verif.Props.Holds
import Verif.Spec.HoldsFiles
import Verif.Props.Cross
import Verif.Proofs.Cross
import Verif.Proofs.Stable

/-!
# What whole files hold (C87)
-/

namespace Lumberjack
namespace Props

open Lumberjack.Tree Lumberjack.Convert Bracketed

/-- Two trees of which the same tree is a copy agree. -/
theorem copies_agree {t u r : Tree} (E : Negra.Exportable t) (E' : Negra.Exportable u) {id id' : Nat} {info info' : Option Str}
    {φ ψ : Nat → Nat} (C : Negra.Copy id info t r φ) (D : Negra.Copy id' info' u r ψ) :
    id = id' ∧ info = info' ∧ ∃ φ, Negra.Agree t u φ := by
  obtain ⟨_, _, x⟩ := C.root_node
  obtain ⟨_, _, y⟩ := D.root_node
  rw [x] at y
  simp only [Option.some.injEq, Node.nt.injEq, NonTerminal.mk.injEq] at y
  obtain ⟨f1, f2⟩ := Negra.featOf_headFeatures id info
  obtain ⟨g1, g2⟩ := Negra.featOf_headFeatures id' info'
  rw [y.2.1] at f1 f2
  have e1 : id = id' := natToStr_inj (by simpa using f1.symm.trans g1)
  have e2 : info = info' := f2.symm.trans g2
  subst e1 e2
  exact ⟨rfl, rfl, Negra.agree_of_copies C D E E'⟩

theorem _root_.Lumberjack.Negra.HeadsFrom.tail {c : Nat} {t : Tree} {ts : List Tree} {ids : Nat → Nat} {infos : Nat → Option Str}
    (H : Negra.HeadsFrom c (t :: ts) ids infos) :
    Negra.HeadsFrom (if (Negra.featOf (Negra.rootFeatures t) "sentence_id".toList).isSome then c else c + 1) ts
      (fun i => ids (i + 1)) (fun i => infos (i + 1)) := by
  intro i u hu
  have := H (i + 1) u (by simpa using hu)
  refine ⟨this.1, ?_⟩
  have h := this.2
  rw [List.take_succ_cons, List.filter_cons] at h
  cases hv : Negra.featOf (Negra.rootFeatures t) "sentence_id".toList with
  | none =>
    rw [hv] at h
    simp only [Option.isNone_none, if_true, List.length_cons] at h
    simp only [Option.isSome_none, Bool.false_eq_true, if_false]
    rwa [Nat.add_assoc, Nat.add_comm 1]
  | some v =>
    rw [hv] at h
    simp only [Option.isNone_some, Bool.false_eq_true, if_false] at h
    simpa using h

/-- Trees that agree pairwise are written as the same text. -/
theorem write_same : ∀ {ts us : List Tree} {c d : Nat} {ids ids' : Nat → Nat} {infos infos' : Nat → Option Str},
    Negra.HeadsFrom c ts ids infos → Negra.HeadsFrom d us ids' infos' → ts.length = us.length →
    (∀ (i : Nat) (t u : Tree), ts[i]? = some t → us[i]? = some u →
      ids i = ids' i ∧ infos i = infos' i ∧ ∃ φ, Negra.Agree t u φ) →
    Negra.writeTrees c ts = Negra.writeTrees d us
  | [], [], _, _, _, _, _, _, _, _, _, _ => rfl
  | t :: ts, u :: us, c, d, ids, ids', infos, infos', H, H', hl, h => by
    obtain ⟨E, K⟩ := H 0 t rfl
    obtain ⟨E', K'⟩ := H' 0 u rfl
    simp only [List.take_zero, List.filter_nil, List.length_nil, Nat.add_zero] at K K'
    obtain ⟨text, c', d', w, w'⟩ := (C87_negra t u E E' c d _ _ _ _ K K').2 (h 0 t u rfl rfl)
    obtain ⟨_, _, _, _, _, _, _, v, _⟩ := Negra.written_read E K
    obtain ⟨_, _, _, _, _, _, _, v', _⟩ := Negra.written_read E' K'
    have hc := w.symm.trans v
    have hd := w'.symm.trans v'
    simp only [Res.ok.injEq, Prod.mk.injEq] at hc hd
    have ih := write_same H.tail H'.tail (by simpa using hl) fun i x y hx hy =>
      h (i + 1) x y (by simpa using hx) (by simpa using hy)
    rw [Negra.writeTrees, Negra.writeTrees, w, w', Res.ok_bind, Res.ok_bind]
    simp only
    rw [hc.2, hd.2, ih]
  | [], _ :: _, _, _, _, _, _, _, _, _, hl, _ => by cases hl
  | _ :: _, [], _, _, _, _, _, _, _, _, hl, _ => by cases hl

/-- C87: two runs to NEGRA without steps write the same text exactly if they read the same number of trees and these
have pairwise the same number and metadata and agree in what the format holds. -/
theorem C87_negra_files (f f' : InFormat) (multiline multiline' : Bool) (pick pick' : Tree → Finset Nat → Option Nat)
    (src src' : Source) (ts us : List Tree) (hs : Stream f multiline src (ts.map .ok) true)
    (hs' : Stream f' multiline' src' (us.map .ok) true) (ids ids' : Nat → Nat) (infos infos' : Nat → Option Str)
    (H : Negra.HeadsFrom 0 ts ids infos) (H' : Negra.HeadsFrom 0 us ids' infos') :
    textOf (main f multiline pick (plain .negra) src none).1 = textOf (main f' multiline' pick' (plain .negra) src' none).1 ↔
      ts.length = us.length ∧ ∀ (i : Nat) (t u : Tree), ts[i]? = some t → us[i]? = some u →
        ids i = ids' i ∧ infos i = infos' i ∧ ∃ φ, Negra.Agree t u φ := by
  obtain ⟨text, rs, g1, g2, g3, g4⟩ := C48_file ts ids infos 0 H
  obtain ⟨text', rs', g1', g2', g3', g4'⟩ := C48_file us ids' infos' 0 H'
  obtain ⟨wn, k1, k2⟩ := main_negra (pick := pick) hs g1
  obtain ⟨wn', k1', k2'⟩ := main_negra (pick := pick') hs' g1'
  rw [k1, k1', k2, k2']
  constructor
  · rintro rfl
    rw [g2] at g2'
    injection g2' with e
    obtain rfl : rs = rs' := List.map_injective_iff.2 (fun a b h => by injection h) e
    refine ⟨g3.symm.trans g3', fun i t u ht hu => ?_⟩
    have hi : i < rs.length := by rw [g3]; exact (List.getElem?_eq_some_iff.1 ht).1
    obtain ⟨φ, C⟩ := g4 i t _ ht (List.getElem?_eq_getElem hi)
    obtain ⟨ψ, D⟩ := g4' i u _ hu (List.getElem?_eq_getElem hi)
    exact copies_agree (H i t ht).1 (H' i u hu).1 C D
  · rintro ⟨hl, h⟩
    have := write_same H H' hl h
    rw [g1, g1'] at this
    injection this

theorem conllx_sentences {ts : List Tree} (W : ∀ t ∈ ts, t.WF) :
    ∃ ws, List.Forall₂ (fun t w => ∃ xs, t.Terminals xs ∧ w = Written.sentence (xs.map Conllx.tokenOf)) ts ws := by
  induction ts with
  | nil => exact ⟨[], .nil⟩
  | cons t ts ih =>
    obtain ⟨ws, h⟩ := ih fun u hu => W u (by simp [hu])
    obtain ⟨xs, hx, _⟩ := C52_terminals t (W t (by simp))
    exact ⟨_, .cons ⟨xs, hx, rfl⟩ h⟩

theorem conllx_written (pick : Tree → Finset Nat → Option Nat) {ts : List Tree} (W : ∀ t ∈ ts, t.WF) {ws : List Written}
    (h : List.Forall₂ (fun t w => ∃ xs, t.Terminals xs ∧ w = Written.sentence (xs.map Conllx.tokenOf)) ts ws) :
    List.Forall₂ (fun t w => convertTree pick (plain .conllx) none 0 t = .ok (.ok (w, 0))) ts ws := by
  induction h with
  | nil => exact .nil
  | @cons t w ts ws h _ ih =>
    obtain ⟨xs, hx, rfl⟩ := h
    refine .cons ?_ (ih fun u hu => W u (by simp [hu]))
    rw [convert_plain (by simp) (by simp)]
    unfold write
    simp only
    rw [(C52_tokens t (W t (by simp)) xs hx).1]
    rfl

/-- C87: two runs to CONLLX without steps write the same sentences exactly if they read the same number of trees and the
words of these agree pairwise in form, lemma, tag and the text of the features. -/
theorem C87_conllx_files (f f' : InFormat) (multiline multiline' : Bool) (pick pick' : Tree → Finset Nat → Option Nat)
    (src src' : Source) (ts us : List Tree) (hs : Stream f multiline src (ts.map .ok) true)
    (hs' : Stream f' multiline' src' (us.map .ok) true) (W : ∀ t ∈ ts, t.WF) (W' : ∀ u ∈ us, u.WF) :
    (main f multiline pick (plain .conllx) src none).1 = (main f' multiline' pick' (plain .conllx) src' none).1 ↔
      List.Forall₂ (fun t u => ∃ xs ys, t.Terminals xs ∧ u.Terminals ys ∧
        List.Forall₂ (fun x y => x.form = y.form ∧ x.lem = y.lem ∧ x.pos = y.pos ∧
          x.features.map Features.toStr = y.features.map Features.toStr) xs ys) ts us := by
  obtain ⟨ws, h1⟩ := conllx_sentences W
  obtain ⟨ws', h1'⟩ := conllx_sentences W'
  rw [main_write hs (conllx_written pick W h1), main_write hs' (conllx_written pick' W' h1')]
  simp only
  clear hs hs'
  constructor
  · rintro rfl
    induction h1 generalizing us with
    | nil => cases h1'; exact .nil
    | @cons t w ts ws h _ ih =>
      cases h1' with
      | @cons u _ us _ h' h'' =>
        obtain ⟨xs, hx, rfl⟩ := h
        obtain ⟨ys, hy, e⟩ := h'
        refine .cons ⟨xs, ys, hx, hy, ?_⟩ (ih us (fun t ht => W t (by simp [ht])) (fun u hu => W' u (by simp [hu])) h'')
        rw [← C87_conllx t u (W t (by simp)) (W' u (by simp)) xs ys hx hy, (C52_tokens t (W t (by simp)) xs hx).1,
          (C52_tokens u (W' u (by simp)) ys hy).1]
        injection e with e
        rw [e]
  · intro h
    induction h generalizing ws ws' with
    | nil => cases h1; cases h1'; rfl
    | @cons t u ts us h _ ih =>
      cases h1 with
      | cons a1 a2 =>
        cases h1' with
        | cons b1 b2 =>
          obtain ⟨xs, hx, rfl⟩ := a1
          obtain ⟨ys, hy, rfl⟩ := b1
          obtain ⟨xs', ys', hx', hy', h⟩ := h
          have V := W t (by simp)
          have V' := W' u (by simp)
          obtain rfl := (C52_terminals t V).unique hx hx'
          obtain rfl := (C52_terminals u V').unique hy hy'
          have e := (C87_conllx t u V V' xs ys hx hy).2 h
          rw [(C52_tokens t V xs hx).1, (C52_tokens u V' ys hy).1] at e
          injection e with e
          rw [e, ih (fun t ht => W t (by simp [ht])) (fun u hu => W' u (by simp [hu])) _ a2 _ b2]

/-- C87: trees without number and metadata get the numbers 0, 1, 2, …; so for two runs over such trees the texts are the same
exactly if the trees agree pairwise. -/
theorem C87_unnumbered (ts : List Tree) (h : ∀ t ∈ ts, Negra.Exportable t ∧
      Negra.featOf (Negra.rootFeatures t) "sentence_id".toList = none ∧
      Negra.featOf (Negra.rootFeatures t) "metadata".toList = none) (hl : ts.length ≤ 2 ^ 64) :
    Negra.HeadsFrom 0 ts (fun i => i) (fun _ => none) := by
  intro i t ht
  obtain ⟨E, h1, h2⟩ := h t (List.mem_of_getElem? ht)
  have hi := (List.getElem?_eq_some_iff.1 ht).1
  have hall : (ts.take i).filter (fun u => (Negra.featOf (Negra.rootFeatures u) "sentence_id".toList).isNone) = ts.take i :=
    List.filter_eq_self.2 fun u hu => by rw [(h u (List.mem_of_mem_take hu)).2.1]; rfl
  rw [hall, List.length_take, Nat.min_eq_left hi.le, Nat.zero_add]
  exact ⟨E, by rw [h1]; rfl, by simp only; omega, h2, by simp⟩

/-! ## The hypotheses are met -/

/-- Two files that differ in the labels of the roots and in white space. -/
example : ∃ ts us : List Tree, ts.length = 2 ∧ Stream .simple false ⟨["(S (A (B a) (B b)))", "(T (C c))"].map String.toList, []⟩ (ts.map .ok) true ∧
    Stream .ptb false ⟨["(X (A (B a)  (B b)))", "(VROOT (C c))"].map String.toList, []⟩ (us.map .ok) true ∧
    ∀ (i : Nat) (t u : Tree), ts[i]? = some t → us[i]? = some u → ∃ φ, Negra.Agree t u φ := by
  have sound : ∀ {t : Tree}, (Negra.exportB t && (Negra.featOf (Negra.rootFeatures t) "sentence_id".toList).isNone &&
      (Negra.featOf (Negra.rootFeatures t) "metadata".toList).isNone) = true → Negra.Exportable t ∧
      Negra.featOf (Negra.rootFeatures t) "sentence_id".toList = none ∧
      Negra.featOf (Negra.rootFeatures t) "metadata".toList = none := fun h => by
    simp only [Bool.and_eq_true, Option.isNone_iff_eq_none] at h
    exact ⟨Negra.export_of_check h.1.1, h.1.2, h.2⟩
  obtain ⟨ts, h1, h2, h3⟩ := allTrees_spec (r := Ptb.readAll .simple .single 3
    (["(S (A (B a) (B b)))", "(T (C c))"].map String.toList)) (n := 2) (test := fun t => Negra.exportB t &&
      (Negra.featOf (Negra.rootFeatures t) "sentence_id".toList).isNone &&
      (Negra.featOf (Negra.rootFeatures t) "metadata".toList).isNone) (by decide +kernel)
  obtain ⟨us, k1, k2, k3⟩ := allTrees_spec (r := Ptb.readAll .ptb .single 3
    (["(X (A (B a)  (B b)))", "(VROOT (C c))"].map String.toList)) (n := 2) (test := fun t => Negra.exportB t &&
      (Negra.featOf (Negra.rootFeatures t) "sentence_id".toList).isNone &&
      (Negra.featOf (Negra.rootFeatures t) "metadata".toList).isNone) (by decide +kernel)
  have hs := (ptb_stream .simple .simple false (next_bracket .simple false) 3 _ [] _ h1).1
  have ks := (ptb_stream .ptb .ptb false (next_bracket .ptb false) 3 _ [] _ k1).1
  refine ⟨ts, us, h2, hs, ks, fun i t u ht hu => ?_⟩
  exact (((C87_negra_files .simple .ptb false false minPick minPick _ _ ts us hs ks _ _ _ _
    (C87_unnumbered ts (fun t ht => sound (h3 t ht)) (by rw [h2]; decide))
    (C87_unnumbered us (fun t ht => sound (k3 t ht)) (by rw [k2]; decide))).1 (by decide +kernel)).2 i t u ht hu).2.2

/-- A bracketed file and an export file with the same words. -/
example : ∃ t u : Tree, Stream .simple false ⟨["(S (A (X a)) (Y b))".toList], []⟩ ([t].map .ok) true ∧
    Stream .negra false ⟨["#BOS 3", "a -- X -- -- 500", "b -- Y -- -- 0", "#500 -- B -- -- 0", "#EOS 3"].map String.toList, []⟩
      ([u].map .ok) true ∧ ∃ xs ys, t.Terminals xs ∧ u.Terminals ys ∧
        List.Forall₂ (fun x y => x.form = y.form ∧ x.lem = y.lem ∧ x.pos = y.pos ∧
          x.features.map Features.toStr = y.features.map Features.toStr) xs ys := by
  obtain ⟨t, h1, h2⟩ := onlyItem_spec (f := .simple) (multiline := false) (src := ⟨["(S (A (X a)) (Y b))".toList], []⟩)
    (test := Negra.exportB) (by decide +kernel)
  obtain ⟨u, k1, k2⟩ := onlyItem_spec (f := .negra) (multiline := false)
    (src := ⟨["#BOS 3", "a -- X -- -- 500", "b -- Y -- -- 0", "#500 -- B -- -- 0", "#EOS 3"].map String.toList, []⟩)
    (test := Negra.exportB) (by decide +kernel)
  refine ⟨t, u, h1, k1, ?_⟩
  have := (C87_conllx_files .simple .negra false false minPick minPick _ _ [t] [u] h1 k1
    (by rintro x hx; rw [List.mem_singleton.1 hx]; exact (Negra.export_of_check h2).wf)
    (by rintro x hx; rw [List.mem_singleton.1 hx]; exact (Negra.export_of_check k2).wf)).1 (by decide +kernel)
  cases this with
  | cons h _ => exact h

end Props
end Lumberjack
