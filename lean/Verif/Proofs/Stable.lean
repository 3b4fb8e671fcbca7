import Verif.Proofs.NegraExport
import Verif.Proofs.PtbTrip
import Verif.Props.Bracket
import Verif.Spec.Stable

/-!
# Running the conversion tool on its own output
-/

namespace Lumberjack
namespace Convert

open Lumberjack.Tree

variable {t t' : Tree}

theorem convert_plain {out : OutFormat} (h1 : out ≠ .absolute) (h2 : out ≠ .relative)
    (pick : Tree → Finset Nat → Option Nat) (c : Nat) (t : Tree) :
    convertTree pick (plain out) none c t = write out c t := by
  have : process pick (plain out) none t = stepEncode (plain out) (.ok t) := rfl
  unfold convertTree
  rw [this]
  simp [stepEncode, stepIf, plain, h1, h2]

/-- A run that finishes has read trees and written them. -/
theorem loop_finished {f : InFormat} {m : Bool} {pick : Tree → Finset Nat → Option Nat} {o : Options} :
    ∀ {fuel : Nat} {src : Source} {c : Nat} {ws : List Written}, loop f m pick o fuel src none c = (ws, .finished) →
      (∀ t c w c', convertTree pick o none c t = .ok (.ok (w, c')) → (∃ s rest src', next f m s = .ok (some (.ok t), src') ∧
        src.lines = rest ++ s.lines) → c' = c) →
      ∃ ts, Stream f m src (ts.map .ok) true ∧ (∀ t ∈ ts, ∃ (s : Source) (rest : List Str) (src' : Source),
          next f m s = .ok (some (.ok t), src') ∧ src.lines = rest ++ s.lines) ∧
        List.Forall₂ (fun t w => convertTree pick o none c t = .ok (.ok (w, c))) ts ws := by
  intro fuel
  induction fuel with
  | zero => intro src c ws h; cases h
  | succ k ih =>
    intro src c ws h hc
    rw [loop] at h
    split at h
    · cases h
    · cases h
    · rename_i hn
      cases h
      exact ⟨[], .stop hn, by simp, .nil⟩
    · cases h
    · rename_i t src' hn
      rw [show (nextPos none).1 = none from rfl] at h
      split at h
      · cases h
      · cases h
      · cases h
      · rename_i w c' hw
        simp only [Prod.mk.injEq] at h
        obtain ⟨h1, h2⟩ := h
        have hcc := hc t c w c' hw ⟨src, [], src', hn, rfl⟩
        subst hcc
        obtain ⟨used, hu⟩ : ∃ used, src.lines = used ++ src'.lines := by
          rcases next_step f m src with h | ⟨s, h⟩ | ⟨item, s, h1, _, h3, _⟩
          · rw [hn] at h; cases h
          · rw [hn] at h; cases h
          · rw [hn] at h1; cases h1; exact h3
        obtain ⟨ts, g1, g3, g2⟩ := ih (src := src') (c := c') (Prod.ext rfl h2) (fun t c w c'' hw ⟨s, r, s', a, b⟩ =>
          hc t c w c'' hw ⟨s, used ++ r, s', a, by rw [hu, b, List.append_assoc]⟩)
        refine ⟨t :: ts, .item hn g1, fun u hu' => ?_, ?_⟩
        · rcases List.mem_cons.1 hu' with rfl | hu'
          · exact ⟨src, [], src', hn, rfl⟩
          · obtain ⟨s, r, s', a, b⟩ := g3 u hu'
            exact ⟨s, used ++ r, s', a, by rw [hu, b, List.append_assoc]⟩
        rw [← h1]
        exact .cons hw g2

/-- Reading trees and writing them. -/
theorem loop_write {f : InFormat} {m : Bool} {pick : Tree → Finset Nat → Option Nat} {o : Options} {c : Nat} :
    ∀ {ts : List Tree} {ws : List Written} {fuel : Nat} {src : Source}, Stream f m src (ts.map .ok) true →
      List.Forall₂ (fun t w => convertTree pick o none c t = .ok (.ok (w, c))) ts ws → ts.length < fuel →
      loop f m pick o fuel src none c = (ws, .finished) := by
  intro ts
  induction ts with
  | nil =>
    intro ws fuel src hs hw hf
    obtain ⟨k, rfl⟩ : ∃ k, fuel = k + 1 := ⟨fuel - 1, by simp at hf; omega⟩
    cases hw
    cases hs with
    | stop hn => rw [loop, hn]
  | cons t ts ih =>
    intro ws fuel src hs hw hf
    obtain ⟨k, rfl⟩ : ∃ k, fuel = k + 1 := ⟨fuel - 1, by simp at hf; omega⟩
    cases hw with
    | cons h1 h2 =>
      cases hs with
      | item hn hs =>
        rw [loop, hn]
        simp only [show (nextPos none).1 = none from rfl, show (nextPos none).2 = none from rfl, h1]
        rw [ih hs h2 (by simpa using hf)]

/-! ## NEGRA -/

open Negra in
theorem sameRoot_number {id : Nat} {info : Option Str} (h : SameRoot t id info) :
    featOf (rootFeatures t) sentenceIdKey = some (natToStr id) := by
  obtain ⟨x, h1, _, h3⟩ := h
  have : rootFeatures t = some (headFeatures id info) := by
    unfold rootFeatures
    rw [h1]
    show x.features = _
    cases hx : x.features with
    | none =>
      rw [hx] at h3
      cases info <;> cases h3
    | some g => rw [hx] at h3; rw [show g = _ from h3]
  rw [this]
  exact (featOf_headFeatures id info).1

theorem main_negra_stable {m m' : Bool} {pick pick' : Tree → Finset Nat → Option Nat} {ls : List Str}
    {ss ss' : List (Option (List Conllx.Token))} {ws : List Written} (hO : Orderly ls) (hn : ∀ l ∈ ls, '\n' ∉ l)
    (hz : ls.length + 500 ≤ 2 ^ 64) (h : main .negra m pick (plain .negra) ⟨ls, ss⟩ none = (ws, .finished)) :
    main .negra m' pick' (plain .negra) ⟨Negra.lines (textOf ws), ss'⟩ none = (ws, .finished) := by
  have good : ∀ t, (∃ (s : Source) (r : List Str) (s' : Source), next .negra m s = .ok (some (.ok t), s') ∧ ls = r ++ s.lines) →
      Negra.Exportable t ∧ ∃ id info, Negra.SameRoot t id info ∧ ∀ counter, Negra.Head t counter id info := by
    rintro t ⟨s, r, s', h1, h2⟩
    subst h2
    simp only [next, fromLines] at h1
    obtain ⟨⟨it, rest⟩, g1, g2⟩ := Res.bind_eq_ok.1 h1
    cases g2
    have := Negra.read_exportable g1 hO.suffix (fun l hl => hn l (by simp [hl])) (by simp at hz; omega)
    exact ⟨this.1, this.2.1⟩
  have conv : ∀ (pick : Tree → Finset Nat → Option Nat) c t, convertTree pick (plain .negra) none c t =
      (Negra.writeTree c t >>= fun p => .ok (.ok (.text p.1, p.2))) := fun pick c t => by
    rw [convert_plain (by simp) (by simp)]; rfl
  obtain ⟨ts, h1, h2, h3⟩ := loop_finished h (fun t c w c' hw ht => by
    obtain ⟨E, id, info, hr, Hd⟩ := good t ht
    obtain ⟨_, _, _, _, _, _, _, g, _⟩ := Negra.written_read E (Hd c)
    rw [conv, g] at hw
    rw [show "sentence_id".toList = Negra.sentenceIdKey from rfl, sameRoot_number hr] at hw
    simp only [Res.ok_bind, Res.ok.injEq, Except.ok.injEq, Prod.mk.injEq, Option.isSome_some, if_true] at hw
    exact hw.2.symm)
  have good' : ∀ t ∈ ts, Negra.Exportable t ∧ ∃ id info, ∀ counter, Negra.Head t counter id info := fun t ht => by
    obtain ⟨E, id, info, _, Hd⟩ := good t (h2 t ht)
    exact ⟨E, id, info, Hd⟩
  have htext : ∀ (ts : List Tree) ws, List.Forall₂ (fun t w => convertTree pick (plain .negra) none 0 t = .ok (.ok (w, 0))) ts ws →
      Negra.writeTrees 0 ts = .ok (textOf ws) := by
    intro ts ws h
    induction h with
    | nil => rfl
    | @cons t w ts ws h _ ih =>
      rw [conv] at h
      obtain ⟨⟨s, c⟩, g1, g2⟩ := Res.bind_eq_ok.1 h
      cases g2
      rw [Negra.writeTrees, g1]
      simp only [Res.ok_bind]
      rw [ih]
      rfl
  have key := htext ts ws h3
  have : Inhabited Tree := ⟨⟨⟨[], [], [], 0, []⟩, 0, 0, 0⟩⟩
  choose! hE id info Hd using good'
  obtain ⟨text, ts', g1, g2, g3, g4⟩ := Props.C48_file ts (fun i => id (ts[i]?.getD default)) (fun i => info (ts[i]?.getD default)) 0
    (fun i t ht => by
      have hm := List.mem_of_getElem? ht
      rw [ht]
      exact ⟨hE t hm, Hd t hm _⟩)
  rw [key] at g1
  cases g1
  refine loop_write (negra_stream m' _ _ ss' _ g2).1 (ts := ts') ?_ ?_
  · rw [List.forall₂_iff_get] at h3 ⊢
    refine ⟨by rw [g3, h3.1], fun i hi hw => ?_⟩
    have hi' : i < ts.length := by omega
    have h5 := h3.2 i hi' hw
    simp only [List.get_eq_getElem] at h5 ⊢
    have hm : ts[i] ∈ ts := List.getElem_mem hi'
    obtain ⟨φ, C⟩ := g4 i ts[i] ts'[i] (by simp) (by simp)
    rw [List.getElem?_eq_getElem hi', Option.getD_some] at C
    obtain ⟨s, c, k1, k2⟩ := C.writeTree (hE _ hm).wf (hE _ hm).root (hE _ hm).sources (Hd _ hm 0) 0
    rw [conv, k1] at h5
    rw [conv, k2]
    simp only [Res.ok_bind, Res.ok.injEq, Except.ok.injEq, Prod.mk.injEq] at h5 ⊢
    exact ⟨h5.1, trivial⟩
  · have := (negra_stream m' _ _ ss' _ g2).2
    simp only [List.length_map] at this
    simp only
    omega

/-! ## Bracketed formats -/

open Bracketed Ptb

/-- A line that starts with an opening and ends with a closing bracket. -/
def Piece (s : Str) : Prop := '\n' ∉ s ∧ s.head? = some '(' ∧ s.getLast? = some ')' ∧ s.count '(' = s.count ')'

theorem word_count {s : Str} (h : Word s) : '\n' ∉ s ∧ s.count '(' = 0 ∧ s.count ')' = 0 :=
  ⟨fun hc => (h.2 _ hc).2.1 rfl, List.count_eq_zero.2 fun hc => (h.2 _ hc).2.2.2.1 rfl,
    List.count_eq_zero.2 fun hc => (h.2 _ hc).2.2.2.2 rfl⟩

theorem intercalate_cons' {sep : Str} (x : Str) (xs : List Str) :
    List.intercalate sep (x :: xs) = x ++ xs.flatMap (fun y => sep ++ y) := by
  induction xs generalizing x with
  | nil => simp [List.intercalate]
  | cons y ys ih =>
    have := ih y
    simp only [List.intercalate, List.intersperse_cons_cons, List.flatten_cons, List.flatMap_cons] at this ⊢
    rw [this, List.append_assoc]

theorem pieces {sep : Str} (hs : sep = [] ∨ sep = [' ']) {b : Brackets} (h : Wordy b) : ∀ s ∈ b.text sep, Piece s := by
  induction b with
  | nil => simp [Brackets.text]
  | leaf tag w r ih =>
    obtain ⟨h1, h2, h3⟩ := h
    intro s hm
    rcases List.mem_cons.1 hm with rfl | hm
    · obtain ⟨a1, a2, a3⟩ := word_count h1
      obtain ⟨b1, b2, b3⟩ := word_count h2
      refine ⟨by simp [a1, b1], rfl, by simp [List.getLast?_cons], by simp [a2, a3, b2, b3]⟩
    · exact ih h3 s hm
  | node tag k r ihk ihr =>
    obtain ⟨h1, _, h2, h3⟩ := h
    intro s hm
    rcases List.mem_cons.1 hm with rfl | hm
    · obtain ⟨a1, a2, a3⟩ := word_count h1
      have hk := ihk h2
      rw [intercalate_cons']
      have hsep : '\n' ∉ sep ∧ sep.count '(' = 0 ∧ sep.count ')' = 0 := by
        rcases hs with rfl | rfl <;> decide
      have hrest : ∀ xs : List Str, (∀ x ∈ xs, Piece x) → '\n' ∉ xs.flatMap (fun y => sep ++ y) ∧
          (xs.flatMap (fun y => sep ++ y)).count '(' = (xs.flatMap (fun y => sep ++ y)).count ')' := by
        intro xs hx
        induction xs with
        | nil => simp
        | cons x xs ih =>
          obtain ⟨c1, c2⟩ := ih (fun y hy => hx y (by simp [hy]))
          have hp := hx x (by simp)
          rw [List.flatMap_cons]
          refine ⟨?_, ?_⟩
          · simp only [List.mem_append, not_or]
            exact ⟨⟨hsep.1, hp.1⟩, c1⟩
          · simp only [List.count_append, hsep.2.1, hsep.2.2, hp.2.2.2, c2]
      obtain ⟨c1, c2⟩ := hrest _ hk
      refine ⟨?_, rfl, by simp [List.getLast?_cons], ?_⟩
      · simp only [List.mem_cons, List.mem_append, not_or]
        exact ⟨by decide, ⟨a1, c1⟩, by decide, by simp⟩
      · simp [a2, a3, c2]
    · exact ihr h3 s hm

/-- What is written for a tree that has been parsed. -/
theorem reprint_piece {f : Format} (hf : f ≠ .ptb) {s : Str} (h : stringToTree f s = .ok (.ok t)) :
    ∃ s' t', Piece s' ∧ treeToString f t = .ok (.ok s') ∧ stringToTree f s' = .ok (.ok t') ∧ treeToString f t' = .ok (.ok s') := by
  obtain ⟨s', t', F, h1, h2, W, W', h3, h4, h5⟩ := reprint hf h
  refine ⟨s', t', ?_, h1, h2, h5⟩
  by_cases hb : ∃ b, b.Single ∧ Reads s b
  · obtain ⟨b, hb, hr⟩ := hb
    obtain ⟨t1, k1, W, hp, hF⟩ := stringToTree_ok (f := f) hr hb
    rw [h] at k1; cases k1
    obtain ⟨c1, c2⟩ := forest_clean hf (k := 0) (reads_wordy hr)
    obtain ⟨c3, c4⟩ := setTop_clean c1 c2
    obtain ⟨s1, w1, w2⟩ := treeToString_ok W hp hF f
    rw [h1] at w1; cases w1
    obtain ⟨hs, hn⟩ := W.is_seq hp hF
    exact pieces (sep := sepOf f) (by cases f <;> simp [sepOf]) (brackets_wordy hs c3) s' (by rw [w2]; simp)
  · rw [stringToTree_err hb] at h; cases h

theorem Piece.tight {s : Str} (h : Piece s) : Negra.Tight s :=
  ⟨fun c hc => by rw [h.2.1] at hc; cases hc; decide, fun c hc => by rw [h.2.2.1] at hc; cases hc; decide⟩

theorem Piece.group {s : Str} (h : Piece s) : Group [s] := by
  refine ⟨⟨s, rfl, ?_⟩, ?_, by simp [h.2.2.2]⟩
  · rintro (rfl | hp)
    · cases h.2.1
    · rw [h.2.1] at hp; cases hp
  · intro p hp h1 h2
    rcases List.prefix_cons_iff.1 hp with rfl | ⟨q, rfl, hq⟩
    · exact absurd rfl h1
    · rw [List.prefix_nil.1 hq] at h2; exact absurd rfl h2

theorem groups_pieces {ls : List Str} (h : ∀ l ∈ ls, Piece l) : Groups ls ls := by
  induction ls with
  | nil => exact .tail (by simp) (fun p hp hne => absurd (List.prefix_nil.1 hp) hne)
  | cons l ls ih =>
    have := Groups.group (h l (by simp)).group (ih fun x hx => h x (by simp [hx]))
    simpa using this

/-- Lines with one bracketing each are read one by one in both modes. -/
theorem readAll_pieces {f : Format} {ls : List Str} (m : Bool) (h : ∀ l ∈ ls, Piece l) {ts : List Tree}
    (ht : List.Forall₂ (fun l t => stringToTree f l = .ok (.ok t)) ls ts) :
    readAll f (if m then .multi else .single) (ls.length + 1) ls = .ok (ts.map .ok) := by
  have conv : ∀ (items : List (Except Err Tree)), List.Forall₂ (fun l r => stringToTree f l = .ok r) ls items →
      items = ts.map .ok := by
    intro items hi
    clear h
    induction ht generalizing items with
    | nil => cases hi; rfl
    | cons h _ ih =>
      cases hi with
      | cons g hi =>
        rw [h] at g; cases g
        rw [ih _ hi]; rfl
  cases m with
  | true =>
    obtain ⟨items, h1, h2⟩ := Props.C47_multi_line f ls ls (groups_pieces h) (ls.length + 1) (by omega)
    simp only [if_true]
    rw [h1, conv items h2]
  | false =>
    obtain ⟨items, h1, h2⟩ := Ptb.readAll_single f (ls.length + 1) ls (by omega)
    rw [List.filter_eq_self.2 (by
      intro l hl
      simp [(h l hl).2.1])] at h2
    simp only [Bool.false_eq_true, if_false]
    rw [h1, conv items h2]

theorem next_bracket (f : Format) (m : Bool) (src : Source) : next (bracketInput f) m src =
    fromLines src (Ptb.readerNext f (if m then .multi else .single) src.lines) := by
  cases f <;> rfl

/-- A tree read from bracketed text is the result of parsing some text. -/
theorem next_parsed {f : Format} {m : Bool} {src src' : Source}
    (h : next (bracketInput f) m src = .ok (some (.ok t), src')) : ∃ s, stringToTree f s = .ok (.ok t) := by
  rw [next_bracket] at h
  unfold fromLines at h
  obtain ⟨⟨it, rest⟩, g1, g2⟩ := Res.bind_eq_ok.1 h
  cases g2
  cases m with
  | false =>
    rcases Ptb.nextSingle_spec f src.lines with ⟨h, _⟩ | ⟨l, r, rest', h1, h2, _, h4⟩
    · rw [show Ptb.readerNext f _ src.lines = Ptb.nextSingle f src.lines from rfl, h] at g1; cases g1
    · rw [show Ptb.readerNext f _ src.lines = Ptb.nextSingle f src.lines from rfl, h1] at g1; cases g1
      exact ⟨l, h2⟩
  | true =>
    rcases Ptb.nextMulti_spec f src.lines with ⟨s, g, rest', h1, _, hg, r, h2, h3⟩ | ⟨s, u, _, _, _, _, h⟩ | ⟨s, g, rest', _, _, _, _, _, h⟩
    · rw [show Ptb.readerNext f _ src.lines = Ptb.nextMulti f src.lines [] 0 from rfl, h3] at g1; cases g1
      exact ⟨_, h2⟩
    · rw [show Ptb.readerNext f _ src.lines = Ptb.nextMulti f src.lines [] 0 from rfl, h] at g1; cases g1
    · rw [show Ptb.readerNext f _ src.lines = Ptb.nextMulti f src.lines [] 0 from rfl, h] at g1; cases g1

theorem write_bracket (f : Format) (c : Nat) {s : Str} (h : treeToString f t = .ok (.ok s)) :
    write (bracketOutput f) c t = .ok (.ok (.text (s ++ ['\n']), c)) := by
  cases f <;> simp [write, bracketOutput, writePtb, h]

theorem textOf_unlines {ls : List Str} : textOf (ls.map fun s => .text (s ++ ['\n'])) = Negra.unlines ls := by
  induction ls with
  | nil => rfl
  | cons l ls ih =>
    have : Negra.unlines (l :: ls) = (l ++ ['\n']) ++ Negra.unlines ls := by simp [Negra.unlines]
    rw [this, ← ih]; rfl

theorem main_bracket_stable {f : Format} (hf : f ≠ .ptb) {m m' : Bool} {pick pick' : Tree → Finset Nat → Option Nat}
    {ls : List Str} {ss ss' : List (Option (List Conllx.Token))} {ws : List Written}
    (h : main (bracketInput f) m pick (plain (bracketOutput f)) ⟨ls, ss⟩ none = (ws, .finished)) :
    main (bracketInput f) m' pick' (plain (bracketOutput f)) ⟨Negra.lines (textOf ws), ss'⟩ none = (ws, .finished) := by
  have conv : ∀ (pick : Tree → Finset Nat → Option Nat) c t, convertTree pick (plain (bracketOutput f)) none c t =
      write (bracketOutput f) c t := fun pick c t => by
    rw [convert_plain] <;> cases f <;> simp [bracketOutput]
  obtain ⟨ts, h1, h2, h3⟩ := loop_finished h (fun t c w c' hw ⟨s, _, s', hn, _⟩ => by
    obtain ⟨x, hx⟩ := next_parsed hn
    obtain ⟨s1, t1, _, k1, _⟩ := reprint_piece hf hx
    rw [conv, write_bracket f c k1] at hw
    cases hw; rfl)
  have key : ∃ lines ts', (∀ l ∈ lines, Piece l) ∧ ws = lines.map (fun s => .text (s ++ ['\n'])) ∧
      List.Forall₂ (fun l t => stringToTree f l = .ok (.ok t)) lines ts' ∧
      List.Forall₂ (fun t w => convertTree pick' (plain (bracketOutput f)) none 0 t = .ok (.ok (w, 0))) ts' ws := by
    clear h h1
    induction h3 with
    | nil => exact ⟨[], [], by simp, rfl, .nil, .nil⟩
    | @cons t w ts ws hw _ ih =>
      obtain ⟨lines, ts', g1, g2, g3, g4⟩ := ih fun u hu => h2 u (by simp [hu])
      obtain ⟨s, _, s', hn, _⟩ := h2 t (by simp)
      obtain ⟨x, hx⟩ := next_parsed hn
      obtain ⟨s1, t1, k0, k1, k2, k3⟩ := reprint_piece hf hx
      rw [conv, write_bracket f 0 k1] at hw
      cases hw
      refine ⟨s1 :: lines, t1 :: ts', ?_, by rw [g2]; rfl, .cons k2 g3, .cons ?_ g4⟩
      · intro l hl
        rcases List.mem_cons.1 hl with rfl | hl
        · exact k0
        · exact g1 l hl
      · rw [conv, write_bracket f 0 k3]
  obtain ⟨lines, ts', g1, g2, g3, g4⟩ := key
  have hl : Negra.lines (textOf ws) = lines := by
    rw [g2, textOf_unlines]
    exact Negra.lines_unlines fun l hl => ⟨(g1 l hl).1, (g1 l hl).tight⟩
  rw [hl]
  have hs := ptb_stream (bracketInput f) f m' (next_bracket f m') _ lines ss' _ (readAll_pieces m' g1 g3)
  refine loop_write hs.1 g4 ?_
  have := hs.2
  simp only [List.length_map] at this
  simp only
  omega

end Convert
end Lumberjack
