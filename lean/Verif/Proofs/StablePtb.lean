import Verif.Proofs.Stable

/-!
# Running the conversion tool on its own output in the PTB format
-/

namespace Lumberjack
namespace Convert

open Ptb Bracketed Lumberjack.Tree

variable {t : Tree}

theorem almost_count {s : Str} (h : s = [] ∨ Word s) : '\n' ∉ s ∧ s.count '(' = 0 ∧ s.count ')' = 0 := by
  rcases h with rfl | h
  · simp
  · exact word_count h

theorem pieces_almost {b : Brackets} (h : Almost b) : ∀ s ∈ b.text [' '], Piece s := by
  induction b with
  | nil => simp [Brackets.text]
  | leaf tag w r ih =>
    obtain ⟨h1, h2, h3⟩ := h
    intro s hm
    rcases List.mem_cons.1 hm with rfl | hm
    · obtain ⟨a1, a2, a3⟩ := almost_count h1
      obtain ⟨b1, b2, b3⟩ := word_count h2
      refine ⟨by simp [a1, b1], rfl, by simp [List.getLast?_cons], by simp [a2, a3, b2, b3]⟩
    · exact ih h3 s hm
  | node tag k r ihk ihr =>
    obtain ⟨h1, _, h2, h3⟩ := h
    intro s hm
    rcases List.mem_cons.1 hm with rfl | hm
    · obtain ⟨a1, a2, a3⟩ := word_count h1
      have hk := ihk h2
      rw [intercalate_cons']
      have hrest : ∀ xs : List Str, (∀ x ∈ xs, Piece x) → '\n' ∉ xs.flatMap (fun y => [' '] ++ y) ∧
          (xs.flatMap (fun y => [' '] ++ y)).count '(' = (xs.flatMap (fun y => [' '] ++ y)).count ')' := by
        intro xs hx
        induction xs with
        | nil => simp
        | cons x xs ih =>
          obtain ⟨c1, c2⟩ := ih (fun y hy => hx y (by simp [hy]))
          have hp := hx x (by simp)
          rw [List.flatMap_cons]
          refine ⟨?_, ?_⟩
          · simp only [List.mem_append, not_or]
            exact ⟨⟨by decide, hp.1⟩, c1⟩
          · simp only [List.count_append, hp.2.2.2, c2]
            rfl
      obtain ⟨c1, c2⟩ := hrest _ hk
      refine ⟨?_, rfl, by simp [List.getLast?_cons], ?_⟩
      · simp only [List.mem_cons, List.mem_append, not_or]
        exact ⟨by decide, ⟨a1, c1⟩, by decide, by simp⟩
      · simp only [List.singleton_append] at c2
        simp [a2, a3, c2]
    · exact ihr h3 s hm

/-- Reading and writing until something cannot be read. -/
theorem loop_until {f : InFormat} {m : Bool} {pick : Tree → Finset Nat → Option Nat} {o : Options} {c : Nat} {e : Err}
    {rs : List (Except Err Tree)} : ∀ {ts : List Tree} {ws : List Written} {fuel : Nat} {src : Source},
      Stream f m src (ts.map .ok ++ .error e :: rs) true →
      List.Forall₂ (fun t w => convertTree pick o none c t = .ok (.ok (w, c))) ts ws → ts.length < fuel →
      loop f m pick o fuel src none c = (ws, .exited e) := by
  intro ts
  induction ts with
  | nil =>
    intro ws fuel src hs hw hf
    obtain ⟨k, rfl⟩ : ∃ k, fuel = k + 1 := ⟨fuel - 1, by simp at hf; omega⟩
    cases hw
    cases hs with
    | item hn => rw [loop, hn]
  | cons t ts ih =>
    intro ws fuel src hs hw hf
    obtain ⟨k, rfl⟩ : ∃ k, fuel = k + 1 := ⟨fuel - 1, by simp at hf; omega⟩
    cases hw with
    | cons h1 h2 =>
      cases hs with
      | item hn hs =>
        rw [loop, hn]
        simp only [show (nextPos none).1 = none from rfl, show (nextPos none).2 = none from rfl, h1]
        rw [ih hs h2 (by simpa using hf)]

theorem convert_ptb (pick : Tree → Finset Nat → Option Nat) (c : Nat) (t : Tree) :
    convertTree pick (plain .ptb) none c t = write .ptb c t := by
  rw [convert_plain] <;> simp

/-- What the tool writes for a tree that has been read. -/
theorem ptb_line {s : Str} {b : Brackets} (hb : b.Single) (hr : Reads s b) (pick : Tree → Finset Nat → Option Nat) :
    ∃ t, stringToTree .ptb s = .ok (.ok t) ∧
      convertTree pick (plain .ptb) none 0 t = .ok (.ok (.text b.grown.line, 0)) := by
  obtain ⟨t, h1, W, hp, hF⟩ := stringToTree_ok (f := .ptb) hr hb
  obtain ⟨s', h2, h3⟩ := treeToString_ok W hp hF .ptb
  rw [setTop_brackets, forest_brackets (reads_wordy hr)] at h3
  refine ⟨t, h1, ?_⟩
  rw [convert_ptb, show write .ptb 0 t = write (bracketOutput .ptb) 0 t from rfl, write_bracket .ptb 0 h2]
  simp only [Brackets.line]
  rw [show sepOf .ptb = [' '] from rfl] at h3
  rw [h3]; simp

theorem ptb_lines {ss : List Str} {bs : List Brackets} (h : List.Forall₂ (fun s b => b.Single ∧ Reads s b) ss bs)
    (pick : Tree → Finset Nat → Option Nat) :
    ∃ ts : List Tree, List.Forall₂ (fun s t => stringToTree .ptb s = .ok (.ok t)) ss ts ∧
      List.Forall₂ (fun t w => convertTree pick (plain .ptb) none 0 t = .ok (.ok (w, 0))) ts
        (bs.map fun b => .text b.grown.line) := by
  induction h with
  | nil => exact ⟨[], .nil, .nil⟩
  | cons h _ ih =>
    obtain ⟨ts, h1, h2⟩ := ih
    obtain ⟨t, k1, k2⟩ := ptb_line h.1 h.2 pick
    exact ⟨t :: ts, .cons k1 h1, .cons k2 h2⟩

theorem texts_readAll {f : Format} {m : Bool} {lines texts : List Str} (h : Texts m lines texts) :
    ∃ items, readAll f (if m then .multi else .single) (lines.length + 1) lines = .ok items ∧
      List.Forall₂ (fun s r => stringToTree f s = .ok r) texts items := by
  unfold Texts at h
  cases m with
  | true =>
    simp only [if_true] at h ⊢
    exact Props.C47_multi_line f lines texts h _ (by omega)
  | false =>
    simp only [Bool.false_eq_true, if_false] at h ⊢
    rw [h]
    exact readAll_single f _ lines (by omega)

theorem texts_pieces {m : Bool} {ls : List Str} (h : ∀ l ∈ ls, Piece l) : Texts m ls ls := by
  unfold Texts
  cases m with
  | true => simpa using groups_pieces h
  | false =>
    simp only [Bool.false_eq_true, if_false]
    rw [List.filter_eq_self.2]
    intro l hl
    simp [(h l hl).2.1]

theorem forall₂_unique {α β : Type} {R : α → β → Prop} (hR : ∀ a b b', R a b → R a b' → b = b') {l : List α} {m m' : List β}
    (h : List.Forall₂ R l m) (h' : List.Forall₂ R l m') : m = m' := by
  induction h generalizing m' with
  | nil => cases h'; rfl
  | cons h _ ih =>
    cases h' with
    | cons g h' => rw [hR _ _ _ h g, ih h']

theorem main_ptb {m : Bool} {pick : Tree → Finset Nat → Option Nat} {lines texts : List Str}
    {ss : List (Option (List Conllx.Token))} {bs : List Brackets} (ht : Texts m lines texts)
    (h : List.Forall₂ (fun s b => b.Single ∧ Reads s b) texts bs) :
    main .ptb m pick (plain .ptb) ⟨lines, ss⟩ none = (bs.map fun b => .text b.grown.line, .finished) := by
  obtain ⟨items, h1, h2⟩ := texts_readAll (f := .ptb) ht
  obtain ⟨ts, h3, h4⟩ := ptb_lines h pick
  have e : items = ts.map .ok := by
    refine forall₂_unique (fun a b b' x y => ?_) h2 (List.forall₂_map_right_iff.2 h3)
    rw [x] at y; cases y; rfl
  subst e
  obtain ⟨hs, hl⟩ := ptb_stream .ptb .ptb m (next_bracket .ptb m) _ lines ss _ h1
  refine loop_write hs h4 ?_
  simp only [List.length_map] at hl
  simp only
  omega

theorem main_ptb_until {m : Bool} {pick : Tree → Finset Nat → Option Nat} {lines texts rest : List Str} {s : Str}
    {ss : List (Option (List Conllx.Token))} {bs : List Brackets} (ht : Texts m lines (texts ++ s :: rest))
    (h : List.Forall₂ (fun s b => b.Single ∧ Reads s b) texts bs) (hs : ¬ ∃ b, b.Single ∧ Reads s b) :
    main .ptb m pick (plain .ptb) ⟨lines, ss⟩ none = (bs.map fun b => .text b.grown.line, .exited (.parse 10)) := by
  obtain ⟨items, h1, h2⟩ := texts_readAll (f := .ptb) ht
  obtain ⟨ts, h3, h4⟩ := ptb_lines h pick
  obtain ⟨i1, i2, k1, k2, rfl⟩ : ∃ i1 i2, List.Forall₂ (fun s r => stringToTree .ptb s = .ok r) texts i1 ∧
      List.Forall₂ (fun s r => stringToTree .ptb s = .ok r) (s :: rest) i2 ∧ items = i1 ++ i2 := by
    have := List.forall₂_iff_get.1 h2
    refine ⟨items.take texts.length, items.drop texts.length, ?_, ?_, (List.take_append_drop _ _).symm⟩
    · simpa using List.forall₂_take texts.length h2
    · simpa using List.forall₂_drop texts.length h2
  have e : i1 = ts.map .ok := by
    refine forall₂_unique (fun a b b' x y => ?_) k1 (List.forall₂_map_right_iff.2 h3)
    rw [x] at y; cases y; rfl
  subst e
  cases k2 with
  | @cons _ r _ rs g _ =>
    rw [stringToTree_err hs] at g; cases g
    obtain ⟨hs, hl⟩ := ptb_stream .ptb .ptb m (next_bracket .ptb m) _ lines ss _ h1
    refine loop_until hs h4 ?_
    simp only [List.length_append, List.length_map, List.length_cons] at hl
    simp only
    omega

theorem text_of_single {b : Brackets} (h : b.Single) : ∃ s, b.text [' '] = [s] := by
  cases b <;> simp_all [Brackets.Single, Brackets.text]

/-- The lines of the output. -/
theorem lines_grown {bs : List Brackets} (h : ∀ b ∈ bs, b.Single ∧ Wordy b) :
    ∃ out : List Str, (∀ l ∈ out, Piece l) ∧ List.Forall₂ (fun s b => b.grown.text [' '] = [s]) out bs ∧
      Negra.lines (textOf (bs.map fun b => .text b.grown.line)) = out := by
  have key : ∃ out : List Str, (∀ l ∈ out, Piece l) ∧ List.Forall₂ (fun s b => b.grown.text [' '] = [s]) out bs ∧
      (bs.map fun b => Written.text b.grown.line) = out.map fun s => .text (s ++ ['\n']) := by
    induction bs with
    | nil => exact ⟨[], by simp, .nil, rfl⟩
    | cons b bs ih =>
      obtain ⟨out, h1, h2, h3⟩ := ih fun x hx => h x (by simp [hx])
      obtain ⟨hb, hw⟩ := h b (by simp)
      obtain ⟨s, hs⟩ := text_of_single (grown_single hb)
      refine ⟨s :: out, ?_, .cons hs h2, ?_⟩
      · intro l hl
        rcases List.mem_cons.1 hl with rfl | hl
        · exact pieces_almost (grown_almost hw) l (by rw [hs]; simp)
        · exact h1 l hl
      · rw [List.map_cons, List.map_cons, h3, Brackets.line, hs]; simp
  obtain ⟨out, h1, h2, h3⟩ := key
  refine ⟨out, h1, h2, ?_⟩
  rw [h3, textOf_unlines]
  exact Negra.lines_unlines fun l hl => ⟨(h1 l hl).1, (h1 l hl).tight⟩

theorem wordy_of_reads {texts : List Str} {bs : List Brackets} (h : List.Forall₂ (fun s b => b.Single ∧ Reads s b) texts bs) :
    ∀ b ∈ bs, b.Single ∧ Wordy b := by
  induction h with
  | nil => simp
  | cons h _ ih =>
    intro x hx
    rcases List.mem_cons.1 hx with rfl | hx
    · exact ⟨h.1, reads_wordy h.2⟩
    · exact ih x hx

theorem reads_grown {out : List Str} {bs : List Brackets} (h : List.Forall₂ (fun s b => b.grown.text [' '] = [s]) out bs)
    (hw : ∀ b ∈ bs, b.Single ∧ Wordy b) (hn : ∀ b ∈ bs, b.NoDashFirst) :
    List.Forall₂ (fun s b => b.Single ∧ Reads s b) out (bs.map Brackets.grown) := by
  induction h with
  | nil => exact .nil
  | @cons _ b _ _ h _ ih =>
    obtain ⟨h1, h2⟩ := hw b (by simp)
    exact .cons ⟨grown_single h1, reads_text_one (f := .ptb) (grown_wordy h2 (hn _ (by simp))).1 h⟩
      (ih (fun x hx => hw x (by simp [hx])) fun x hx => hn x (by simp [hx]))

theorem doubled_ne {tag : Str} : Brackets.doubled tag = tag ↔ '-' ∉ tag := by
  unfold Brackets.doubled
  constructor
  · intro h hm
    obtain ⟨a, ha⟩ : ∃ a, after '-' tag = some a := ⟨_, by unfold after; rw [if_pos hm]⟩
    rw [ha] at h
    have e := before_after ha
    simp only at h
    have := congrArg List.length (h.trans e)
    simp at this
  · intro h
    have : after '-' tag = none := by unfold after; rw [if_neg h]
    rw [this]

theorem doubled_dash {tag : Str} : '-' ∈ Brackets.doubled tag ↔ '-' ∈ tag := by
  unfold Brackets.doubled
  cases ha : after '-' tag with
  | none => rfl
  | some a =>
    have e := before_after ha
    simp only [List.mem_append, List.mem_cons, true_or, or_true, true_iff]
    rw [e]; simp

theorem before_before {c : Char} {s : Str} : before c (before c s) = before c s :=
  before_of_not_mem fun h => (mem_before h).2 rfl

theorem grown_fixed {b : Brackets} : b.grown.grown = b.grown ↔ b.NoInnerDash := by
  induction b with
  | nil => simp [Brackets.grown, Brackets.NoInnerDash]
  | leaf tag w r ih => simp [Brackets.grown, Brackets.NoInnerDash, ih, before_before]
  | node tag k r ihk ih =>
    simp only [Brackets.grown, Brackets.NoInnerDash, Brackets.node.injEq, ihk, ih, doubled_ne, doubled_dash]

end Convert
end Lumberjack
