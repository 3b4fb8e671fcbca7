import Verif.Proofs.ThroughNegra
import Verif.Props.Through

/-!
# Normalising a NEGRA file first (C81)
-/

namespace Lumberjack
namespace Props

open Lumberjack.Tree Lumberjack.Convert

/-- C81: every orderly NEGRA file that can be read can be converted to NEGRA, and running the tool on the result writes and
ends like running it on the file, with whatever options, output format and POS sentences, unless a tree with gaps is
projectivized. -/
theorem C81_normalise (multiline multiline' : Bool) (pick pick' : Tree → Finset Nat → Option Nat) (hpick : IsOrder pick)
    (hpick' : IsOrder pick') (ls : List Str) (ss ss' : List (Option (List Conllx.Token))) (ts : List Tree)
    (hO : Orderly ls) (hn : ∀ l ∈ ls, '\n' ∉ l) (hz : ls.length + 500 ≤ 2 ^ 64)
    (hs : Stream .negra multiline ⟨ls, ss⟩ (ts.map .ok) true) :
    ∃ wn, main .negra multiline pick (plain .negra) ⟨ls, ss⟩ none = (wn, .finished) ∧
      ∀ o pos, (∀ t ∈ ts, Enough o t) → (o.projectivize = true → ∀ t ∈ ts, t.isProjective = true) →
        main .negra multiline' pick' o ⟨Negra.lines (textOf wn), ss'⟩ pos = main .negra multiline pick o ⟨ls, ss⟩ pos :=
  through_negra hpick hpick' ss' hO hn hz hs

/-- C81: so two files that are converted to the same NEGRA text are converted to the same in any other way. -/
theorem C81_same (multiline multiline' : Bool) (pick pick' : Tree → Finset Nat → Option Nat) (hpick : IsOrder pick)
    (hpick' : IsOrder pick') (ls ls' : List Str) (ss ss' : List (Option (List Conllx.Token))) (ts ts' : List Tree)
    (hO : Orderly ls) (hn : ∀ l ∈ ls, '\n' ∉ l) (hz : ls.length + 500 ≤ 2 ^ 64) (hO' : Orderly ls')
    (hn' : ∀ l ∈ ls', '\n' ∉ l) (hz' : ls'.length + 500 ≤ 2 ^ 64)
    (hs : Stream .negra multiline ⟨ls, ss⟩ (ts.map .ok) true) (hs' : Stream .negra multiline' ⟨ls', ss'⟩ (ts'.map .ok) true)
    (h : textOf (main .negra multiline pick (plain .negra) ⟨ls, ss⟩ none).1 =
      textOf (main .negra multiline' pick' (plain .negra) ⟨ls', ss'⟩ none).1) (o : Options) (pos : Option (List PosItem))
    (hE : ∀ t ∈ ts, Enough o t) (hE' : ∀ t ∈ ts', Enough o t)
    (hp : o.projectivize = true → (∀ t ∈ ts, t.isProjective = true) ∧ ∀ t ∈ ts', t.isProjective = true) :
    main .negra multiline pick o ⟨ls, ss⟩ pos = main .negra multiline' pick' o ⟨ls', ss'⟩ pos := by
  obtain ⟨wn, h1, h2⟩ := C81_normalise multiline multiline' pick pick' hpick hpick' ls ss [] ts hO hn hz hs
  obtain ⟨wn', h1', h2'⟩ := C81_normalise multiline' multiline' pick' pick' hpick' hpick' ls' ss' [] ts' hO' hn' hz' hs'
  rw [h1, h1'] at h
  rw [← h2 o pos hE fun e => (hp e).1, ← h2' o pos hE' fun e => (hp e).2, h]

/-- C81: projectivization is different: in a normalised file the constituents are in another order, in which they are
projectivized. -/
theorem C81_gaps : ∃ wn, main .negra false minPick (plain .negra) crossingToo none = (wn, .finished) ∧
    main .negra false minPick { plain .simple with projectivize := true } crossingToo none =
      ([.text "(VROOT (B (A (X a) (P b) (X c)) (X d)))\n".toList], .finished) ∧
    main .negra false minPick { plain .simple with projectivize := true } ⟨Negra.lines (textOf wn), []⟩ none =
      ([.text "(VROOT (A (X a) (B (P b) (X c) (X d))))\n".toList], .finished) :=
  ⟨(main .negra false minPick (plain .negra) crossingToo none).1,
    Prod.ext rfl (by decide +kernel), by decide +kernel, by decide +kernel⟩

/-! ## The hypotheses are met -/

/-- A file with one sentence and `k` lines. -/
theorem orderly_rows {ls : List Str} (k : Nat) (N : List Negra.NtRow) (hlen : ls.length = k + 2)
    (hbos : ∀ i, i < k + 2 → ∀ l, ls[i]? = some l → Negra.startsWith Negra.bos (Negra.trim l) = true → i = 0)
    (heos : ∀ i, i < k + 1 → ∀ l, ls.tail[i]? = some l → Negra.startsWith Negra.eos (Negra.trim l) = true → i = k)
    (hnt : ((ls.tail.take k).filter fun l => ['#'].isPrefixOf (Negra.trim l)).map
      (fun l => Negra.NtRow.read (Negra.splitWs (Negra.trim l))) = N.map some)
    (ho : Negra.OwnNumbers N)
    (hc : ∀ i, i < N.length → ∀ r, N[i]? = some r → r.att.parent ∉ (N.take (i + 1)).map (·.id)) : Orderly ls := by
  intro pre hd body f rest id info T N' e hop hR hcl
  have split : ∀ (ls : List Str) (pre : List Str) (l : Str) (post : List Str), ls = pre ++ l :: post →
      ls[pre.length]? = some l ∧ pre = ls.take pre.length := by
    rintro _ pre l post rfl; simp
  obtain ⟨a1, a2⟩ := split _ _ _ _ e
  have p0 : pre = [] := List.length_eq_zero_iff.1
    (hbos pre.length (hlen ▸ (List.getElem?_eq_some_iff.1 a1).1) hd a1 hop.1)
  subst p0
  obtain ⟨c1, c2⟩ := split _ _ _ _ (show ls.tail = body ++ f :: rest by rw [e]; rfl)
  have hb : body.length = k := by
    refine heos body.length ?_ f c1 hcl.1
    have := (List.getElem?_eq_some_iff.1 c1).1
    rw [List.length_tail, hlen] at this
    omega
  rw [hb] at c2
  obtain ⟨tl, nl, rfl, h1, h2⟩ := hR
  have hsharp : ∀ l ∈ tl, ['#'].isPrefixOf (Negra.trim l) = false := by
    intro l hl
    obtain ⟨i, hi, rfl⟩ := List.getElem_of_mem hl
    exact ((List.forall₂_iff_get.1 h1).2 i hi ((List.forall₂_iff_get.1 h1).1 ▸ hi)).1
  have hsharp' : ∀ l ∈ nl, ['#'].isPrefixOf (Negra.trim l) = true := by
    intro l hl
    obtain ⟨i, hi, rfl⟩ := List.getElem_of_mem hl
    exact ((List.forall₂_iff_get.1 h2).2 i hi ((List.forall₂_iff_get.1 h2).1 ▸ hi)).2.1
  have hnl : nl.map (fun l => Negra.NtRow.read (Negra.splitWs (Negra.trim l))) = N.map some := by
    have := congrArg (List.filter fun l => ['#'].isPrefixOf (Negra.trim l)) c2
    rw [List.filter_append, List.filter_eq_nil_iff.2 (fun l hl => by simp [hsharp l hl]),
      List.filter_eq_self.2 (fun l hl => hsharp' l hl), List.nil_append] at this
    rw [this, hnt]
  have hN : nl.map (fun l => Negra.NtRow.read (Negra.splitWs (Negra.trim l))) = N'.map some := by
    clear hnl hsharp' hb c1 c2 e hcl a1 a2
    induction h2 with
    | nil => rfl
    | cons h _ ih => rw [List.map_cons, List.map_cons, h.2.2, ih]
  have : N = N' := List.map_injective_iff.2 (Option.some_injective _) (hnl.symm.trans hN)
  subst this
  refine ⟨ho, fun pre r post h => ?_⟩
  subst h
  have := hc pre.length (by simp) r (by simp)
  rwa [List.take_append, List.take_of_length_le (by omega), show pre.length + 1 - pre.length = 1 by omega] at this

/-- The file with crossing constituents, and with a secondary edge. -/
def crossingSec : Source := ⟨["#BOS 7 x y", "a -- X -- -- 501 E 500", "b -- P -- -- 500", "c  la X Sg HD 501", "d -- X -- HD 500",
  "#500 -- B=Q -- -- 0", "#501 -- A -- -- 0 F 0", "#EOS 7"].map String.toList, []⟩

theorem crossingSec_orderly : Orderly crossingSec.lines :=
  orderly_rows 6 [⟨500, "B".toList, some "Q".toList, ⟨none, 0, none⟩⟩, ⟨501, "A".toList, none, ⟨none, 0, some ("F".toList, 0)⟩⟩]
    (by decide) (by decide +kernel) (by decide +kernel) (by decide +kernel) (by unfold Negra.OwnNumbers; decide +kernel)
    (by decide +kernel)

/-- Normalising it makes no difference for any output format. -/
example (out : OutFormat) : ∃ wn, main .negra false minPick (plain .negra) crossingSec none = (wn, .finished) ∧
    main .negra true minPick (many' out) ⟨Negra.lines (textOf wn), []⟩ none =
      main .negra false minPick (many' out) crossingSec none := by
  obtain ⟨t, h1, h2⟩ := onlyItem_spec (f := .negra) (multiline := false) (src := crossingSec)
    (test := fun t => decide (2 ≤ t.nTerminals)) (by decide +kernel)
  have h2 : 2 ≤ t.nTerminals := by simpa using h2
  obtain ⟨wn, g1, g2⟩ := C81_normalise false true minPick minPick minPick_order minPick_order crossingSec.lines [] [] [t]
    crossingSec_orderly (by decide +kernel) (by decide) h1
  exact ⟨wn, g1, g2 _ _ (by simp; exact .inl h2) (fun h => by cases h)⟩

/-- The normalised file is another one, and something is written. -/
example : textOf (main .negra false minPick (plain .negra) crossingSec none).1 ≠ Negra.unlines crossingSec.lines ∧
    (main .negra false minPick (many' .negra) crossingSec none).2 = .finished ∧
    (main .negra false minPick (many' .negra) crossingSec none).1.length = 1 := by decide +kernel

/-- Two files with the same normal form, so everything written for them is the same. -/
example (out : OutFormat) : main .negra false minPick (many' out) crossing none =
    main .negra false minPick (many' out) crossingToo none := by
  have hA : Orderly crossing.lines := orderly_rows 6 [⟨500, "A".toList, none, ⟨none, 0, none⟩⟩, ⟨501, "B".toList, none, ⟨none, 0, none⟩⟩]
    (by decide) (by decide +kernel) (by decide +kernel) (by decide +kernel) (by unfold Negra.OwnNumbers; decide +kernel)
    (by decide +kernel)
  have hB : Orderly crossingToo.lines := orderly_rows 6 [⟨500, "B".toList, none, ⟨none, 0, none⟩⟩, ⟨501, "A".toList, none, ⟨none, 0, none⟩⟩]
    (by decide) (by decide +kernel) (by decide +kernel) (by decide +kernel) (by unfold Negra.OwnNumbers; decide +kernel)
    (by decide +kernel)
  obtain ⟨t, h1, h2⟩ := onlyItem_spec (f := .negra) (multiline := false) (src := crossing)
    (test := fun t => decide (2 ≤ t.nTerminals)) (by decide +kernel)
  obtain ⟨u, h3, h4⟩ := onlyItem_spec (f := .negra) (multiline := false) (src := crossingToo)
    (test := fun t => decide (2 ≤ t.nTerminals)) (by decide +kernel)
  have h2 : 2 ≤ t.nTerminals := by simpa using h2
  have h4 : 2 ≤ u.nTerminals := by simpa using h4
  exact C81_same false false minPick minPick minPick_order minPick_order crossing.lines crossingToo.lines [] [] [t] [u] hA
    (by decide +kernel) (by decide) hB (by decide +kernel) (by decide) h1 h3 (by decide +kernel) _ none (by simp; exact .inl h2)
    (by simp; exact .inl h4) (fun h => by cases h)

end Props
end Lumberjack
