import Verif.Proofs.ConvertOrder
import Verif.Props.Convert
import Mathlib.Tactic.IntervalCases

/-!
# Runs of the conversion tool and the order of hash sets (C61)
-/

namespace Lumberjack
namespace Props

open Lumberjack.Tree Lumberjack.Convert

/-- C61: two runs of the tool on the same input with the same options write the same texts and sentences and end in
the same way, whichever orders the hash sets have in them. -/
theorem C61_same_run (pick pick' : Tree → Finset Nat → Option Nat) (hp : IsOrder pick) (hp' : IsOrder pick')
    (f : InFormat) (multiline : Bool) (o : Options) (src : Source) (pos : Option (List PosItem))
    (items : List (Except Err Tree)) (b : Bool) (h : Stream f multiline src items b)
    (hO : f = .negra → Orderly src.lines) (hE : ∀ t, .ok t ∈ items → Enough o t) :
    main f multiline pick o src pos = main f multiline pick' o src pos := by
  obtain ⟨items', b', h', _, hR⟩ := stream_exists f multiline src.size src (Nat.le_refl _)
  obtain ⟨rfl, rfl⟩ := h.unique h'
  exact loop_eq hp hp' f multiline o h pos 0 _ fun t ht => (hR hO t ht).suits (hE t ht)

/-- C61: the same for the conversion of a single tree. -/
theorem C61_same_conversion (pick pick' : Tree → Finset Nat → Option Nat) (hp : IsOrder pick) (hp' : IsOrder pick')
    (o : Options) (tags : Option PosItem) (counter : Nat) (t : Tree) (S : Suits o t) :
    ∃ r, convertTree pick o tags counter t = .ok r ∧ convertTree pick' o tags counter t = .ok r := by
  obtain ⟨r, h⟩ := convertTree_returns hp o tags counter S
  exact ⟨r, h, by rw [← convertTree_eq hp hp' o tags counter S]; exact h⟩

/-- C61: if two trees agree in everything but the numbers of their edges and the order in which edges to different nodes
were added, they have the same NEGRA text, the same tokens and the same text in every bracketed format. -/
theorem C61_same_texts (t u : Tree) (h : Twin t u) (W : t.WF) (W' : u.WF) :
    (∀ counter, Negra.writeTree counter t = Negra.writeTree counter u) ∧ Conllx.toConllx t = Conllx.toConllx u ∧
    ∀ f, Ptb.treeToString f t = Ptb.treeToString f u := by
  have A := h.alike W.graph W'.graph
  exact ⟨Negra.alike_writeTree A, Conllx.alike_toConllx A, Ptb.pair_treeToString ⟨A, W, W'⟩⟩

/-- Options with which the tree `wide`, whose gap holds two words, goes through most steps and is written with the
moves as secondary edges. -/
def recorded : Options :=
  { plain .negra with projectivize := true, secEdges := true, insertionSet := some (.positive ["A".toList]), insertionLabel := "L".toList }

theorem wide_suits (o : Options) : Suits o wide := by
  refine ⟨⟨wf_of_check (by decide +kernel), ⟨_, rfl⟩, ?_, ?_⟩, .inl (by decide)⟩
  · have key : ∀ n i, wide.TermAt n i → n = i := by
      rintro n i ⟨x, hx, hi⟩
      have hn : n < 6 := by
        by_contra hc
        rw [show wide.graph.node? n = none from by
          unfold Graph.node?
          rw [List.getElem?_eq_none (by simp only [wide, List.length]; omega)]
          rfl] at hx
        cases hx
      have e : ∀ k, Span.ofIdx k = ⟨k, k + 1, none⟩ := fun _ => rfl
      interval_cases n <;> simp [wide, Graph.node?, Examples.tm, Examples.nt] at hx <;> subst hx <;>
        simp [Terminal.new, e] at hi <;> omega
    intro n m i j hi hj
    rw [key n i hi, key m j hj]
  · intro r hr hw
    simp only [wide, List.mem_cons, List.not_mem_nil, or_false] at hr
    rcases hr with rfl | rfl | rfl | rfl | rfl <;> simp [Examples.pe, Edge.isPrimary] at hw

/-- The two orders of the words in the gap lead to different moves (see C60) but to the same text. -/
example : Suits recorded wide ∧ convertTree minPick recorded none 0 wide = convertTree maxPick recorded none 0 wide ∧
    (wide.projectivize minPick >>= fun r => .ok r.2) ≠ (wide.projectivize maxPick >>= fun r => .ok r.2) ∧
    (convertTree minPick recorded none 0 wide >>= fun r => .ok (r.toOption.isSome)) = .ok true :=
  ⟨wide_suits _, convertTree_eq minPick_order maxPick_order _ _ _ (wide_suits _), by decide +kernel, by decide +kernel⟩

/-- A file with a gap. -/
example : main .negra false minPick (many .ptb) gapFile none = main .negra false maxPick (many .ptb) gapFile none := by
  obtain ⟨t, h1, h2⟩ := onlyItem_spec (f := .negra) (multiline := false) (src := gapFile)
    (test := fun t => decide (2 ≤ t.nTerminals)) (by decide +kernel)
  have h2 : 2 ≤ t.nTerminals := by simpa using h2
  exact C61_same_run minPick maxPick minPick_order maxPick_order .negra false (many .ptb) gapFile none [.ok t] true h1
    (fun _ => gapFile_orderly) (by simp; exact .inl h2)

end Props
end Lumberjack
