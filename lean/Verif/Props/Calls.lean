import Verif.Proofs.Calls
import Verif.Proofs.Check
import Verif.Proofs.RemoveTerm
import Verif.Spec.Examples

/-!
# Histories of all calls: C65
-/

namespace Lumberjack
namespace Props

open Lumberjack.Tree

/-- C65: every call that returns leaves a well-formed tree well formed if it is sound: the elementary
calls as in C09, all others whatever closures they are given, except `restore_unary_chains` when a
discontinuous node has a `unary_chain` feature. -/
theorem C65_step (t t' : Tree) (W : t.WF) (c : Call) (hs : c.Sound t) (h : c.run t = .ok t') : t'.WF := by
  cases c with
  | op o =>
    simp only [Call.run] at h
    obtain ⟨⟨t1, v⟩, h1, h2⟩ := Res.bind_eq_ok.1 h
    cases h2
    exact (op_step W o h1).2.2 hs
  | batch b => exact (batch_step W b h).1 hs

/-- C65: every tree reached from a well-formed tree by a finite sequence of sound calls, elementary or
not, is well formed. -/
theorem C65_history (t t' : Tree) (W : t.WF) (cs : List Call) (h : Calls t cs t') : t'.WF := by
  induction h with
  | refl => exact W
  | step c _ hs hr ih => exact C65_step _ _ ih c hs hr

/-- C65: no sequence of calls that work on the whole tree changes the number of words, a word, its
position or its lemma; if none of them is `annotate_pos`, no tag changes either. -/
theorem C65_sentence (t t' : Tree) (W : t.WF) (bs : List Batch) (h : Calls t (bs.map .batch) t') :
    SameWords t t' ∧ ((∀ b ∈ bs, b.retags = false) → SameTags t t') := by
  generalize hc : bs.map Call.batch = cs at h
  induction h generalizing bs with
  | refl => exact ⟨(Keep.refl t).1, fun _ => (Keep.refl t).2⟩
  | @step cs t1 t2 c hh hs hr ih =>
    obtain ⟨bs1, bs2, rfl, h1, h2⟩ := List.map_eq_append_iff.1 hc
    obtain ⟨b, rfl, rfl⟩ := List.map_eq_singleton_iff.1 h2
    obtain ⟨k1, k2⟩ := ih bs1 h1
    obtain ⟨-, g1, g2⟩ := batch_step (C65_history _ _ W _ hh) b hr
    refine ⟨k1.trans g1, fun hb => ?_⟩
    exact (Keep.trans ⟨k1, k2 fun b hb' => hb b (by simp [hb'])⟩ ⟨g1, g2 (hb b (by simp))⟩).2

/-- C65: on a well-formed tree every one of these calls but `reattach_terminals` returns: there is no
panic and no endless loop, whatever its arguments. -/
theorem C65_total (t : Tree) (W : t.WF) (b : Batch) (hb : ∀ a f, b ≠ .reattachTerminals a f) :
    ∃ t', b.run t = .ok t' := by
  obtain ⟨t', h, _⟩ := batch_total W b hb
  exact ⟨t', h⟩

/-- A discontinuous node with a chain: as `Examples.disc`, with a feature on the node over 0 and 2. -/
private def discChain : Tree := Examples.disc.setNode 3
  (.nt { NonTerminal.new "A".toList ⟨0, 3, some {1}⟩ with
    features := some ⟨[("unary_chain".toList, some "S".toList)]⟩ })

private theorem unsound_of {t : Tree} {d : Str} 
    (h : (match (Batch.restoreUnaryChains d).run t with
      | .ok t' => decide (t'.resetNtSpans ≠ .ok t')
      | _ => false) = true) :
    ∃ t', (Batch.restoreUnaryChains d).run t = .ok t' ∧ ¬ t'.WF := by
  split at h
  · rename_i t' e
    exact ⟨t', e, fun W' => absurd (resetNtSpans_id W') (by simpa using h)⟩
  · simp at h

/-- C65: the exception is real: here `restore_unary_chains` gives a tree that is not well formed (the
restored node has the gap, too, but is not counted). -/
theorem C65_unsound : ∃ t t' : Tree, t.WF ∧ (Batch.restoreUnaryChains "_".toList).run t = .ok t' ∧ ¬ t'.WF := by
  have W : discChain.WF := wf_of_check (by decide +kernel)
  obtain ⟨t', h1, h2⟩ := unsound_of (t := discChain) (d := "_".toList) (by decide +kernel)
  exact ⟨_, t', W, h1, h2⟩

private theorem three_calls {t : Tree} {a b c : Batch} (ha : ∀ t, a.Sound t) (hb : ∀ t, b.Sound t) (hc : ∀ t, c.Sound t)
    (h : (do let t1 ← a.run t; let t2 ← b.run t1; let t3 ← c.run t2
             return (decide (t3.nonterminals.length ≠ t.nonterminals.length)) : Res Bool) = .ok true) :
    ∃ t', Calls t ([a, b, c].map .batch) t' ∧ t'.nonterminals.length ≠ t.nonterminals.length := by
  obtain ⟨t1, h1, h⟩ := Res.bind_eq_ok.1 h
  obtain ⟨t2, h2, h⟩ := Res.bind_eq_ok.1 h
  obtain ⟨t3, h3, h⟩ := Res.bind_eq_ok.1 h
  refine ⟨t3, .step (cs := [.batch a, .batch b]) (.batch c) (.step (cs := [.batch a]) (.batch b)
    (.step (cs := []) (.batch a) .refl (ha t) h1) (hb t1) h2) (hc t2) h3, ?_⟩
  simpa using h

/-- A history with closures, on the tree with a gap: the last word is moved to the node with the gap, the
node above the second word is dropped, and a node is put above every run of words below the root. -/
example : ∃ t', Calls Examples.disc
    ([.reattachTerminals 3 (fun _ n => n == 6), .filterNonterminals (fun _ n => n != 5),
      .insertIntermediate (fun _ _ => some "X".toList)].map .batch) t' ∧
    t'.nonterminals.length ≠ Examples.disc.nonterminals.length :=
  three_calls (fun _ => trivial) (fun _ => trivial) (fun _ => trivial) (by decide +kernel)

end Props
end Lumberjack
