import Verif.Proofs.AnnotateEnc
import Verif.Proofs.Check
import Verif.Spec.Examples

/-!
# Encoding trees as tag sequences (C31, C38)
-/

namespace Lumberjack
namespace Props

open Lumberjack.Tree

/-! ## C31 -/

/-- C31: `encode_absolute` on a well-formed projective tree succeeds with one entry per terminal: for
every terminal but the last the count of common ancestors with the next terminal and the label of the
lowest of them, none for the last; with the entry goes the terminal's own chain. -/
theorem C31_encode_absolute (t : Tree) (W : t.WF) (hp : t.isProjective = true) :
    ∃ e, t.encodeAbsolute = .ok (.ok e) ∧ e.length = t.nTerminals ∧
      ∀ n x i, t.graph.node? n = some (.term x) → t.TermAt n i →
        (∀ m, t.TermAt m (i + 1) → ∃ a k y, t.LowestCommon n m a k ∧ t.graph.node? a = some (.nt y) ∧
          e[i]? = some (some ⟨k, y.fullLabel⟩, x.chain)) ∧
        (i + 1 = t.nTerminals → e[i]? = some (none, x.chain)) := by
  obtain ⟨F, hF⟩ := W.is_exists
  obtain ⟨h1, h2⟩ := encode_forest W hp hF
  refine ⟨_, encodeAbsolute_eq W hp hF, ?_, ?_⟩
  · rw [← h1.length_eq, sorted_terminals_length W.sentence]
  · intro n x i hx hn
    have hi := sorted_terminals_get W.sentence hn
    obtain ⟨hlt, hi⟩ := List.getElem?_eq_some_iff.1 hi
    obtain ⟨hlen, hall⟩ := List.forall₂_iff_get.1 h1
    obtain ⟨y, c, q1, q2, q3⟩ := hall i hlt (by omega)
    simp only [List.get_eq_getElem] at q1 q2 q3
    rw [hi] at q1 q2
    rw [hx] at q1
    simp only [Option.some.injEq, Node.term.injEq] at q1
    subst q1
    obtain ⟨l, hl⟩ := W.shape.exists_anc ⟨_, hx⟩
    rw [getCommon_eq W hp hn hl] at q2
    simp only [Res.ok.injEq, Except.ok.injEq] at q2
    rw [List.getElem?_eq_getElem (by omega), q3, ← q2]
    constructor
    · intro m hm
      obtain ⟨a, k, y, r1, r2, r3⟩ := commonOf_lowest W hn hm hl
      exact ⟨a, k, y, r1, r2, by rw [r3]; rfl⟩
    · intro h
      rw [commonOf_last W (by omega) hl]; rfl

/-- C31, the other case: a tree that is not projective is rejected. -/
theorem C31_encode_nonprojective (t : Tree) (hp : t.isProjective = false) :
    t.encodeAbsolute = .ok (.error .nonProjective) ∧ t.encodeRelative = .ok (.error .nonProjective) := by
  unfold encodeAbsolute encodeRelative
  rw [hp]; exact ⟨rfl, rfl⟩

example := C31_encode_absolute Examples.nested (wf_of_check (by decide)) (by decide)
example : Examples.nested.encodeAbsolute = .ok (.ok [(some ⟨2, "VP".toList⟩, none),
    (some ⟨1, "ROOT".toList⟩, none), (none, none)]) := by decide +kernel
example : Examples.disc.WF ∧ Examples.disc.isProjective = false := ⟨wf_of_check (by decide), by decide⟩

/-! ## C38 -/

/-- C38: on a well-formed projective tree `annotate_absolute` stores the text of the terminal's entry in
`encode_absolute` under `abs_ancestor` on each terminal and changes nothing else. -/
theorem C38_annotate_absolute (t : Tree) (W : t.WF) (hp : t.isProjective = true) :
    ∃ e t', t.encodeAbsolute = .ok (.ok e) ∧ e.length = t.nTerminals ∧
      t.annotateAbsolute = .ok (t', .ok ()) ∧ t'.WF ∧
      TermEdit t t' (fun _ x => withFeature "abs_ancestor".toList
        (absText (e[x.span.start]?.getD (none, none))) x) := by
  obtain ⟨F, hF⟩ := W.is_exists
  obtain ⟨h1, h2⟩ := encode_forest W hp hF
  have hlen : (F.encoding 0 [] none).length = t.nTerminals := by
    rw [← h1.length_eq, sorted_terminals_length W.sentence]
  obtain ⟨t2, k1, k2⟩ := annotateAbs_loop W hp
    (val := fun x => absText ((F.encoding 0 [] none)[x.span.start]?.getD (none, none))) h1
    (values_of_list W (none, none) absText hlen)
    ((Progress.start t _).perm (sortIndices_perm _).symm)
  have hE := k2.finish
  refine ⟨_, t2, encodeAbsolute_eq W hp hF, hlen, ?_, hE.wf (fun _ _ => rfl) W, hE⟩
  unfold annotateAbsolute
  rw [hp]; exact k1

/-- C38, the same for `annotate_relative` and `encode_relative` under `rel_ancestor`. -/
theorem C38_annotate_relative (t : Tree) (W : t.WF) (hp : t.isProjective = true) :
    ∃ e t', t.encodeRelative = .ok (.ok e) ∧ e.length = t.nTerminals ∧
      t.annotateRelative = .ok (t', .ok ()) ∧ t'.WF ∧
      TermEdit t t' (fun _ x => withFeature "rel_ancestor".toList
        (relText (e[x.span.start]?.getD (none, none))) x) := by
  obtain ⟨F, hF⟩ := W.is_exists
  obtain ⟨h1, h2⟩ := encode_forest W hp hF
  have hlen : (relFromAbs (F.encoding 0 [] none)).length = t.nTerminals := by
    have : ∀ (e : AbsEncoding) p acc, (relFromAbsLoop e p acc).length = acc.length + e.length := by
      intro e
      induction e with
      | nil => intro p acc; rfl
      | cons x e ih =>
        intro p acc
        obtain ⟨a, b⟩ := x
        cases a <;> simp [relFromAbsLoop, ih] <;> omega
    unfold relFromAbs
    rw [this, ← h1.length_eq, sorted_terminals_length W.sentence]; simp
  obtain ⟨t2, p, k1, k2⟩ := annotateRel_loop W hp (prev := 0)
    (val := fun x => relText ((relFromAbs (F.encoding 0 [] none))[x.span.start]?.getD (none, none))) h1
    (values_of_list W (none, none) relText hlen)
    ((Progress.start t _).perm (sortIndices_perm _).symm)
  have hE := k2.finish
  refine ⟨_, t2, ?_, hlen, ?_, hE.wf (fun _ _ => rfl) W, hE⟩
  · rw [C36_encode_relative, encodeAbsolute_eq W hp hF]; rfl
  · unfold annotateRelative
    rw [hp]
    simp only [Bool.not_true, Bool.false_eq_true, if_false, k1, Res.ok_bind]
    rfl

/-- C38, a tree that is not projective is rejected and unchanged. -/
theorem C38_annotate_nonprojective (t : Tree) (hp : t.isProjective = false) :
    t.annotateAbsolute = .ok (t, .error .nonProjective) ∧
    t.annotateRelative = .ok (t, .error .nonProjective) := by
  unfold annotateAbsolute annotateRelative
  rw [hp]; exact ⟨rfl, rfl⟩

example := C38_annotate_absolute Examples.nested (wf_of_check (by decide)) (by decide)
example := C38_annotate_relative Examples.nested (wf_of_check (by decide)) (by decide)

end Props
end Lumberjack
