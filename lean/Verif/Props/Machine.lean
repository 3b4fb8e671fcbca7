import Verif.Proofs.Machine
import Verif.Proofs.Skeleton
import Verif.Proofs.Check
import Verif.Props.TagFiles

/-!
# Counts of machine size (C72)
-/

namespace Lumberjack
namespace Props

open Lumberjack.Tree Conllx

/-- C72: as long as no sum reaches `2 ^ 63`, both builds compute what unbounded integers give. -/
theorem C72_in_range (b : Build) (e : RelEncoding) (ho : OffsetsFit e) (hs : SumsFit e) :
    Machine.tryFromRelative b e = .ok (tryFromRelative e) ∧
    Machine.unwrapOrFix b (tryFromRelative e) = .ok (tryFromRelative e).unwrapOrFix :=
  Machine.tryFromRelLoop_fits b e 0 [] (by omega) ho ((Machine.sumsFit_iff e).1 hs)

/-- C72: a build with overflow checks panics exactly if some sum reaches `2 ^ 63`. -/
theorem C72_checked (e : RelEncoding) (ho : OffsetsFit e) :
    (Machine.tryFromRelative .checked e >>= Machine.unwrapOrFix .checked) = .panic ↔ ¬ SumsFit e := by
  constructor
  · intro h hs
    obtain ⟨h1, h2⟩ := C72_in_range .checked e ho hs
    rw [h1, Res.ok_bind, h2] at h
    simp at h
  · intro hs
    exact Machine.convert_panics e 0 [] (by omega) ho (fun h => hs ((Machine.sumsFit_iff e).2 h))

/-- C72: a build without overflow checks always returns an encoding with labels and chains of the
entries. The count is the running count, in which a sum that is less than one or reaches `2 ^ 63` is
replaced by two. -/
theorem C72_release (e : RelEncoding) (ho : OffsetsFit e) :
    ∃ a, (Machine.tryFromRelative .wrapping e >>= Machine.unwrapOrFix .wrapping) = .ok a ∧
      a.length = e.length ∧ ∀ i (hi : i < e.length),
        a[i]? = some ((e[i].1.map fun r =>
          (⟨(releaseCount (e.take (i + 1))).toNat, r.lab⟩ : AbsAncestor)), e[i].2) := by
  refine ⟨_, Machine.convert_release e 0 [] (by omega) ho, ?_, fun i hi => ?_⟩
  · simp [Machine.released]
  · simp [Machine.released, releaseCount, hi]

/-- C72: so all counts are at least one and below `2 ^ 63`. -/
theorem C72_release_counts (e : RelEncoding) (ho : OffsetsFit e) (a : AbsEncoding)
    (h : (Machine.tryFromRelative .wrapping e >>= Machine.unwrapOrFix .wrapping) = .ok a) :
    AbsPositive a ∧ CountsFit a := by
  have hc := Machine.convert_release e 0 [] (by omega) ho
  rw [Machine.tryFromRelative, hc, List.nil_append, Res.ok.injEq] at h
  subst h
  have key : ∀ (l : RelEncoding) (c : Int), 0 ≤ c ∧ c < 2 ^ 63 →
      ∀ x ∈ Machine.released c l, ∀ y, x.1 = some y → 1 ≤ y.common ∧ y.common < 2 ^ 63 := by
    intro l
    induction l with
    | nil => intro c _ x hx; simp [Machine.released] at hx
    | cons z l ih =>
      intro c hc x hx y hy
      rw [Machine.released_cons] at hx
      rcases List.mem_cons.1 hx with rfl | hx
      · obtain ⟨r, leaf⟩ := z
        have hr := Machine.releaseStep_range hc (r, leaf)
        rcases r with _ | ⟨o, l'⟩ | l'
        · simp at hy
        · simp only [Option.map_some, Option.some.injEq] at hy
          subst hy
          have : 1 ≤ releaseStep c (some (.regular o l'), leaf) := by
            simp only [releaseStep]; split <;> omega
          dsimp only
          omega
        · simp only [Option.map_some, Option.some.injEq] at hy
          subst hy
          simp [releaseStep]
      · exact ih _ (Machine.releaseStep_range hc z) x hx y hy
  exact ⟨fun x hx y hy => (key e 0 (by omega) x hx y hy).1, fun x hx y hy => (key e 0 (by omega) x hx y hy).2⟩

/-- C72: absolute encodings with counts from one to `2 ^ 63 - 1` survive as relative ones, in both builds. -/
theorem C72_abs_rel_abs (b : Build) (e : AbsEncoding) (h : AbsPositive e) (hc : CountsFit e) :
    Machine.relFromAbs b e = .ok (relFromAbs e) ∧
    Machine.tryFromRelative b (relFromAbs e) = .ok (.success e) := by
  obtain ⟨h1, h2⟩ := Machine.relFromAbs_fits e 0 (by omega) (by omega) hc h
  refine ⟨Machine.relFromAbsLoop_fits b e 0 [] (by omega) (by omega) hc, ?_⟩
  rw [(C72_in_range b (relFromAbs e) h1 ((Machine.sumsFit_iff _).2 h2)).1, C34_abs_rel_abs e h]

/-- C72: reading tags gives what unbounded integers give, in both builds, as long as no sum reaches `2 ^ 63`. -/
theorem C72_read (b : Build) (toks : List Token)
    (hs : ∀ enc tms, readTokens "rel_ancestor".toList RelAncestor.parse toks 0 = .ok (enc, tms) → SumsFit enc) :
    Machine.readRelative b toks = Conllx.tryFromRelative toks := by
  unfold Machine.readRelative Conllx.tryFromRelative
  cases h : readTokens "rel_ancestor".toList RelAncestor.parse toks 0 with
  | error e => rfl
  | ok r =>
    obtain ⟨enc, tms⟩ := r
    obtain ⟨h1, h2⟩ := C72_in_range b enc (Machine.readTokens_range toks h) (hs enc tms h)
    simp only [h1, Res.ok_bind, h2]

/-- C72: otherwise a build with overflow checks panics. -/
theorem C72_read_panic (toks : List Token) (enc : RelEncoding) (tms : List Terminal)
    (h : readTokens "rel_ancestor".toList RelAncestor.parse toks 0 = .ok (enc, tms)) (hs : ¬ SumsFit enc) :
    Machine.readRelative .checked toks = .panic := by
  have hp := (C72_checked enc (Machine.readTokens_range toks h)).2 hs
  unfold Machine.readRelative
  rw [h]
  dsimp only
  rw [← bind_assoc, hp]
  rfl

/-- C72: trees stored as relative tags are read back in both builds (C66). -/
theorem C72_trees (b : Build) (t : Tree) (W : t.WF) (hp : t.isProjective = true) (H : t.Storable "rel_ancestor".toList)
    (hN : ∀ n x, t.graph.node? n = some (.nt x) → x.label ≠ "NONE".toList) :
    ∃ t1 t2 toks t' f f', t.collapseUnaryChains ['_'] = .ok t1 ∧ t1.annotateRelative = .ok (t2, .ok ()) ∧
      toConllx t2 = .ok toks ∧ Machine.readRelative b toks = .ok (.ok t') ∧
      t.Is f ∧ t'.Is f' ∧ f'.norm = f.skeleton.norm := by
  obtain ⟨t1, t2, toks, t', f, f', h1, h2, h3, _, h5, _, _, h8, h9, h10, e, tms, h11, h12, h13⟩ :=
    relative_skeleton_read W hp H hN
  refine ⟨t1, t2, toks, t', f, f', h1, h2, h3, ?_, h8, h9, h10⟩
  rw [C72_read b toks, h5]
  intro enc tms' h
  rw [h11] at h
  simp only [Except.ok.injEq, Prod.mk.injEq] at h
  rw [← h.1]
  exact (Machine.sumsFit_iff _).2 (Machine.relFromAbs_fits e 0 (by omega) (by omega) h13 h12).2

example (b : Build) := C72_trees b rich rich_wf (by decide)
  (holds_of_test (k := .relative) (by decide +kernel) (by decide +kernel)).storable
  ((names_of_test (by decide +kernel) .relative).notNone rfl)

/-! ## Examples -/

/-- Two words: a root entry, then the largest offset. -/
def tooFar : RelEncoding :=
  [(some (.root "S".toList), none), (some (.regular 9223372036854775807 "A".toList), none), (none, none)]

theorem tooFar_offsets : OffsetsFit tooFar := by
  intro o l leaf hm
  simp only [tooFar, List.mem_cons, Prod.mk.injEq, Option.some.injEq, reduceCtorEq, false_and, RelAncestor.regular.injEq,
    List.not_mem_nil, or_false, false_or] at hm
  unfold IsizeRange
  omega

theorem tooFar_sums : ¬ SumsFit tooFar := by
  intro h
  have := h [(some (.root "S".toList), none)] 9223372036854775807 "A".toList none (by simp [tooFar])
  simp [fixedCount, fixedStep] at this

/-- C72: the builds differ from each other and from unbounded integers. -/
theorem C72_differ :
    (Machine.tryFromRelative .checked tooFar >>= Machine.unwrapOrFix .checked) = .panic ∧
    (Machine.tryFromRelative .wrapping tooFar >>= Machine.unwrapOrFix .wrapping) =
      .ok [(some ⟨1, "S".toList⟩, none), (some ⟨2, "A".toList⟩, none), (none, none)] ∧
    (tryFromRelative tooFar).unwrapOrFix =
      [(some ⟨1, "S".toList⟩, none), (some ⟨9223372036854775808, "A".toList⟩, none), (none, none)] :=
  ⟨(C72_checked _ tooFar_offsets).2 tooFar_sums, by decide +kernel, by decide +kernel⟩

/-- C72: a count of `2 ^ 63` does not survive as a relative encoding. -/
theorem C72_counts_needed :
    Machine.relFromAbs .checked [(some ⟨9223372036854775808, "A".toList⟩, none), (some ⟨5, "B".toList⟩, none)] = .panic ∧
    (Machine.relFromAbs .wrapping [(some ⟨9223372036854775808, "A".toList⟩, none)] >>= Machine.tryFromRelative .wrapping) ≠
      .ok (.success [(some ⟨9223372036854775808, "A".toList⟩, none)]) :=
  ⟨by decide +kernel, by decide +kernel⟩

/-- A token with a tag of speech and features. -/
def wordTag (form feats : String) : Token := ⟨form.toList, none, some ['N'], some feats.toList⟩

/-- A sentence a debug build cannot read. -/
def farSentence : List Token :=
  [wordTag "a" "rel_ancestor:S", wordTag "b" "rel_ancestor:A+9223372036854775807", wordTag "c" "rel_ancestor:NONE"]

/-- Whether a tree was read that is written as the given text. -/
def readsAs (r : Res (Except Err Tree)) (s : Str) : Bool :=
  match r with
  | .ok (.ok t) => decide (Ptb.treeToString .simple t = .ok (.ok s))
  | _ => false

theorem readsAs_spec {r : Res (Except Err Tree)} {s : Str} (h : readsAs r s = true) :
    ∃ t, r = .ok (.ok t) ∧ Ptb.treeToString .simple t = .ok (.ok s) := by
  unfold readsAs at h
  split at h
  · exact ⟨_, rfl, by simpa using h⟩
  · cases h

/-- C72: reading such a sentence is a panic or a small tree. -/
theorem C72_read_differ : Machine.readRelative .checked farSentence = .panic ∧
    ∃ t, Machine.readRelative .wrapping farSentence = .ok (.ok t) ∧
      Ptb.treeToString .simple t = .ok (.ok "(S (N a) (A (N b) (N c)))".toList) :=
  ⟨by decide +kernel, readsAs_spec (by decide +kernel)⟩

/-- A usual encoding meets the hypotheses. -/
theorem usual_fits : AbsPositive [(some ⟨3, "A".toList⟩, none), (some ⟨2, "B".toList⟩, none), (none, none)] ∧
    CountsFit [(some ⟨3, "A".toList⟩, none), (some ⟨2, "B".toList⟩, none), (none, none)] := by
  constructor <;> intro x hx a ha <;>
    simp only [List.mem_cons, List.not_mem_nil, or_false] at hx <;>
    rcases hx with rfl | rfl | rfl <;> simp only [Option.some.injEq, reduceCtorEq] at ha <;> subst ha <;> decide

example : Machine.tryFromRelative .checked
    (relFromAbs [(some ⟨3, "A".toList⟩, none), (some ⟨2, "B".toList⟩, none), (none, none)]) =
    .ok (.success [(some ⟨3, "A".toList⟩, none), (some ⟨2, "B".toList⟩, none), (none, none)]) :=
  (C72_abs_rel_abs _ _ usual_fits.1 usual_fits.2).2

end Props
end Lumberjack
