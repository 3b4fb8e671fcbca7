import Verif.Spec.Encoding
import Verif.Proofs.Num

/-!
# Properties C34–C37: conversions between the encodings and their textual form
-/

namespace Lumberjack
namespace Props

/-! ## C34 -/

theorem relFromAbsLoop_acc (e : AbsEncoding) (p : Int) (acc : RelEncoding) :
    relFromAbsLoop e p acc = acc ++ relFromAbsLoop e p [] := by
  induction e generalizing p acc with
  | nil => simp [relFromAbsLoop]
  | cons x e ih =>
    obtain ⟨a, leaf⟩ := x
    cases a with
    | none =>
      simp only [relFromAbsLoop, List.nil_append]
      rw [ih, ih p [_]]; simp
    | some a =>
      simp only [relFromAbsLoop, List.nil_append]
      rw [ih, ih _ [_]]; simp

theorem abs_rel_abs_aux (e : AbsEncoding) (p : Int) (acc : AbsEncoding) (h : AbsPositive e) :
    tryFromRelLoop (relFromAbsLoop e p []) p acc = .success (acc ++ e) := by
  induction e generalizing p acc with
  | nil => simp [relFromAbsLoop, tryFromRelLoop]
  | cons x e ih =>
    obtain ⟨a, leaf⟩ := x
    have h' : AbsPositive e := fun x hx => h x (by simp [hx])
    cases a with
    | none =>
      simp only [relFromAbsLoop, List.nil_append]
      rw [relFromAbsLoop_acc]
      simp only [List.singleton_append, tryFromRelLoop, ih _ _ h']
      simp
    | some a =>
      have hpos := h (some a, leaf) (by simp) a rfl
      simp only [relFromAbsLoop, List.nil_append]
      rw [relFromAbsLoop_acc]
      by_cases h1 : a.common = 1
      · have ih' := ih a.common (acc ++ [(some a, leaf)]) h'
        obtain ⟨common, label⟩ := a
        dsimp only at h1
        subst h1
        simpa [tryFromRelLoop] using ih'
      · have e1 : (a.common : Int) - p + p = a.common := by omega
        simp only [if_neg h1, List.singleton_append, tryFromRelLoop, e1]
        rw [if_neg (by omega), ih _ _ h']
        simp

/-- **C34.** Converting an absolute encoding with positive counts to the relative scale and back
succeeds and gives the original encoding. -/
theorem C34_abs_rel_abs (e : AbsEncoding) (h : AbsPositive e) :
    tryFromRelative (relFromAbs e) = .success e := by
  have := abs_rel_abs_aux e 0 [] h
  simpa [tryFromRelative, relFromAbs] using this

example : relFromAbs [(some ⟨2, "NP".toList⟩, none), (some ⟨1, "S".toList⟩, some "A".toList), (none, none)]
    = [(some (.regular 2 "NP".toList), none), (some (.root "S".toList), some "A".toList), (none, none)] := by
  decide
example := C34_abs_rel_abs
  [(some ⟨2, "NP".toList⟩, none), (some ⟨1, "S".toList⟩, some "A".toList), (none, none)]
  (by intro x hx a ha; simp at hx; rcases hx with rfl | rfl | rfl <;> simp at ha <;> subst ha <;> simp)

/-- **C34.** Without the positivity condition the trip fails: a count of zero. -/
theorem C34_zero_count : ∃ e, tryFromRelative (relFromAbs e) ≠ .success e :=
  ⟨[(some ⟨0, "S".toList⟩, none)], by decide⟩

/-! ## C35 -/

/-- The absolute entry a relative entry stands for at running count `c`. -/
def absEntry (c : Int) (x : Option RelAncestor × Option Str) : Option AbsAncestor × Option Str :=
  (x.1.map fun r => ⟨c.toNat, r.lab⟩, x.2)

theorem runningCount_snoc (l : RelEncoding) (x : Option RelAncestor × Option Str) :
    runningCount (l ++ [x]) = match x.1 with
      | some (.regular o _) => runningCount l + o
      | some (.root _) => 1
      | none => runningCount l := by
  obtain ⟨r, leaf⟩ := x
  rcases r with _ | _ | _ <;> simp [runningCount, List.foldl_append]

theorem tryFromRel_aux (e pre : RelEncoding) (acc : AbsEncoding)
    (hacc : acc.length = pre.length)
    (hval : ∀ i (h : i < pre.length), acc[i]? = some (absEntry (runningCount (pre.take (i + 1))) pre[i])) :
    (∀ a, tryFromRelLoop e (runningCount pre) acc = .success a →
      (∀ q o l leaf, pre ++ q ++ [(some (.regular o l), leaf)] <+: pre ++ e →
        1 ≤ runningCount (pre ++ q ++ [(some (.regular o l), leaf)])) ∧
      a.length = (pre ++ e).length ∧
      ∀ i (h : i < (pre ++ e).length),
        a[i]? = some (absEntry (runningCount ((pre ++ e).take (i + 1))) (pre ++ e)[i])) ∧
    (∀ x, tryFromRelLoop e (runningCount pre) acc = .error x →
      ∃ q o l leaf, pre ++ q ++ [(some (.regular o l), leaf)] <+: pre ++ e ∧
        runningCount (pre ++ q ++ [(some (.regular o l), leaf)]) < 1) := by
  induction e generalizing pre acc with
  | nil =>
    refine ⟨fun a ha => ?_, fun x hx => by simp [tryFromRelLoop] at hx⟩
    simp only [tryFromRelLoop, ConversionResult.success.injEq] at ha
    subst ha
    refine ⟨fun q o l leaf hp => ?_, by simp [hacc], fun i h => ?_⟩
    · have := hp.length_le
      simp at this
    · simpa using hval i (by simpa using h)
  | cons x e ih =>
    -- the common continuation: one more entry accepted
    have step : ∀ y, y = absEntry (runningCount (pre ++ [x])) x →
        (∀ o l, x.1 = some (.regular o l) → 1 ≤ runningCount (pre ++ [x])) →
        (∀ a, tryFromRelLoop e (runningCount (pre ++ [x])) (acc ++ [y]) = .success a →
          (∀ q o l leaf, pre ++ q ++ [(some (.regular o l), leaf)] <+: pre ++ x :: e →
            1 ≤ runningCount (pre ++ q ++ [(some (.regular o l), leaf)])) ∧
          a.length = (pre ++ x :: e).length ∧
          ∀ i (h : i < (pre ++ x :: e).length),
            a[i]? = some (absEntry (runningCount ((pre ++ x :: e).take (i + 1))) (pre ++ x :: e)[i])) ∧
        (∀ z, tryFromRelLoop e (runningCount (pre ++ [x])) (acc ++ [y]) = .error z →
          ∃ q o l leaf, pre ++ q ++ [(some (.regular o l), leaf)] <+: pre ++ x :: e ∧
            runningCount (pre ++ q ++ [(some (.regular o l), leaf)]) < 1) := by
      rintro y rfl hpos
      have key := ih (pre ++ [x]) (acc ++ [absEntry (runningCount (pre ++ [x])) x]) (by simp [hacc]) (by
        intro i h
        by_cases hi : i < pre.length
        · rw [List.getElem?_append_left (by omega), hval i hi]
          rw [List.take_append_of_le_length (by omega), List.getElem_append_left hi]
        · have hi' : i = pre.length := by simp at h; omega
          subst hi'
          rw [List.getElem?_append_right (by omega), List.take_of_length_le (by simp)]
          simp [hacc])
      have eassoc : pre ++ [x] ++ e = pre ++ x :: e := by simp
      rw [eassoc] at key
      refine ⟨fun a ha => ?_, fun z hz => ?_⟩
      · obtain ⟨k1, k2, k3⟩ := key.1 a ha
        refine ⟨fun q o l leaf hp => ?_, k2, k3⟩
        cases q with
        | nil =>
          have h1 : [(some (RelAncestor.regular o l), leaf)] <+: x :: e := by
            have hp' : pre ++ [(some (RelAncestor.regular o l), leaf)] <+: pre ++ x :: e := by
              simpa using hp
            exact (List.prefix_append_right_inj pre).1 hp'
          obtain ⟨r, hr⟩ := h1
          simp only [List.singleton_append, List.cons.injEq] at hr
          have := hpos o l (by rw [← hr.1])
          rw [← hr.1] at this
          simpa using this
        | cons q0 q =>
          have h1 : q0 :: (q ++ [(some (RelAncestor.regular o l), leaf)]) <+: x :: e := by
            have hp' : pre ++ (q0 :: (q ++ [(some (RelAncestor.regular o l), leaf)])) <+: pre ++ x :: e := by
              simpa using hp
            exact (List.prefix_append_right_inj pre).1 hp'
          have h2 : q0 = x := by
            obtain ⟨r, hr⟩ := h1
            simp only [List.cons_append, List.cons.injEq] at hr
            exact hr.1
          subst h2
          have := k1 q o l leaf (by simpa using hp)
          simpa using this
      · obtain ⟨q, o, l, leaf, h1, h2⟩ := key.2 z hz
        exact ⟨x :: q, o, l, leaf, by simpa using h1, by simpa using h2⟩
    obtain ⟨r, leaf⟩ := x
    have hsn := runningCount_snoc pre (r, leaf)
    cases r with
    | none =>
      simp only at hsn
      simp only [tryFromRelLoop]
      rw [← hsn]
      exact step _ (by simp [absEntry]) (by simp)
    | some r =>
      cases r with
      | root l =>
        simp only at hsn
        simp only [tryFromRelLoop]
        have := step (some ⟨1, l⟩, leaf) (by rw [hsn]; simp [absEntry, RelAncestor.lab]) (by simp)
        rw [hsn] at this
        exact this
      | regular o l =>
        simp only at hsn
        simp only [tryFromRelLoop]
        have e1 : o + runningCount pre = runningCount (pre ++ [(some (.regular o l), leaf)]) := by
          rw [hsn]; omega
        rw [e1]
        by_cases hlt : runningCount (pre ++ [(some (RelAncestor.regular o l), leaf)]) < 1
        · rw [if_pos hlt]
          refine ⟨fun a ha => by simp at ha, fun x _ => ?_⟩
          exact ⟨[], o, l, leaf, by simp, by simpa using hlt⟩
        · rw [if_neg hlt]
          exact step _ (by simp [absEntry, RelAncestor.lab])
            (by intro _ _ _; omega)

/-- **C35.** `try_from_relative` succeeds exactly if every running count is positive. -/
theorem C35_try_from_relative_iff (e : RelEncoding) :
    (∃ a, tryFromRelative e = .success a) ↔ PositiveRun e := by
  have key := tryFromRel_aux e [] [] rfl (by simp)
  simp only [List.nil_append] at key
  have hc : runningCount [] = 0 := rfl
  rw [hc] at key
  unfold tryFromRelative
  constructor
  · rintro ⟨a, ha⟩
    exact fun pre o l leaf hp => (key.1 a ha).1 pre o l leaf hp
  · intro hp
    cases h : tryFromRelLoop e 0 [] with
    | success a => exact ⟨a, rfl⟩
    | error x =>
      obtain ⟨q, o, l, leaf, h1, h2⟩ := key.2 x h
      have := hp q o l leaf h1
      omega

/-- **C35.** If it succeeds, entry `i` has the running count of the first `i + 1` entries, and label
and chain of the relative entry. -/
theorem C35_try_from_relative_value (e : RelEncoding) (a : AbsEncoding)
    (h : tryFromRelative e = .success a) :
    a.length = e.length ∧ ∀ i (hi : i < e.length),
      a[i]? = some ((e[i].1.map fun r =>
        (⟨(runningCount (e.take (i + 1))).toNat, r.lab⟩ : AbsAncestor)), e[i].2) := by
  have key := (tryFromRel_aux e [] [] rfl (by simp)).1 a h
  simp only [List.nil_append] at key
  exact ⟨key.2.1, fun i hi => by rw [key.2.2 i hi]; rfl⟩

example : tryFromRelative [(some (.regular 3 "A".toList), none), (some (.regular (-1) "B".toList), none),
    (some (.root "C".toList), none), (none, none)] = .success [(some ⟨3, "A".toList⟩, none),
    (some ⟨2, "B".toList⟩, none), (some ⟨1, "C".toList⟩, none), (none, none)] := by decide
example : tryFromRelative [(some (.regular 1 "A".toList), none), (some (.regular (-1) "B".toList), none)]
    ≠ .success [] := by decide

/-- What the repair must preserve: label and chain of every entry, positive counts. -/
def Repaired (e : RelEncoding) (a : AbsEncoding) : Prop :=
  a.map (fun x => (x.1.map (·.label), x.2)) = e.map (fun x => (x.1.map RelAncestor.lab, x.2)) ∧
  AbsPositive a

theorem absPositive_snoc {a : AbsEncoding} (h : AbsPositive a) {x : Option AbsAncestor × Option Str}
    (hx : ∀ y, x.1 = some y → 1 ≤ y.common) : AbsPositive (a ++ [x]) := by
  intro z hz
  rcases List.mem_append.1 hz with hz | hz
  · exact h z hz
  · simp only [List.mem_singleton] at hz
    subst hz
    exact hx

theorem fixLoop_spec (e pre : RelEncoding) (p : Int) (acc : AbsEncoding) (h : Repaired pre acc) :
    Repaired (pre ++ e) (fixLoop e p acc) := by
  induction e generalizing pre p acc with
  | nil => simpa [fixLoop] using h
  | cons x e ih =>
    obtain ⟨r, leaf⟩ := x
    have assoc : pre ++ (r, leaf) :: e = (pre ++ [(r, leaf)]) ++ e := by simp
    rw [assoc]
    cases r with
    | none =>
      simp only [fixLoop]
      exact ih _ _ _ ⟨by simp [h.1], absPositive_snoc h.2 (by simp)⟩
    | some r =>
      cases r with
      | root l =>
        simp only [fixLoop]
        exact ih _ _ _ ⟨by simp [h.1, RelAncestor.lab], absPositive_snoc h.2 (by simp)⟩
      | regular o l =>
        simp only [fixLoop]
        refine ih _ _ _ ⟨by simp [h.1, RelAncestor.lab], absPositive_snoc h.2 ?_⟩
        intro y hy
        simp only [Option.some.injEq] at hy
        subst hy
        dsimp only
        split <;> omega

theorem tryFromRel_repair (e pre : RelEncoding) (p : Int) (acc : AbsEncoding) (h : Repaired pre acc) :
    Repaired (pre ++ e) (tryFromRelLoop e p acc).unwrapOrFix := by
  induction e generalizing pre p acc with
  | nil => simpa [tryFromRelLoop, ConversionResult.unwrapOrFix] using h
  | cons x e ih =>
    obtain ⟨r, leaf⟩ := x
    have assoc : pre ++ (r, leaf) :: e = (pre ++ [(r, leaf)]) ++ e := by simp
    rw [assoc]
    cases r with
    | none =>
      simp only [tryFromRelLoop]
      exact ih _ _ _ ⟨by simp [h.1], absPositive_snoc h.2 (by simp)⟩
    | some r =>
      cases r with
      | root l =>
        simp only [tryFromRelLoop]
        exact ih _ _ _ ⟨by simp [h.1, RelAncestor.lab], absPositive_snoc h.2 (by simp)⟩
      | regular o l =>
        simp only [tryFromRelLoop]
        split
        · simp only [ConversionResult.unwrapOrFix, RelToAbsError.fix]
          exact fixLoop_spec _ _ _ _ ⟨by simp [h.1, RelAncestor.lab], absPositive_snoc h.2 (by simp)⟩
        · refine ih _ _ _ ⟨by simp [h.1, RelAncestor.lab], absPositive_snoc h.2 ?_⟩
          intro y hy
          simp only [Option.some.injEq] at hy
          subst hy
          dsimp only
          omega

/-- **C35.** `unwrap_or_fix` always yields an encoding with the same labels and chains, entry by
entry, in which every count is at least one. -/
theorem C35_unwrap_or_fix (e : RelEncoding) :
    (tryFromRelative e).unwrapOrFix.length = e.length ∧
    (tryFromRelative e).unwrapOrFix.map (fun x => (x.1.map (·.label), x.2)) =
      e.map (fun x => (x.1.map RelAncestor.lab, x.2)) ∧
    AbsPositive (tryFromRelative e).unwrapOrFix := by
  have := tryFromRel_repair e [] 0 [] ⟨rfl, by intro x hx; simp at hx⟩
  simp only [List.nil_append] at this
  refine ⟨?_, this.1, this.2⟩
  have := congrArg List.length this.1
  simpa [tryFromRelative] using this

theorem fixLoop_eq (l : RelEncoding) : ∀ (c : Int) (acc : AbsEncoding), fixLoop l c acc =
    acc ++ (List.range l.length).map (fun i =>
      (((l[i]?).bind (·.1)).map fun r => (⟨((l.take (i + 1)).foldl fixedStep c).toNat, r.lab⟩ : AbsAncestor),
        (l[i]?).bind (·.2))) := by
  induction l with
  | nil => intro c acc; simp [fixLoop]
  | cons y l ih =>
    intro c acc
    obtain ⟨r, leaf⟩ := y
    rcases r with _ | _ | _ <;> simp only [fixLoop, ih, List.length_cons, List.range_succ_eq_map,
      List.map_cons, List.map_map] <;> simp [fixedStep, RelAncestor.lab, Function.comp_def]

theorem tryFromRel_fix (l : RelEncoding) : ∀ (c : Int) (acc : AbsEncoding),
    (tryFromRelLoop l c acc).unwrapOrFix = fixLoop l c acc := by
  induction l with
  | nil => intro c acc; rfl
  | cons y l ih =>
    intro c acc
    obtain ⟨r, leaf⟩ := y
    rcases r with _ | ⟨o, lab⟩ | _
    · simp only [tryFromRelLoop, fixLoop, ih]
    · simp only [tryFromRelLoop, fixLoop]
      by_cases h : o + c < 1
      · rw [if_pos h, if_pos h]; rfl
      · rw [if_neg h, if_neg h, ih]
    · simp only [tryFromRelLoop, fixLoop, ih]

/-- **C35.** The repaired encoding exactly: the count of entry `i` is the running count after `i + 1`
entries, where a count that would be less than one is replaced by two and counting goes on from
there. -/
theorem C35_unwrap_or_fix_value (e : RelEncoding) (i : Nat) (hi : i < e.length) :
    (tryFromRelative e).unwrapOrFix[i]? = some ((e[i].1.map fun r =>
      (⟨(fixedCount (e.take (i + 1))).toNat, r.lab⟩ : AbsAncestor)), e[i].2) := by
  unfold tryFromRelative
  rw [tryFromRel_fix, fixLoop_eq]
  simp [hi, fixedCount]

example : (tryFromRelative [(some (.regular 1 "A".toList), none), (some (.regular (-1) "B".toList), none),
    (some (.regular 1 "C".toList), none)]).unwrapOrFix = [(some ⟨1, "A".toList⟩, none),
    (some ⟨2, "B".toList⟩, none), (some ⟨3, "C".toList⟩, none)] := by decide

/-- **C35.** Where the conversion succeeds there is nothing to repair; where it fails, the repair
keeps the entries before the failing one and puts the failing one at count two. -/
theorem C35_fix_extends (e : RelEncoding) (x : RelToAbsError) (h : tryFromRelative e = .error x) :
    (x.abs ++ [(some ⟨2, x.label⟩, x.leafUnary)]) <+: (tryFromRelative e).unwrapOrFix := by
  rw [h]
  simp only [ConversionResult.unwrapOrFix, RelToAbsError.fix]
  have : ∀ (l : RelEncoding) (p : Int) (acc : AbsEncoding), acc <+: fixLoop l p acc := by
    intro l
    induction l with
    | nil => intro p acc; simp [fixLoop]
    | cons y l ih =>
      intro p acc
      obtain ⟨r, leaf⟩ := y
      rcases r with _ | _ | _ <;> simp only [fixLoop] <;>
        exact List.IsPrefix.trans (List.prefix_append _ _) (ih _ _)
  exact this _ _ _

example : (tryFromRelative [(some (.regular 1 "A".toList), none), (some (.regular (-1) "B".toList), none),
    (some (.regular 1 "C".toList), none)]).unwrapOrFix =
    [(some ⟨1, "A".toList⟩, none), (some ⟨2, "B".toList⟩, none), (some ⟨3, "C".toList⟩, none)] := by
  decide

/-! ## C36 -/

theorem encodeAbsLoop_acc (t : Tree) (ns : List Nat) (acc : AbsEncoding) :
    t.encodeAbsLoop ns acc = (do
      let r ← t.encodeAbsLoop ns []
      return r.map (acc ++ ·)) := by
  induction ns generalizing acc with
  | nil => simp [Tree.encodeAbsLoop, Except.map]
  | cons n ns ih =>
    simp only [Tree.encodeAbsLoop, bind_assoc]
    congr 1
    funext r
    cases r with
    | error e => simp [Except.map]
    | ok c =>
      simp only [bind_assoc]
      congr 1
      funext nd
      rw [ih, ih ([] ++ _)]
      simp only [bind_assoc]
      congr 1
      funext r
      cases r <;> simp [Except.map]

theorem encodeRelLoop_eq (t : Tree) (ns : List Nat) (p : Int) (acc : RelEncoding) :
    t.encodeRelLoop ns p acc = (do
      let r ← t.encodeAbsLoop ns []
      return r.map (fun e => acc ++ relFromAbsLoop e p [])) := by
  induction ns generalizing p acc with
  | nil => simp [Tree.encodeRelLoop, Tree.encodeAbsLoop, Except.map, relFromAbsLoop]
  | cons n ns ih =>
    simp only [Tree.encodeRelLoop, Tree.encodeAbsLoop, bind_assoc]
    congr 1
    funext r
    cases r with
    | error e => simp [Except.map]
    | ok c =>
      simp only [bind_assoc]
      rcases c with _ | ⟨l, k⟩ <;> dsimp only
      · congr 1
        funext nd
        rw [ih, encodeAbsLoop_acc t ns ([] ++ _)]
        simp only [bind_assoc]
        congr 1
        funext r
        cases r with
        | error e => simp [Except.map]
        | ok e =>
          simp only [Except.map, Res.pure_eq, Res.ok_bind, List.nil_append, List.singleton_append,
            relFromAbsLoop, Option.map_none]
          rw [relFromAbsLoop_acc e p [_]]
          simp
      · congr 1
        funext nd
        rw [ih, encodeAbsLoop_acc t ns ([] ++ _)]
        simp only [bind_assoc]
        congr 1
        funext r
        cases r with
        | error e => simp [Except.map]
        | ok e =>
          simp only [Except.map, Res.pure_eq, Res.ok_bind, List.nil_append, List.singleton_append,
            relFromAbsLoop, Option.map_some, Tree.relAncestor]
          rw [relFromAbsLoop_acc e k [_]]
          simp

/-- **C36.** `encode_relative` is the relative conversion of `encode_absolute` on every tree,
whether that succeeds, is `Err` or panics. -/
theorem C36_encode_relative (t : Tree) :
    t.encodeRelative = (do
      let r ← t.encodeAbsolute
      return r.map relFromAbs) := by
  unfold Tree.encodeRelative Tree.encodeAbsolute
  split
  · simp [Except.map]
  · rw [encodeRelLoop_eq]
    rfl

/-! ## C37 -/

/-- **C37.** The text of an absolute ancestor parses back to it. -/
theorem C37_absolute_text (a : AbsAncestor) (hl : '+' ∉ a.label) (hr : UsizeRange a.common) :
    AbsAncestor.parse a.toStr = .ok a := by
  have : splitOn '+' a.toStr = [a.label, Tree.natToStr a.common] := by
    unfold AbsAncestor.toStr
    rw [List.append_assoc, List.singleton_append, splitOn_append hl,
      splitOn_of_not_mem (not_mem_natToStr (by decide))]
  simp only [AbsAncestor.parse, this, parseUsize_digits hr]

/-- **C37.** The text of a relative ancestor parses back to it. -/
theorem C37_relative_text (a : RelAncestor) (hl : '+' ∉ a.lab) (hne : a.lab ≠ [])
    (hr : ∀ o l, a = .regular o l → IsizeRange o) :
    RelAncestor.parse a.toStr = .ok a := by
  cases a with
  | root l =>
    simp only [RelAncestor.lab] at hl hne
    simp [RelAncestor.toStr, RelAncestor.parse, splitOn_of_not_mem hl, hne]
  | regular o l =>
    simp only [RelAncestor.lab] at hl hne
    have hr := hr o l rfl
    have : splitOn '+' (RelAncestor.regular o l).toStr = [l, intToStr o] := by
      show splitOn '+' (l ++ ['+'] ++ intToStr o) = _
      rw [List.append_assoc, List.singleton_append, splitOn_append hl,
        splitOn_of_not_mem (not_mem_intToStr (by decide) (by decide))]
    simp only [RelAncestor.parse, this, if_neg hne, parseIsize_intToStr hr.1 hr.2]

example : RelAncestor.parse (RelAncestor.regular (-12) "NP".toList).toStr = .ok (.regular (-12) "NP".toList) :=
  C37_relative_text (.regular (-12) "NP".toList) (by decide) (by decide)
    (by intro o l h; simp at h; rw [← h.1]; exact ⟨by decide, by decide⟩)
example : RelAncestor.parse "NP+-12".toList = .ok (.regular (-12) "NP".toList) := by decide
example : AbsAncestor.parse (AbsAncestor.toStr ⟨12, "NP".toList⟩) = .ok ⟨12, "NP".toList⟩ :=
  C37_absolute_text ⟨12, "NP".toList⟩ (by decide) (by unfold UsizeRange; decide)
example : AbsAncestor.parse "NP+12".toList = .ok ⟨12, "NP".toList⟩ := by decide

/-- **C37.** The condition on labels is needed. -/
theorem C37_plus_needed : AbsAncestor.parse (AbsAncestor.toStr ⟨1, "A+B".toList⟩) ≠ .ok ⟨1, "A+B".toList⟩ := by
  decide

/-- **C37.** Two ancestors with the same text (labels without `+`) are the same: the text is a
faithful tag. -/
theorem C37_relative_injective (a b : RelAncestor) (ha : '+' ∉ a.lab) (hb : '+' ∉ b.lab)
    (ha' : a.lab ≠ []) (hb' : b.lab ≠ [])
    (hra : ∀ o l, a = .regular o l → IsizeRange o) (hrb : ∀ o l, b = .regular o l → IsizeRange o)
    (h : a.toStr = b.toStr) : a = b := by
  have h1 := C37_relative_text a ha ha' hra
  have h2 := C37_relative_text b hb hb' hrb
  rw [h, h2] at h1
  simpa using h1.symm

end Props
end Lumberjack
