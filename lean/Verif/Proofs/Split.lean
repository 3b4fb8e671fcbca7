import Verif.Proofs.Through
import Verif.Proofs.Phrases
import Verif.Proofs.Rest
import Verif.Spec.Split

/-!
# Doing the steps of a conversion in two runs
-/

namespace Lumberjack

open Lumberjack.Tree

namespace Convert

variable {t t' : Tree}

theorem res_assoc {α β γ : Type} (x : Res α) (f : α → Res β) (g : β → Res γ) :
    ((x >>= f) >>= g) = (x >>= fun a => f a >>= g) := by
  cases x <;> rfl

theorem stepIf_off (f : Tree → Res (Except Err Tree)) (r : Except Err Tree) : stepIf false f r = .ok r := by
  cases r <;> rfl

theorem res_ok_bind {α β : Type} (a : α) (f : α → Res β) : (Res.ok a >>= f) = f a := rfl

/-- What the steps do with an error. -/
theorem process_error_steps (pick : Tree → Finset Nat → Option Nat) (o : Options) (tags : Option PosItem) (r : Except Err Tree)
    (K : Tree → Res (Except Err Tree))
    (hK : K = fun t => process pick o tags t) :
    (match r with
      | .error e => .ok (.error e)
      | .ok t => K t) = (do
        let r ← stepDummies o r
        let r ← stepProjectivize pick o r
        let r ← stepPos tags r
        let r ← stepReattach o r
        let r ← stepIds o r
        let r ← stepFilter o r
        let r ← stepInsert o r
        let r ← stepParent o r
        stepEncode o r) := by
  subst hK
  cases r <;> rfl

theorem process_split (pick : Tree → Finset Nat → Option Nat) (o : Options) (tags : Option PosItem) (t : Tree) (k : Nat)
    (out : OutFormat) (h1 : out ≠ .absolute) (h2 : out ≠ .relative) :
    process pick o tags t = (process pick (firstSteps k out o) (firstPos k tags) t >>= fun r => match r with
      | .error e => .ok (.error e)
      | .ok t' => process pick (lastSteps k o) (lastPos k tags) t') := by
  simp only [process_error_steps pick (lastSteps k o) (lastPos k tags) _ _ rfl]
  unfold process
  simp only [stepEncode, firstSteps, h1, h2, decide_false, Bool.or_self, stepIf_off, res_assoc, res_ok_bind]
  rcases k with _ | _ | _ | _ | _ | _ | _ | _ | k <;>
    simp [firstPos, lastPos, lastSteps, stepDummies, stepProjectivize, stepPos, stepReattach, stepIds, stepFilter, stepInsert,
      stepParent, stepIf_off]

theorem nextPos_first (k : Nat) (pos : Option (List PosItem)) :
    nextPos (firstPos k pos) = (firstPos k (nextPos pos).1, firstPos k (nextPos pos).2) := by
  unfold firstPos
  split <;> rfl

theorem nextPos_last (k : Nat) (pos : Option (List PosItem)) :
    nextPos (lastPos k pos) = (lastPos k (nextPos pos).1, lastPos k (nextPos pos).2) := by
  unfold lastPos
  split <;> rfl

/-- The trees after the first `k` steps. -/
inductive Halves (pick : Tree → Finset Nat → Option Nat) (o : Options) (k : Nat) (out : OutFormat) :
    Option (List PosItem) → List Tree → List Tree → Prop
  | nil {pos} : Halves pick o k out pos [] []
  | cons {pos t t' ts ts'} : process pick (firstSteps k out o) (firstPos k (nextPos pos).1) t = .ok (.ok t') →
      Halves pick o k out (nextPos pos).2 ts ts' → Halves pick o k out pos (t :: ts) (t' :: ts')

theorem Halves.length {pick : Tree → Finset Nat → Option Nat} {o : Options} {k : Nat} {out : OutFormat}
    {pos : Option (List PosItem)} {ts ts' : List Tree} (h : Halves pick o k out pos ts ts') : ts.length = ts'.length := by
  induction h with
  | nil => rfl
  | cons _ _ ih => simp [ih]

variable {pick pick' : Tree → Finset Nat → Option Nat} {o : Options} {k : Nat} {out : OutFormat} {f f' : InFormat} {m m' : Bool}

/-- The first run. -/
theorem loop_first {g : Ptb.Format} {pos : Option (List PosItem)} {ts ts' : List Tree}
    (h : Halves pick o k (bracketOutput g) pos ts ts') : ∀ {lines : List Str} {src : Source} {n c : Nat},
    List.Forall₂ (fun t s => Ptb.treeToString g t = .ok (.ok s)) ts' lines → Stream f m src (ts.map .ok) true → ts.length < n →
    loop f m pick (firstSteps k (bracketOutput g) o) n src (firstPos k pos) c =
      (lines.map fun s => .text (s ++ ['\n']), .finished) := by
  induction h with
  | nil =>
    intro lines src n c hl hs hn
    obtain ⟨n, rfl⟩ : ∃ j, n = j + 1 := ⟨n - 1, by simp at hn; omega⟩
    cases hl
    cases hs with
    | stop hn => rw [loop, hn]; rfl
  | @cons pos t t' ts ts' h _ ih =>
    intro lines src n c hl hs hn
    obtain ⟨n, rfl⟩ : ∃ j, n = j + 1 := ⟨n - 1, by simp at hn; omega⟩
    cases hl with
    | @cons _ s _ _ h1 h2 =>
      cases hs with
      | item hx hs =>
        rw [loop, hx, nextPos_first]
        have : convertTree pick (firstSteps k (bracketOutput g) o) (firstPos k (nextPos pos).1) c t =
            .ok (.ok (.text (s ++ ['\n']), c)) := by
          unfold convertTree
          rw [h]
          exact write_bracket g c h1
        simp only [this]
        rw [ih h2 hs (by simpa using hn)]
        rfl

/-- Both runs together. -/
theorem loop_last {pos : Option (List PosItem)} {ts ts' : List Tree} (h1 : out ≠ .absolute) (h2 : out ≠ .relative)
    (h : Halves pick o k out pos ts ts') : ∀ {us : List Tree} {src src' : Source} {n n' c : Nat},
    List.Forall₂ (fun t u => ∀ tags c, convertTree pick' (lastSteps k o) tags c u = convertTree pick (lastSteps k o) tags c t) ts' us →
    Stream f m src (ts.map .ok) true → Stream f' m' src' (us.map .ok) true → ts.length < n → us.length < n' →
    loop f' m' pick' (lastSteps k o) n' src' (lastPos k pos) c = loop f m pick o n src pos c := by
  induction h with
  | nil =>
    intro us src src' n n' c hu hs hs' hn hn'
    cases hu
    obtain ⟨n, rfl⟩ : ∃ j, n = j + 1 := ⟨n - 1, by simp at hn; omega⟩
    obtain ⟨n', rfl⟩ : ∃ j, n' = j + 1 := ⟨n' - 1, by simp at hn'; omega⟩
    cases hs with
    | stop hx => cases hs' with
      | stop hx' => rw [loop, loop, hx, hx']
  | @cons pos t t' ts ts' h _ ih =>
    intro us src src' n n' c hu hs hs' hn hn'
    obtain ⟨n, rfl⟩ : ∃ j, n = j + 1 := ⟨n - 1, by simp at hn; omega⟩
    cases hu with
    | @cons _ u _ us e hu =>
      obtain ⟨n', rfl⟩ : ∃ j, n' = j + 1 := ⟨n' - 1, by simp at hn'; omega⟩
      cases hs with
      | item hx hs => cases hs' with
        | item hx' hs' =>
          rw [loop, loop, hx, hx', nextPos_last]
          have E : convertTree pick o (nextPos pos).1 c t = convertTree pick (lastSteps k o) (lastPos k (nextPos pos).1) c t' := by
            unfold convertTree
            rw [process_split pick o _ t k out h1 h2, h]
            rfl
          simp only
          rw [E, e]
          cases convertTree pick (lastSteps k o) (lastPos k (nextPos pos).1) c t' with
          | panic => rfl
          | diverge => rfl
          | ok r => cases r with
            | error e => rfl
            | ok r =>
              simp only
              rw [ih hu hs hs' (by simpa using hn) (by simpa using hn')]

theorem suits_first (S : Suits o t) : Suits (firstSteps k out o) t := by
  refine ⟨S.fit, S.words.imp_right fun ⟨h1, h2⟩ => ⟨?_, ?_⟩⟩
  · simp [firstSteps, h1]
  · simp [firstSteps, h2]

theorem suits_last (S : Suits o t) (hf : Fit t') (hn : t'.nTerminals = t.nTerminals) : Suits (lastSteps k o) t' := by
  refine ⟨hf, hn ▸ S.words.imp_right fun ⟨h1, h2⟩ => ⟨?_, ?_⟩⟩
  · simp [lastSteps, h1]
  · simp [lastSteps, h2]

theorem halves_exist (hpick : IsOrder pick) (h1 : out ≠ .absolute) (h2 : out ≠ .relative) (P : Tree → Prop) :
    ∀ {ts : List Tree} {pos : Option (List PosItem)}, (∀ t ∈ ts, Suits o t) → EachTagged (firstPos k pos) ts →
      (∀ (i : Nat) (t t' : Tree) tags, ts[i]? = some t → TagsAt (firstPos k pos) i tags → Pipeline (firstSteps k out o) tags t t' →
        process pick (firstSteps k out o) (tags.map .ok) t = .ok (.ok t') → P t') →
      ∃ ts', Halves pick o k out pos ts ts' ∧ ∀ t' ∈ ts', P t' ∧ Suits (lastSteps k o) t' := by
  intro ts
  induction ts with
  | nil => exact fun _ _ _ => ⟨[], .nil, by simp⟩
  | cons t ts ih =>
    intro pos hS hT hP
    have e : ∀ p, firstPos k pos = p → (firstPos k (nextPos pos).1 = (nextPos p).1 ∧ firstPos k (nextPos pos).2 = (nextPos p).2) := by
      rintro p rfl
      rw [nextPos_first]
      exact ⟨rfl, rfl⟩
    obtain ⟨tags, a1, a2, a3⟩ : ∃ tags : Option (List Str), firstPos k (nextPos pos).1 = tags.map .ok ∧
        (∀ l, tags = some l → l.length = t.nTerminals) ∧ TagsAt (firstPos k pos) 0 tags := by
      cases hp : firstPos k pos with
      | none => exact ⟨none, (e _ hp).1, by simp, .inl ⟨rfl, rfl⟩⟩
      | some ps =>
        obtain ⟨l, hl, hn⟩ := hT ps hp 0 t rfl
        cases ps with
        | nil => cases hl
        | cons p ps =>
          simp only [List.length_cons, Nat.zero_lt_succ, getElem?_pos, List.getElem_cons_zero, Option.some.injEq] at hl
          subst hl
          exact ⟨some l, (e _ hp).1, by rintro _ ⟨⟩; exact hn, .inr ⟨_, l, rfl, rfl, rfl⟩⟩
    obtain ⟨t', b1, b2, _, b4⟩ := process_spec hpick (firstSteps k out o) tags (suits_first (hS t (by simp))) a2
    have b5 : process pick (firstSteps k out o) (firstPos k (nextPos pos).1) t = .ok (.ok t') := by
      rw [a1, b4]
      simp [stepEncode, firstSteps, h1, h2, stepIf_off]
    have shift : ∀ ps, firstPos k (nextPos pos).2 = some ps → ∃ q qs, firstPos k pos = some qs ∧
        (qs = q :: ps ∨ (qs = [] ∧ ps = [])) := by
      intro ps h
      cases hp : firstPos k pos with
      | none => rw [(e _ hp).2] at h; cases h
      | some qs =>
        rw [(e _ hp).2] at h
        cases qs with
        | nil => cases h; exact ⟨.ok [], [], rfl, .inr ⟨rfl, rfl⟩⟩
        | cons q qs => cases h; exact ⟨q, _, rfl, .inl rfl⟩
    obtain ⟨ts', c1, c2⟩ := ih (pos := (nextPos pos).2) (fun u hu => hS u (by simp [hu])) (by
      intro ps hps i u hu
      obtain ⟨q, qs, h3, h4⟩ := shift ps hps
      obtain ⟨l, h5, h6⟩ := hT qs h3 (i + 1) u (by simpa using hu)
      rcases h4 with rfl | ⟨rfl, rfl⟩
      · exact ⟨l, by simpa using h5, h6⟩
      · cases h5) (by
      intro i u u' tags hu ht hk hk'
      refine hP (i + 1) u u' tags (by simpa using hu) ?_ hk hk'
      rcases ht with ⟨h3, rfl⟩ | ⟨ps, l, h3, h4, rfl⟩
      · left
        refine ⟨?_, rfl⟩
        cases hp : firstPos k pos with
        | none => rfl
        | some qs =>
          rw [(e _ hp).2] at h3
          cases qs <;> cases h3
      · obtain ⟨q, qs, h5, h6⟩ := shift ps h3
        rcases h6 with rfl | ⟨rfl, rfl⟩
        · exact .inr ⟨_, l, h5, by simpa using h4, rfl⟩
        · cases h4)
    refine ⟨t' :: ts', .cons b5 c1, fun u hu => ?_⟩
    rcases List.mem_cons.1 hu with rfl | hu
    · exact ⟨hP 0 t _ tags rfl a3 b1 (a1 ▸ b5), suits_last (hS t (by simp)) b2.fit b2.words.len⟩
    · exact c2 u hu

/-- The steps of the tool in two runs, with a bracketed format between them. -/
theorem split_run (hpick : IsOrder pick) (hpick' : IsOrder pick') {src : Source} (ss : List (Option (List Conllx.Token)))
    {ts : List Tree} (g : Ptb.Format) (hs : Stream f m src (ts.map .ok) true) (hS : ∀ t ∈ ts, Suits o t)
    {pos : Option (List PosItem)} (hT : EachTagged (firstPos k pos) ts)
    (hH : ∀ (i : Nat) (t t' : Tree) tags, ts[i]? = some t → TagsAt (firstPos k pos) i tags →
      Pipeline (firstSteps k (bracketOutput g) o) tags t t' → Exact g t') :
    ∃ wn, main f m pick (firstSteps k (bracketOutput g) o) src (firstPos k pos) = (wn, .finished) ∧ wn.length = ts.length ∧
      main (bracketInput g) m' pick' (lastSteps k o) ⟨Negra.lines (textOf wn), ss⟩ (lastPos k pos) = main f m pick o src pos := by
  have n1 : bracketOutput g ≠ .absolute := by cases g <;> simp [bracketOutput]
  have n2 : bracketOutput g ≠ .relative := by cases g <;> simp [bracketOutput]
  obtain ⟨ts', h1, h2⟩ := halves_exist hpick n1 n2 (Exact g) hS hT fun i t t' tags a b c _ => hH i t t' tags a b c
  obtain ⟨lines, us, g1, g2, g3, g4⟩ := bracket_back (ts := ts') g fun t ht => by
    obtain ⟨W, hp, _, F, hF, hc, _⟩ := (h2 t ht).1
    exact ⟨W, hp, F, hF, hc⟩
  have hs' := bracket_stream g m' ss g1 g2
  obtain ⟨items, b, k1, k2, _⟩ := stream_exists f m src.size src (Nat.le_refl _)
  obtain ⟨rfl, rfl⟩ := hs.unique k1
  obtain ⟨items', b', k1', k2', -⟩ := stream_exists (bracketInput g) m' _ _ (Nat.le_refl _)
  obtain ⟨rfl, rfl⟩ := hs'.unique k1'
  rw [List.length_map] at k2 k2'
  refine ⟨lines.map fun s => .text (s ++ ['\n']), loop_first h1 g3 hs (Nat.lt_succ_of_le k2), ?_,
    loop_last n1 n2 h1 ?_ hs hs' (Nat.lt_succ_of_le k2) (Nat.lt_succ_of_le k2')⟩
  · rw [List.length_map, h1.length, g3.length_eq]
  · clear h1 g3 hs' k1' k2' g2
    induction g4 with
    | nil => exact .nil
    | @cons t u ts us h _ ih =>
      obtain ⟨E, S⟩ := h2 t (by simp)
      obtain ⟨φ, I⟩ := exact_iso E h
      refine .cons (fun tags c => iso_options I S (iso_suits I S h.2.1) (fun _ => E.2.1) (fun _ => noSecondary_one E.2.2.1) hpick
        hpick' tags c) (ih fun v hv => h2 v (by simp [hv]))

/-- What the format holds, it holds after the steps. -/
theorem held_pipeline {g : Ptb.Format} {tags : Option (List Str)} (H : Held g o tags t) (S : Suits o t)
    (h : Pipeline o tags t t') : t'.HeldBy g := by
  have W := S.fit.wf
  have P := pipeline_phrases W h
  have R := pipeline_rest W h
  have hs := R.secondary fun h1 h2 => by
    rcases H.gaps with h3 | ⟨_, h3⟩
    · exact h3
    · rw [h2] at h3; cases h3
  have G := pipeline_good S h
  have hnt : ∀ n x, t'.graph.node? n = some (.nt x) → (∃ y, t.graph.node? n = some (.nt y) ∧ y.label = x.label ∧
      y.features = x.features) ∨ (o.insertionSet ≠ none ∧ x.label = o.insertionLabel ∧ x.features = none) := by
    intro n x hx
    rcases P.invented n _ _ ⟨x, hx, rfl, rfl⟩ with h1 | ⟨h1, h2, h3, _⟩
    · exact .inl h1
    · exact .inr ⟨h1, h2, h3⟩
  have hpos : ∀ n x y, t.graph.node? n = some (.term x) → (y = match (motive := Option (List Str) → Str) tags with
      | some l => l[x.span.start]?.getD []
      | none => x.pos) → Bracketed.CleanLabel g y ∧ Bracketed.escape y = y := by
    intro n x y hx hy
    cases tags with
    | none =>
      subst hy
      have h1 := (H.annotated.term n x hx).2.1
      refine ⟨?_, h1⟩
      have h2 := (H.writable.term n x hx).1
      rwa [h1] at h2
    | some l =>
      obtain ⟨h1, h2⟩ := H.tags l rfl
      subst hy
      apply h2
      obtain ⟨i, hi, z, hz, e⟩ := W.sentence.pos n ⟨x, hx⟩
      rw [hx] at hz; cases hz
      simp only [e, Span.ofIdx_start]
      rw [List.getElem?_eq_getElem (by rw [h1]; exact hi)]
      exact List.getElem_mem _
  refine ⟨G.1.fit.wf, ?_, ?_, ⟨?_, ?_, ?_⟩, ⟨?_, ?_⟩, ?_⟩
  · rcases H.gaps with h1 | h1
    · exact G.1.proj (by rw [H.steps.1]; rfl) ((noGaps_iff W).2 h1)
    · exact G.2 h1.1 H.steps.1
  · intro e he
    by_contra hw
    rw [Bool.not_eq_true] at hw
    rw [H.primary e (hs e he hw)] at hw
    cases hw
  · intro n y hy
    obtain ⟨x, hx, h1, _, _, h4, _⟩ := R.word n y hy
    obtain ⟨h5, h6⟩ := hpos n x y.pos hx h4
    refine ⟨by rw [h6]; exact h5, ?_⟩
    rw [h1]; exact (H.writable.term n x hx).2
  · intro n x hx
    rcases hnt n x hx with ⟨y, h1, h2, h3⟩ | ⟨h1, h2, h3⟩
    · rw [← h2, ← h3]; exact H.writable.nt n y h1
    · rw [h2, h3]
      refine ⟨H.label h1, ?_⟩
      cases g <;> simp [Bracketed.CleanAnnotation, Bracketed.annotationOf]
  · intro n
    cases hl : t'.inLabel n with
    | none => cases g <;> simp [Bracketed.CleanEdge]
    | some l => rw [← R.edge n l hl]; exact H.writable.edge n
  · intro n y hy
    obtain ⟨x, hx, h1, h2, _, h4, h5, _⟩ := R.word n y hy
    obtain ⟨g1, g2, g3, g4⟩ := H.annotated.term n x hx
    refine ⟨by rw [h1]; exact g1, (hpos n x y.pos hx h4).2, by rw [h2]; exact g3, ?_⟩
    rw [h5 H.steps.2.1 H.steps.2.2]; exact g4
  · intro n x hx
    rcases hnt n x hx with ⟨y, h1, h2, h3⟩ | ⟨h1, h2, h3⟩
    · rw [← h3]; exact H.annotated.nt n y h1
    · rw [h3]; rfl
  · intro hg
    obtain ⟨b1, b2⟩ := H.bare hg
    refine ⟨fun n => ?_, fun n x hx => ?_⟩
    · cases hl : t'.inLabel n with
      | none => rfl
      | some l => have := R.edge n l hl; rw [b1] at this; cases this
    · rcases hnt n x hx with ⟨y, h1, h2, h3⟩ | ⟨h1, h2, h3⟩
      · rw [← h3]; exact b2 n y h1
      · exact h3

end Convert
end Lumberjack
