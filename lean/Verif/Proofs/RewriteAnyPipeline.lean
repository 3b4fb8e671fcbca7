import Verif.Proofs.RewriteAnyGather
import Verif.Proofs.RewriteAnyNumbers
import Verif.Proofs.RewriteAnyRuns

/-!
# The steps of the conversion tool on trees with gaps
-/

namespace Lumberjack
namespace Tree

variable {t : Tree}

/-- The words of a tree from left to right. -/
theorem terminals_leftToRight (W : t.WF) {F : Forest} (hF : t.Is F) : t.Terminals (Forest.leftToRight F.leaves) := by
  obtain ⟨p1, p2⟩ := hF.shuffled.positions W (by simp)
  obtain ⟨q1, q2⟩ := leftToRight_spec p1
  have hmem : ∀ i, i ∈ (Forest.leftToRight F.leaves).map (·.span.start) ↔ i < t.nTerminals := by
    intro i
    rw [(q2.map _).mem_iff, p2]
    simp only [List.mem_singleton, exists_eq_left]
    constructor
    · rintro ⟨m, _, hm⟩
      obtain ⟨j, hj, hm'⟩ := W.sentence.pos m hm.isTerm
      rw [hm.pos_unique hm']; exact hj
    · intro hi
      obtain ⟨m, hm⟩ := W.sentence.occupied i hi
      exact ⟨m, W.shape.reach m hm.isTerm.live, hm⟩
  have heq : (Forest.leftToRight F.leaves).map (·.span.start) = List.range t.nTerminals := by
    refine List.Perm.eq_of_pairwise (le := (· ≤ ·)) (fun a b _ _ h1 h2 => Nat.le_antisymm h1 h2) (q1.imp fun h => Nat.le_of_lt h)
      (List.pairwise_le_range) ((List.perm_ext_iff_of_nodup (q1.imp fun h => Nat.ne_of_lt h) List.nodup_range).2 fun i => ?_)
    rw [hmem, List.mem_range]
  refine ⟨by have := congrArg List.length heq; simpa using this, fun n x i hx hi => ?_⟩
  obtain ⟨j, hj⟩ := List.mem_iff_getElem?.1 (q2.mem_iff.2 (Rep.leaf_mem W.shape hF hx))
  have h1 : ((Forest.leftToRight F.leaves).map (·.span.start))[j]? = some x.span.start := by rw [List.getElem?_map, hj]; rfl
  rw [heq] at h1
  obtain ⟨_, h2⟩ := List.getElem?_eq_some_iff.1 h1
  rw [List.getElem_range, ← startOf_leaf hx, hi.start] at h2
  rw [← h2]; exact hj

end Tree

namespace Convert

open Lumberjack.Tree

variable {t t' : Tree}

theorem filtered_sorted {s : LabelSet} (W : t.WF) (h : Filtered s t t') {F : Forest} (hF : t.Is F) :
    t'.Is (F.filtered fun x => !s.matches x.label).inOrder := by
  refine Removed.is_sorted h.2 W h.1 (fun n => ?_) hF
  refine and_congr_right fun _ => exists_congr fun x => and_congr_right fun _ => ?_
  rw [Bool.not_eq_true', matches_false]

theorem runs_any {s : LabelSet} {l : Str} (W : t.WF) (h : RunsInserted s l t t') {F : Forest} (hF : t.Is F) :
    t'.Is (F.groupedRuns (fun x => !s.matches x.label) l) := by
  refine Inserted.is_runs (Inserted.congr h fun p c => ?_) W hF
  refine and_congr_left fun _ => exists_congr fun x => and_congr_right fun _ => ?_
  rw [Bool.not_eq_true', matches_false]

/-- All steps but `--projectivize`. -/
theorem pipeline_any {o : Options} {tags : Option (List Str)} (S : Suits o t) (ho : o.projectivize = false)
    (h : Pipeline o tags t t') {F : Forest} (hF : t.Is F) : t'.Is (F.editedBy o tags) := by
  obtain ⟨t1, t2, t3, t4, t5, t6, t7, b1, b2, b3, b4, b5, b6, b7, b8⟩ := h
  have A1 : Fit t1 ∧ t1.Is (if o.removeDummies then F.undummied.inOrder else F) := by
    cases hd : o.removeDummies with
    | false => rw [b1.2 hd]; exact ⟨S.fit, hF⟩
    | true =>
      exact ⟨(dummies_good S.fit (by rcases S.words with h2 | h2; exacts [h2, by rw [hd] at h2; cases h2.1]) (b1.1 hd)).fit,
        dummies_sorted S.fit.wf (b1.1 hd) hF⟩
  obtain ⟨c1, i1⟩ := A1
  obtain rfl := b2.2 ho
  -- a step that depends on an option
  have step : ∀ {α : Type} (a : Option α) {R : α → Tree → Tree → Prop} {f : α → Forest → Forest} {u u' : Tree} {G : Forest}, Fit u →
      u.Is G → Opt a R u u' → (∀ v, R v u u' → Fit u' ∧ u'.Is (f v G)) → Fit u' ∧ u'.Is (Forest.given a f G) := by
    intro α a R f u u' G hf hG hO hR
    cases a with
    | none => obtain rfl : u' = u := hO; exact ⟨hf, hG⟩
    | some v => exact hR v hO
  obtain ⟨f3, i3⟩ := step tags c1 i1 b3 (f := Forest.retagged)
    fun l h => ⟨(edit_good c1 h fun _ _ => ⟨rfl, rfl, rfl⟩).fit, pos_is h i1⟩
  obtain ⟨f4, i4⟩ := step o.reattachLabel f3 i3 b4 (f := fun p => Forest.gatheredBy fun x => decide (p <+: x.pos))
    fun p (h : PrefixGathered p _ _) => ⟨(gathered_good f3 h).fit, Gathered.is_sorted h f3.wf f3.rootNt (fun n => by simp) i3⟩
  obtain ⟨f5, i5⟩ := step o.idSet f4 i4 b5 (f := fun s => Forest.numberedBy o.idFeatureName fun x => s.matches x.label)
    fun s h => ⟨by
      obtain ⟨num, E, _⟩ := h
      exact (edit_good f4 E fun _ _ => ⟨rfl, rfl, rfl⟩).fit, by
      obtain ⟨num, E, h1, h2⟩ := h
      exact numberedBy_is f4.wf f4.rootNt (by simp [idNode])
        (fun n x hn hx => by simp [idNode, hx, Node.label, hn.symm]) E h1 h2 i4⟩
  obtain ⟨f6, i6⟩ := step o.filterSet f5 i5 b6 (f := fun s F => (Forest.filtered (fun x => !s.matches x.label) F).inOrder)
    fun s h => ⟨(filtered_good f5 h).fit, filtered_sorted f5.wf h i5⟩
  obtain ⟨f7, i7⟩ := step o.insertionSet f6 i6 b7
    (f := fun s => Forest.groupedRuns (fun x => !s.matches x.label) o.insertionLabel)
    fun s h => ⟨(inserted_good f6 h).fit, runs_any f6.wf h i6⟩
  exact (step o.parentFeature f7 i7 b8 (f := Forest.parented) fun name h => ⟨by
      obtain ⟨val, E, _⟩ := h
      exact (edit_good f7 E fun _ _ => ⟨rfl, rfl, rfl⟩).fit, parented_is f7.wf f7.rootNt h i7⟩).2

/-- What is written. -/
theorem output_any {out : OutFormat} (hout : out ≠ .negra) (W : t.WF) {c c' : Nat} {w : Written} (h : Output out c t w c') {F : Forest}
    (hF : t.Is F) : F.outputBy out = some w := by
  have h0 := h
  cases h with
  | conllx h =>
    obtain ⟨ts, h1, rfl⟩ := h
    rw [h1.unique W (terminals_leftToRight W hF)]
    rfl
  | negra => exact absurd rfl hout
  | absolute hN => exact output_is hout W hN h0 hF
  | relative hN => exact output_is hout W hN h0 hF
  | ptb hN => exact output_is hout W hN h0 hF
  | simple hN => exact output_is hout W hN h0 hF
  | tueba hN => exact output_is hout W hN h0 hF

/-- For a tree without gaps `--projectivize` does nothing. -/
theorem pipeline_unprojected {o : Options} {tags : Option (List Str)} {t t' : Tree} (S : Suits o t) (hN : NoGaps t)
    (h : Pipeline o tags t t') : Pipeline { o with projectivize := false } tags t t' := by
  obtain ⟨t1, t2, t3, t4, t5, t6, t7, b1, b2, b3⟩ := h
  have hp : t.isProjective = true := (noGaps_iff S.fit.wf).2 hN
  have c1 : Good true t t1 := by
    cases hd : o.removeDummies with
    | false => rw [b1.2 hd]; exact .refl S.fit
    | true => exact dummies_good S.fit (by rcases S.words with h2 | h2; exacts [h2, by rw [hd] at h2; cases h2.1]) (b1.1 hd)
  have e2 : t2 = t1 := by
    cases hd : o.projectivize with
    | false => exact b2.2 hd
    | true =>
      rcases b2.1 hd with ⟨_, e⟩ | ⟨⟨n, hn, hg⟩, _⟩
      · exact e
      · exact absurd ((noGaps_iff c1.fit.wf).1 (c1.proj rfl hp) n hn) hg
  exact ⟨t1, t2, t3, t4, t5, t6, t7, b1, ⟨(fun h => nomatch h), fun _ => e2⟩, b3⟩

/-- The pipeline on trees with gaps, or without gaps if it has to fill them. -/
theorem pipeline_rewrites {o : Options} {tags : Option (List Str)} (S : Suits o t) (hN : o.projectivize = true → NoGaps t)
    (h : Pipeline o tags t t') {F : Forest} (hF : t.Is F) : t'.Is (F.editedBy o tags) := by
  cases hd : o.projectivize with
  | false => exact pipeline_any S hd h hF
  | true => exact pipeline_any (o := { o with projectivize := false }) ⟨S.fit, S.words⟩ rfl (pipeline_unprojected S (hN hd) h) hF

/-- Every tree is written if there are tags for its words and the format holds gaps or the tree has none in the end. -/
theorem Run.complete_any {o : Options} {items : List (Except Err Tree)} {b : Bool} {pos : Option (List PosItem)} {c : Nat} {ws : List Written} {e : End}
    (h : Run o items b pos c ws e)
    (hp : ∀ ps, pos = some ps → ∀ (i : Nat) (t : Tree), items[i]? = some (.ok t) → ∃ l, ps[i]? = some (.ok l) ∧ l.length = t.nTerminals)
    (hb : b = true) (hi : ∀ x ∈ items, ∃ t, x = .ok t)
    (hg : ∀ (i : Nat) t tags t', items[i]? = some (.ok t) → TagsAt pos i tags → Pipeline o tags t t' → HoldsGaps o.out ∨ NoGaps t') :
    e = .finished ∧ ws.length = items.length := by
  induction h with
  | finished => exact ⟨rfl, rfl⟩
  | crashed => cases hb
  | @unreadable er => obtain ⟨t, ht⟩ := hi (.error er) (by simp); cases ht
  | noTags => obtain ⟨l, h, _⟩ := hp _ rfl 0 _ rfl; cases h
  | badTags => obtain ⟨l, h, _⟩ := hp _ rfl 0 _ rfl; cases h
  | short h1 => obtain ⟨l, h, h2⟩ := hp _ rfl 0 _ rfl; cases h; omega
  | long h1 => obtain ⟨l, h, h2⟩ := hp _ rfl 0 _ rfl; cases h; omega
  | @gaps t t' items b pos tags pos' c h1 h2 h3 h4 h5 =>
    refine absurd (hg 0 t tags t' rfl ?_ h3) (by rintro (h | h); exacts [h4 h, h5 h])
    cases h1 with
    | without => exact .inl ⟨rfl, rfl⟩
    | tags => exact .inr ⟨_, _, rfl, rfl, rfl⟩
  | @write t t' items b pos tags pos' c w c' ws e h1 h2 h3 h4 _ ih =>
    have := ih (by
        cases h1 with
        | without => intro ps h; cases h
        | tags => intro ps h i t ht; cases h; exact hp _ rfl (i + 1) t ht) hb (fun x hx => hi x (by simp [hx]))
      (fun i t tags t' ht hT hP => by
        refine hg (i + 1) t tags t' ht ?_ hP
        cases h1 with
        | without =>
          rcases hT with h | ⟨_, _, h, _⟩
          · exact .inl h
          · cases h
        | tags =>
          rcases hT with ⟨h, _⟩ | ⟨ps, l, h, h', h''⟩
          · cases h
          · cases h; exact .inr ⟨_, l, rfl, h', h''⟩)
    exact ⟨this.1, by simpa using this.2⟩

end Convert
end Lumberjack
