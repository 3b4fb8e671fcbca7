import Verif.Proofs.PtbWrite
import Verif.Proofs.Restore
import Verif.Proofs.Equality
import Mathlib.Data.List.TakeWhile

/-!
# Writing bracketed text and reading it back
-/

namespace Lumberjack
namespace Ptb

open Bracketed
open Lumberjack.Tree

/-! ## The text of a bracketing is read as that bracketing -/

/-- All tags and words are words, inner bracketings are not empty. -/
def Wordy : Brackets → Prop
  | .nil => True
  | .leaf tag w r => Word tag ∧ Word w ∧ Wordy r
  | .node tag k r => Word tag ∧ k ≠ .nil ∧ Wordy k ∧ Wordy r

theorem Wordy.full {b : Brackets} (h : Wordy b) : b.Full := by
  induction b with
  | nil => trivial
  | leaf tag w r ih => exact ih h.2.2
  | node tag k r ihk ih => exact ⟨h.2.1, ihk h.2.2.1, ih h.2.2.2⟩

theorem intercalate_cons (sep x : Str) (l : List Str) :
    List.intercalate sep (x :: l) = x ++ l.flatMap (sep ++ ·) := by
  induction l generalizing x with
  | nil => simp
  | cons y l ih => rw [List.intercalate_cons_cons, ih]; simp

theorem reads_text {sep : Str} (hsep : Space sep) {b : Brackets} : ∀ {a : Str}, Space a → Wordy b →
    Reads ((b.text sep).flatMap (a ++ ·)) b := by
  induction b with
  | nil => intro a _ _; exact .nil (by simp [Space, Brackets.text])
  | leaf tag w r ih =>
    intro a ha h
    have := Reads.leaf (a := a) (b := []) (c := [' ']) (d := []) ha (by simp [Space]) h.1 (by simp [Space])
      (by simp) h.2.1 (by simp [Space]) (ih ha h.2.2)
    simpa [Brackets.text] using this
  | node tag k r ihk ih =>
    intro a ha h
    have := Reads.node (a := a) (b := []) ha (by simp [Space]) h.1 (ihk hsep h.2.2.1) h.2.1 (ih ha h.2.2.2)
    simpa [Brackets.text, intercalate_cons] using this

theorem sepOf_space (f : Format) : Space (sepOf f) := by cases f <;> simp [sepOf, Space]

theorem reads_text_one {f : Format} {b : Brackets} {s : Str} (h : Wordy b)
    (hs : b.text (sepOf f) = [s]) : Reads s b := by
  have := reads_text (sepOf_space f) (a := []) (by simp [Space]) h
  rw [hs] at this; simpa using this

/-! ## Tags -/

theorem before_append {c : Char} {p : Str} (h : c ∉ p) (s : Str) : before c (p ++ c :: s) = p := by
  unfold before
  induction p with
  | nil => simp
  | cons x p ih =>
    rw [List.mem_cons, not_or] at h
    rw [List.cons_append, List.takeWhile_cons_of_pos (by simpa using Ne.symm h.1), ih h.2]

theorem after_append {c : Char} {p : Str} (h : c ∉ p) (s : Str) : after c (p ++ c :: s) = some s := by
  unfold after
  rw [if_pos (by simp)]
  congr 1
  induction p with
  | nil => simp
  | cons x p ih =>
    rw [List.mem_cons, not_or] at h
    rw [List.cons_append, List.dropWhile_cons_of_pos (by simpa using Ne.symm h.1), ih h.2]

theorem after_of_not_mem {c : Char} {s : Str} (h : c ∉ s) : after c s = none := if_neg h

/-- What reading back a written tag gives. -/
theorem readTag_writeTag {f : Format} {l : Str} {e a : Option Str} (hl : CleanLabel f l)
    (ha : CleanAnnotation f a) (he : CleanEdge f e) :
    readTag f (writeTag f l e a) = (l, if f = .tueba then e else none,
      match f with | .simple => none | .ptb => a.map ('-' :: ·) | .tueba => a) := by
  cases f with
  | simple => rfl
  | ptb =>
    cases a with
    | none => simp [writeTag, readTag, before_of_not_mem hl.2, after_of_not_mem hl.2]
    | some a => simp [writeTag, readTag, before_append hl.2, after_append hl.2]
  | tueba =>
    obtain ⟨-, hl1, hl2⟩ := hl
    have key : ∀ e' p : Str, ':' ∉ e' → ((some e').filter (fun s => s ≠ "--".toList)) = e →
        ':' ∉ p → before '=' p = l → (after '=' p).map (before '=') = a →
        readTag .tueba (p ++ ':' :: e') = (l, e, a) := by
      intro e' p h1 h2 hp h3 h4
      simp only [readTag]
      rw [before_append hp, after_append hp]
      simp only [Option.map_some, before_of_not_mem h1, h2, h3, h4]
    have key' : ∀ e' : Str, ':' ∉ e' → ((some e').filter (fun s => s ≠ "--".toList)) = e →
        writeTag .tueba l e a = (writeTag .tueba l none a).take ((writeTag .tueba l none a).length - 3) ++ ':' :: e' →
        readTag .tueba (writeTag .tueba l e a) = (l, e, a) := by
      intro e' h1 h2 h3
      rw [h3]
      cases a with
      | none =>
        refine key e' _ h1 h2 ?_ ?_ ?_ <;> simp [writeTag, hl1, before_of_not_mem hl2, after_of_not_mem hl2]
      | some a =>
        obtain ⟨-, ha1, ha2⟩ := ha a rfl
        have h5 : (writeTag .tueba l none (some a)).take ((writeTag .tueba l none (some a)).length - 3) =
            l ++ '=' :: a := by
          have : writeTag .tueba l none (some a) = (l ++ '=' :: a) ++ [':', '-', '-'] := by simp [writeTag]
          rw [this]
          generalize l ++ '=' :: a = q
          simp
        rw [h5]
        refine key e' _ h1 h2 (by simp [hl1, ha1]) (before_append hl2 _) ?_
        rw [after_append hl2]; simp [before_of_not_mem ha2]
    have htake : ∀ p : Str, (p ++ ':' :: "--".toList).take ((p ++ ':' :: "--".toList).length - 3) = p := by
      intro p; simp
    cases e with
    | none =>
      refine key' "--".toList (by decide) (by decide) ?_
      simp only [writeTag]; rw [htake]
    | some e =>
      obtain ⟨-, he1, he2⟩ := he e rfl
      refine key' e he1 (by simp only [Option.filter]; rw [if_pos]; simpa using he2) ?_
      simp only [writeTag]; rw [htake]

theorem word_append {a b : Str} (ha : a = [] ∨ Word a) (hb : b = [] ∨ Word b) (h : a ≠ [] ∨ b ≠ []) :
    Word (a ++ b) := by
  refine ⟨by simpa [← not_and_or] using h, ?_⟩
  intro c hc
  rcases List.mem_append.1 hc with hc | hc
  · rcases ha with rfl | ha
    · simp at hc
    · exact ha.2 c hc
  · rcases hb with rfl | hb
    · simp at hc
    · exact hb.2 c hc

theorem word_cons {x : Char} (hx : isWordChar x = true) {b : Str} (hb : b = [] ∨ Word b) : Word (x :: b) :=
  word_append (a := [x]) (.inr ⟨by simp, by simpa using isWordChar_iff.1 hx⟩) hb (.inl (by simp))

theorem writeTag_word {f : Format} {l : Str} {e a : Option Str} (hl : CleanLabel f l)
    (ha : CleanAnnotation f a) (he : CleanEdge f e) : Word (writeTag f l e a) := by
  cases f with
  | simple => exact hl
  | ptb =>
    cases a with
    | none => simpa [writeTag] using hl.1
    | some a =>
      exact word_append (.inr hl.1) (.inr (word_cons (by decide) (ha a rfl))) (.inr (by simp))
  | tueba =>
    have h1 : ∀ p q : Str, (p = [] ∨ Word p) → (q = [] ∨ Word q) → Word (p ++ ':' :: q) := fun p q hp hq =>
      word_append hp (.inr (word_cons (by decide) hq)) (.inr (by simp))
    refine h1 _ _ ?_ ?_
    · cases a with
      | none => simpa using hl.1
      | some a =>
        exact .inr (word_append hl.1 (.inr (word_cons (by decide) (ha a rfl).1)) (.inr (by simp)))
    · cases e with
      | none => exact .inr ⟨by simp, by decide⟩
      | some e => exact (he e rfl).1

/-! ## Trees -/

theorem cleanAnnotation_none (f : Format) : CleanAnnotation f none := by
  cases f <;> simp [CleanAnnotation]

theorem brackets_ne_nil {f : Format} {F : Forest} (h : F ≠ .nil) : F.brackets f ≠ .nil := by
  cases F with
  | nil => exact absurd rfl h
  | leaf => simp [Forest.brackets]
  | node => simp [Forest.brackets]

theorem brackets_wordy {f : Format} {F : Forest} : ∀ {k : Nat}, F.Seq k → F.Clean f → Wordy (F.brackets f) := by
  induction F with
  | nil => intro k _ _; trivial
  | leaf e x r ih =>
    rintro k ⟨_, h1⟩ ⟨c1, c2, c3, c4⟩
    exact ⟨writeTag_word c1 (cleanAnnotation_none f) c3, c2, ih h1 c4⟩
  | node e x ks r ihk ih =>
    rintro k ⟨h0, _, h1, h2⟩ ⟨c1, c2, c3, c4, c5⟩
    exact ⟨writeTag_word c1 c2 c3, brackets_ne_nil h0, ihk h1 c4, ih h2 c5⟩

theorem brackets_len {f : Format} {F : Forest} : (F.brackets f).len = F.leaves.length := by
  induction F with
  | nil => rfl
  | leaf e x r ih => simp [Forest.brackets, Brackets.len, Forest.leaves, ih]
  | node e x ks r ihk ih => simp [Forest.brackets, Brackets.len, Forest.leaves, ih, ihk]

theorem brackets_forest {f : Format} {F : Forest} : ∀ {k : Nat}, F.Seq k → F.Clean f →
    (F.brackets f).forest f k = F.written f := by
  induction F with
  | nil => intro k _ _; rfl
  | leaf e x r ih =>
    rintro k ⟨h0, h1⟩ ⟨c1, c2, c3, c4⟩
    simp only [Forest.brackets, Brackets.forest, Forest.written,
      readTag_writeTag c1 (cleanAnnotation_none f) c3, ih h1 c4, h0]
  | node e x ks r ihk ih =>
    rintro k ⟨h0, h3, h1, h2⟩ ⟨c1, c2, c3, c4, c5⟩
    simp only [Forest.brackets, Brackets.forest, Forest.written,
      readTag_writeTag c1 c2 c3, ihk h1 c4, brackets_len, ih h2 c5, h3]
    cases f <;> rfl

theorem single_of_text {f : Format} {b : Brackets} {s : Str} (h : b.text (sepOf f) = [s]) : b.Single := by
  cases b with
  | nil => simp [Brackets.text] at h
  | leaf tag w r => cases r <;> simp [Brackets.text, Brackets.Single] at h ⊢
  | node tag k r => cases r <;> simp [Brackets.text, Brackets.Single] at h ⊢

theorem setTop_written {t : Tree} (W : t.WF) {F : Forest} (h : t.Is F) (f : Format) :
    (F.written f).setTop none = F.written f := by
  cases F with
  | nil => rfl
  | leaf e x r =>
    obtain ⟨n, ns, h1, -, h2, -⟩ := h
    simp at h1; rw [← h1.1, inLabel_root W.shape] at h2; subst h2
    simp [Forest.written, Forest.setTop]
  | node e x k r =>
    obtain ⟨n, ns, ks, h1, -, h2, -⟩ := h
    simp at h1; rw [← h1.1, inLabel_root W.shape] at h2; subst h2
    simp [Forest.written, Forest.setTop]

/-- Writing and reading back. -/
theorem round_trip {t : Tree} (W : t.WF) (hp : t.isProjective = true) {F : Forest} (h : t.Is F) {f : Format}
    (hc : F.Clean f) : ∃ s t', treeToString f t = .ok (.ok s) ∧ stringToTree f s = .ok (.ok t') ∧
      t'.WF ∧ t'.isProjective = true ∧ t'.Is (F.written f) := by
  obtain ⟨s, h1, h2⟩ := treeToString_ok W hp h f
  have hs := (W.is_seq hp h).1
  have hr := reads_text_one (brackets_wordy hs hc) h2
  obtain ⟨t', h3, h4, h5, h6⟩ := stringToTree_ok (f := f) hr (single_of_text h2)
  refine ⟨s, t', h1, h3, h4, h5, ?_⟩
  rw [brackets_forest hs hc, setTop_written W h] at h6
  exact h6

/-! ## Printing a parsed tree -/

theorem escape_word {w : Str} (h : Word w) : Bracketed.escape w = w := by
  obtain ⟨-, h⟩ := h
  unfold Bracketed.escape
  induction w with
  | nil => rfl
  | cons c w ih =>
    obtain ⟨-, -, -, h1, h2⟩ := h c List.mem_cons_self
    rw [List.flatMap_cons, ih fun d hd => h d (List.mem_cons_of_mem _ hd)]
    simp [h1, h2]

theorem annotationOf_annotated (a : Option Str) : annotationOf (annotated a) = a := by
  cases a <;> simp [annotationOf, annotated]

theorem reads_wordy {s : Str} {b : Brackets} (h : Reads s b) : Wordy b := by
  induction h with
  | nil => trivial
  | leaf _ _ h1 _ _ h2 _ _ ih => exact ⟨h1, h2, ih⟩
  | node _ _ h1 _ h2 _ ihk ih => exact ⟨h1, h2, ihk, ih⟩

/-- Text without white space and brackets, possibly empty. -/
theorem word_sub {w v : Str} (h : Word w) (hv : ∀ c ∈ v, c ∈ w) : v = [] ∨ Word v := by
  by_cases e : v = []
  · exact .inl e
  · exact .inr ⟨e, fun c hc => h.2 c (hv c hc)⟩

theorem mem_before {c d : Char} {s : Str} (h : d ∈ before c s) : d ∈ s ∧ d ≠ c := by
  unfold before at h
  refine ⟨(List.takeWhile_sublist _).subset h, ?_⟩
  have := List.mem_takeWhile_imp h
  simpa using this

theorem mem_after {c d : Char} {s r : Str} (h : after c s = some r) (hd : d ∈ r) : d ∈ s := by
  unfold after at h
  split at h
  · simp at h; subst h
    exact (List.dropWhile_sublist _).subset (List.mem_of_mem_tail hd)
  · simp at h

theorem readTag_clean {f : Format} (hf : f ≠ .ptb) {s : Str} (h : Word s) :
    CleanLabel f (readTag f s).1 ∧ CleanAnnotation f (readTag f s).2.2 ∧ CleanEdge f (readTag f s).2.1 ∧
    Bracketed.escape (readTag f s).1 = (readTag f s).1 := by
  cases f with
  | ptb => exact absurd rfl hf
  | simple => exact ⟨h, trivial, trivial, escape_word h⟩
  | tueba =>
    have hl : (readTag .tueba s).1 = [] ∨ Word (readTag .tueba s).1 :=
      word_sub h fun c hc => (mem_before (mem_before hc).1).1
    refine ⟨⟨hl, fun hm => (mem_before (mem_before hm).1).2 rfl, fun hm => (mem_before hm).2 rfl⟩,
      ?_, ?_, ?_⟩
    · intro a ha
      simp only [readTag, Option.map_eq_some_iff] at ha
      obtain ⟨r, hr, rfl⟩ := ha
      have hsub : ∀ c ∈ before '=' r, c ∈ before ':' s := fun c hc => mem_after hr (mem_before hc).1
      exact ⟨word_sub h fun c hc => (mem_before (hsub c hc)).1, fun hm => (mem_before (hsub _ hm)).2 rfl,
        fun hm => (mem_before hm).2 rfl⟩
    · intro e he
      simp only [readTag, Option.filter_eq_some_iff, Option.map_eq_some_iff] at he
      obtain ⟨⟨r, hr, rfl⟩, hne⟩ := he
      refine ⟨word_sub h fun c hc => mem_after hr (mem_before hc).1, fun hm => (mem_before hm).2 rfl, ?_⟩
      simpa using hne
    · rcases hl with hl | hl
      · rw [hl]; rfl
      · exact escape_word hl

theorem forest_clean {f : Format} (hf : f ≠ .ptb) {b : Brackets} : ∀ {k : Nat}, Wordy b →
    (b.forest f k).Clean f ∧ (b.forest f k).written f = b.forest f k := by
  induction b with
  | nil => intro k _; exact ⟨trivial, rfl⟩
  | leaf tag w r ih =>
    rintro k ⟨h1, h2, h3⟩
    obtain ⟨c1, c2, c3, c4⟩ := readTag_clean hf h1
    obtain ⟨i1, i2⟩ := ih (k := k + 1) h3
    refine ⟨⟨by simpa only [c4] using c1, by simpa only [escape_word h2] using h2, c3, i1⟩, ?_⟩
    simp only [Brackets.forest, Forest.written, c4, escape_word h2, i2]
    cases f
    · exact absurd rfl hf
    · rfl
    · rfl
  | node tag ks r ihk ih =>
    rintro k ⟨h1, h2, h3, h4⟩
    obtain ⟨c1, c2, c3, c4⟩ := readTag_clean hf h1
    obtain ⟨i1, i2⟩ := ih (k := k + ks.len) h4
    obtain ⟨k1, k2⟩ := ihk (k := k) h3
    refine ⟨⟨c1, by simpa only [annotationOf_annotated] using c2, c3, k1, i1⟩, ?_⟩
    simp only [Brackets.forest, Forest.written, annotationOf_annotated, i2, k2]
    cases f
    · exact absurd rfl hf
    · rfl
    · rfl

theorem setTop_clean {f : Format} {F : Forest} (h : F.Clean f) (hw : F.written f = F) :
    (F.setTop none).Clean f ∧ (F.setTop none).written f = F.setTop none := by
  have he : CleanEdge f none := by cases f <;> simp [CleanEdge]
  cases F with
  | nil => exact ⟨trivial, rfl⟩
  | leaf e x r =>
    simp only [Forest.written, Forest.leaf.injEq] at hw
    refine ⟨⟨h.1, h.2.1, he, h.2.2.2⟩, ?_⟩
    simp only [Forest.setTop, Forest.written, hw.2.1, hw.2.2]; simp
  | node e x k r =>
    simp only [Forest.written, Forest.node.injEq] at hw
    refine ⟨⟨h.1, h.2.1, he, h.2.2.2⟩, ?_⟩
    simp only [Forest.setTop, Forest.written, hw.2.1, hw.2.2.1, hw.2.2.2]; simp

end Ptb
end Lumberjack

namespace Lumberjack
namespace Ptb

open Bracketed
open Lumberjack.Tree

theorem Rep.clean {t : Tree} {f : Format} (hw : t.Writable f) {F : Forest} : ∀ {ids : List Nat}, t.Rep ids F →
    F.Clean f := by
  induction F with
  | nil => intro _ _; trivial
  | leaf e x r ih =>
    rintro ids ⟨n, ns, rfl, h4, rfl, h6⟩
    exact ⟨(hw.term n x h4).1, (hw.term n x h4).2, hw.edge n, ih h6⟩
  | node e x k r ihk ih =>
    rintro ids ⟨n, ns, ks, rfl, h4, rfl, h6, h7, h8⟩
    exact ⟨(hw.nt n x h4).1, (hw.nt n x h4).2, hw.edge n, ihk h7, ih h8⟩

/-- Nothing is lost. -/
theorem Rep.written_eq {t : Tree} {f : Format} (ho : t.OnlyAnnotated)
    (hf : f ≠ .tueba → (∀ n, t.inLabel n = none) ∧ ∀ n x, t.graph.node? n = some (.nt x) → x.features = none)
    {F : Forest} : ∀ {ids : List Nat}, t.Rep ids F → F.written f = F := by
  induction F with
  | nil => intro _ _; rfl
  | leaf e x r ih =>
    rintro ids ⟨n, ns, rfl, h4, rfl, h6⟩
    obtain ⟨o1, o2, o3, o4⟩ := ho.term n x h4
    have he : (if f = .tueba then t.inLabel n else none) = t.inLabel n := by
      split
      · rfl
      · rename_i h; rw [(hf h).1]
    rw [Forest.written, he, ih h6, o2, escape_word o1, ← o3]
    conv_lhs => rw [show (none : Option Features) = x.features from o4.symm]
  | node e x k r ihk ih =>
    rintro ids ⟨n, ns, ks, rfl, h4, rfl, h6, h7, h8⟩
    have he : (if f = .tueba then t.inLabel n else none) = t.inLabel n := by
      split
      · rfl
      · rename_i h; rw [(hf h).1]
    have hx := ho.nt n x h4
    obtain ⟨l, fs, sp⟩ := x
    simp only at hx
    simp only [Forest.written, he, ihk h7, ih h8]
    cases f with
    | simple => rw [← (hf (by simp)).2 n _ h4]
    | ptb =>
      have := (hf (by simp)).2 n _ h4
      simp only at this; subst this; rfl
    | tueba => rw [← hx]

/-- An annotation is not kept by the PTB format. -/
theorem not_same_written {F : Forest} (h : Forest.Same F (F.written .ptb)) :
    F.All (fun nd => match nd with | .nt x => annotationOf x.features = none | .term _ => True) := by
  induction F with
  | nil => trivial
  | leaf e x r ih => exact ⟨trivial, ih h.2.2.2.2.2⟩
  | node e x k r ihk ih =>
    obtain ⟨-, -, -, h1, h2, h3⟩ := h
    refine ⟨?_, ihk h2, ih h3⟩
    show annotationOf x.features = none
    cases ha : annotationOf x.features with
    | none => rfl
    | some a =>
      exfalso
      simp only [ha, Option.map_some, annotated, Forest.FeatSame, Option.getD_some] at h1
      cases hx : x.features with
      | none => rw [hx] at ha; simp [annotationOf] at ha
      | some g =>
        rw [hx] at h1 ha
        simp only [Option.getD_some] at h1
        rw [h1] at ha
        simp [annotationOf] at ha

/-- The words of a parsed tree are where they were in the text. -/
theorem forest_words {f : Format} {W : List Str} {b : Brackets} : ∀ {k : Nat} (_ : ∀ i w, b.words[i]? = some w → W[k + i]? = some w),
    (b.forest f k).All (fun nd => match nd with
      | .term x => W[x.span.start]? = some x.form ∧ x.lem = none ∧ x.features = none
      | .nt _ => True) := by
  induction b with
  | nil => intro k _; trivial
  | leaf tag w r ih =>
    intro k h
    refine ⟨⟨h 0 w (by simp [Brackets.words]), rfl, rfl⟩, ih fun i v hi => ?_⟩
    have := h (i + 1) v (by simpa [Brackets.words] using hi)
    rwa [Nat.add_comm i 1, ← Nat.add_assoc] at this
  | node tag ks r ihk ih =>
    intro k h
    have hlen : ks.words.length = ks.len := by
      obtain ⟨h1, h2⟩ := forest_leaves (f := f) (b := ks) (k := k)
      rw [← h1, List.length_map, h2]
    refine ⟨trivial, ihk fun i w hi => h i w ?_, ih fun i v hi => ?_⟩
    · rw [Brackets.words, List.getElem?_append_left]
      · exact hi
      · exact (List.getElem?_eq_some_iff.1 hi).1
    · have := h (ks.len + i) v (by
        rw [Brackets.words, List.getElem?_append_right (by omega), hlen, Nat.add_sub_cancel_left]; exact hi)
      rwa [← Nat.add_assoc] at this

theorem setTop_all {P : Node → Prop} {F : Forest} (h : F.All P) : (F.setTop none).All P := by
  cases F with
  | nil => trivial
  | leaf => exact h
  | node => exact h

/-- Printing a parsed tree and reading it again. -/
theorem reprint {f : Format} (hf : f ≠ .ptb) {s : Str} {t : Tree} (h : stringToTree f s = .ok (.ok t)) :
    ∃ s' t' F, treeToString f t = .ok (.ok s') ∧ stringToTree f s' = .ok (.ok t') ∧ t.WF ∧ t'.WF ∧
      t.Is F ∧ t'.Is F ∧ treeToString f t' = .ok (.ok s') := by
  by_cases hb : ∃ b, b.Single ∧ Reads s b
  · obtain ⟨b, hb, hr⟩ := hb
    obtain ⟨t1, h1, W, hp, hF⟩ := stringToTree_ok (f := f) hr hb
    rw [h] at h1; cases h1
    obtain ⟨c1, c2⟩ := forest_clean hf (k := 0) (reads_wordy hr)
    obtain ⟨c3, c4⟩ := setTop_clean c1 c2
    obtain ⟨s', t', r1, r2, r3, r4, r5⟩ := round_trip W hp hF c3
    rw [c4] at r5
    refine ⟨s', t', _, r1, r2, W, r3, hF, r5, ?_⟩
    obtain ⟨s1, w1, w2⟩ := treeToString_ok W hp hF f
    obtain ⟨s2, w3, w4⟩ := treeToString_ok r3 r4 r5 f
    rw [w2] at w4; simp at w4; subst w4
    rw [r1] at w1; cases w1; exact w3
  · rw [stringToTree_err hb] at h; cases h

end Ptb
end Lumberjack
