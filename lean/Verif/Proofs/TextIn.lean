import Verif.Proofs.TextOut

/-!
# The words in the input of the conversion tool
-/

namespace Lumberjack

open Bracketed

namespace Forest

/-- All labels and annotations of nonterminals and all edge labels satisfy `P`. -/
def Texts (P : Str → Prop) : Forest → Prop
  | nil => True
  | leaf e _ r => (∀ l, e = some l → P l) ∧ r.Texts P
  | node e x k r => (∀ l, e = some l → P l) ∧ P x.label ∧ (∀ a, annotationOf x.features = some a → P a) ∧
      k.Texts P ∧ r.Texts P

theorem Texts.setTop {P : Str → Prop} {F : Forest} (h : F.Texts P) : (F.setTop none).Texts P := by
  cases F with
  | nil => trivial
  | leaf e x r => exact ⟨by simp, h.2⟩
  | node e x k r => exact ⟨by simp, h.2⟩

end Forest

namespace Tree

variable {t : Tree} {P : Str → Prop}

theorem Rep.texts_conv (S : t.Shape) {F : Forest} : ∀ {ids : List Nat}, t.Rep ids F → F.Texts P →
    ∀ a ∈ ids, ∀ m, t.Dom a m → (∀ l, t.inLabel m = some l → P l) ∧ ∀ x, t.graph.node? m = some (.nt x) →
      P x.label ∧ ∀ a, annotationOf x.features = some a → P a := by
  induction F with
  | nil => intro ids h _ a ha; rw [show ids = [] from h] at ha; simp at ha
  | leaf e x r ih =>
    rintro ids ⟨n, ns, rfl, h4, h5, h6⟩ ⟨g1, g2⟩ a ha m hd
    rcases List.mem_cons.1 ha with rfl | ha
    · have := S.dom_term ⟨x, h4⟩ hd
      subst this
      exact ⟨by rw [h5]; exact g1, fun y hy => by rw [h4] at hy; cases hy⟩
    · exact ih h6 g2 a ha m hd
  | node e x k r ihk ih =>
    rintro ids ⟨n, ns, ks, rfl, h4, h5, h6, h7, h8⟩ ⟨g1, g2, g3, g4, g5⟩ a ha m hd
    rcases List.mem_cons.1 ha with rfl | ha
    · rcases Relation.ReflTransGen.cases_head hd with rfl | ⟨b, hb, hd⟩
      · exact ⟨by rw [h5]; exact g1, fun y hy => by rw [h4] at hy; cases hy; exact ⟨g2, g3⟩⟩
      · exact ihk h7 g4 b ((h6.1 b).2 hb) m hd
    · exact ih h8 g5 a ha m hd

theorem Is.texts (W : t.WF) {F : Forest} (h : t.Is F) (hF : F.Texts P) : t.Texts P := by
  have key := fun m hm => Rep.texts_conv W.shape h hF t.root (by simp) m (W.shape.reach m hm)
  refine ⟨fun n x hx => ((key n ⟨_, hx⟩).2 x hx).1, fun n x a hx => ((key n ⟨_, hx⟩).2 x hx).2 a, fun n l hl => ?_⟩
  obtain ⟨r, h1, _, rfl, _⟩ := inLabel_edge hl
  exact (key _ (W.graph.ends r h1).2).1 l hl

end Tree

namespace Bracketed

theorem readTag_sub {f : Ptb.Format} {s : Str} :
    (∀ c ∈ (readTag f s).1, c ∈ s) ∧ (∀ e, (readTag f s).2.1 = some e → ∀ c ∈ e, c ∈ s) ∧
      ∀ a, (readTag f s).2.2 = some a → ∀ c ∈ a, c ∈ s ∨ c = '-' := by
  cases f with
  | simple => exact ⟨fun c h => h, by simp [readTag], by simp [readTag]⟩
  | ptb =>
    refine ⟨fun c h => (Ptb.mem_before h).1, by simp [readTag], fun a ha c hc => ?_⟩
    simp only [readTag, Option.map_eq_some_iff] at ha
    obtain ⟨r, hr, rfl⟩ := ha
    rcases List.mem_cons.1 hc with rfl | hc
    · exact .inr rfl
    · exact .inl (Ptb.mem_after hr hc)
  | tueba =>
    refine ⟨fun c h => (Ptb.mem_before (Ptb.mem_before h).1).1, fun e he c hc => ?_, fun a ha c hc => .inl ?_⟩
    · simp only [readTag, Option.filter_eq_some_iff, Option.map_eq_some_iff] at he
      obtain ⟨⟨r, hr, rfl⟩, _⟩ := he
      exact Ptb.mem_after hr (Ptb.mem_before hc).1
    · simp only [readTag, Option.map_eq_some_iff] at ha
      obtain ⟨r, hr, rfl⟩ := ha
      exact (Ptb.mem_before (Ptb.mem_after hr (Ptb.mem_before hc).1)).1

theorem forest_texts {f : Ptb.Format} {s : Str} {b : Brackets} (h : Reads s b) :
    ∀ k, (b.forest f k).Texts (fun s => ')' ∉ s) := by
  have tag : ∀ {s : Str}, Word s → ')' ∉ (readTag f s).1 ∧ (∀ e, (readTag f s).2.1 = some e → ')' ∉ e) ∧
      ∀ a, (readTag f s).2.2 = some a → ')' ∉ a := by
    intro s hs
    have hc := word_close hs
    refine ⟨fun h => hc (readTag_sub.1 _ h), fun e he h => hc (readTag_sub.2.1 e he _ h), fun a ha h => ?_⟩
    rcases readTag_sub.2.2 a ha _ h with h | h
    · exact hc h
    · exact absurd h (by decide)
  induction h with
  | nil => intro k; trivial
  | leaf _ _ ht _ _ _ _ _ ih => intro k; exact ⟨(tag ht).2.1, ih _⟩
  | node _ _ ht _ _ _ ih1 ih2 =>
    intro k
    exact ⟨(tag ht).2.1, (tag ht).1, by rw [Ptb.annotationOf_annotated]; exact (tag ht).2.2, ih1 _, ih2 _⟩

theorem count_free {s : Str} {c : Char} (h : c ∉ s) : s.count c = 0 := List.count_eq_zero.2 h

theorem space_open {s : Str} (h : Space s) : '(' ∉ s := by
  intro hc
  rcases h _ hc with h | h | h <;> exact absurd h (by decide)

theorem word_open {s : Str} (h : Word s) : '(' ∉ s := fun hc => (h.2 _ hc).2.2.2.1 rfl

/-- With two opening brackets there is a phrase. -/
theorem reads_node {s : Str} {b : Brackets} (h : Reads s b) (hb : b.Single) (hc : 2 ≤ s.count '(') :
    ∃ tag k, b = .node tag k .nil := by
  cases h with
  | nil => exact absurd hb (by simp [Brackets.Single])
  | leaf ha hb1 ht hc1 _ hw hd hr =>
    exfalso
    simp only [Brackets.Single] at hb
    subst hb
    cases hr with
    | nil he =>
      simp only [List.count_append, List.count_cons, count_free (space_open ha), count_free (space_open hb1),
        count_free (word_open ht), count_free (space_open hc1), count_free (word_open hw), count_free (space_open hd),
        count_free (space_open he)] at hc
      revert hc; decide
  | node => simp only [Brackets.Single] at hb; subst hb; exact ⟨_, _, rfl⟩

/-- Words of a tree that has been read are not changed in the output. -/
theorem word_escape {w : Str} (h : Word w) : Word (escape w) ∧ escape w = w := by
  rw [Ptb.escape_word h]; exact ⟨h, rfl⟩

/-- What is left of a word without white space has none. -/
theorem escape_solid {w : Str} (h1 : w ≠ []) (h2 : ∀ c ∈ w, c ≠ ' ' ∧ c ≠ '\n' ∧ c ≠ '\r') : Word (escape w) := by
  constructor
  · cases w with
    | nil => exact absurd rfl h1
    | cons c w =>
      simp only [escape, List.flatMap_cons]
      split
      · simp
      · split <;> simp
  · intro c hc
    unfold escape at hc
    rw [List.mem_flatMap] at hc
    obtain ⟨d, hd, hc⟩ := hc
    split at hc
    · revert hc; revert c; decide
    · split at hc
      · revert hc; revert c; decide
      · simp only [List.mem_singleton] at hc
        subst hc
        exact ⟨(h2 c hd).1, (h2 c hd).2.1, (h2 c hd).2.2, by assumption, by assumption⟩

/-- A tree read from a bracketing. -/
theorem parsed {f : Ptb.Format} {s : Str} {t : Tree} (h : Ptb.stringToTree f s = .ok (.ok t)) :
    ∃ ts, t.Terminals ts ∧ ts.map (·.form) = wordsIn s ∧ t.nTerminals = (wordsIn s).length ∧
      (∀ x ∈ ts, Word x.form) ∧ t.Texts (fun s => ')' ∉ s) ∧ (2 ≤ s.count '(' → t.IsNt t.root) := by
  by_cases hb : ∃ b : Brackets, b.Single ∧ Reads s b
  · obtain ⟨b, hb, hr⟩ := hb
    obtain ⟨t1, h1, W, hp, hF⟩ := Ptb.stringToTree_ok (f := f) hr hb
    rw [h] at h1; cases h1
    have hw : (((b.forest f 0).setTop none).leaves).map (·.form) = wordsIn s := by
      rw [Ptb.setTop_leaves, (Ptb.forest_leaves (f := f) (k := 0)).1, wordsIn_reads hr]
    have hT := Tree.terminals_leaves W hp hF
    refine ⟨_, hT, hw, ?_, ?_, Tree.Is.texts W hF (forest_texts hr 0).setTop, ?_⟩
    · rw [← hT.1, ← hw, List.length_map]
    · intro x hx
      have : x.form ∈ b.words := by
        rw [← wordsIn_reads hr, ← hw]; exact List.mem_map.2 ⟨x, hx, rfl⟩
      have key : ∀ {b : Brackets}, Ptb.Wordy b → ∀ w ∈ b.words, Word w := by
        intro b
        induction b with
        | nil => intro _ w hw; simp [Brackets.words] at hw
        | leaf tag v r ih =>
          intro h w hw
          rcases List.mem_cons.1 hw with rfl | hw
          · exact h.2.1
          · exact ih h.2.2 w hw
        | node tag k r ihk ih =>
          intro h w hw
          rcases List.mem_append.1 hw with hw | hw
          · exact ihk h.2.2.1 w hw
          · exact ih h.2.2.2 w hw
      exact key (Ptb.reads_wordy hr) _ this
    · intro hc
      obtain ⟨tag, k, rfl⟩ := reads_node hr hb hc
      obtain ⟨n, ns, ks, e, h4, _⟩ := hF
      simp only [List.cons.injEq] at e
      rw [e.1]
      exact ⟨_, h4⟩
  · rw [Ptb.stringToTree_err hb] at h; cases h

end Bracketed
end Lumberjack
