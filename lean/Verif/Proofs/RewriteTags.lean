import Verif.Proofs.RewritePipeline
import Verif.Spec.ConllxRead

/-!
# Missing and empty features of inner nodes are written the same
-/

namespace Lumberjack
namespace Forest

/-- Equal apart from missing and empty features of inner nodes. -/
inductive Like : Forest → Forest → Prop
  | nil : Like nil nil
  | leaf (e x) {r r'} : Like r r' → Like (leaf e x r) (leaf e x r')
  | node (e) {x y : NonTerminal} {k k' r r'} : y.label = x.label → y.span = x.span →
      y.features.getD Features.empty = x.features.getD Features.empty → Like k k' → Like r r' →
      Like (node e x k r) (node e y k' r')

theorem Like.refl : ∀ F : Forest, Like F F
  | .nil => .nil
  | .leaf e x r => .leaf e x (Like.refl r)
  | .node e _ k r => .node e rfl rfl rfl (Like.refl k) (Like.refl r)

variable {F G F' G' : Forest}

theorem Like.leaves (h : Like F G) : G.leaves = F.leaves := by
  induction h with
  | nil => rfl
  | leaf e x _ ih => simp [Forest.leaves, ih]
  | node e _ _ _ _ _ ih1 ih2 => simp [Forest.leaves, ih1, ih2]

theorem Like.width (h : Like F G) : G.width = F.width := by
  induction h with
  | nil => rfl
  | leaf e x _ ih => simp [Forest.width, ih]
  | node e _ _ _ _ _ ih1 ih2 => simp [Forest.width, ih2]

theorem Like.nil_iff (h : Like F G) : G = .nil ↔ F = .nil := by cases h <;> simp

theorem Like.append (h : Like F G) (h' : Like F' G') : Like (F.append F') (G.append G') := by
  induction h with
  | nil => exact h'
  | leaf e x _ ih => exact .leaf e x ih
  | node e h1 h2 h3 h4 _ _ ih2 => exact .node e h1 h2 h3 h4 ih2

theorem Like.unlabelled (h : Like F G) : Like F.unlabelled G.unlabelled := by
  induction h with
  | nil => exact .nil
  | leaf e x _ ih => exact .leaf none x ih
  | node e h1 h2 h3 h4 _ _ ih2 => exact .node none h1 h2 h3 h4 ih2

theorem Like.without (h : Like F G) {P : NonTerminal → Bool} (hP : ∀ x y : NonTerminal, x.label = y.label → P x = P y) :
    Like (F.without P) (G.without P) := by
  induction h with
  | nil => exact .nil
  | leaf e x _ ih => exact .leaf e x ih
  | @node e x y k k' r r' h1 h2 h3 h4 _ ih1 ih2 =>
    simp only [Forest.without, hP y x h1]
    split
    · exact ih1.unlabelled.append ih2
    · exact .node e h1 h2 h3 ih1 ih2

theorem Like.filtered (h : Like F G) {P : NonTerminal → Bool} (hP : ∀ x y : NonTerminal, x.label = y.label → P x = P y) :
    Like (F.filtered P) (G.filtered P) := by
  induction h with
  | nil => exact .nil
  | leaf e x _ ih => exact .leaf e x ih
  | node e h1 h2 h3 h4 _ _ ih2 => exact .node e h1 h2 h3 (h4.without hP) ih2

theorem dummy_label (x y : NonTerminal) (h : x.label = y.label) : dummyNode x = dummyNode y := by
  unfold dummyNode; rw [h]

theorem Like.undummied (h : Like F G) : Like F.undummied G.undummied := by
  cases h with
  | nil => exact .nil
  | leaf e x h => exact .leaf e x h
  | @node e x y k k' r r' h1 h2 h3 h4 h5 =>
    cases h5 with
    | leaf => exact .node e h1 h2 h3 h4 (.leaf _ _ ‹_›)
    | node => exact .node e h1 h2 h3 h4 (.node _ ‹_› ‹_› ‹_› ‹_› ‹_›)
    | nil =>
      have hw := h4.without dummy_label
      simp only [Forest.undummied, dummy_label y x h1, hw.width]
      split
      · exact hw.unlabelled
      · exact .node e h1 h2 h3 hw .nil

theorem Like.mapLeaves (h : Like F G) (f : Terminal → Terminal) : Like (F.mapLeaves f) (G.mapLeaves f) := by
  induction h with
  | nil => exact .nil
  | leaf e x _ ih => exact .leaf e _ ih
  | node e h1 h2 h3 h4 _ ih1 ih2 => exact .node e h1 h2 h3 ih1 ih2

theorem Like.projected (h : Like F G) (name : Str) {P : NonTerminal → Bool} (hP : ∀ x y : NonTerminal, x.label = y.label → P x = P y) :
    ∀ above, Like (F.projected name P above) (G.projected name P above) := by
  induction h with
  | nil => exact fun _ => .nil
  | leaf e x _ ih => exact fun above => .leaf e _ (ih above)
  | @node e x y k k' r r' h1 h2 h3 h4 _ ih1 ih2 =>
    intro above
    simp only [Forest.projected, hP y x h1, h1]
    exact .node e h1 h2 h3 (ih1 _) (ih2 _)

theorem Like.numbers (h : Like F G) {P : NonTerminal → Bool} (hP : ∀ x y : NonTerminal, x.label = y.label → P x = P y) :
    ∀ cur next, G.numbers P cur next = F.numbers P cur next := by
  induction h with
  | nil => exact fun _ _ => rfl
  | leaf e x _ ih => intro cur next; cases cur <;> simp only [Forest.numbers, ih]
  | @node e x y k k' r r' h1 h2 h3 h4 _ ih1 ih2 =>
    intro cur next
    simp only [Forest.numbers, hP y x h1, ih1, ih2]

theorem Like.runSpan (h : Like F G) : G.runSpan = F.runSpan := by unfold Forest.runSpan; rw [h.leaves]

theorem Like.close (h : Like F G) (h' : Like F' G') (l : Str) : Like (close l F F') (close l G G') := by
  have hs := h.runSpan
  cases h with
  | nil => exact h'
  | leaf e x h => simp only [Forest.close, hs]; exact .node none rfl rfl rfl (.leaf e x h) h'
  | node e h1 h2 h3 h4 h5 => simp only [Forest.close, hs]; exact .node none rfl rfl rfl (.node e h1 h2 h3 h4 h5) h'

theorem Like.bundleFrom (h : Like F G) (l : Str) : ∀ {run run'}, Like run run' → Like (bundleFrom l run F) (bundleFrom l run' G) := by
  induction h with
  | nil => exact fun h => h.close .nil l
  | leaf e x _ ih =>
    intro run run' h
    simp only [Forest.bundleFrom, h.nil_iff]
    exact ih (h.append (.leaf _ x .nil))
  | node e h1 h2 h3 h4 _ _ ih2 =>
    intro run run' h
    exact h.close (.node e h1 h2 h3 h4 (ih2 .nil)) l

theorem Like.grouped (h : Like F G) {P : NonTerminal → Bool} (hP : ∀ x y : NonTerminal, x.label = y.label → P x = P y) (l : Str) :
    Like (F.grouped P l) (G.grouped P l) := by
  induction h with
  | nil => exact .nil
  | leaf e x _ ih => exact .leaf e x ih
  | @node e x y k k' r r' h1 h2 h3 h4 _ ih1 ih2 =>
    simp only [Forest.grouped, hP y x h1]
    refine .node e h1 h2 h3 ?_ ih2
    split
    · exact ih1.bundleFrom l .nil
    · exact ih1

theorem Like.edited (h : Like F G) (o : Convert.Options) (tags : Option (List Str)) : Like (F.edited o tags) (G.edited o tags) := by
  have lab : ∀ (s : LabelSet) (x y : NonTerminal), x.label = y.label → s.matches x.label = s.matches y.label :=
    fun s x y h => by rw [h]
  have h1 : Like (if o.removeDummies then F.undummied else F) (if o.removeDummies then G.undummied else G) := by
    split
    · exact h.undummied
    · exact h
  have step : ∀ {α : Type} (a : Option α) (f : α → Forest → Forest) {F G : Forest}, Like F G →
      (∀ v {F G : Forest}, Like F G → Like (f v F) (f v G)) → Like (given a f F) (given a f G) := by
    intro α a f F G h hf
    cases a with
    | none => exact h
    | some v => exact hf v h
  have h2 := step tags retagged h1 fun v _ _ h => h.mapLeaves _
  have h3 := step o.idSet (fun s => numbered o.idFeatureName fun x => s.matches x.label) h2 fun s F G h => by
    simp only [Forest.numbered, h.numbers (lab s)]
    exact h.mapLeaves _
  have h4 := step o.filterSet (fun s => Forest.filtered fun x => !s.matches x.label) h3 fun s F G h =>
    h.filtered fun x y e => by rw [lab s x y e]
  have h5 := step o.insertionSet (fun s => Forest.grouped (fun x => !s.matches x.label) o.insertionLabel) h4 fun s F G h =>
    h.grouped (fun x y e => by rw [lab s x y e]) _
  exact step o.parentFeature parented h5 fun name F G h => h.projected name (fun _ _ _ => rfl) none

theorem Like.brackets (h : Like F G) (f : Ptb.Format) : G.brackets f = F.brackets f := by
  have ann : ∀ fs : Option Features, Bracketed.annotationOf fs = Bracketed.annotationOf (some (fs.getD Features.empty)) := by
    intro fs; cases fs <;> rfl
  induction h with
  | nil => rfl
  | leaf e x _ ih => simp only [Forest.brackets, ih]
  | node e h1 h2 h3 _ _ ih1 ih2 =>
    simp only [Forest.brackets, h1, ih1, ih2]
    rw [ann, h3, ← ann]

theorem Like.encoding (h : Like F G) : ∀ d lab last, G.encoding d lab last = F.encoding d lab last := by
  induction h with
  | nil => exact fun _ _ _ => rfl
  | leaf e x h ih => intro d lab last; simp only [Forest.encoding, ih, h.nil_iff]
  | @node e x y k k' r r' h1 h2 h3 h4 h5 ih1 ih2 =>
    intro d lab last
    have hl : y.fullLabel = x.fullLabel := by
      unfold NonTerminal.fullLabel
      rw [h1, h3]
    simp only [Forest.encoding, ih1, ih2, h5.nil_iff, hl]

theorem addChain_getD (d l : Str) {fs gs : Option Features} (h : gs.getD Features.empty = fs.getD Features.empty) :
    addChain d l gs = addChain d l fs := by
  unfold addChain
  rw [h]

theorem Like.collapse (h : Like F G) (d : Str) : Like (F.collapse d) (G.collapse d) := by
  induction h with
  | nil => exact .nil
  | leaf e x _ ih => exact .leaf e x ih
  | @node e x y k k' r r' h1 h2 h3 h4 _ ih1 ih2 =>
    simp only [Forest.collapse]
    generalize k.collapse d = K at ih1
    generalize k'.collapse d = K' at ih1
    cases ih1 with
    | nil => exact .node e h1 h2 h3 .nil ih2
    | leaf e1 x1 h =>
      cases h with
      | nil => simp only [h1]; exact .leaf none _ ih2
      | leaf e2 x2 h => exact .node e h1 h2 h3 (.leaf e1 x1 (.leaf e2 x2 h)) ih2
      | node e2 a1 a2 a3 a4 a5 => exact .node e h1 h2 h3 (.leaf e1 x1 (.node e2 a1 a2 a3 a4 a5)) ih2
    | node e1 b1 b2 b3 b4 h =>
      cases h with
      | nil => simp only [h1]; exact .node none b1 b2 (by rw [addChain_getD d _ b3]) b4 ih2
      | leaf e2 x2 h => exact .node e h1 h2 h3 (.node e1 b1 b2 b3 b4 (.leaf e2 x2 h)) ih2
      | node e2 a1 a2 a3 a4 a5 => exact .node e h1 h2 h3 (.node e1 b1 b2 b3 b4 (.node e2 a1 a2 a3 a4 a5)) ih2

theorem Like.output (h : Like F G) (out : Convert.OutFormat) : G.output out = F.output out := by
  have hc := h.collapse ['_']
  cases out <;> simp only [Forest.output, tokens, absTokens, relTokens, line, h.leaves, h.brackets, hc.encoding, (hc.mapLeaves _).leaves]

/-- The forest with present features. -/
theorem like_of_norm : ∀ {f g : Forest}, f.norm = g.norm → (∀ x ∈ f.leaves, x.features.isSome) → Like f g.norm := by
  intro f
  induction f with
  | nil => intro g h _; cases g <;> simp [norm] at h ⊢; exact .nil
  | leaf e x r ih =>
    intro g h hs
    cases g with
    | nil => cases h
    | node => cases h
    | leaf e' y r' =>
      simp only [norm, Forest.leaf.injEq] at h ⊢
      obtain ⟨rfl, h2, h3⟩ := h
      rw [← h2]
      have hx := hs x (by simp [Forest.leaves])
      have : ({ x with features := some (x.features.getD Features.empty) } : Terminal) = x := by
        obtain ⟨a, b, c, fs, d⟩ := x
        cases fs with
        | none => cases hx
        | some fs => rfl
      rw [this]
      exact .leaf e x (ih h3 fun y hy => hs y (by simp [Forest.leaves, hy]))
  | node e x k r ih1 ih2 =>
    intro g h hs
    cases g with
    | nil => cases h
    | leaf => cases h
    | node e' y k' r' =>
      simp only [norm, Forest.node.injEq] at h ⊢
      obtain ⟨rfl, h2, h3, h4⟩ := h
      rw [← h2]
      exact .node e rfl rfl rfl (ih1 h3 fun y hy => hs y (by simp [Forest.leaves, hy]))
        (ih2 h4 fun y hy => hs y (by simp [Forest.leaves, hy]))

end Forest

/-- A decoded tree up to missing and empty features of inner nodes. -/
theorem decoded_like {e : AbsEncoding} {toks : List Conllx.Token} {t : Tree} (D : Conllx.Decoded e toks t) :
    ∃ f, t.Is f ∧ Forest.Like f (Forest.ofTags e toks) := by
  obtain ⟨f, hf, hn⟩ := D.shape
  refine ⟨f, hf, Forest.like_of_norm hn fun x hx => ?_⟩
  obtain ⟨n, h⟩ := Tree.mem_leaf hf x hx
  obtain ⟨i, _, hi⟩ := D.wf.sentence.pos n ⟨x, h⟩
  obtain ⟨y, hy, hyi⟩ := hi
  rw [h] at hy; cases hy
  obtain ⟨tok, _, _, _, _, h6⟩ := D.words n x i h hyi
  rw [h6]; rfl

end Lumberjack
