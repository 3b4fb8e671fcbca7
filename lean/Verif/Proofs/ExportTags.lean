import Verif.Proofs.ExportAll
import Verif.Proofs.RewriteTags

/-!
# The NEGRA text does not tell missing features from empty ones
-/

namespace Lumberjack
namespace Forest

variable {F G : Forest}

theorem featOf_getD {fs gs : Option Features} (h : gs.getD Features.empty = fs.getD Features.empty) (k : Str) :
    Negra.featOf gs k = Negra.featOf fs k := by
  have : ∀ fs : Option Features, Negra.featOf fs k = Negra.featOf (some (fs.getD Features.empty)) k := by
    intro fs; cases fs <;> rfl
  rw [this gs, this fs, h]

theorem Like.lastLow (h : Like F G) : G.lastLow = F.lastLow := by
  induction h with
  | nil => rfl
  | leaf e x _ ih => simpa [Forest.lastLow] using ih
  | node e h1 h2 h3 _ _ ih1 ih2 => simp only [Forest.lastLow, ih1, ih2, h2]

theorem Like.lowOf {x y : NonTerminal} (h : Like F G) (hs : y.span = x.span) : lowOf y G = lowOf x F := by
  unfold Forest.lowOf; rw [h.lastLow, hs]

theorem Like.marks (h : Like F G) : ∀ d, G.marks d = F.marks d := by
  induction h with
  | nil => exact fun _ => rfl
  | leaf e x _ ih => exact fun d => ih d
  | node e h1 h2 h3 hk _ ih1 ih2 => intro d; simp only [Forest.marks, ih1, ih2, hk.lowOf h2]

theorem Like.numberOf (h : Like F G) : G.numberOf = F.numberOf := by
  funext m; unfold Forest.numberOf; rw [h.marks]

theorem Like.wordRows (h : Like F G) (num : Nat × Nat → Nat) : ∀ p d, G.wordRows num p d = F.wordRows num p d := by
  induction h with
  | nil => exact fun _ _ => rfl
  | leaf e x _ ih => intro p d; simp only [Forest.wordRows, ih]
  | node e h1 h2 h3 hk _ ih1 ih2 => intro p d; simp only [Forest.wordRows, ih1, ih2, hk.lowOf h2]

theorem Like.phraseRows (h : Like F G) (num : Nat × Nat → Nat) : ∀ p d, G.phraseRows num p d = F.phraseRows num p d := by
  induction h with
  | nil => exact fun _ _ => rfl
  | leaf e x _ ih => intro p d; simp only [Forest.phraseRows, ih]
  | node e h1 h2 h3 hk _ ih1 ih2 => intro p d; simp only [Forest.phraseRows, ih1, ih2, hk.lowOf h2, h1, featOf_getD h3]

theorem Like.belowTop (h : Like F G) : Like F.belowTop G.belowTop := by
  cases h with
  | nil => exact .nil
  | leaf e x h => exact .nil
  | node e h1 h2 h3 hk _ => exact hk

theorem Like.topFeatures (h : Like F G) (k : Str) : Negra.featOf G.topFeatures k = Negra.featOf F.topFeatures k := by
  cases h with
  | nil => rfl
  | leaf e x h => rfl
  | node e h1 h2 h3 hk _ => exact featOf_getD h3 k

theorem Like.exportText (h : Like F G) (c : Nat) : G.exportText c = F.exportText c := by
  unfold Forest.exportText Forest.wordsInOrder Forest.phrasesInOrder
  simp only [h.topFeatures, h.numberOf, h.belowTop.wordRows, h.belowTop.phraseRows]

theorem Like.exportNext (h : Like F G) (c : Nat) : G.exportNext c = F.exportNext c := by
  unfold Forest.exportNext; rw [h.topFeatures]

theorem exportTexts_like {Fs Gs : List Forest} (h : List.Forall₂ Like Fs Gs) : ∀ c, exportTexts c Gs = exportTexts c Fs := by
  induction h with
  | nil => exact fun _ => rfl
  | cons h _ ih => intro c; rw [exportTexts, exportTexts, h.exportText, h.exportNext, ih]

theorem Like.firstStart (h : Like F G) : G.firstStart = F.firstStart := by
  cases h with
  | nil => rfl
  | leaf e x h => rfl
  | node e h1 h2 h3 hk _ => simp only [Forest.firstStart, h2]

theorem Like.insertTree {A B : Forest} (hA : Like A B) (h : Like F G) : Like (insertTree A F) (insertTree B G) := by
  induction h with
  | nil => exact hA
  | leaf e x h ih =>
    simp only [Forest.insertTree, hA.firstStart]
    split
    · exact hA.append (.leaf e x h)
    · exact .leaf e x ih
  | node e h1 h2 h3 hk hr _ ih =>
    simp only [Forest.insertTree, hA.firstStart, h2]
    split
    · exact hA.append (.node e h1 h2 h3 hk hr)
    · exact .node e h1 h2 h3 hk ih

theorem Like.inOrder (h : Like F G) : Like F.inOrder G.inOrder := by
  induction h with
  | nil => exact .nil
  | leaf e x _ ih => exact Like.insertTree (.leaf e x .nil) ih
  | node e h1 h2 h3 _ _ ih1 ih2 => exact Like.insertTree (.node e h1 h2 h3 ih1 .nil) ih2

theorem Like.bundleRuns (h : Like F G) (l : Str) : ∀ {run run'}, Like run run' → Like (bundleRuns l run F) (bundleRuns l run' G) := by
  induction h with
  | nil => exact fun h => h.close .nil l
  | leaf e x _ ih =>
    intro run run' h
    simp only [Forest.bundleRuns, h.nil_iff, h.runSpan]
    split
    · exact ih (.leaf e x .nil)
    · split
      · exact ih (h.append (.leaf none x .nil))
      · exact h.close (ih (.leaf e x .nil)) l
  | node e h1 h2 h3 h4 _ _ ih2 =>
    intro run run' h
    exact h.close (.node e h1 h2 h3 h4 (ih2 .nil)) l

theorem Like.groupedRuns (h : Like F G) {P : NonTerminal → Bool} (hP : ∀ x y : NonTerminal, x.label = y.label → P x = P y) (l : Str) :
    Like (F.groupedRuns P l) (G.groupedRuns P l) := by
  induction h with
  | nil => exact .nil
  | leaf e x _ ih => exact .leaf e x ih
  | @node e x y k k' r r' h1 h2 h3 h4 _ ih1 ih2 =>
    simp only [Forest.groupedRuns, hP y x h1]
    refine .node e h1 h2 h3 ?_ ih2
    split
    · exact ih1.bundleRuns l .nil
    · exact ih1

theorem Like.owners (h : Like F G) {P : NonTerminal → Bool} (hP : ∀ x y : NonTerminal, x.label = y.label → P x = P y) :
    ∀ own next, G.owners P own next = F.owners P own next := by
  induction h with
  | nil => exact fun _ _ => rfl
  | leaf e x _ ih => intro own next; simp only [Forest.owners, ih]
  | @node e x y k k' r r' h1 h2 h3 h4 _ ih1 ih2 =>
    intro own next
    simp only [Forest.owners, hP y x h1, ih1, ih2]

theorem Like.prunedBy (h : Like F G) (P : Terminal → Bool) : Like (F.prunedBy P) (G.prunedBy P) := by
  induction h with
  | nil => exact .nil
  | leaf e x _ ih =>
    simp only [Forest.prunedBy]
    split
    · exact ih
    · exact .leaf e x ih
  | node e h1 h2 h3 _ _ ih1 ih2 =>
    simp only [Forest.prunedBy, ih1.nil_iff]
    split
    · exact ih2
    · exact .node e h1 (by simp only [ih1.leaves]) h3 ih1 ih2

theorem Like.gatheredBy (h : Like F G) (P : Terminal → Bool) : Like (F.gatheredBy P) (G.gatheredBy P) := by
  cases h with
  | nil => exact .nil
  | leaf e x h => exact .leaf e x h
  | node e h1 h2 h3 hk hr =>
    refine Like.inOrder (.node e h1 h2 h3 ?_ hr)
    rw [hk.leaves]
    generalize List.filter P _ = l
    induction l with
    | nil => exact hk.prunedBy P
    | cons x l ih => exact .leaf none x ih

theorem Like.editedBy (h : Like F G) (o : Convert.Options) (tags : Option (List Str)) :
    Like (F.editedBy o tags) (G.editedBy o tags) := by
  have lab : ∀ (s : LabelSet) (x y : NonTerminal), x.label = y.label → s.matches x.label = s.matches y.label :=
    fun s x y h => by rw [h]
  have h1 : Like (if o.removeDummies then F.undummied.inOrder else F) (if o.removeDummies then G.undummied.inOrder else G) := by
    split
    · exact h.undummied.inOrder
    · exact h
  have step : ∀ {α : Type} (a : Option α) (f : α → Forest → Forest) {F G : Forest}, Like F G →
      (∀ v {F G : Forest}, Like F G → Like (f v F) (f v G)) → Like (given a f F) (given a f G) := by
    intro α a f F G h hf
    cases a with
    | none => exact h
    | some v => exact hf v h
  have h2 := step tags retagged h1 fun v _ _ h => h.mapLeaves _
  have h2' := step o.reattachLabel (fun p => Forest.gatheredBy fun x => decide (p <+: x.pos)) h2 fun p _ _ h => h.gatheredBy _
  have h3 := step o.idSet (fun s => numberedBy o.idFeatureName fun x => s.matches x.label) h2' fun s F G h => by
    simp only [Forest.numberedBy, h.owners (lab s)]
    exact h.mapLeaves _
  have h4 := step o.filterSet (fun s F => (Forest.filtered (fun x => !s.matches x.label) F).inOrder) h3 fun s F G h =>
    (h.filtered fun x y e => by rw [lab s x y e]).inOrder
  have h5 := step o.insertionSet (fun s => Forest.groupedRuns (fun x => !s.matches x.label) o.insertionLabel) h4 fun s F G h =>
    h.groupedRuns (fun x y e => by rw [lab s x y e]) _
  exact step o.parentFeature parented h5 fun name F G h => h.projected name (fun _ _ _ => rfl) none

theorem Like.solid (h : Like F G) : G.Solid ↔ F.Solid := by
  induction h with
  | nil => rfl
  | leaf e x _ ih => exact ih
  | node e h1 h2 h3 _ _ ih1 ih2 => simp only [Forest.Solid, h2, ih1, ih2]

theorem Like.outputBy (h : Like F G) (out : Convert.OutFormat) : G.outputBy out = F.outputBy out := by
  cases out <;> simp only [Forest.outputBy, h.output, h.leaves]

end Forest
end Lumberjack
