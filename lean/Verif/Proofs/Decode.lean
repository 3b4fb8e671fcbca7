import Verif.Spec.Decode
import Verif.Proofs.Seq
import Verif.Proofs.Chains

/-!
# The stack machine for decoding
-/

namespace Lumberjack
namespace Decoding

/-! ## Basic facts -/

@[simp] theorem length_app (F : Forest) (Z : Stack) : (app F Z).length = Z.length := by
  rcases Z with _ | ⟨⟨x, d⟩, Z⟩ <;> rfl

@[simp] theorem length_rel (l : Str) (Z : Stack) : (rel l Z).length = Z.length := by
  rcases Z with _ | ⟨⟨x, d⟩, Z⟩ <;> rfl

@[simp] theorem length_push (k : Nat) : ∀ Z : Stack, (push k Z).length = Z.length + k := by
  induction k with
  | zero => intro Z; rfl
  | succ k ih => intro Z; rw [push, ih]; simp; omega

theorem length_pop (k : Nat) : ∀ Z : Stack, k < Z.length → (pop k Z).length = Z.length - k := by
  induction k with
  | zero => intro Z _; rfl
  | succ k ih =>
    intro Z hk
    rcases Z with _ | ⟨⟨x, d⟩, _ | ⟨⟨y, e⟩, Z⟩⟩
    · simp at hk
    · simp at hk
    · rw [pop, ih _ (by simp at hk ⊢; omega)]; simp

theorem length_popTo {n : Nat} {Z : Stack} (h1 : 1 ≤ n) (h2 : n ≤ Z.length) : (popTo n Z).length = n := by
  unfold popTo
  rw [length_pop _ _ (by omega)]; omega

theorem length_pushTo {n : Nat} {Z : Stack} (h2 : Z.length ≤ n) : (pushTo n Z).length = n := by
  unfold pushTo
  rw [length_push]; omega

theorem pushTo_le {n : Nat} {Z : Stack} (h : n ≤ Z.length) : pushTo n Z = Z := by
  unfold pushTo; rw [Nat.sub_eq_zero_of_le h]; rfl

theorem popTo_ge {n : Nat} {Z : Stack} (h : Z.length ≤ n) : popTo n Z = Z := by
  unfold popTo; rw [Nat.sub_eq_zero_of_le h]; cases Z <;> rfl

theorem app_app (F G : Forest) (Z : Stack) : app G (app F Z) = app (F.append G) Z := by
  rcases Z with _ | ⟨⟨x, d⟩, Z⟩
  · rfl
  · simp [app, Forest.append_assoc]

theorem app_rel (F : Forest) (l : Str) (Z : Stack) : app F (rel l Z) = rel l (app F Z) := by
  rcases Z with _ | ⟨⟨x, d⟩, Z⟩ <;> rfl

theorem insertEntry_idem (k : Str) (v : Option Str) (l : List (Str × Option Str)) :
    Features.insertEntry k v (Features.insertEntry k v l) = Features.insertEntry k v l := by
  induction l with
  | nil => simp [Features.insertEntry]
  | cons p l ih =>
    obtain ⟨k', v'⟩ := p
    by_cases h1 : k = k'
    · simp [Features.insertEntry, h1]
    · by_cases h2 : k < k'
      · simp [Features.insertEntry, h1, h2]
      · simp [Features.insertEntry, h1, h2, ih]

theorem relabel_idem (l : Str) (x : NonTerminal) : relabel l (relabel l x) = relabel l x := by
  unfold relabel
  cases h : rsplitOnce '_' l with
  | none => rfl
  | some p => simp [Features.insert, insertEntry_idem]

theorem rel_rel (l : Str) (Z : Stack) : rel l (rel l Z) = rel l Z := by
  rcases Z with _ | ⟨⟨x, d⟩, Z⟩
  · rfl
  · simp [rel, relabel_idem]

theorem pop_app_node {k : Nat} {x : NonTerminal} {d : Forest} {Z : Stack} (hZ : Z ≠ []) :
    pop (k + 1) ((x, d) :: Z) = pop k (app (.node none x d .nil) Z) := by
  rcases Z with _ | ⟨⟨y, e⟩, Z⟩
  · exact absurd rfl hZ
  · rfl

theorem popTo_app_node {m : Nat} {x : NonTerminal} {d : Forest} {Z : Stack} (hZ : Z ≠ []) (hm : m ≤ Z.length) :
    popTo m ((x, d) :: Z) = popTo m (app (.node none x d .nil) Z) := by
  unfold popTo
  rw [length_app, List.length_cons, Nat.succ_sub hm, pop_app_node hZ]

theorem pop_pop (k : Nat) : ∀ {m : Nat} {Z : Stack}, pop m (pop k Z) = pop (k + m) Z := by
  induction k with
  | zero => intro m Z; simp [pop]
  | succ k ih =>
    intro m Z
    rw [Nat.succ_add]
    rcases Z with _ | ⟨⟨x, d⟩, _ | ⟨⟨y, e⟩, Z⟩⟩
    · rw [pop, pop]; cases m <;> rfl
    · rw [pop, pop]; cases m <;> rfl
    · rw [pop, pop, ih]

theorem run_append (l l' : List ((Option AbsAncestor × Option Str) × Terminal)) : ∀ Z,
    run (l ++ l') Z = run l' (run l Z) := by
  induction l with
  | nil => intro Z; rfl
  | cons a l ih => obtain ⟨⟨e, c⟩, x⟩ := a; intro Z; exact ih _

end Decoding

namespace Forest

theorem Seq.full {f : Forest} : ∀ {k : Nat}, f.Seq k → f.Full := by
  induction f with
  | nil => intro k _; trivial
  | leaf e x r ih => intro k h; exact ih h.2
  | node e x ks r ihk ih => intro k h; exact ⟨h.1, ihk h.2.2.1, ih h.2.2.2⟩

theorem Full.append {f g : Forest} (hf : f.Full) (hg : g.Full) : (f.append g).Full := by
  induction f with
  | nil => exact hg
  | leaf e x r ih => exact ih hf
  | node e x ks r _ ih => exact ⟨hf.1, hf.2.1, ih hf.2.2⟩

/-- The terminals are at the positions from `k`, and inner nodes have children. -/
def Placed : Nat → Forest → Prop
  | _, nil => True
  | k, leaf _ x r => x.span = Span.ofIdx k ∧ r.Placed (k + 1)
  | k, node _ _ ks r => ks ≠ nil ∧ ks.Placed k ∧ r.Placed (k + ks.leaves.length)

theorem Full.placed {f : Forest} : ∀ {k : Nat}, f.Full →
    f.leaves.map (·.span) = (List.range' k f.leaves.length).map Span.ofIdx → f.Placed k := by
  induction f with
  | nil => intro k _ _; trivial
  | leaf e x r ih =>
    intro k h hl
    simp only [leaves, List.map_cons, List.length_cons, List.range'_succ, List.cons.injEq] at hl
    exact ⟨hl.1, ih h hl.2⟩
  | node e x ks r ihk ih =>
    intro k h hl
    simp only [leaves, List.map_append, List.length_append] at hl
    rw [← List.range'_append_1, List.map_append] at hl
    obtain ⟨h1, h2⟩ := List.append_inj hl (by simp)
    exact ⟨h.1, ihk h.2.1 h1, ih h.2.2 h2⟩

/-- The forest as decoding its encoding gives it: edge labels, spans of inner nodes and features other
than the chain are lost. -/
def redecode : Forest → Forest
  | nil => nil
  | leaf _ x r => leaf none (Decoding.chained x.chain x) r.redecode
  | node _ x k r => node none (Decoding.relabel x.fullLabel Decoding.fresh) k.redecode r.redecode

theorem width_ge {f : Forest} (h : f ≠ nil) : 1 ≤ f.width := by
  cases f with
  | nil => exact absurd rfl h
  | leaf => simp [width]
  | node => simp [width]

theorem length_encoding {f : Forest} : ∀ {d : Nat} {lab : Str} {after : Option AbsAncestor},
    (f.encoding d lab after).length = f.leaves.length := by
  induction f with
  | nil => intros; rfl
  | leaf e x r ih => intros; simp [encoding, leaves, ih]
  | node e x k r ihk ih => intros; simp [encoding, leaves, ih, ihk]

theorem encoding_first {f : Forest} (m : Nat) : ∀ {d : Nat} {lab : Str} {after : Option AbsAncestor},
    f.Full → f ≠ nil → m ≤ d → (2 ≤ f.width ∨ ∃ a, after = some a ∧ m ≤ a.common) →
    ∃ a c rest, f.encoding d lab after = (some a, c) :: rest ∧ m ≤ a.common := by
  induction f with
  | nil => intro d lab after _ h; exact absurd rfl h
  | leaf e x r ih =>
    intro d lab after _ _ hm h
    by_cases hr : r = nil
    · subst hr
      rcases h with h | ⟨a, rfl, ha⟩
      · simp [width] at h
      · exact ⟨a, _, _, rfl, ha⟩
    · exact ⟨⟨d, lab⟩, _, _, by rw [encoding, if_neg hr], hm⟩
  | node e x k r ihk ih =>
    intro d lab after hf _ hm h
    obtain ⟨a, c, rest, h1, h2⟩ := ihk (d := d + 1) (lab := x.fullLabel)
      (after := if r = nil then after else some ⟨d, lab⟩) hf.2.1 hf.1 (by omega) (by
        by_cases hr : r = nil
        · subst hr
          rcases h with h | ⟨a, rfl, ha⟩
          · simp [width] at h
          · exact .inr ⟨a, by simp, ha⟩
        · exact .inr ⟨⟨d, lab⟩, by simp [hr], hm⟩)
    exact ⟨a, c, _, by rw [encoding, h1]; rfl, h2⟩

end Forest

namespace Decoding

/-! ## Decoding an encoding -/

/-- How a stack `Z1` after processing a forest compares to the stack `Z2` with the forest attached. -/
def Ends (d : Nat) (after : Option AbsAncestor) (Z1 Z2 : Stack) : Prop :=
  match after with
  | some a => Z1 = rel a.label (popTo a.common Z2)
  | none => ∀ m, 1 ≤ m → m ≤ d → popTo m Z1 = popTo m Z2

theorem run_forest {F : Forest} : ∀ {d : Nat} {lab : Str} {after : Option AbsAncestor} {Z : Stack},
    F.Full → F.NoUnary → F ≠ .nil → Z ≠ [] → Z.length = d → (∀ a, after = some a → 1 ≤ a.common ∧ a.common ≤ d) →
    Ends d after (run ((F.encoding d lab after).zip F.leaves) Z)
      (app F.redecode (if 2 ≤ F.width then rel lab Z else Z)) := by
  induction F with
  | nil => intro d lab after Z _ _ h; exact absurd rfl h
  | leaf e x r ih =>
    intro d lab after Z hf hu _ hZ hd ha
    by_cases hr : r = .nil
    · subst hr
      simp only [Forest.encoding, Forest.leaves, if_true, List.zip_cons_cons, List.zip_nil_right, run,
        Forest.redecode]
      rw [if_neg (by simp [Forest.width])]
      cases after with
      | none => intro m _ _; rfl
      | some a =>
        show step Z (some a) _ = _
        rw [step, pushTo_le (by rw [hd]; exact (ha a rfl).2)]
    · simp only [Forest.encoding, Forest.leaves, if_neg hr, List.zip_cons_cons, run, Forest.redecode]
      have hw := Forest.width_ge hr
      have e1 : step Z (some ⟨d, lab⟩) (chained x.chain x) = rel lab (app (.leaf none (chained x.chain x) .nil) Z) := by
        rw [step, pushTo_le (by simp [hd]), popTo_ge (by simp [hd])]
      rw [if_pos (by simp only [Forest.width]; omega), e1]
      have := ih (d := d) (lab := lab) (after := after) (Z := rel lab (app (.leaf none (chained x.chain x) .nil) Z))
        hf hu hr (by rw [← List.length_pos_iff]; simp; exact List.length_pos_iff.2 hZ) (by simp [hd]) ha
      have e2 : (if 2 ≤ r.width then rel lab (rel lab (app (.leaf none (chained x.chain x) .nil) Z))
          else rel lab (app (.leaf none (chained x.chain x) .nil) Z)) =
          rel lab (app (.leaf none (chained x.chain x) .nil) Z) := by
        split
        · rw [rel_rel]
        · rfl
      rw [e2] at this
      rw [← app_rel, app_app] at this
      rw [← app_rel]
      exact this
  | node e x k r ihk ih =>
    intro d lab after Z hf hu _ hZ hd ha
    have hk2 : 2 ≤ k.width := by
      have := Forest.width_ge hf.1
      have := hu.1
      omega
    -- the part of the children
    have kpart : ∀ aft : Option AbsAncestor, (∀ a, aft = some a → 1 ≤ a.common ∧ a.common ≤ d) →
        Ends d aft (run ((k.encoding (d + 1) x.fullLabel aft).zip k.leaves) Z)
          (app (.node none (relabel x.fullLabel fresh) k.redecode .nil) Z) := by
      intro aft haft
      have h1 := ihk (d := d + 1) (lab := x.fullLabel) (after := aft) (Z := (fresh, .nil) :: Z) hf.2.1 hu.2.1 hf.1
        (by simp) (by simp [hd]) (fun a h => ⟨(haft a h).1, by have := (haft a h).2; omega⟩)
      rw [if_pos hk2] at h1
      have e1 : run ((k.encoding (d + 1) x.fullLabel aft).zip k.leaves) ((fresh, .nil) :: Z) =
          run ((k.encoding (d + 1) x.fullLabel aft).zip k.leaves) Z := by
        obtain ⟨a, c, rest, h2, h3⟩ := Forest.encoding_first (d + 1) (lab := x.fullLabel) (after := aft)
          hf.2.1 hf.1 (Nat.le_refl _) (.inl hk2)
        have hlen := Forest.length_encoding (f := k) (d := d + 1) (lab := x.fullLabel) (after := aft)
        rw [h2] at hlen ⊢
        obtain ⟨y, ys, hy⟩ : ∃ y ys, k.leaves = y :: ys := by
          cases hl : k.leaves with
          | nil => rw [hl] at hlen; simp at hlen
          | cons y ys => exact ⟨y, ys, rfl⟩
        rw [hy]
        simp only [List.zip_cons_cons, run]
        congr 1
        have : pushTo a.common ((fresh, .nil) :: Z) = pushTo a.common Z := by
          unfold pushTo
          obtain ⟨q, hq⟩ : ∃ q, a.common - Z.length = q + 1 := ⟨a.common - Z.length - 1, by omega⟩
          rw [hq, push]
          congr 1
          simp; omega
        simp only [step, this]
      rw [e1] at h1
      have e2 : app k.redecode (rel x.fullLabel ((fresh, .nil) :: Z)) = (relabel x.fullLabel fresh, k.redecode) :: Z := rfl
      rw [e2] at h1
      cases aft with
      | none =>
        intro m m1 m2
        rw [h1 m m1 (by omega), popTo_app_node hZ (by omega)]
      | some a =>
        have := (haft a rfl).2
        show _ = rel a.label (popTo a.common _)
        rw [← popTo_app_node hZ (by omega)]
        exact h1
    simp only [Forest.encoding, Forest.leaves]
    rw [List.zip_append Forest.length_encoding, run_append]
    by_cases hr : r = .nil
    · subst hr
      simp only [if_true, Forest.encoding, List.zip_nil_left, run, Forest.redecode]
      rw [if_neg (by simp [Forest.width])]
      exact kpart after ha
    · simp only [if_neg hr, Forest.redecode]
      have hw := Forest.width_ge hr
      have e1 := kpart (some ⟨d, lab⟩) (fun a h => by
        cases h
        exact ⟨by rw [← hd]; exact List.length_pos_iff.2 hZ, Nat.le_refl _⟩)
      have e1' : _ = rel lab (popTo d _) := e1
      rw [popTo_ge (by simp [hd])] at e1'
      rw [e1', if_pos (by simp only [Forest.width]; omega)]
      have := ih (d := d) (lab := lab) (after := after)
        (Z := rel lab (app (.node none (relabel x.fullLabel fresh) k.redecode .nil) Z))
        hf.2.2 hu.2.2 hr (by rw [← List.length_pos_iff]; simp; exact List.length_pos_iff.2 hZ) (by simp [hd]) ha
      have e2 : (if 2 ≤ r.width then rel lab (rel lab (app (.node none (relabel x.fullLabel fresh) k.redecode .nil) Z))
          else rel lab (app (.node none (relabel x.fullLabel fresh) k.redecode .nil) Z)) =
          rel lab (app (.node none (relabel x.fullLabel fresh) k.redecode .nil) Z) := by
        split
        · rw [rel_rel]
        · rfl
      rw [e2] at this
      rw [← app_rel, app_app] at this
      rw [← app_rel]
      exact this

/-- Decoding the encoding of a tree without unary nodes gives the tree. -/
theorem forest_encoding {F : Forest} (hF : F.width = 1) (hf : F.Full) (hu : F.NoUnary) :
    forest (F.encoding 0 [] none) F.leaves = F.redecode := by
  cases F with
  | nil => simp [Forest.width] at hF
  | leaf e x r =>
    have : r = .nil := by
      by_contra h
      have := Forest.width_ge h
      simp [Forest.width] at hF; omega
    subst this
    rfl
  | node e x k r =>
    have : r = .nil := by
      by_contra h
      have := Forest.width_ge h
      simp [Forest.width] at hF; omega
    subst this
    have hk2 : 2 ≤ k.width := by
      have := Forest.width_ge hf.1
      have := hu.1
      omega
    simp only [Forest.encoding, Forest.leaves, List.append_nil, if_true]
    have h1 := run_forest (d := 1) (lab := x.fullLabel) (after := none) (Z := [(fresh, .nil)]) hf.2.1 hu.2.1 hf.1
      (by simp) rfl (by simp)
    rw [if_pos hk2] at h1
    have h2 := h1 1 (Nat.le_refl _) (Nat.le_refl _)
    rw [popTo_ge (Z := app _ _) (by simp)] at h2
    obtain ⟨a, c, rest, h3, h4⟩ := Forest.encoding_first 1 (lab := x.fullLabel) (after := none)
          hf.2.1 hf.1 (Nat.le_refl _) (.inl hk2)
    rw [h3] at h2 ⊢
    unfold forest
    simp only
    rw [h2]
    rfl

/-! ## Decoding anything -/

/-- The terminals on the stack from left to right. -/
def leaves : Stack → List Terminal
  | [] => []
  | (_, d) :: Z => leaves Z ++ d.leaves

theorem leaves_app (F : Forest) {Z : Stack} (h : Z ≠ []) : leaves (app F Z) = leaves Z ++ F.leaves := by
  rcases Z with _ | ⟨⟨x, d⟩, Z⟩
  · exact absurd rfl h
  · simp [app, leaves, Forest.leaves_append]

theorem leaves_rel (l : Str) (Z : Stack) : leaves (rel l Z) = leaves Z := by
  rcases Z with _ | ⟨⟨x, d⟩, Z⟩ <;> rfl

theorem leaves_push (k : Nat) : ∀ Z : Stack, leaves (push k Z) = leaves Z := by
  induction k with
  | zero => intro Z; rfl
  | succ k ih => intro Z; rw [push, ih]; simp [leaves, Forest.leaves]

theorem leaves_pop (k : Nat) : ∀ Z : Stack, leaves (pop k Z) = leaves Z := by
  induction k with
  | zero => intro Z; rfl
  | succ k ih =>
    intro Z
    rcases Z with _ | ⟨⟨x, d⟩, _ | ⟨⟨y, e⟩, Z⟩⟩
    · rfl
    · rfl
    · rw [pop, ih]; simp [leaves, Forest.leaves, Forest.leaves_append]

theorem length_step {Z : Stack} {e : Option AbsAncestor} (he : ∀ a, e = some a → 1 ≤ a.common)
    (x : Terminal) : (step Z e x).length = (match e with | some a => a.common | none => Z.length) := by
  cases e with
  | none => simp [step]
  | some a =>
    have := he a rfl
    simp only [step, length_rel]
    by_cases hc : Z.length ≤ a.common
    · rw [length_popTo this (by simp [length_pushTo hc])]
    · rw [length_popTo this (by simp [pushTo_le (Nat.le_of_lt (Nat.lt_of_not_le hc))]; omega)]

theorem step_ne {Z : Stack} (h : Z ≠ []) {e : Option AbsAncestor} (he : ∀ a, e = some a → 1 ≤ a.common)
    (x : Terminal) : step Z e x ≠ [] := by
  rw [← List.length_pos_iff, length_step he]
  cases e with
  | none => exact List.length_pos_iff.2 h
  | some a => exact he a rfl

theorem push_ne {k : Nat} {Z : Stack} (h : Z ≠ []) : push k Z ≠ [] := by
  rw [← List.length_pos_iff] at *; rw [length_push]; omega

theorem leaves_step {Z : Stack} (h : Z ≠ []) (e : Option AbsAncestor) (x : Terminal) :
    leaves (step Z e x) = leaves Z ++ [x] := by
  cases e with
  | none => rw [step, leaves_app _ h]; rfl
  | some a =>
    simp only [step, popTo, pushTo]
    rw [leaves_rel, leaves_pop, leaves_app _ (push_ne h), leaves_push]; rfl

/-- Every finished node has children, and the topmost unfinished one too. -/
def Solid : Stack → Prop
  | [] => False
  | (_, d) :: Z => d ≠ .nil ∧ ∀ f ∈ (d :: Z.map (·.2)), f.Full

theorem append_ne {f g : Forest} (h : g ≠ .nil) : f.append g ≠ .nil := by
  cases f with
  | nil => exact h
  | leaf => simp [Forest.append]
  | node => simp [Forest.append]

theorem Solid.pop (k : Nat) : ∀ {Z : Stack}, Solid Z → Solid (pop k Z) := by
  induction k with
  | zero => intro Z h; exact h
  | succ k ih =>
    intro Z h
    rcases Z with _ | ⟨⟨x, d⟩, _ | ⟨⟨y, e⟩, Z⟩⟩
    · exact h
    · exact h
    · rw [Decoding.pop]
      obtain ⟨h1, h2⟩ := h
      refine ih ⟨append_ne (by simp), ?_⟩
      intro f hf
      rcases List.mem_cons.1 hf with rfl | hf
      · exact (h2 e (by simp)).append ⟨h1, h2 d (by simp), trivial⟩
      · exact h2 f (by simp at hf ⊢; tauto)

theorem Solid.rel {l : Str} {Z : Stack} (h : Solid Z) : Solid (rel l Z) := by
  rcases Z with _ | ⟨⟨x, d⟩, Z⟩ <;> exact h

/-- All attached trees are full. -/
def AllFull (Z : Stack) : Prop := ∀ f ∈ Z.map (·.2), f.Full

theorem AllFull.push (k : Nat) : ∀ {Z : Stack}, AllFull Z → AllFull (push k Z) := by
  induction k with
  | zero => intro Z h; exact h
  | succ k ih =>
    intro Z h
    refine ih ?_
    intro f hf
    rcases List.mem_cons.1 hf with rfl | hf
    · trivial
    · exact h f hf

theorem AllFull.app_leaf {Z : Stack} (h : AllFull Z) (hZ : Z ≠ []) (x : Terminal) :
    Solid (app (.leaf none x .nil) Z) := by
  rcases Z with _ | ⟨⟨y, d⟩, Z⟩
  · exact absurd rfl hZ
  · refine ⟨append_ne (by simp), ?_⟩
    intro f hf
    rcases List.mem_cons.1 hf with rfl | hf
    · exact (h d (by simp)).append trivial
    · exact h f (List.mem_cons_of_mem _ hf)

theorem Solid.allFull {Z : Stack} (h : Solid Z) : AllFull Z := by
  rcases Z with _ | ⟨⟨x, d⟩, Z⟩
  · exact absurd h (by simp [Solid])
  · exact h.2

theorem AllFull.step {Z : Stack} (h : AllFull Z) (hZ : Z ≠ []) (e : Option AbsAncestor) (x : Terminal) :
    Solid (step Z e x) := by
  cases e with
  | none => exact h.app_leaf hZ x
  | some a => exact (((h.push _).app_leaf (push_ne hZ) x).pop _).rel

theorem run_inv (l : List ((Option AbsAncestor × Option Str) × Terminal)) : ∀ {Z : Stack}, Z ≠ [] → AllFull Z →
    (∀ p ∈ l, ∀ a, p.1.1 = some a → 1 ≤ a.common) →
    run l Z ≠ [] ∧ leaves (run l Z) = leaves Z ++ l.map (fun p => chained p.1.2 p.2) ∧
      (l ≠ [] → Solid (run l Z)) := by
  induction l with
  | nil => intro Z hZ _ _; exact ⟨hZ, by simp [run], fun h => absurd rfl h⟩
  | cons p l ih =>
    intro Z hZ hf hp
    obtain ⟨⟨e, c⟩, x⟩ := p
    have hS := hf.step hZ e (chained c x)
    have hn := step_ne hZ (e := e) (fun a ha => hp ((e, c), x) (by simp) a ha) (chained c x)
    obtain ⟨h1, h2, h3⟩ := ih hn hS.allFull (fun q hq => hp q (by simp [hq]))
    refine ⟨h1, ?_, fun _ => ?_⟩
    · rw [run, h2, leaves_step hZ]; simp
    · rw [run]
      cases l with
      | nil => exact hS
      | cons q l => exact h3 (by simp)

/-- What comes out of the machine: a single tree whose terminals are the given ones in order and whose
inner nodes have children. -/
theorem forest_inv {e : AbsEncoding} {ts : List Terminal} (hl : e.length = ts.length) (hne : ts ≠ [])
    (hp : ∀ p ∈ e, ∀ a, p.1 = some a → 1 ≤ a.common) :
    (forest e ts).Full ∧ (forest e ts).width = 1 ∧
      (forest e ts).leaves = (e.zip ts).map (fun p => chained p.1.2 p.2) ∧
      ∃ x d, popTo 1 (run (e.zip ts) [(fresh, .nil)]) = [(x, d)] ∧
        ((∀ c, e ≠ [(none, c)]) → forest e ts = .node none x d .nil) := by
  have hz : e.zip ts ≠ [] := by
    intro h
    have : (e.zip ts).length = 0 := by rw [h]; rfl
    rw [List.length_zip, hl, Nat.min_self, List.length_eq_zero_iff] at this
    exact hne this
  obtain ⟨h1, h2, h3⟩ := run_inv (e.zip ts) (Z := [(fresh, .nil)]) (by simp) (by intro f hf; simp at hf; subst hf; trivial)
    (fun p hp' a ha => hp p.1 (List.of_mem_zip (a := p.1) (b := p.2) hp').1 a ha)
  have hS : Solid (popTo 1 (run (e.zip ts) [(fresh, .nil)])) := (h3 hz).pop _
  have hL : leaves (popTo 1 (run (e.zip ts) [(fresh, .nil)])) = (e.zip ts).map (fun p => chained p.1.2 p.2) := by
    rw [popTo, leaves_pop, h2]; simp [leaves, Forest.leaves]
  have hlen : (popTo 1 (run (e.zip ts) [(fresh, .nil)])).length = 1 :=
    length_popTo (Nat.le_refl _) (List.length_pos_iff.2 h1)
  obtain ⟨⟨x, d⟩, hxd⟩ := List.length_eq_one_iff.1 hlen
  rw [hxd] at hS hL
  have main : ∀ F, F = Forest.node none x d .nil → F.Full ∧ F.width = 1 ∧ F.leaves = (e.zip ts).map (fun p => chained p.1.2 p.2) := by
    rintro F rfl
    refine ⟨⟨hS.1, hS.2 d (by simp), trivial⟩, rfl, ?_⟩
    rw [← hL]; simp [Forest.leaves, leaves]
  by_cases hsp : ∃ c y, e = [(none, c)] ∧ ts = [y]
  · obtain ⟨c, y, rfl, rfl⟩ := hsp
    exact ⟨trivial, rfl, rfl, x, d, hxd, fun h => absurd rfl (h c)⟩
  · have hfe : forest e ts = .node none x d .nil := by
      unfold forest
      split
      · exact absurd ⟨_, _, rfl, rfl⟩ hsp
      · rw [hxd]
    obtain ⟨q1, q2, q3⟩ := main _ hfe
    exact ⟨q1, q2, q3, x, d, hxd, fun _ => hfe⟩

end Decoding
end Lumberjack
