import Verif.Model.Base

/-!
# Proof rules for loops
-/

namespace Lumberjack

/-- Total correctness of `loopM`: an invariant and a measure. -/
theorem loopM_rule {σ β : Type} {step : σ → Res (σ ⊕ β)} (Inv : σ → Prop) (m : σ → Nat)
    (Post : β → Prop)
    (h : ∀ s, Inv s → (∃ s', step s = .ok (.inl s') ∧ Inv s' ∧ m s' < m s) ∨
      (∃ b, step s = .ok (.inr b) ∧ Post b)) :
    ∀ fuel s, Inv s → m s < fuel → ∃ b, loopM step fuel s = .ok b ∧ Post b := by
  intro fuel
  induction fuel with
  | zero => intro s _ hm; omega
  | succ k ih =>
    intro s hs hm
    rcases h s hs with ⟨s', h1, h2, h3⟩ | ⟨b, h1, h2⟩
    · obtain ⟨b, hb, hp⟩ := ih s' h2 (by omega)
      exact ⟨b, by simp only [loopM, h1, hb], hp⟩
    · exact ⟨b, by simp only [loopM, h1], h2⟩

/-- Partial correctness of `loopM`: if it returns, the postcondition holds. -/
theorem loopM_partial {σ β : Type} {step : σ → Res (σ ⊕ β)} (Inv : σ → Prop) (Post : β → Prop)
    (h1 : ∀ s s', Inv s → step s = .ok (.inl s') → Inv s')
    (h2 : ∀ s b, Inv s → step s = .ok (.inr b) → Post b) :
    ∀ fuel s b, Inv s → loopM step fuel s = .ok b → Post b := by
  intro fuel
  induction fuel with
  | zero => intro s b _ h; simp [loopM] at h
  | succ k ih =>
    intro s b hs h
    simp only [loopM] at h
    cases hstep : step s with
    | panic => rw [hstep] at h; simp at h
    | diverge => rw [hstep] at h; simp at h
    | ok r =>
      rw [hstep] at h
      cases r with
      | inl s' => exact ih s' b (h1 s s' hs hstep) h
      | inr b' => simp at h; exact h ▸ h2 s b' hs hstep

/-- `loopM_partial` with one obligation per step. -/
theorem loopM_sat {σ β : Type} {step : σ → Res (σ ⊕ β)} (Inv : σ → Prop) (Post : β → Prop)
    (hstep : ∀ s, Inv s → match step s with
      | .ok (.inl s') => Inv s'
      | .ok (.inr b) => Post b
      | .panic => True
      | .diverge => True) {fuel : Nat} {s : σ} {b : β} (hs : Inv s) (h : loopM step fuel s = .ok b) :
    Post b := by
  refine loopM_partial Inv Post ?_ ?_ fuel s b hs h
  · intro s s' hs e; have := hstep s hs; rw [e] at this; exact this
  · intro s b hs e; have := hstep s hs; rw [e] at this; exact this

theorem loopM_succ_inl {σ β : Type} {step : σ → Res (σ ⊕ β)} {k : Nat} {s s' : σ}
    (h : step s = .ok (.inl s')) : loopM step (k + 1) s = loopM step k s' := by
  simp only [loopM, h]

theorem loopM_succ_inr {σ β : Type} {step : σ → Res (σ ⊕ β)} {k : Nat} {s : σ} {b : β}
    (h : step s = .ok (.inr b)) : loopM step (k + 1) s = .ok b := by
  simp only [loopM, h]

/-- Running longer does not change the result of a loop that has returned. -/
theorem loopM_mono {σ β : Type} {step : σ → Res (σ ⊕ β)} {k : Nat} {s : σ} {b : β}
    (h : loopM step k s = .ok b) (k' : Nat) (hk : k ≤ k') : loopM step k' s = .ok b := by
  induction k generalizing s k' with
  | zero => simp [loopM] at h
  | succ k ih =>
    obtain ⟨k'', rfl⟩ : ∃ k'', k' = k'' + 1 := ⟨k' - 1, by omega⟩
    simp only [loopM] at h ⊢
    cases hs : step s with
    | panic => rw [hs] at h; simp at h
    | diverge => rw [hs] at h; simp at h
    | ok r =>
      rw [hs] at h
      cases r with
      | inl s' => exact ih h k'' (by omega)
      | inr b' => exact h

/-- Total correctness of `forM'`; the invariant sees the remaining list. -/
theorem forM'_rule {α σ : Type} {f : σ → α → Res σ} (Inv : List α → σ → Prop)
    (h : ∀ a as s, Inv (a :: as) s → ∃ s', f s a = .ok s' ∧ Inv as s') :
    ∀ l s, Inv l s → ∃ s', forM' f l s = .ok s' ∧ Inv [] s' := by
  intro l
  induction l with
  | nil => intro s hs; exact ⟨s, rfl, hs⟩
  | cons a as ih =>
    intro s hs
    obtain ⟨s', h1, h2⟩ := h a as s hs
    obtain ⟨s'', h3, h4⟩ := ih s' h2
    exact ⟨s'', by simp only [forM', h1, Res.ok_bind, h3], h4⟩

@[simp] theorem forM'_nil {α σ : Type} {f : σ → α → Res σ} {s : σ} : forM' f [] s = .ok s := rfl

theorem forM'_cons {α σ : Type} {f : σ → α → Res σ} {a : α} {as : List α} {s : σ} :
    forM' f (a :: as) s = f s a >>= forM' f as := rfl

theorem forM'_append {α σ : Type} {f : σ → α → Res σ} {as bs : List α} {s : σ} :
    forM' f (as ++ bs) s = forM' f as s >>= forM' f bs := by
  induction as generalizing s with
  | nil => rfl
  | cons a as ih =>
    simp only [List.cons_append, forM', bind_assoc]
    congr 1
    funext s'
    exact ih

/-- Partial correctness of `forM'`. -/
theorem forM'_partial {α σ : Type} {f : σ → α → Res σ} (Inv : List α → σ → Prop)
    (h : ∀ a as s s', Inv (a :: as) s → f s a = .ok s' → Inv as s') :
    ∀ l s s', Inv l s → forM' f l s = .ok s' → Inv [] s' := by
  intro l
  induction l with
  | nil => intro s s' hs h'; simp at h'; exact h' ▸ hs
  | cons a as ih =>
    intro s s' hs h'
    rw [forM'_cons] at h'
    cases hf : f s a with
    | panic => rw [hf] at h'; simp at h'
    | diverge => rw [hf] at h'; simp at h'
    | ok s1 =>
      rw [hf] at h'
      exact ih s1 s' (h a as s s1 hs hf) h'

/-- Total correctness of `forE` when no iteration fails. -/
theorem forE_rule {α σ ε : Type} {f : σ → α → Res (σ × Except ε Unit)} (Inv : List α → σ → Prop)
    (h : ∀ a as s, Inv (a :: as) s → ∃ s', f s a = .ok (s', .ok ()) ∧ Inv as s') :
    ∀ l s, Inv l s → ∃ s', forE f l s = .ok (s', .ok ()) ∧ Inv [] s' := by
  intro l
  induction l with
  | nil => intro s hs; exact ⟨s, rfl, hs⟩
  | cons a as ih =>
    intro s hs
    obtain ⟨s', h1, h2⟩ := h a as s hs
    obtain ⟨s'', h3, h4⟩ := ih s' h2
    exact ⟨s'', by simp only [forE, h1, Res.ok_bind, h3], h4⟩

/-- Total correctness of `forE`, failing iterations allowed. -/
theorem forE_rule' {α σ ε : Type} {f : σ → α → Res (σ × Except ε Unit)} (Inv : List α → σ → Prop)
    (PostE : σ → ε → Prop)
    (h : ∀ a as s, Inv (a :: as) s → (∃ s', f s a = .ok (s', .ok ()) ∧ Inv as s') ∨
      (∃ s' e, f s a = .ok (s', .error e) ∧ PostE s' e)) :
    ∀ l s, Inv l s → (∃ s', forE f l s = .ok (s', .ok ()) ∧ Inv [] s') ∨
      (∃ s' e, forE f l s = .ok (s', .error e) ∧ PostE s' e) := by
  intro l
  induction l with
  | nil => intro s hs; exact .inl ⟨s, rfl, hs⟩
  | cons a as ih =>
    intro s hs
    rcases h a as s hs with ⟨s', h1, h2⟩ | ⟨s', e, h1, h2⟩
    · rcases ih s' h2 with ⟨s'', h3, h4⟩ | ⟨s'', e, h3, h4⟩
      · exact .inl ⟨s'', by simp only [forE, h1, Res.ok_bind, h3], h4⟩
      · exact .inr ⟨s'', e, by simp only [forE, h1, Res.ok_bind, h3], h4⟩
    · exact .inr ⟨s', e, by simp only [forE, h1, Res.ok_bind], h2⟩

/-- Inversion of a successful bind. -/
theorem Res.bind_eq_ok {α β : Type} {x : Res α} {f : α → Res β} {b : β} :
    (x >>= f) = .ok b ↔ ∃ a, x = .ok a ∧ f a = .ok b := by
  cases x <;> simp

theorem Res.ofOption_eq_ok {α : Type} {x : Option α} {a : α} :
    Res.ofOption x = .ok a ↔ x = some a := by
  cases x <;> simp

end Lumberjack
