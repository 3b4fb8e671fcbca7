import Verif.Proofs.Check
import Verif.Proofs.NegraRows
import Verif.Spec.NegraTrip

/-!
# A sufficient check for trees the NEGRA format can hold

Used to show that concrete trees meet the hypotheses of the theorems.
-/

namespace Lumberjack
namespace Negra

def fieldB (s : Str) : Bool := !s.isEmpty && s.all fun c => !isWs c

theorem fieldB_sound {s : Str} (h : fieldB s = true) : Field s := by
  simp only [fieldB, Bool.and_eq_true, List.all_eq_true, Bool.not_eq_true', List.isEmpty_eq_false_iff] at h
  exact h

def labelB (s : Str) : Bool := s.all fun c => !isWs c && decide (c ≠ '=')

theorem labelB_sound {s : Str} (h : labelB s = true) : ∀ c ∈ s, isWs c = false ∧ c ≠ '=' := by
  simp only [labelB, Bool.and_eq_true, List.all_eq_true, Bool.not_eq_true', decide_eq_true_eq] at h
  exact h

def featB (f : Option Features) (k : Str) (test : Str → Bool) : Bool :=
  match f with
  | none => true
  | some ⟨[]⟩ => true
  | some ⟨[(k', some v)]⟩ => decide (k' = k) && test v
  | _ => false

theorem featB_sound {f : Option Features} {k : Str} {test : Str → Bool} {P : Str → Prop} (hp : ∀ v, test v = true → P v)
    (h : featB f k test = true) : OnlyFeature f k P := by
  unfold featB at h
  split at h
  · exact .inl rfl
  · exact .inl rfl
  · rw [Bool.and_eq_true, decide_eq_true_eq] at h
    exact .inr ⟨_, by rw [h.1], hp _ h.2⟩
  · cases h

def nodeB (root : Bool) : Node → Bool
  | .term x => fieldB x.form && decide (x.form.head? ≠ some '#') && fieldB x.pos &&
      (match x.lem with | none => true | some l => fieldB l && decide (l ≠ "--".toList)) &&
      featB x.features "morph".toList fun v => fieldB v && decide (v ≠ "--".toList)
  | .nt x => root || (labelB x.label && !x.label.isEmpty && featB x.features "node_annotation".toList labelB)

def edgeB : Edge → Bool
  | .primary none => true
  | .primary (some s) => fieldB s && decide (s ≠ "--".toList)
  | .secondary (some s) => fieldB s && decide (s.head? ≠ some '%')
  | .secondary none => false

def ntB (t : Tree) (n : Nat) : Bool :=
  match t.graph.node? n with
  | some (.nt _) => true
  | _ => false

theorem ntB_sound {t : Tree} {n : Nat} (h : ntB t n = true) : t.IsNt n := by
  unfold ntB at h
  split at h
  · exact ⟨_, by assumption⟩
  · cases h

def exportB (t : Tree) : Bool :=
  t.checkWF && ntB t t.root &&
  (List.range t.graph.nodes.length).all (fun n => match t.graph.node? n with
    | none => true
    | some nd => nodeB (decide (n = t.root)) nd) &&
  t.graph.edges.all (fun r => edgeB r.w && (r.w.isPrimary || ntB t r.src)) &&
  decide (t.nonterminals.length + 499 ≤ 2 ^ 64)

theorem export_of_check {t : Tree} (h : exportB t = true) : Exportable t := by
  simp only [exportB, Bool.and_eq_true, List.all_eq_true, decide_eq_true_eq, List.mem_range] at h
  obtain ⟨⟨⟨⟨h1, h2⟩, h3⟩, h4⟩, h5⟩ := h
  have hn : ∀ n nd, t.graph.node? n = some nd → nodeB (decide (n = t.root)) nd = true := by
    intro n nd hnd
    have := h3 n (node?_lt hnd)
    rw [hnd] at this
    exact this
  refine ⟨Tree.wf_of_check h1, ntB_sound h2, ?_, ?_, ?_, ?_, h5⟩
  · intro n x hx
    have := hn n _ hx
    simp only [nodeB, Bool.and_eq_true, decide_eq_true_eq] at this
    obtain ⟨⟨⟨⟨a1, a2⟩, a3⟩, a4⟩, a5⟩ := this
    refine ⟨fieldB_sound a1, a2, fieldB_sound a3, ?_, ?_⟩
    · intro l hl
      rw [hl] at a4
      simp only [Bool.and_eq_true, decide_eq_true_eq] at a4
      exact ⟨fieldB_sound a4.1, a4.2⟩
    · refine featB_sound (fun v hv => ?_) a5
      simp only [Bool.and_eq_true, decide_eq_true_eq] at hv
      exact ⟨fieldB_sound hv.1, hv.2⟩
  · intro n x hr hx
    have := hn n _ hx
    simp only [nodeB, hr, decide_false, Bool.false_or, Bool.and_eq_true, Bool.not_eq_true', List.isEmpty_eq_false_iff] at this
    exact ⟨labelB_sound this.1.1, featB_sound (fun v hv => labelB_sound hv) this.2, .inl this.1.2⟩
  · intro e he
    have := (h4 e he).1
    cases hw : e.w with
    | primary l =>
      rw [hw] at this
      intro s hs
      subst hs
      simp only [edgeB, Bool.and_eq_true, decide_eq_true_eq] at this
      exact ⟨fieldB_sound this.1, this.2⟩
    | secondary l =>
      rw [hw] at this
      cases l with
      | none => cases this
      | some s =>
        simp only [edgeB, Bool.and_eq_true, decide_eq_true_eq] at this
        exact ⟨s, rfl, fieldB_sound this.1, this.2⟩
  · intro e he hp
    have := (h4 e he).2
    rw [hp, Bool.false_or] at this
    exact ntB_sound this

end Negra
end Lumberjack
