import Verif.Proofs.NegraForest
import Verif.Proofs.Rest
import Verif.Proofs.RewriteAnyPipeline
import Verif.Spec.ExportAll

/-!
# The NEGRA texts the conversion tool writes
-/

namespace Lumberjack
namespace Convert

open Lumberjack.Tree

/-- What a run writes in the NEGRA format are the texts of the trees that come out of the pipeline. -/
theorem Run.exports_of {o : Options} {items : List (Except Err Tree)} {b : Bool} {pos : Option (List PosItem)} {c : Nat}
    {ws : List Written} {e : End} (h : Run o items b pos c ws e) (hout : o.out = .negra)
    (Q : Tree → Option (List Str) → Forest → Prop)
    (hQ : ∀ t tags t', .ok t ∈ items → Pipeline o tags t t' →
      t'.WF ∧ t'.IsNt t'.root ∧ (∀ r ∈ t'.graph.edges, r.w.isPrimary = true) ∧ ∃ F', t'.Is F' ∧ Q t tags F') :
    ∃ Fs : List Forest, ws = Forest.exportTexts c Fs ∧
      ∀ (i : Nat) F', Fs[i]? = some F' → ∃ t tags, items[i]? = some (.ok t) ∧ TagsAt pos i tags ∧
        (∀ l, tags = some l → l.length = t.nTerminals) ∧ Q t tags F' := by
  induction h with
  | @write t t' items b pos tags pos' c w c' ws e h1 h2 h3 h4 _ ih =>
    obtain ⟨Fs, g1, g2⟩ := ih fun t tags t' ht => hQ t tags t' (by simp [ht])
    obtain ⟨W, hr, hp, F0, hF, hq⟩ := hQ t tags t' (by simp) h3
    rw [hout] at h4
    cases h4 with
    | negra h4 =>
      obtain ⟨e1, e2⟩ := Negra.negraText_export W hr hp hF h4
      refine ⟨F0 :: Fs, ?_, fun i F' hi => ?_⟩
      · rw [Forest.exportTexts, g1, e1, e2]
        rfl
      · cases i with
        | zero =>
          simp only [List.getElem?_cons_zero, Option.some.injEq] at hi
          refine ⟨t, tags, rfl, ?_, h2, hi ▸ hq⟩
          cases h1 with
          | without => exact .inl ⟨rfl, rfl⟩
          | tags => exact .inr ⟨_, _, rfl, rfl, rfl⟩
        | succ i =>
          obtain ⟨u, tg, k1, k3, k4⟩ := g2 i F' (by simpa using hi)
          refine ⟨u, tg, by simpa using k1, ?_, k4⟩
          cases h1 with
          | without =>
            rcases k3 with k3 | ⟨ps, l, k3, _⟩
            · exact .inl k3
            · cases k3
          | @tags l0 ps0 =>
            rcases k3 with ⟨k3, _⟩ | ⟨ps, l, k3, k5, k6⟩
            · cases k3
            · cases k3
              exact .inr ⟨_, l, rfl, by simpa using k5, k6⟩
  | _ => exact ⟨[], rfl, fun i F' h => by simp at h⟩

/-- Without gaps to fill, the trees are rewritten. -/
theorem Run.exports {o : Options} {items : List (Except Err Tree)} {b : Bool} {pos : Option (List PosItem)} {c : Nat}
    {ws : List Written} {e : End} (h : Run o items b pos c ws e) (hout : o.out = .negra)
    (hS : ∀ t, .ok t ∈ items → Suits o t ∧ (∀ r ∈ t.graph.edges, r.w.isPrimary = true) ∧ (o.projectivize = true → NoGaps t)) :
    ∃ Fs : List Forest, ws = Forest.exportTexts c Fs ∧
      ∀ (i : Nat) F', Fs[i]? = some F' → ∃ t F tags, items[i]? = some (.ok t) ∧ t.Is F ∧ TagsAt pos i tags ∧
        (∀ l, tags = some l → l.length = t.nTerminals) ∧ F' = F.editedBy o tags := by
  obtain ⟨Fs, h1, h2⟩ := h.exports_of hout (fun t tags F' => ∃ F, t.Is F ∧ F' = F.editedBy o tags) (by
    intro t tags t' ht h3
    obtain ⟨S, hp, hN⟩ := hS t ht
    have S' : Suits { o with projectivize := false } t := ⟨S.fit, S.words⟩
    replace h3 : Pipeline { o with projectivize := false } tags t t' := by
      cases ho : o.projectivize with
      | true => exact pipeline_unprojected S (hN ho) h3
      | false => exact ho ▸ h3
    obtain ⟨F, hF⟩ := S.fit.wf.is_exists
    have G := (pipeline_good S' h3).1.fit
    refine ⟨G.wf, G.rootNt, fun r hr => ?_, _, pipeline_any S' rfl h3 hF, F, hF, rfl⟩
    by_contra hn
    exact hn (hp r ((pipeline_rest S.fit.wf h3).secondary (fun h => nomatch h) r hr (by simpa using hn))))
  refine ⟨Fs, h1, fun i F' hi => ?_⟩
  obtain ⟨t, tags, k1, k2, k3, F, k4, k5⟩ := h2 i F' hi
  exact ⟨t, F, tags, k1, k4, k2, k3, k5⟩

theorem exportTexts_length : ∀ (Fs : List Forest) (c : Nat), (Forest.exportTexts c Fs).length = Fs.length
  | [], _ => rfl
  | F :: Fs, c => by simp [Forest.exportTexts, exportTexts_length Fs]

end Convert
end Lumberjack
