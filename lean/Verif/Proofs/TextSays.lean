import Verif.Proofs.TextIn

/-!
# The words in the output for a tree
-/

namespace Lumberjack
namespace Convert

open Lumberjack.Tree

variable {t t' : Tree}

theorem shown_eq {out : OutFormat} (h : ¬ IsBracketed out) (w : Str) : shown out w = w := by
  unfold IsBracketed at h
  cases out <;> simp_all [shown]

theorem shown_escape {out : OutFormat} (h : IsBracketed out) (w : Str) : shown out w = Bracketed.escape w := by
  rcases h with rfl | rfl | rfl <;> rfl

theorem terminal_at {ts : List Terminal} (W : t.WF) (hts : t.Terminals ts) {n : Nat} {x : Terminal}
    (hx : t.graph.node? n = some (.term x)) : x ∈ ts := by
  obtain ⟨i, _, hi⟩ := W.sentence.pos n ⟨x, hx⟩
  exact List.mem_of_getElem? (hts.2 n x i hx hi)

theorem negraText_says {c c' : Nat} {s : Str} (h : NegraText c t s c') {ts : List Terminal} (hts : t.Terminals ts) :
    Says .negra (.text s) (ts.map (·.form)) := by
  obtain ⟨ns, nts, T, N, tl, nl, h1, h2, h3, h4, h5, h6, rfl, _⟩ := h
  have h5 := h5.imp fun l r e => (e ▸ Negra.aligned_columns _ : Negra.Columns l r.columns)
  have h6 := h6.imp fun l r e => (e ▸ Negra.aligned_columns _ : Negra.Columns l r.columns)
  refine .inl ⟨rfl, _, tl, nl ++ [Negra.footer _, []], by rw [List.append_assoc], ?_, ?_⟩
  · rw [List.forall₂_iff_get]
    have l1 := h3.length_eq
    have l2 := h5.length_eq
    have l3 := h1.1
    refine ⟨by rw [List.length_map, hts.1]; omega, fun i hi hi' => ?_⟩
    rw [List.forall₂_iff_get] at h3 h5
    obtain ⟨x, g1, g2, _⟩ := h3.2 i (by omega) (by omega)
    have hn := h1.2 i _ (List.getElem?_eq_getElem (by omega : i < ns.length))
    have hx := hts.2 _ x i g1 hn
    have hc := h5.2 i hi (by omega)
    simp only [List.get_eq_getElem] at g1 g2 hc ⊢
    simp only [List.getElem_map]
    rw [List.getElem?_eq_getElem (by simpa using hi')] at hx
    simp only [Option.some.injEq] at hx
    rw [hx, ← g2]
    obtain ⟨k, rest, e, _⟩ := hc
    exact ⟨List.replicate k ' ' ++ rest, by rw [e, List.replicate_succ]; simp⟩
  · cases h6 with
    | nil => exact ⟨_, rfl, rfl⟩
    | cons hc _ =>
      obtain ⟨k, rest, e, _⟩ := hc
      exact ⟨_, rfl, by rw [e]; rfl⟩

theorem output_says {out : OutFormat} {c c' : Nat} {w : Written} (W : t.WF) (h : Output out c t w c')
    {ts : List Terminal} (hts : t.Terminals ts)
    (hb : IsBracketed out → t.Texts (fun s => ')' ∉ s) ∧ ∀ x ∈ ts, Bracketed.Word (Bracketed.escape x.form)) :
    Says out w (ts.map fun x => shown out x.form) := by
  have sent : ∀ {s}, Output out c t (.sentence s) c' → ¬ IsBracketed out → out ≠ .negra →
      Says out (.sentence s) (ts.map fun x => shown out x.form) := by
    intro s h hn hn'
    refine ⟨hn, hn', ?_⟩
    rw [(output_words W h ts hts).1]
    simp [shown_eq hn]
  have brack : ∀ {s f}, NoGaps t → BracketText f t s → IsBracketed out →
      Says out (.text s) (ts.map fun x => shown out x.form) := by
    intro s f hN h ho
    refine .inr ⟨ho, ?_⟩
    rw [bracketText_words W hN h (hb ho).1 (fun n x hx => (hb ho).2 x (terminal_at W hts hx)) hts]
    simp [shown_escape ho]
  cases h with
  | conllx g => exact sent (.conllx g) (by simp [IsBracketed]) (by simp)
  | negra g => exact negraText_says g hts
  | absolute g1 g2 g3 => exact sent (.absolute g1 g2 g3) (by simp [IsBracketed]) (by simp)
  | relative g1 g2 g3 => exact sent (.relative g1 g2 g3) (by simp [IsBracketed]) (by simp)
  | ptb g1 g2 => exact brack g1 g2 (.inl rfl)
  | simple g1 g2 => exact brack g1 g2 (.inr (.inl rfl))
  | tueba g1 g2 => exact brack g1 g2 (.inr (.inr rfl))

end Convert
end Lumberjack
