import Verif.Proofs.ConvertWrite
import Verif.Props.NegraRead

/-!
# Runs of the conversion tool
-/

namespace Lumberjack
namespace Convert

open Lumberjack.Tree

variable {t t' : Tree}

/-- The loop does what `Run` says. -/
theorem loop_run {pick : Tree → Finset Nat → Option Nat} (hpick : IsOrder pick) (f : InFormat) (multiline : Bool)
    (o : Options) {src : Source} {items : List (Except Err Tree)} {b : Bool} (h : Stream f multiline src items b) :
    ∀ (pos : Option (List PosItem)) (c fuel : Nat), (∀ t, .ok t ∈ items → Suits o t) → items.length < fuel →
      ∃ ws e, Run o items b pos c ws e ∧ loop f multiline pick o fuel src pos c = (ws, e) := by
  induction h with
  | @stop src src' hn =>
    intro pos c fuel _ hf
    obtain ⟨k, rfl⟩ : ∃ k, fuel = k + 1 := ⟨fuel - 1, by omega⟩
    exact ⟨[], .finished, .finished, by unfold loop; rw [hn]⟩
  | @crash src hn =>
    intro pos c fuel _ hf
    obtain ⟨k, rfl⟩ : ∃ k, fuel = k + 1 := ⟨fuel - 1, by omega⟩
    exact ⟨[], .panicked, .crashed, by unfold loop; rw [hn]⟩
  | @item src src' r rs b hn hs ih =>
    intro pos c fuel hS hf
    obtain ⟨k, rfl⟩ : ∃ k, fuel = k + 1 := ⟨fuel - 1, by omega⟩
    unfold loop
    rw [hn]
    cases r with
    | error e => exact ⟨[], .exited e, .unreadable, rfl⟩
    | ok t =>
      have S : Suits o t := hS t (by simp)
      have go : ∀ tags pos', NextTags pos tags pos' → (∀ l, tags = some l → l.length = t.nTerminals) →
          (nextPos pos).1 = tags.map .ok → (nextPos pos).2 = pos' →
          ∃ ws e, Run o (.ok t :: rs) b pos c ws e ∧ (match convertTree pick o (nextPos pos).1 c t with
            | .panic => ([], .panicked)
            | .diverge => ([], .diverged)
            | .ok (.error e) => ([], .exited e)
            | .ok (.ok (w, c)) =>
              ((w :: (loop f multiline pick o k src' (nextPos pos).2 c).1,
                (loop f multiline pick o k src' (nextPos pos).2 c).2) : List Written × End)) = (ws, e) := by
        intro tags pos' hN hl e1 e2
        rw [e1, e2]
        obtain ⟨t', h1, h2, h3, h4⟩ := convertTree_spec hpick o tags c S hl
        rcases h4 with ⟨w, c', h5, h6⟩ | ⟨h5, h6, h7⟩
        · obtain ⟨ws, e, r1, r2⟩ := ih pos' c' k (fun t ht => hS t (by simp [ht])) (by simpa using hf)
          refine ⟨w :: ws, e, .write hN hl h1 h5 r1, ?_⟩
          rw [h6]
          simp only [r2]
        · exact ⟨[], _, .gaps hN hl h1 h5 h6, by rw [h7]⟩
      have stop : ∀ e, process pick o (nextPos pos).1 t = .ok (.error e) → Run o (.ok t :: rs) b pos c [] (.exited e) →
          ∃ ws e, Run o (.ok t :: rs) b pos c ws e ∧ (match convertTree pick o (nextPos pos).1 c t with
            | .panic => ([], .panicked)
            | .diverge => ([], .diverged)
            | .ok (.error e) => ([], .exited e)
            | .ok (.ok (w, c)) =>
              ((w :: (loop f multiline pick o k src' (nextPos pos).2 c).1,
                (loop f multiline pick o k src' (nextPos pos).2 c).2) : List Written × End)) = (ws, e) := by
        intro e h1 h2
        refine ⟨[], _, h2, ?_⟩
        unfold convertTree
        rw [h1]; rfl
      cases pos with
      | none => exact go none none .without (by simp) rfl rfl
      | some ps =>
        cases ps with
        | nil => exact stop _ (process_posError hpick o _ S) .noTags
        | cons p ps =>
          cases p with
          | error e => exact stop _ (process_posError hpick o _ S) .badTags
          | ok l =>
            by_cases hl : l.length = t.nTerminals
            · exact go (some l) (some ps) .tags (by rintro l' h; cases h; exact hl) rfl rfl
            · have := process_tags hpick o l S hl
              rcases Nat.lt_or_gt_of_ne hl with h | h
              · rw [if_pos h] at this
                exact stop _ this (.short h)
              · rw [if_neg (by omega)] at this
                exact stop _ this (.long h)

/-! ## The readers as streams -/

theorem ptb_stream (f : InFormat) (pf : Ptb.Format) (multiline : Bool)
    (hf : ∀ src, next f multiline src =
      fromLines src (Ptb.readerNext pf (if multiline then .multi else .single) src.lines)) :
    ∀ (fuel : Nat) (lines : List Str) (ss : List (Option (List Conllx.Token))) (items : List (Except Err Tree)),
      Ptb.readAll pf (if multiline then .multi else .single) fuel lines = .ok items →
      Stream f multiline ⟨lines, ss⟩ items true ∧ items.length < fuel := by
  intro fuel
  induction fuel with
  | zero => intro lines ss items h; cases h
  | succ n ih =>
    intro lines ss items h
    unfold Ptb.readAll at h
    cases hr : Ptb.readerNext pf (if multiline then .multi else .single) lines with
    | panic => rw [hr] at h; cases h
    | diverge => rw [hr] at h; cases h
    | ok p =>
      obtain ⟨item, rest⟩ := p
      rw [hr, Res.ok_bind] at h
      have hn : next f multiline ⟨lines, ss⟩ = .ok (item, ⟨rest, ss⟩) := by rw [hf, hr]; rfl
      cases item with
      | none =>
        simp only [Res.pure_eq, Res.ok.injEq] at h
        subst h
        exact ⟨.stop hn, by simp⟩
      | some r =>
        simp only at h
        cases hq : Ptb.readAll pf (if multiline then .multi else .single) n rest with
        | panic => rw [hq] at h; cases h
        | diverge => rw [hq] at h; cases h
        | ok rs =>
          rw [hq] at h
          simp only [Res.ok_bind, Res.pure_eq, Res.ok.injEq] at h
          subst h
          obtain ⟨a, b⟩ := ih rest ss rs hq
          exact ⟨.item hn a, by simpa using b⟩

theorem negra_stream (multiline : Bool) :
    ∀ (fuel : Nat) (lines : List Str) (ss : List (Option (List Conllx.Token))) (items : List (Except Err Tree)),
      Negra.readAll fuel lines = .ok items → Stream .negra multiline ⟨lines, ss⟩ items true ∧ items.length < fuel := by
  intro fuel
  induction fuel with
  | zero => intro lines ss items h; cases h
  | succ n ih =>
    intro lines ss items h
    unfold Negra.readAll at h
    cases hr : Negra.readerNext lines with
    | panic => rw [hr] at h; cases h
    | diverge => rw [hr] at h; cases h
    | ok p =>
      obtain ⟨item, rest⟩ := p
      rw [hr, Res.ok_bind] at h
      have hn : next .negra multiline ⟨lines, ss⟩ = .ok (item, ⟨rest, ss⟩) := by simp only [next, hr]; rfl
      cases item with
      | none =>
        simp only [Res.pure_eq, Res.ok.injEq] at h
        subst h
        exact ⟨.stop hn, by simp⟩
      | some r =>
        simp only at h
        cases hq : Negra.readAll n rest with
        | panic => rw [hq] at h; cases h
        | diverge => rw [hq] at h; cases h
        | ok rs =>
          rw [hq] at h
          simp only [Res.ok_bind, Res.pure_eq, Res.ok.injEq] at h
          subst h
          obtain ⟨a, b⟩ := ih rest ss rs hq
          exact ⟨.item hn a, by simpa using b⟩

/-- The item for a CONLLX sentence. -/
def sentenceItem (dec : List Conllx.Token → Res (Except Err Tree)) (s : Option (List Conllx.Token)) (r : Except Err Tree) :
    Prop :=
  match s with
  | none => r = .error (.parse 41)
  | some s => dec s = .ok r

theorem sentences_stream (f : InFormat) (dec : List Conllx.Token → Res (Except Err Tree)) (multiline : Bool)
    (hf : ∀ src, next f multiline src = fromSentences dec src) (lines : List Str)
    {ss : List (Option (List Conllx.Token))} {items : List (Except Err Tree)}
    (h : List.Forall₂ (sentenceItem dec) ss items) : Stream f multiline ⟨lines, ss⟩ items true := by
  induction h with
  | nil => exact .stop (src' := ⟨lines, []⟩) (by rw [hf]; rfl)
  | @cons s r ss items h _ ih =>
    cases s with
    | none =>
      rw [show r = _ from h]
      exact .item (src' := ⟨lines, ss⟩) (by rw [hf]; rfl) ih
    | some s =>
      refine .item (src' := ⟨lines, ss⟩) ?_ ih
      rw [hf]
      show (dec s >>= fun r => _) = _
      rw [show dec s = _ from h]; rfl

end Convert
end Lumberjack
