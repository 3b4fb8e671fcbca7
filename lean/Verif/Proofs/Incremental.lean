import Verif.Proofs.ConvertRead
import Verif.Spec.Truncate

/-!
# Readers look at one sentence at a time
-/

namespace Lumberjack

/-- What a call gives on a longer input, if it gives `r` on the input itself. -/
def Grows {α β : Type} (r : Res (Option α × β)) (app : β → β) (r' : Res (Option α × β)) : Prop :=
  match r with
  | .ok (none, _) => True
  | .ok (some x, rest) => r' = .ok (some x, app rest)
  | .panic => r' = .panic
  | .diverge => r' = .diverge

theorem Grows.bind {α β γ : Type} {x : Res γ} {f g : γ → Res (Option α × β)} {app : β → β}
    (h : ∀ c, x = .ok c → Grows (f c) app (g c)) : Grows (x >>= f) app (x >>= g) := by
  cases x with
  | ok c => exact h c rfl
  | panic => rfl
  | diverge => rfl

namespace Ptb

theorem nextSingle_grows (f : Format) (more : List Str) : ∀ ls,
    Grows (nextSingle f ls) (· ++ more) (nextSingle f (ls ++ more))
  | [] => trivial
  | l :: ls => by
    rw [List.cons_append]
    unfold nextSingle
    split
    · exact nextSingle_grows f more ls
    · exact Grows.bind fun c _ => rfl

theorem nextMulti_grows (f : Format) (more : List Str) : ∀ ls b k,
    Grows (nextMulti f ls b k) (· ++ more) (nextMulti f (ls ++ more) b k)
  | [], _, _ => trivial
  | l :: ls, b, k => by
    rw [List.cons_append]
    unfold nextMulti
    split
    · exact nextMulti_grows f more ls b k
    · refine Grows.bind fun c _ => ?_
      simp only
      split
      · exact Grows.bind fun c _ => rfl
      · exact nextMulti_grows f more ls _ _

theorem readerNext_grows (f : Format) (lf : LineFormat) (more ls : List Str) :
    Grows (readerNext f lf ls) (· ++ more) (readerNext f lf (ls ++ more)) := by
  cases lf with
  | single => exact nextSingle_grows f more ls
  | multi => exact nextMulti_grows f more ls [] 0

end Ptb

namespace Negra

theorem nextFrom_grows (more : List Str) : ∀ ls cur,
    Grows (nextFrom ls cur) (· ++ more) (nextFrom (ls ++ more) cur)
  | [], _ => trivial
  | l :: ls, cur => by
    rw [List.cons_append]
    unfold nextFrom
    simp only
    split
    · cases cur with
      | some b => exact rfl
      | none =>
        refine Grows.bind fun c _ => ?_
        cases c with
        | ok b => exact nextFrom_grows more ls _
        | error e => rfl
    · split
      · cases cur with
        | some b => exact Grows.bind fun c _ => rfl
        | none => rfl
      · cases cur with
        | some b =>
          refine Grows.bind fun c _ => ?_
          cases c with
          | ok b => exact nextFrom_grows more ls _
          | error e => rfl
        | none => exact nextFrom_grows more ls _

end Negra

namespace Convert

open Lumberjack.Tree

theorem fromLines_grows {r r' : Res (Option (Except Err Tree) × List Str)} (src more : Source)
    (h : Grows r (· ++ more.lines) r') :
    Grows (fromLines src r) (·.followedBy more) (fromLines (src.followedBy more) r') := by
  unfold fromLines
  cases r with
  | panic => rw [show r' = .panic from h]; rfl
  | diverge => rw [show r' = .diverge from h]; rfl
  | ok p =>
    obtain ⟨_ | x, rest⟩ := p
    · trivial
    · rw [show r' = .ok (some x, rest ++ more.lines) from h]; rfl

theorem fromSentences_grows (dec : List Conllx.Token → Res (Except Err Tree)) (src more : Source) :
    Grows (fromSentences dec src) (·.followedBy more) (fromSentences dec (src.followedBy more)) := by
  obtain ⟨ls, ss⟩ := src
  unfold fromSentences Source.followedBy
  cases ss with
  | nil => trivial
  | cons s ss =>
    cases s with
    | none => rfl
    | some s => exact Grows.bind fun c _ => rfl

theorem next_grows (f : InFormat) (m : Bool) (src more : Source) :
    Grows (next f m src) (·.followedBy more) (next f m (src.followedBy more)) := by
  cases f with
  | absolute => exact fromSentences_grows _ _ _
  | relative => exact fromSentences_grows _ _ _
  | negra => exact fromLines_grows _ _ (Negra.nextFrom_grows _ _ _)
  | simple => exact fromLines_grows _ _ (Ptb.readerNext_grows _ _ _ _)
  | ptb => exact fromLines_grows _ _ (Ptb.readerNext_grows _ _ _ _)
  | tueba => exact fromLines_grows _ _ (Ptb.readerNext_grows _ _ _ _)

theorem stream_grows {f : InFormat} {m : Bool} {src : Source} {items : List (Except Err Tree)} {b : Bool}
    (h : Stream f m src items b) (more : Source) :
    (b = false → Stream f m (src.followedBy more) items false) ∧
    ∀ items' b', Stream f m (src.followedBy more) items' b' → items <+: items' := by
  induction h with
  | stop h => exact ⟨nofun, fun _ _ _ => List.nil_prefix⟩
  | @crash src h =>
    have g := next_grows f m src more
    rw [h] at g
    exact ⟨fun _ => .crash g, fun _ _ _ => List.nil_prefix⟩
  | @item src src' r rs b h hs ih =>
    have g := next_grows f m src more
    rw [h] at g
    have g' : next f m (src.followedBy more) = .ok (some r, src'.followedBy more) := g
    refine ⟨fun hb => .item g' (ih.1 hb), fun items' b' h' => ?_⟩
    cases h' with
    | stop h' => rw [g'] at h'; cases h'
    | crash h' => rw [g'] at h'; cases h'
    | item h' h2 =>
      rw [g'] at h'
      cases h'
      exact List.cons_prefix_cons.2 ⟨rfl, ih.2 _ _ h2⟩

theorem loop_grows (f : InFormat) (m : Bool) (pick : Tree → Finset Nat → Option Nat) (o : Options) (more : Source)
    {src : Source} {items items' : List (Except Err Tree)} {b b' : Bool} (h : Stream f m src items b)
    (h' : Stream f m (src.followedBy more) items' b') : ∀ (fuel fuel' : Nat) (pos : Option (List PosItem)) (c : Nat),
      items.length < fuel → items'.length < fuel' →
      (loop f m pick o fuel src pos c).1 <+: (loop f m pick o fuel' (src.followedBy more) pos c).1 ∧
      ((loop f m pick o fuel src pos c).2 ≠ .finished →
        loop f m pick o fuel' (src.followedBy more) pos c = loop f m pick o fuel src pos c) := by
  induction h generalizing items' b' with
  | @stop src src' h =>
    intro fuel fuel' pos c hf hf'
    obtain ⟨k, rfl⟩ : ∃ k, fuel = k + 1 := ⟨fuel - 1, by omega⟩
    have : loop f m pick o (k + 1) src pos c = ([], .finished) := by unfold loop; rw [h]
    rw [this]
    exact ⟨List.nil_prefix, fun h => absurd rfl h⟩
  | @crash src h =>
    intro fuel fuel' pos c hf hf'
    obtain ⟨k, rfl⟩ : ∃ k, fuel = k + 1 := ⟨fuel - 1, by omega⟩
    obtain ⟨k', rfl⟩ : ∃ k, fuel' = k + 1 := ⟨fuel' - 1, by omega⟩
    have g := next_grows f m src more
    rw [h] at g
    have e1 : loop f m pick o (k + 1) src pos c = ([], .panicked) := by unfold loop; rw [h]
    have e2 : loop f m pick o (k' + 1) (src.followedBy more) pos c = ([], .panicked) := by
      unfold loop; rw [show next f m (src.followedBy more) = .panic from g]
    rw [e1, e2]
    exact ⟨List.nil_prefix, fun _ => rfl⟩
  | @item src src' r rs b h hs ih =>
    intro fuel fuel' pos c hf hf'
    obtain ⟨k, rfl⟩ : ∃ k, fuel = k + 1 := ⟨fuel - 1, by omega⟩
    obtain ⟨k', rfl⟩ : ∃ k, fuel' = k + 1 := ⟨fuel' - 1, by omega⟩
    have g := next_grows f m src more
    rw [h] at g
    have g' : next f m (src.followedBy more) = .ok (some r, src'.followedBy more) := g
    unfold loop
    rw [h, g']
    cases r with
    | error e => exact ⟨List.prefix_rfl, fun _ => rfl⟩
    | ok t =>
      cases h' with
      | stop h' => rw [g'] at h'; cases h'
      | crash h' => rw [g'] at h'; cases h'
      | item h' h2 =>
        rw [g'] at h'
        cases h'
        simp only
        cases hc : convertTree pick o (nextPos pos).1 c t with
        | panic => exact ⟨List.prefix_rfl, fun _ => rfl⟩
        | diverge => exact ⟨List.prefix_rfl, fun _ => rfl⟩
        | ok x =>
          cases x with
          | error e => exact ⟨List.prefix_rfl, fun _ => rfl⟩
          | ok w =>
            obtain ⟨w, c'⟩ := w
            obtain ⟨i1, i2⟩ := ih h2 k k' (nextPos pos).2 c' (by simp at hf; omega) (by simp at hf'; omega)
            refine ⟨List.cons_prefix_cons.2 ⟨rfl, i1⟩, fun hne => ?_⟩
            simp only at hne ⊢
            rw [i2 hne]

theorem main_grows (f : InFormat) (m : Bool) (pick : Tree → Finset Nat → Option Nat) (o : Options)
    (src more : Source) (pos : Option (List PosItem)) :
    (main f m pick o src pos).1 <+: (main f m pick o (src.followedBy more) pos).1 ∧
      ((main f m pick o src pos).2 ≠ .finished →
        main f m pick o (src.followedBy more) pos = main f m pick o src pos) := by
  obtain ⟨items, b, h1, h2, -⟩ := stream_exists f m _ src (Nat.le_refl _)
  obtain ⟨items', b', h1', h2', -⟩ := stream_exists f m _ (src.followedBy more) (Nat.le_refl _)
  exact loop_grows f m pick o more h1 h1' _ _ pos 0 (by unfold Source.size at h2; omega)
    (by unfold Source.size at h2'; omega)

end Convert
end Lumberjack
