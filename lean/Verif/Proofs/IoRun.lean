import Verif.Proofs.Io
import Verif.Proofs.Incremental

/-!
# Runs with input and output that can fail
-/

namespace Lumberjack

open Io

/-- Nothing, or a line that cannot be read and whatever is after it. -/
def Stopped (more : List (Except Err Str)) : Prop := more = [] ∨ ∃ e rest, more = .error e :: rest

/-- What a reader gives when it gets there. -/
def stopItem : List (Except Err Str) → Option (Except Err Tree) × List (Except Err Str)
  | .error e :: rest => (some (.error e), rest)
  | _ => (none, [])

/-- What a call gives on an input with `more` after the readable lines, if it gives `r` on these alone. -/
def Carries {β γ : Type} (r : Res (Option (Except Err Tree) × β)) (app : β → γ) (fin : Option (Except Err Tree) × γ)
    (r' : Res (Option (Except Err Tree) × γ)) : Prop :=
  match r with
  | .ok (none, _) => r' = .ok fin
  | .ok (some x, rest) => r' = .ok (some x, app rest)
  | .panic => r' = .panic
  | .diverge => r' = .diverge

theorem Carries.bind {β γ δ : Type} {x : Res δ} {f : δ → Res (Option (Except Err Tree) × β)}
    {g : δ → Res (Option (Except Err Tree) × γ)} {app : β → γ} {fin : Option (Except Err Tree) × γ}
    (h : ∀ c, x = .ok c → Carries (f c) app fin (g c)) : Carries (x >>= f) app fin (x >>= g) := by
  cases x with
  | ok c => exact h c rfl
  | panic => rfl
  | diverge => rfl

namespace Ptb

theorem nextSingle_carries (f : Format) {more : List (Except Err Str)} (hm : Stopped more) : ∀ ls : List Str,
    Carries (nextSingle f ls) (·.map .ok ++ more) (stopItem more) (nextSingleIo f (ls.map .ok ++ more))
  | [] => by
    rcases hm with rfl | ⟨e, rest, rfl⟩
    · rfl
    · simp [Carries, nextSingle, nextSingleIo, stopItem]
  | l :: ls => by
    rw [List.map_cons, List.cons_append]
    unfold nextSingle nextSingleIo
    split
    · exact nextSingle_carries f hm ls
    · exact Carries.bind fun c _ => rfl

theorem nextMulti_carries (f : Format) {more : List (Except Err Str)} (hm : Stopped more) : ∀ (ls : List Str) b k,
    Carries (nextMulti f ls b k) (·.map .ok ++ more) (stopItem more) (nextMultiIo f (ls.map .ok ++ more) b k)
  | [], _, _ => by
    rcases hm with rfl | ⟨e, rest, rfl⟩
    · rfl
    · simp [Carries, nextMulti, nextMultiIo, stopItem]
  | l :: ls, b, k => by
    rw [List.map_cons, List.cons_append]
    unfold nextMulti nextMultiIo
    split
    · exact nextMulti_carries f hm ls b k
    · refine Carries.bind fun c _ => ?_
      simp only
      split
      · exact Carries.bind fun c _ => rfl
      · exact nextMulti_carries f hm ls _ _

theorem readerNext_carries (f : Format) (lf : LineFormat) {more : List (Except Err Str)} (hm : Stopped more) (ls : List Str) :
    Carries (readerNext f lf ls) (·.map .ok ++ more) (stopItem more) (readerNextIo f lf (ls.map .ok ++ more)) := by
  cases lf with
  | single => exact nextSingle_carries f hm ls
  | multi => exact nextMulti_carries f hm ls [] 0

end Ptb

namespace Negra

theorem nextFrom_carries {more : List (Except Err Str)} (hm : Stopped more) : ∀ (ls : List Str) cur,
    Carries (nextFrom ls cur) (·.map .ok ++ more) (stopItem more) (nextFromIo (ls.map .ok ++ more) cur)
  | [], _ => by
    rcases hm with rfl | ⟨e, rest, rfl⟩
    · rfl
    · simp [Carries, nextFrom, nextFromIo, stopItem]
  | l :: ls, cur => by
    rw [List.map_cons, List.cons_append]
    unfold nextFrom nextFromIo
    simp only
    split
    · cases cur with
      | some b => exact rfl
      | none =>
        refine Carries.bind fun c _ => ?_
        cases c with
        | ok b => exact nextFrom_carries hm ls _
        | error e => rfl
    · split
      · cases cur with
        | some b => exact Carries.bind fun c _ => rfl
        | none => rfl
      · cases cur with
        | some b =>
          refine Carries.bind fun c _ => ?_
          cases c with
          | ok b => exact nextFrom_carries hm ls _
          | error e => rfl
        | none => exact nextFrom_carries hm ls _

end Negra

namespace Convert

/-- Readable lines and more after them. -/
def Source.input (src : Source) (more : List (Except Err Str)) : Input := ⟨src.lines.map .ok ++ more, src.sentences⟩

theorem fromLines_carries {r : Res (Option (Except Err Tree) × List Str)}
    {r' : Res (Option (Except Err Tree) × List (Except Err Str))} (src : Source) (more : List (Except Err Str))
    (h : Carries r (·.map .ok ++ more) (stopItem more) r') :
    Carries (fromLines src r) (·.input more) ((stopItem more).1, ⟨(stopItem more).2, src.sentences⟩)
      (fromLinesIo (src.input more) r') := by
  unfold fromLines fromLinesIo
  cases r with
  | panic => rw [show r' = .panic from h]; rfl
  | diverge => rw [show r' = .diverge from h]; rfl
  | ok x =>
    obtain ⟨_ | x, rest⟩ := x
    · rw [show r' = .ok (stopItem more) from h]; rfl
    · rw [show r' = .ok (some x, rest.map .ok ++ more) from h]; rfl

theorem next_carries {f : InFormat} (hf : f.ByLines) (m : Bool) {more : List (Except Err Str)} (hm : Stopped more)
    (src : Source) : Carries (next f m src) (·.input more) ((stopItem more).1, ⟨(stopItem more).2, src.sentences⟩)
      (nextIo f m (src.input more)) := by
  cases f with
  | absolute => exact absurd rfl hf.1
  | relative => exact absurd rfl hf.2
  | negra => exact fromLines_carries _ _ (Negra.nextFrom_carries hm _ _)
  | simple => exact fromLines_carries _ _ (Ptb.readerNext_carries _ _ hm _)
  | ptb => exact fromLines_carries _ _ (Ptb.readerNext_carries _ _ hm _)
  | tueba => exact fromLines_carries _ _ (Ptb.readerNext_carries _ _ hm _)

theorem fromSentences_carries (dec : List Conllx.Token → Res (Except Err Tree)) (src : Source) :
    Carries (fromSentences dec src) (·.input []) (none, src.input []) (fromSentencesIo dec (src.input [])) := by
  obtain ⟨ls, ss⟩ := src
  unfold fromSentencesIo fromSentences
  cases ss with
  | nil => rfl
  | cons s ss =>
    cases s with
    | none => rfl
    | some s => exact Carries.bind fun c _ => rfl

theorem next_carries' {f : InFormat} (m : Bool) {more : List (Except Err Str)} (h : f.ByLines ∧ Stopped more ∨ more = [])
    (src : Source) : ∃ inp, Carries (next f m src) (·.input more) ((stopItem more).1, inp) (nextIo f m (src.input more)) := by
  by_cases hf : f.ByLines
  · have hm : Stopped more := h.elim (·.2) .inl
    exact ⟨_, next_carries hf m hm src⟩
  · have hm : more = [] := h.elim (fun g => absurd g.1 hf) id
    subst hm
    refine ⟨src.input [], ?_⟩
    cases f with
    | absolute => exact fromSentences_carries _ _
    | relative => exact fromSentences_carries _ _
    | _ => exact absurd (by unfold InFormat.ByLines; simp) hf

/-! ## Items -/

theorem streamIo_unique {f : InFormat} {m : Bool} {inp : Input} {i i' : List (Except Err Tree)} {b b' : Bool}
    (h : StreamIo f m inp i b) (h' : StreamIo f m inp i' b') : i' = i ∧ b' = b := by
  induction h generalizing i' b' with
  | stop e => cases h' with
    | stop => exact ⟨rfl, rfl⟩
    | crash e' => rw [e] at e'; cases e'
    | item e' => rw [e] at e'; cases e'
  | crash e => cases h' with
    | stop e' => rw [e] at e'; cases e'
    | crash => exact ⟨rfl, rfl⟩
    | item e' => rw [e] at e'; cases e'
  | item e _ ih => cases h' with
    | stop e' => rw [e] at e'; cases e'
    | crash e' => rw [e] at e'; cases e'
    | item e' g' =>
      rw [e] at e'
      cases e'
      obtain ⟨rfl, rfl⟩ := ih g'
      exact ⟨rfl, rfl⟩

/-- A line that cannot be read separates what is before it from what is after it. -/
theorem streamIo_error {f : InFormat} (hf : f.ByLines) {m : Bool} {src : Source} {items : List (Except Err Tree)} {b : Bool}
    (h : Stream f m src items b) (e : Err) (rest : List (Except Err Str)) :
    (b = false → StreamIo f m (src.input (.error e :: rest)) items false) ∧
    (b = true → ∀ items' b', StreamIo f m ⟨rest, src.sentences⟩ items' b' →
      StreamIo f m (src.input (.error e :: rest)) (items ++ .error e :: items') b') := by
  have hm : Stopped (.error e :: rest) := .inr ⟨e, rest, rfl⟩
  induction h with
  | @stop src src' h =>
    refine ⟨nofun, fun _ items' b' h' => ?_⟩
    have g := next_carries hf m hm src
    rw [h] at g
    exact .item g h'
  | @crash src h =>
    have g := next_carries hf m hm src
    rw [h] at g
    exact ⟨fun _ => .crash g, nofun⟩
  | @item src src' r rs b h hs ih =>
    have g := next_carries hf m hm src
    rw [h] at g
    have hss : src'.sentences = src.sentences := by
      have : ∀ {r : Res (Option (Except Err Tree) × List Str)} {x}, fromLines src r = .ok (x, src') →
          src'.sentences = src.sentences := by
        intro r x hr
        unfold fromLines at hr
        obtain ⟨y, -, e⟩ := Res.bind_eq_ok.1 hr
        cases e
        rfl
      cases f with
      | absolute => exact absurd rfl hf.1
      | relative => exact absurd rfl hf.2
      | negra => exact this h
      | simple => exact this h
      | ptb => exact this h
      | tueba => exact this h
    refine ⟨fun hb => .item g (ih.1 hb), fun hb items' b' h' => .item g (ih.2 hb items' b' ?_)⟩
    rw [hss]; exact h'

theorem streamIo_readable {f : InFormat} {m : Bool} {src : Source} {items : List (Except Err Tree)} {b : Bool}
    (h : Stream f m src items b) : StreamIo f m ⟨src.lines.map .ok, src.sentences⟩ items b := by
  have : StreamIo f m (src.input []) items b := by
    induction h with
    | @stop src src' h =>
      obtain ⟨inp, g⟩ := next_carries' (f := f) m (more := []) (.inr rfl) src
      rw [h] at g
      exact .stop g
    | @crash src h =>
      obtain ⟨inp, g⟩ := next_carries' (f := f) m (more := []) (.inr rfl) src
      rw [h] at g
      exact .crash g
    | @item src src' r rs b h hs ih =>
      obtain ⟨inp, g⟩ := next_carries' (f := f) m (more := []) (.inr rfl) src
      rw [h] at g
      exact .item g ih
  simpa [Source.input] using this

/-! ## Runs -/

/-- How a run ends that would finish if there was nothing but the readable lines. -/
def stopEnd : List (Except Err Str) → End
  | .error e :: _ => .exited e
  | _ => .finished

theorem loop_io (render : List Conllx.Token → Str) {f : InFormat} {m : Bool} (pick : Tree → Finset Nat → Option Nat)
    (o : Options) {more : List (Except Err Str)} (hm : f.ByLines ∧ Stopped more ∨ more = []) {src : Source}
    {items : List (Except Err Tree)} {b : Bool} (h : Stream f m src items b) :
    ∀ (fuel fuel' : Nat) (pos : Option (List PosItem)) (c : Nat), items.length < fuel → items.length < fuel' →
      ∃ extra, loopIo render f m pick o fuel' (src.input more) pos c none =
        (outputBytes render (loop f m pick o fuel src pos c).1 ++ extra,
          if (loop f m pick o fuel src pos c).2 = .finished then stopEnd more else (loop f m pick o fuel src pos c).2) ∧
        (extra ≠ [] → o.out = .negra ∧
          ((loop f m pick o fuel src pos c).2 = .panicked ∨ (loop f m pick o fuel src pos c).2 = .diverged)) := by
  induction h with
  | @stop src src' h =>
    intro fuel fuel' pos c hf hf'
    obtain ⟨k, rfl⟩ : ∃ k, fuel = k + 1 := ⟨fuel - 1, by omega⟩
    obtain ⟨k', rfl⟩ : ∃ k, fuel' = k + 1 := ⟨fuel' - 1, by omega⟩
    obtain ⟨inp, g⟩ := next_carries' m hm src
    rw [h] at g
    have e1 : loop f m pick o (k + 1) src pos c = ([], .finished) := by unfold loop; rw [h]
    have e2 : loopIo render f m pick o (k' + 1) (src.input more) pos c none = ([], stopEnd more) := by
      unfold loopIo
      rw [show nextIo f m (src.input more) = .ok ((stopItem more).1, inp) from g]
      have hs : Stopped more := hm.elim (·.2) .inl
      rcases hs with rfl | ⟨e, rest, rfl⟩ <;> rfl
    rw [e1, e2]
    exact ⟨[], by simp [outputBytes, encode], by simp⟩
  | @crash src h =>
    intro fuel fuel' pos c hf hf'
    obtain ⟨k, rfl⟩ : ∃ k, fuel = k + 1 := ⟨fuel - 1, by omega⟩
    obtain ⟨k', rfl⟩ : ∃ k, fuel' = k + 1 := ⟨fuel' - 1, by omega⟩
    obtain ⟨inp, g⟩ := next_carries' m hm src
    rw [h] at g
    have e1 : loop f m pick o (k + 1) src pos c = ([], .panicked) := by unfold loop; rw [h]
    have e2 : loopIo render f m pick o (k' + 1) (src.input more) pos c none = ([], .panicked) := by
      unfold loopIo; rw [show nextIo f m (src.input more) = .panic from g]
    rw [e1, e2]
    exact ⟨[], by simp [outputBytes, encode], by simp⟩
  | @item src src' r rs b h hs ih =>
    intro fuel fuel' pos c hf hf'
    obtain ⟨k, rfl⟩ : ∃ k, fuel = k + 1 := ⟨fuel - 1, by omega⟩
    obtain ⟨k', rfl⟩ : ∃ k, fuel' = k + 1 := ⟨fuel' - 1, by omega⟩
    obtain ⟨inp, g⟩ := next_carries' m hm src
    rw [h] at g
    have g' : nextIo f m (src.input more) = .ok (some r, src'.input more) := g
    cases r with
    | error e =>
      have e1 : loop f m pick o (k + 1) src pos c = ([], .exited e) := by unfold loop; rw [h]
      have e2 : loopIo render f m pick o (k' + 1) (src.input more) pos c none = ([], .exited e) := by unfold loopIo; rw [g']
      rw [e1, e2]
      exact ⟨[], by simp [outputBytes, encode], by simp⟩
    | ok t =>
      have L : ∀ x, convertTree pick o (nextPos pos).1 c t = x → loop f m pick o (k + 1) src pos c = match x with
          | .panic => ([], .panicked)
          | .diverge => ([], .diverged)
          | .ok (.error e) => ([], .exited e)
          | .ok (.ok (w, c)) =>
            let r := loop f m pick o k src' (nextPos pos).2 c
            (w :: r.1, r.2) := by
        rintro x rfl
        rw [loop, h]
        simp only
        cases convertTree pick o (nextPos pos).1 c t with
        | ok x => cases x <;> rfl
        | _ => rfl
      have L' : ∀ x, process pick o (nextPos pos).1 t = x →
          loopIo render f m pick o (k' + 1) (src.input more) pos c none = match x with
          | .panic => ([], .panicked)
          | .diverge => ([], .diverged)
          | .ok (.error e) => ([], .exited e)
          | .ok (.ok t') =>
            match (writeIo render o.out c t').res with
            | .panic => (encode (writeIo render o.out c t').texts.flatten, .panicked)
            | .diverge => (encode (writeIo render o.out c t').texts.flatten, .diverged)
            | .ok (.error e) => (encode (writeIo render o.out c t').texts.flatten, .exited e)
            | .ok (.ok c') =>
              let r := loopIo render f m pick o k' (src'.input more) (nextPos pos).2 c' none
              (encode (writeIo render o.out c t').texts.flatten ++ r.1, r.2) := by
        rintro x rfl
        rw [loopIo, g']
        simp only [put_none]
        cases process pick o (nextPos pos).1 t with
        | ok x =>
          cases x with
          | error e => rfl
          | ok t' =>
            simp only
            cases (writeIo render o.out c t').res with
            | ok x => cases x <;> rfl
            | _ => rfl
        | _ => rfl
      cases hp : process pick o (nextPos pos).1 t with
      | panic =>
        rw [L .panic (by unfold convertTree; rw [hp]; rfl), L' _ hp]
        exact ⟨[], by simp [outputBytes, encode], by simp⟩
      | diverge =>
        rw [L .diverge (by unfold convertTree; rw [hp]; rfl), L' _ hp]
        exact ⟨[], by simp [outputBytes, encode], by simp⟩
      | ok x =>
        cases x with
        | error e =>
          rw [L (.ok (.error e)) (by unfold convertTree; rw [hp]; rfl), L' _ hp]
          exact ⟨[], by simp [outputBytes, encode], by simp⟩
        | ok t' =>
          have W := writeIo_spec render o.out c t'
          rw [L (write o.out c t') (by unfold convertTree; rw [hp]; rfl), L' _ hp]
          revert W
          generalize write o.out c t' = y
          intro W
          cases y with
          | panic =>
            simp only [W.1]
            refine ⟨encode (writeIo render o.out c t').texts.flatten, by simp [outputBytes, encode], fun hne => ⟨?_, by simp⟩⟩
            by_contra hn
            rw [W.2 hn] at hne
            exact hne rfl
          | diverge =>
            simp only [W.1]
            refine ⟨encode (writeIo render o.out c t').texts.flatten, by simp [outputBytes, encode], fun hne => ⟨?_, by simp⟩⟩
            by_contra hn
            rw [W.2 hn] at hne
            exact hne rfl
          | ok x =>
            cases x with
            | error e =>
              simp only [W.1, W.2]
              exact ⟨[], by simp [outputBytes, encode], by simp⟩
            | ok w =>
              obtain ⟨w, c'⟩ := w
              obtain ⟨extra, i1, i2⟩ := ih k k' (nextPos pos).2 c' (by simp at hf; omega) (by simp at hf'; omega)
              have w1 := W.1
              have w2 := W.2
              refine ⟨extra, ?_, i2⟩
              simp only [w1]
              rw [i1, w2]
              simp [outputBytes, encode_append]

theorem main_io (render : List Conllx.Token → Str) (f : InFormat) (m : Bool) (pick : Tree → Finset Nat → Option Nat)
    (o : Options) {more : List (Except Err Str)} (hm : f.ByLines ∧ Stopped more ∨ more = []) (src : Source)
    (pos : Option (List PosItem)) :
    ∃ extra, mainIo render f m pick o (src.input more) pos none = (outputBytes render (main f m pick o src pos).1 ++ extra,
        if (main f m pick o src pos).2 = .finished then stopEnd more else (main f m pick o src pos).2) ∧
      (extra ≠ [] → o.out = .negra ∧ ((main f m pick o src pos).2 = .panicked ∨ (main f m pick o src pos).2 = .diverged)) := by
  obtain ⟨items, b, h1, h2, -⟩ := stream_exists f m _ src (Nat.le_refl _)
  unfold Source.size at h2
  exact loop_io render pick o hm h1 _ _ pos 0 (by omega) (by simp [Source.input]; omega)

/-! ## A full output -/

theorem loop_room (render : List Conllx.Token → Str) (f : InFormat) (m : Bool) (pick : Tree → Finset Nat → Option Nat)
    (o : Options) : ∀ (fuel : Nat) (inp : Input) (pos : Option (List PosItem)) (c n : Nat),
    loopIo render f m pick o fuel inp pos c (some n) =
      if (loopIo render f m pick o fuel inp pos c none).1.length ≤ n then loopIo render f m pick o fuel inp pos c none
      else ((loopIo render f m pick o fuel inp pos c none).1.take n, .exited (.parse 43)) := by
  intro fuel
  induction fuel with
  | zero => intro inp pos c n; simp [loopIo]
  | succ fuel ih =>
    intro inp pos c n
    unfold loopIo
    cases nextIo f m inp with
    | panic => simp
    | diverge => simp
    | ok x =>
      obtain ⟨x, inp'⟩ := x
      cases x with
      | none => simp
      | some r =>
        cases r with
        | error e => simp
        | ok t =>
          simp only
          cases process pick o (nextPos pos).1 t with
          | panic => simp
          | diverge => simp
          | ok x =>
            cases x with
            | error e => simp
            | ok t' =>
              simp only [put_none, put_some]
              generalize writeIo render o.out c t' = w
              by_cases hl : (encode w.texts.flatten).length ≤ n
              · rw [if_pos hl]
                simp only
                cases w.res with
                | panic => simp [hl]
                | diverge => simp [hl]
                | ok x =>
                  cases x with
                  | error e => simp [hl]
                  | ok c' =>
                    simp only
                    rw [ih]
                    simp only [List.length_append]
                    by_cases hl' : (loopIo render f m pick o fuel inp' (nextPos pos).2 c' none).1.length ≤
                        n - (encode w.texts.flatten).length
                    · rw [if_pos hl', if_pos (by omega)]
                    · rw [if_neg hl', if_neg (by omega)]
                      simp only [List.take_append, Prod.mk.injEq, and_true]
                      rw [List.take_of_length_le hl]
              · rw [if_neg hl]
                simp only
                cases w.res with
                | panic => simp [hl]
                | diverge => simp [hl]
                | ok x =>
                  cases x with
                  | error e => simp [hl]
                  | ok c' =>
                    simp only [List.length_append]
                    rw [if_neg (by omega)]
                    simp only [List.take_append, Prod.mk.injEq, and_true]
                    rw [show n - (encode w.texts.flatten).length = 0 by omega]
                    simp

end Convert
end Lumberjack
