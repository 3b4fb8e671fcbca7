import Verif.Spec.Io
import Verif.Proofs.ConvertRead

/-!
# Input and output that can fail
-/

namespace Lumberjack

open Io

/-! ## Writers -/

namespace Io

theorem encode_append (a b : Str) : encode (a ++ b) = encode a ++ encode b := List.flatMap_append ..

/-- What a sequence of calls amounts to, if in memory the result would be `r`. -/
def Calls.Does {α β : Type} (x : Calls α) (r : Res β) (text : β → Str) (val : β → α) : Prop :=
  match r with
  | .ok b => x.res = .ok (val b) ∧ x.texts.flatten = text b
  | .panic => x.res = .panic
  | .diverge => x.res = .diverge

theorem Calls.lift_ok {α β : Type} (a : α) (f : α → Calls β) : (Calls.lift (.ok a) >>= f) = f a := rfl

theorem Calls.lift_panic {α β : Type} (f : α → Calls β) : (Calls.lift .panic >>= f) = ⟨[], .panic⟩ := rfl

theorem Calls.lift_diverge {α β : Type} (f : α → Calls β) : (Calls.lift .diverge >>= f) = ⟨[], .diverge⟩ := rfl

theorem Calls.put_bind {β : Type} (s : Str) (f : Unit → Calls β) :
    (Calls.put s >>= f) = ⟨s :: (f ()).texts, (f ()).res⟩ := rfl

theorem Calls.bind_res {α β : Type} (x : Calls α) (f : α → Calls β) : (x >>= f).res = x.res >>= fun a => (f a).res := by
  show (x.andThen f).res = _
  unfold Calls.andThen
  cases x.res <;> rfl

theorem Calls.bind_texts {α β : Type} {x : Calls α} {f : α → Calls β} {a : α} (h : x.res = .ok a) :
    (x >>= f).texts = x.texts ++ (f a).texts := by
  show (x.andThen f).texts = _
  unfold Calls.andThen
  rw [h]

/-- Work that writes nothing. -/
theorem Calls.Does.lift {α β γ : Type} {r : Res α} {f : α → Calls γ} {g : α → Res β} {text : β → Str} {val : β → γ}
    (hf : ∀ a, r = .ok a → (f a).Does (g a) text val) : (Calls.lift r >>= f).Does (r >>= g) text val := by
  cases r with
  | panic => rfl
  | diverge => rfl
  | ok a => exact hf a rfl

end Io

namespace Negra

open Io

theorem terminalCalls_does (t : Tree) (ids : List (Nat × Str)) : ∀ ns,
    (terminalCalls t ids ns).Does (terminalLines t ids ns) unlines (fun _ => ())
  | [] => ⟨rfl, rfl⟩
  | n :: ns => by
    have ih := terminalCalls_does t ids ns
    unfold terminalCalls terminalLines
    refine Calls.Does.lift fun nd _ => Calls.Does.lift fun tm _ => ?_
    rw [Calls.put_bind]
    cases h : parentEdgeRep t ids n with
    | panic => rfl
    | diverge => rfl
    | ok e =>
      rw [Calls.lift_ok, Calls.put_bind]
      simp only [Res.ok_bind]
      cases h' : terminalLines t ids ns with
      | panic => rw [h'] at ih; exact ih
      | diverge => rw [h'] at ih; exact ih
      | ok ls =>
        rw [h'] at ih
        refine ⟨ih.1, ?_⟩
        have := ih.2
        simp [this, unlines]

theorem nonterminalCalls_does (t : Tree) (ids : List (Nat × Str)) : ∀ ns,
    (nonterminalCalls t ids ns).Does (nonterminalLines t ids ns) unlines (fun _ => ())
  | [] => ⟨rfl, rfl⟩
  | n :: ns => by
    have ih := nonterminalCalls_does t ids ns
    unfold nonterminalCalls nonterminalLines
    refine Calls.Does.lift fun id _ => Calls.Does.lift fun nd _ => Calls.Does.lift fun nt _ => ?_
    rw [Calls.put_bind]
    cases h : parentEdgeRep t ids n with
    | panic => rfl
    | diverge => rfl
    | ok e =>
      rw [Calls.lift_ok, Calls.put_bind]
      simp only [Res.ok_bind]
      cases h' : nonterminalLines t ids ns with
      | panic => rw [h'] at ih; exact ih
      | diverge => rw [h'] at ih; exact ih
      | ok ls =>
        rw [h'] at ih
        refine ⟨ih.1, ?_⟩
        have := ih.2
        simp [this, unlines]

theorem writeCalls_does (counter : Nat) (t : Tree) : (writeCalls counter t).Does (writeTree counter t) (·.1) (·.2) := by
  unfold writeCalls writeTree
  refine Calls.Does.lift fun x _ => ?_
  obtain ⟨id, counter'⟩ := x
  refine Calls.Does.lift fun rn _ => ?_
  have key : ∀ hd : Str, Calls.Does (do
      Calls.put (hd ++ ['\n'])
      let terminals := t.sortIndices t.terminals
      let s ← .lift (number t terminals)
      terminalCalls t s.ids terminals
      nonterminalCalls t s.ids s.nts
      .put (eos ++ [' '] ++ id ++ ['\n', '\n'])
      return counter') (do
      let terminals := t.sortIndices t.terminals
      let s ← number t terminals
      let tl ← terminalLines t s.ids terminals
      let nl ← nonterminalLines t s.ids s.nts
      return (unlines (hd :: (tl ++ nl ++ [eos ++ [' '] ++ id, []])), counter')) (·.1) (·.2) := by
    intro hd
    rw [Calls.put_bind]
    simp only
    cases hn : number t (t.sortIndices t.terminals) with
    | panic => rfl
    | diverge => rfl
    | ok s =>
      simp only [Calls.lift_ok, Res.ok_bind]
      have h1 := terminalCalls_does t s.ids (t.sortIndices t.terminals)
      have h2 := nonterminalCalls_does t s.ids s.nts
      cases e1 : terminalLines t s.ids (t.sortIndices t.terminals) with
      | panic => rw [e1] at h1; simp only [Calls.Does, Calls.bind_res, Res.panic_bind]; rw [show _ = Res.panic from h1]; rfl
      | diverge => rw [e1] at h1; simp only [Calls.Does, Calls.bind_res]; rw [show _ = Res.diverge from h1]; rfl
      | ok tl =>
        rw [e1] at h1
        simp only [Res.ok_bind]
        cases e2 : nonterminalLines t s.ids s.nts with
        | panic =>
          rw [e2] at h2
          simp only [Calls.Does, Calls.bind_res]
          rw [h1.1, Res.ok_bind, show _ = Res.panic from h2]; rfl
        | diverge =>
          rw [e2] at h2
          simp only [Calls.Does, Calls.bind_res]
          rw [h1.1, Res.ok_bind, show _ = Res.diverge from h2]; rfl
        | ok nl =>
          rw [e2] at h2
          refine ⟨?_, ?_⟩
          · simp only [Calls.bind_res]
            rw [h1.1, Res.ok_bind, h2.1]; rfl
          · rw [Calls.bind_texts h1.1, Calls.bind_texts h2.1, Calls.put_bind]
            simp only [List.flatten_cons, List.flatten_append, h1.2, h2.2]
            simp [unlines, pure, Calls.ret]
  cases rn.featVal metadataKey with
  | some m => exact key _
  | none => exact key _

end Negra

namespace Convert

/-- The calls of a writer that in memory would give `r`. -/
def Agrees (render : List Conllx.Token → Str) (out : OutFormat) (r : Res (Except Err (Written × Nat)))
    (x : Calls (Except Err Nat)) : Prop :=
  match r with
  | .ok (.ok (w, c')) => x.res = .ok (.ok c') ∧ x.texts.flatten = w.textBy render
  | .ok (.error e) => x.res = .ok (.error e) ∧ x.texts = []
  | .panic => x.res = .panic ∧ (out ≠ .negra → x.texts = [])
  | .diverge => x.res = .diverge ∧ (out ≠ .negra → x.texts = [])

theorem writeIo_spec (render : List Conllx.Token → Str) (out : OutFormat) (c : Nat) (t : Tree) :
    Agrees render out (write out c t) (writeIo render out c t) := by
  have ptb : ∀ f : Ptb.Format, out ≠ .negra →
      (write out c t = do
        let r ← writePtb f t
        match r with
        | .ok s => return .ok (.text s, c)
        | .error e => return .error e) →
      (writeIo render out c t = do
        let r ← .lift (Ptb.treeToString f t)
        match r with
        | .ok s => .put (s ++ ['\n']); return .ok c
        | .error e => return .error e) → Agrees render out (write out c t) (writeIo render out c t) := by
    intro f hne h1 h2
    rw [h1, h2]
    unfold writePtb
    cases Ptb.treeToString f t with
    | panic => exact ⟨rfl, fun _ => rfl⟩
    | diverge => exact ⟨rfl, fun _ => rfl⟩
    | ok r =>
      cases r with
      | ok s => exact ⟨rfl, by simp [Calls.lift_ok, Calls.put_bind, pure, Calls.ret, Written.textBy]⟩
      | error e => exact ⟨rfl, rfl⟩
  have sent : out ≠ .negra → (write out c t = do
        let s ← Conllx.toConllx t
        return .ok (.sentence s, c)) →
      (writeIo render out c t = do
        let s ← .lift (Conllx.toConllx t)
        .put (render s)
        return .ok c) → Agrees render out (write out c t) (writeIo render out c t) := by
    intro hne h1 h2
    rw [h1, h2]
    cases Conllx.toConllx t with
    | panic => exact ⟨rfl, fun _ => rfl⟩
    | diverge => exact ⟨rfl, fun _ => rfl⟩
    | ok r => exact ⟨rfl, by simp [Calls.lift_ok, Calls.put_bind, pure, Calls.ret, Written.textBy]⟩
  cases out with
  | ptb => exact ptb .ptb (by simp) rfl rfl
  | simple => exact ptb .simple (by simp) rfl rfl
  | tueba => exact ptb .tueba (by simp) rfl rfl
  | absolute => exact sent (by simp) rfl rfl
  | relative => exact sent (by simp) rfl rfl
  | conllx => exact sent (by simp) rfl rfl
  | negra =>
    have h := Negra.writeCalls_does c t
    have e1 : write .negra c t = do
      let (s, c) ← Negra.writeTree c t
      return .ok (.text s, c) := rfl
    have e2 : writeIo render .negra c t = do
      let c ← Negra.writeCalls c t
      return .ok c := rfl
    rw [e1, e2]
    cases hw : Negra.writeTree c t with
    | panic => rw [hw] at h; exact ⟨by rw [Calls.bind_res, show _ = Res.panic from h]; rfl, fun h => absurd rfl h⟩
    | diverge => rw [hw] at h; exact ⟨by rw [Calls.bind_res, show _ = Res.diverge from h]; rfl, fun h => absurd rfl h⟩
    | ok x =>
      rw [hw] at h
      refine ⟨by rw [Calls.bind_res, h.1]; rfl, ?_⟩
      rw [Calls.bind_texts h.1]
      simp [pure, Calls.ret, Written.textBy, h.2]

theorem put_none : ∀ ss : List Str, put none ss = (encode ss.flatten, some none)
  | [] => rfl
  | s :: ss => by
    rw [put, put_none ss]
    simp [encode_append]

theorem put_some : ∀ (ss : List Str) (n : Nat), put (some n) ss =
    if (encode ss.flatten).length ≤ n then (encode ss.flatten, some (some (n - (encode ss.flatten).length)))
    else ((encode ss.flatten).take n, none)
  | [], n => by simp [put, encode]
  | s :: ss, n => by
    rw [put, put_some ss]
    simp only [List.flatten_cons, encode_append, List.length_append]
    by_cases h : (encode s).length ≤ n
    · rw [if_pos h]
      by_cases h' : (encode ss.flatten).length ≤ n - (encode s).length
      · rw [if_pos h', if_pos (by omega)]
        simp [Nat.sub_sub]
      · rw [if_neg h', if_neg (by omega)]
        simp only [List.take_append, Prod.mk.injEq, and_true]
        rw [List.take_of_length_le h]
    · rw [if_neg h, if_neg (by omega)]
      simp only [List.take_append, Prod.mk.injEq, and_true]
      rw [show n - (encode s).length = 0 by omega]
      simp

end Convert
end Lumberjack
