import Verif.Proofs.IoBytes
import Verif.Proofs.TruncateWritten

/-!
# Files of bytes that were cut
-/

namespace Lumberjack

open Lumberjack.Io Lumberjack.Convert

theorem Io.length_encode (s : Str) : s.length ≤ (encode s).length := by
  induction s with
  | nil => simp
  | cons c s ih =>
    have := List.length_pos_iff.2 (encode_ne_nil c)
    rw [encode_cons, List.length_append, List.length_cons]
    omega

theorem Io.feeds_end {X d a : Str} (h : X ++ ['\n', '\n'] = a ++ d) (hd : d.length ≤ 2) : ∀ c ∈ d, c = '\n' := by
  have h1 : d <:+ ['\n', '\n'] := by
    have h2 : d <:+ X ++ ['\n', '\n'] := ⟨a, h.symm⟩
    exact List.suffix_of_suffix_length_le h2 (List.suffix_append _ _) hd
  intro c hc
  have := h1.subset hc
  simpa using this

theorem Io.encode_feeds {d : Str} (h : ∀ c ∈ d, c = '\n') : (encode d).length = d.length := by
  induction d with
  | nil => rfl
  | cons c d ih =>
    rw [encode_cons, h c (by simp)]
    have := ih fun x hx => h x (by simp [hx])
    have e : (String.utf8EncodeChar '\n').length = 1 := rfl
    simp [e, this]
    omega

theorem Io.feed_length {c : Char} (h : 1 < (String.utf8EncodeChar c).length) : c ≠ '\n' := by
  rintro rfl
  exact absurd h (by decide)

/-- A text that ends with a line feed and is among the bytes before a cut is among the complete lines. -/
theorem Io.whole_before {A B u v : Str} {c : Char} {r : Bytes} (hA : A = [] ∨ ∃ w, A = w ++ ['\n'])
    (hAB : A <+: B) (huv : u ++ v ++ [c] <+: B) (hv : '\n' ∉ v) (hr : r.length < (String.utf8EncodeChar c).length)
    (h : (encode A).length ≤ (encode (u ++ v) ++ r).length) : A <+: u := by
  have h1 : A.length ≤ (u ++ v).length := by
    by_contra hc
    have hp : u ++ v ++ [c] <+: A := List.prefix_of_prefix_length_le huv hAB (by simp at hc ⊢; omega)
    obtain ⟨z, rfl⟩ := hp
    rw [encode_append, encode_append (u ++ v)] at h
    simp [encode] at h hr
    omega
  have h2 : A <+: u ++ v := List.prefix_of_prefix_length_le hAB ((List.prefix_append _ _).trans huv) h1
  by_cases h3 : A.length ≤ u.length
  · exact List.prefix_of_prefix_length_le h2 (List.prefix_append _ _) h3
  · have h4 : u <+: A := List.prefix_of_prefix_length_le (List.prefix_append _ _) h2 (by omega)
    obtain ⟨a, rfl⟩ := h4
    have h5 : a <+: v := (List.prefix_append_right_inj _).1 h2
    have ha : a ≠ [] := by rintro rfl; simp at h3
    rcases hA with hA | ⟨w, hA⟩
    · simp [ha] at hA
    · have : (u ++ a).getLast? = some '\n' := by rw [hA]; simp
      rw [List.getLast?_append_of_ne_nil _ ha] at this
      exact absurd (h5.subset (List.mem_of_getLast? this)) hv

theorem Negra.unlines_ends (ls : List Str) : unlines ls = [] ∨ ∃ w, unlines ls = w ++ ['\n'] := by
  rcases List.eq_nil_or_concat ls with rfl | ⟨xs, x, rfl⟩
  · exact .inl rfl
  · exact .inr ⟨unlines xs ++ x, by simp [unlines]⟩

theorem Negra.block_ends (bs : List (List Str)) {b : List Str} {t' : Tree} (hb : Block b t') :
    ∃ X, unlines (blockLines (bs ++ [b])) = X ++ ['\n', '\n'] := by
  obtain ⟨id, info, rows, T, N, rfl, -⟩ := hb.shape
  refine ⟨unlines (blockLines bs) ++ unlines (header (Tree.natToStr id) info :: rows) ++ footer (Tree.natToStr id), ?_⟩
  rw [unlines_flat]
  simp [unlines]

/-- What is read from the bytes of a file of which the end of the `i`-th sentence is missing. -/
theorem Negra.file_cut_bytes (m : Bool) (ss : List (Option (List Conllx.Token))) {bs : List (List Str)} {ts' : List Tree}
    (h : List.Forall₂ Block bs ts') {i : Nat} (hi : i < bs.length)
    {p : Bytes} (h1 : encode (unlines (blockLines (bs.take i))) <+: p)
    (h2 : p <+: encode (unlines (blockLines (bs.take (i + 1))))) :
    ∃ tail : List (Except Err Tree), StreamIo .negra m ⟨byteLines p, ss⟩ ((ts'.take i).map .ok ++ tail) true ∧
      if (encode (unlines (blockLines (bs.take (i + 1))))).length ≤ p.length + 2 then ∃ t', ts'[i]? = some t' ∧ tail = [.ok t']
      else tail = [] ∨ ∃ e, tail = [.error e] := by
  have hb : bs[i]? = some bs[i] := List.getElem?_eq_getElem hi
  obtain ⟨t', ht', B⟩ := forall₂_right h hb
  obtain ⟨X, hX⟩ : ∃ X, unlines (blockLines (bs.take (i + 1))) = X ++ ['\n', '\n'] := by
    rw [List.take_add_one, hb, Option.toList_some]
    exact block_ends _ B
  have hAB : unlines (blockLines (bs.take i)) <+: unlines (blockLines (bs.take (i + 1))) := by
    rw [List.take_add_one, hb, Option.toList_some, unlines_flat]
    exact List.prefix_append _ _
  have hf : InFormat.ByLines .negra := ⟨nofun, nofun⟩
  rcases byteLines_cut h2 with ⟨q, hq, rfl, hl⟩ | ⟨u, v, c, r, e, g1, g2, g3, rfl, g4, g5, hl⟩
  · obtain ⟨x, hx⟩ := h1
    obtain ⟨s', rfl, -⟩ := encode_prefix hx
    obtain ⟨tail, k1, k2⟩ := file_cut h hi (List.prefix_append _ s') hq
    refine ⟨tail, ?_, ?_⟩
    · rw [hl]
      exact streamIo_readable (src := ⟨_, ss⟩) (negra_stream m _ _ ss _ (k1 _ (Nat.lt_succ_self _))).1
    · obtain ⟨d, hd⟩ := hq
      rw [hX] at hd
      have e1 : (unlines (blockLines (bs.take (i + 1)))).length = (unlines (blockLines (bs.take i)) ++ s').length + d.length := by
        rw [hX, ← hd, List.length_append (bs := d)]
      have e2 : (encode (unlines (blockLines (bs.take (i + 1))))).length =
          (encode (unlines (blockLines (bs.take i)) ++ s')).length + (encode d).length := by
        rw [hX, ← hd, encode_append, List.length_append]
      rw [e1] at k2
      rw [e2]
      by_cases hc : d.length ≤ 2
      · rw [if_pos (by omega)] at k2
        rw [if_pos (by rw [encode_feeds (feeds_end hd.symm hc)]; omega)]
        exact k2
      · rw [if_neg (by omega)] at k2
        have := length_encode d
        rw [if_neg (by omega)]
        exact k2
  · have h1' := h1.length_le
    have hu : unlines (blockLines (bs.take i)) <+: u := whole_before (unlines_ends _) hAB g1 g3 g5 h1'
    have hc1 : 1 < (String.utf8EncodeChar c).length := by
      have := List.length_pos_iff.2 g4
      omega
    have hc := feed_length hc1
    obtain ⟨d, hd⟩ := g1
    rw [hX] at hd
    have hd2 : 2 ≤ d.length := by
      by_contra hn
      refine hc (feeds_end (X := X) (a := u ++ v) (d := c :: d) (by rw [← hd]; simp) (by simp; omega) c (by simp))
    have full : Stream .negra m ⟨lines (unlines (blockLines (bs.take (i + 1)))), ss⟩ ((ts'.take (i + 1)).map .ok) true := by
      obtain ⟨tail, k1, k2⟩ := file_cut h hi hAB (List.prefix_refl _)
      rw [if_pos (by omega)] at k2
      obtain ⟨t'', e1, rfl⟩ := k2
      have := (negra_stream m _ _ ss _ (k1 _ (Nat.lt_succ_self _))).1
      rw [List.take_add_one (l := ts'), e1]
      simpa using this
    obtain ⟨k, -, k1, k2⟩ := stream_cut (u := u) (more := v ++ c :: d) hf full g2 (by rw [hX, ← hd]; simp) e
    have hu2 : u <+: unlines (blockLines (bs.take (i + 1))) := ⟨v ++ c :: d, by rw [hX, ← hd]; simp⟩
    obtain ⟨tail, j1, j2⟩ := file_cut h hi hu hu2
    have j3 := (negra_stream m _ _ ss _ (j1 _ (Nat.lt_succ_self _))).1
    have j4 := (k1.unique j3).1
    have e1 : (unlines (blockLines (bs.take (i + 1)))).length = u.length + v.length + 1 + d.length := by
      rw [hX, ← hd]; simp only [List.length_append, List.length_cons, List.length_nil]
    rw [if_neg (by omega)] at j2
    have ht : tail = [] := by
      rcases j2 with j2 | ⟨e', rfl⟩
      · exact j2
      · exfalso
        have : (Except.error e' : Except Err Tree) ∈ ((ts'.take (i + 1)).take k).map .ok := by rw [j4]; simp
        obtain ⟨x, -, hx⟩ := List.mem_map.1 this
        cases hx
    refine ⟨[.error e], ?_, ?_⟩
    · rw [hl]
      rw [ht, List.append_nil] at j4
      rw [← j4]
      exact k2
    · have e2 : (encode (unlines (blockLines (bs.take (i + 1))))).length =
          (encode (u ++ v)).length + (String.utf8EncodeChar c).length + (encode d).length := by
        rw [hX, ← hd, encode_append, encode_append (u ++ v)]
        simp only [List.length_append, encode, List.flatMap_singleton]
      have := length_encode d
      rw [if_neg (by rw [e2]; simp only [List.length_append]; omega)]
      exact .inr ⟨e, rfl⟩

/-- A line that cannot be read is where the run ends, if it gets there. -/
theorem Convert.loop_stop (render : List Conllx.Token → Str) {f : InFormat} {m : Bool} (pick : Tree → Finset Nat → Option Nat)
    (o : Options) (hf : f.ByLines) (e : Err) (rest : List (Except Err Str)) {src : Source}
    {items : List (Except Err Tree)} {b : Bool} (h : Stream f m src items b) :
    ∀ (fuel fuel' : Nat) (pos : Option (List PosItem)) (c : Nat) (room : Option Nat), items.length < fuel → items.length < fuel' →
      loopIo render f m pick o fuel' (src.input (.error e :: rest)) pos c room =
        ((loopIo render f m pick o fuel (src.input []) pos c room).1,
          if (loopIo render f m pick o fuel (src.input []) pos c room).2 = .finished then .exited e
          else (loopIo render f m pick o fuel (src.input []) pos c room).2) := by
  have hm : Stopped (.error e :: rest) := .inr ⟨e, rest, rfl⟩
  have hn : Stopped ([] : List (Except Err Str)) := .inl rfl
  induction h with
  | @stop src src' h =>
    intro fuel fuel' pos c room hf1 hf2
    obtain ⟨k, rfl⟩ : ∃ k, fuel = k + 1 := ⟨fuel - 1, by omega⟩
    obtain ⟨k', rfl⟩ : ∃ k, fuel' = k + 1 := ⟨fuel' - 1, by omega⟩
    have g1 := next_carries hf m hm src
    have g2 := next_carries hf m hn src
    rw [h] at g1 g2
    rw [loopIo, loopIo, show nextIo f m _ = _ from g1, show nextIo f m _ = _ from g2]
    simp [stopItem]
  | @crash src h =>
    intro fuel fuel' pos c room hf1 hf2
    obtain ⟨k, rfl⟩ : ∃ k, fuel = k + 1 := ⟨fuel - 1, by omega⟩
    obtain ⟨k', rfl⟩ : ∃ k, fuel' = k + 1 := ⟨fuel' - 1, by omega⟩
    have g1 := next_carries hf m hm src
    have g2 := next_carries hf m hn src
    rw [h] at g1 g2
    rw [loopIo, loopIo, show nextIo f m _ = _ from g1, show nextIo f m _ = _ from g2]
    simp
  | @item src src' r rs b h hs ih =>
    intro fuel fuel' pos c room hf1 hf2
    obtain ⟨k, rfl⟩ : ∃ k, fuel = k + 1 := ⟨fuel - 1, by omega⟩
    obtain ⟨k', rfl⟩ : ∃ k, fuel' = k + 1 := ⟨fuel' - 1, by omega⟩
    have g1 := next_carries hf m hm src
    have g2 := next_carries hf m hn src
    rw [h] at g1 g2
    rw [loopIo, loopIo, show nextIo f m _ = _ from g1, show nextIo f m _ = _ from g2]
    cases r with
    | error e' => simp
    | ok t =>
      simp only
      cases process pick o (nextPos pos).1 t with
      | panic => simp
      | diverge => simp
      | ok x =>
        cases x with
        | error e' => simp
        | ok t' =>
          simp only
          generalize put room (writeIo render o.out c t').texts = y
          obtain ⟨y, z⟩ := y
          cases z with
          | none => simp
          | some room' =>
            simp only
            cases (writeIo render o.out c t').res with
            | panic => simp
            | diverge => simp
            | ok x =>
              cases x with
              | error e' => simp
              | ok c' =>
                simp only
                rw [ih k k' (nextPos pos).2 c' room' (by simp at hf1; omega) (by simp at hf2; omega)]

theorem Convert.main_stop (render : List Conllx.Token → Str) {f : InFormat} (m : Bool) (pick : Tree → Finset Nat → Option Nat)
    (o : Options) (hf : f.ByLines) (e : Err) (rest : List (Except Err Str)) (src : Source)
    (pos : Option (List PosItem)) (room : Option Nat) :
    mainIo render f m pick o (src.input (.error e :: rest)) pos room =
      ((mainIo render f m pick o (src.input []) pos room).1,
        if (mainIo render f m pick o (src.input []) pos room).2 = .finished then .exited e
        else (mainIo render f m pick o (src.input []) pos room).2) := by
  obtain ⟨items, b, h1, h2, -⟩ := stream_exists f m _ src (Nat.le_refl _)
  unfold Source.size at h2
  exact loop_stop render pick o hf e rest h1 _ _ pos 0 room (by simp [Source.input]; omega) (by simp [Source.input]; omega)

theorem Convert.negra_readAll {m : Bool} {src : Source} {items : List (Except Err Tree)} {b : Bool}
    (h : Stream .negra m src items b) (hb : b = true) : ∃ fuel, Negra.readAll fuel src.lines = .ok items := by
  have key : ∀ {src : Source} {x src'}, next .negra m src = .ok (x, src') →
      Negra.readerNext src.lines = .ok (x, src'.lines) := by
    intro src x src' h
    obtain ⟨⟨y, ls⟩, h1, h2⟩ := Res.bind_eq_ok.1 (show fromLines src (Negra.readerNext src.lines) = _ from h)
    cases h2
    exact h1
  induction h with
  | stop h => exact ⟨1, by rw [Negra.readAll, key h]; rfl⟩
  | crash h => cases hb
  | item h _ ih =>
    obtain ⟨fuel, g⟩ := ih hb
    exact ⟨fuel + 1, by rw [Negra.readAll, key h, Res.ok_bind]; simp only [g]; rfl⟩

theorem Convert.ptb_stream' (f : Ptb.Format) (m : Bool) (fuel : Nat) (lines : List Str)
    (ss : List (Option (List Conllx.Token))) (items : List (Except Err Tree))
    (h : Ptb.readAll f (if m then .multi else .single) fuel lines = .ok items) :
    Stream (bracketInput f) m ⟨lines, ss⟩ items true := by
  cases f with
  | ptb => exact (ptb_stream .ptb .ptb m (fun _ => rfl) _ _ ss items h).1
  | simple => exact (ptb_stream .simple .simple m (fun _ => rfl) _ _ ss items h).1
  | tueba => exact (ptb_stream .tueba .tueba m (fun _ => rfl) _ _ ss items h).1

theorem Convert.bracket_lines (f : Ptb.Format) : (bracketInput f).ByLines := by
  cases f <;> exact ⟨nofun, nofun⟩

theorem Ptb.pieces_cut_bytes {f : Format} {ls : List Str} (m : Bool) (ss : List (Option (List Conllx.Token)))
    (h : ∀ l ∈ ls, Piece l) {ts : List Tree}
    (ht : List.Forall₂ (fun l t => stringToTree f l = .ok (.ok t)) ls ts) {i : Nat} {s : Str} {x : Bytes}
    (hi : ls[i]? = some s) (hx : x <+: encode s) :
    ∃ tail : List (Except Err Tree),
      StreamIo (bracketInput f) m ⟨byteLines (encode (Negra.unlines (ls.take i)) ++ x), ss⟩ ((ts.take i).map .ok ++ tail) true ∧
      (x = encode s → ∃ t, ts[i]? = some t ∧ tail = [.ok t]) ∧
      (x ≠ encode s → tail = [] ∨ ∃ e, tail = [.error e]) := by
  have hs : Piece s := h s (List.mem_of_getElem? hi)
  obtain ⟨q, hq, rfl | ⟨c, r, h1, rfl, h2, h3, h4⟩⟩ := encode_cut hx
  · obtain ⟨tail, k1, k2, k3, k4⟩ := pieces_cut m h ht hi hq
    refine ⟨tail, ?_, fun e => k2 (encode_inj e), fun e => ?_⟩
    · rw [← encode_append, byteLines_encode]
      exact streamIo_readable (src := ⟨_, ss⟩) (ptb_stream' f m _ _ ss _ (k1 _ (Nat.lt_succ_self _)))
    · have e : q ≠ s := fun e' => e (by rw [e'])
      by_cases hc : m = true ∨ q = []
      · exact .inl (k3 e hc)
      · refine .inr (k4 e ⟨?_, fun e' => hc (.inr e')⟩)
        cases m with
        | false => rfl
        | true => exact absurd (.inl rfl) hc
  · obtain ⟨tail, k1, -, k3, -⟩ := pieces_cut m h ht hi List.nil_prefix
    have e0 : ([] : Str) ≠ s := by rintro rfl; have := hs.2.1; cases this
    have ht0 := k3 e0 (.inr rfl)
    subst ht0
    have k5 := ptb_stream' f m _ _ ss _ (k1 _ (Nat.lt_succ_self _))
    obtain ⟨e, he⟩ := decode_cut q h3 h2 h4
    have hqn : '\n' ∉ q := fun hm => hs.1 (hq.subset hm)
    have hcn : c ≠ '\n' := fun e => hs.1 (h1.subset (by simp [e]))
    have hr : (10 : UInt8) ∉ r := fun hm => hcn (line_feed (h3.subset hm))
    refine ⟨[.error e], ?_, fun e' => ?_, fun _ => .inr ⟨e, rfl⟩⟩
    · rw [byteLines_after _ _ (Nat.le_refl _) (Negra.unlines_ends _)]
      unfold byteLines
      rw [byteLinesFrom_last (by simp [encode_feed hqn, hr]), List.nil_append, if_neg (by simp [h2]), he]
      rw [List.append_nil, List.append_nil] at k5
      have := (streamIo_error (bracket_lines f) k5 e []).2 rfl [] true (by
        refine .stop (inp' := ⟨[], ss⟩) ?_
        cases f <;> cases m <;> rfl)
      exact this
    · rw [e', decode_encode] at he
      cases he

end Lumberjack
