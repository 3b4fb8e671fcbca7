import Verif.Proofs.TruncateBracket
import Verif.Proofs.TruncateNegra
import Verif.Proofs.Stable

/-!
# Cutting a bracketed file that was written
-/

namespace Lumberjack
namespace Ptb

open Lumberjack.Tree Lumberjack.Bracketed Lumberjack.Convert

/-- White space cannot be cut off from a bracketing that ends with a bracket. -/
theorem piece_space {s q d : Str} (h : s.getLast? = some ')') (hd : Space d) (e : s = q ++ d) : q = s := by
  by_cases h0 : d = []
  · rw [e, h0, List.append_nil]
  · rw [e, List.getLast?_append_of_ne_nil _ h0] at h
    have := hd _ (List.mem_of_getLast? h)
    rcases this with h | h | h <;> exact absurd h (by decide)

theorem piece_part {s part : Str} (h : Piece s) (hp : part <+: s) (h0 : part ≠ []) :
    part.head? = some '(' ∧ '\n' ∉ part := by
  refine ⟨?_, fun hn => h.1 (hp.subset hn)⟩
  obtain ⟨d, e⟩ := hp
  have := h.2.1
  rwa [← e, List.head?_append_of_ne_nil _ h0] at this

/-- What is read from lines that were written, if the last is not complete. -/
theorem pieces_cut {f : Format} {ls : List Str} (m : Bool) (h : ∀ l ∈ ls, Piece l) {ts : List Tree}
    (ht : List.Forall₂ (fun l t => stringToTree f l = .ok (.ok t)) ls ts) {i : Nat} {s part : Str}
    (hi : ls[i]? = some s) (hp : part <+: s) :
    ∃ tail : List (Except Err Tree),
      (∀ fuel, (Negra.lines (Negra.unlines (ls.take i) ++ part)).length < fuel →
        readAll f (if m then .multi else .single) fuel (Negra.lines (Negra.unlines (ls.take i) ++ part)) =
          .ok ((ts.take i).map .ok ++ tail)) ∧
      (part = s → ∃ t, ts[i]? = some t ∧ tail = [.ok t]) ∧
      (part ≠ s → m = true ∨ part = [] → tail = []) ∧
      (part ≠ s → m = false ∧ part ≠ [] → ∃ e, tail = [.error e]) := by
  have hs : Piece s := h s (List.mem_of_getElem? hi)
  obtain ⟨t, hti, hst⟩ := Negra.forall₂_right ht hi
  have htake : ∀ l ∈ ls.take i, Piece l := fun l hl => h l (List.mem_of_mem_take hl)
  have ht' : List.Forall₂ (fun l t => stringToTree f l = .ok (.ok t)) (ls.take i) (ts.take i) := List.forall₂_take i ht
  have hl : Negra.lines (Negra.unlines (ls.take i) ++ part) = ls.take i ++ Negra.lines part :=
    Negra.lines_append (fun l hl => ⟨(htake l hl).1, (htake l hl).tight⟩) part
  rw [hl]
  have hfilter : ∀ xs : List Str, (∀ l ∈ xs, l.head? = some '(') → xs.filter (fun l => l.head? ≠ some '%') = xs := by
    intro xs hx
    refine List.filter_eq_self.2 fun l hl => ?_
    rw [hx l hl]; decide
  have single : ∀ {xs : List Str} {items : List (Except Err Tree)}, (∀ l ∈ xs, l.head? = some '(') →
      List.Forall₂ (fun l r => stringToTree f l = .ok r) xs items → ∀ fuel, xs.length < fuel →
      readAll f .single fuel xs = .ok items := by
    intro xs items hx hF fuel hf
    obtain ⟨items', h1, h2⟩ := readAll_single f fuel xs hf
    rw [hfilter xs hx] at h2
    rw [h1, items_unique h2 hF]
  have multi : ∀ {xs texts : List Str} {items : List (Except Err Tree)}, Groups xs texts →
      List.Forall₂ (fun l r => stringToTree f l = .ok r) texts items → ∀ fuel, xs.length < fuel →
      readAll f .multi fuel xs = .ok items := by
    intro xs texts items hx hF fuel hf
    obtain ⟨items', h1, h2⟩ := Props.C47_multi_line f xs texts hx fuel hf
    rw [h1, items_unique h2 hF]
  have hok : List.Forall₂ (fun l (r : Except Err Tree) => stringToTree f l = .ok r) (ls.take i) ((ts.take i).map .ok) :=
    List.forall₂_map_right_iff.2 ht'
  have hheads : ∀ l ∈ ls.take i, l.head? = some '(' := fun l hl => (htake l hl).2.1
  by_cases hps : part = s
  · subst hps
    have hne : part ≠ [] := by rintro rfl; cases hs.2.1
    rw [Negra.lines_one hs.1 hne]
    have hok' : List.Forall₂ (fun l (r : Except Err Tree) => stringToTree f l = .ok r) (ls.take i ++ [part])
        ((ts.take i).map .ok ++ [.ok t]) := List.rel_append hok (.cons hst .nil)
    have hall : ∀ l ∈ ls.take i ++ [part], Piece l := by
      intro l hl
      rcases List.mem_append.1 hl with hl | hl
      · exact htake l hl
      · rw [List.mem_singleton.1 hl]; exact hs
    refine ⟨[.ok t], fun fuel hf => ?_, fun _ => ⟨t, hti, rfl⟩, fun h => absurd rfl h, fun h => absurd rfl h⟩
    cases m with
    | true => exact multi (groups_pieces hall) hok' fuel hf
    | false => exact single (fun l hl => (hall l hl).2.1) hok' fuel hf
  · by_cases h0 : part = []
    · subst h0
      rw [Negra.lines_nil, List.append_nil]
      refine ⟨[], fun fuel hf => ?_, fun h => absurd h hps, fun _ _ => rfl, fun _ h => absurd rfl h.2⟩
      rw [List.append_nil]
      cases m with
      | true => exact multi (groups_pieces htake) hok fuel hf
      | false => exact single hheads hok fuel hf
    · obtain ⟨p1, p2⟩ := piece_part hs hp h0
      rw [Negra.lines_one p2 h0]
      cases m with
      | true =>
        refine ⟨[], fun fuel hf => ?_, fun h => absurd h hps, fun _ _ => rfl, fun _ h => by cases h.1⟩
        rw [List.append_nil]
        refine multi (texts := ls.take i) ?_ hok fuel hf
        have hopen : Groups [part] [] := by
          refine .tail ?_ ?_
          · intro l hl
            cases hl
            rintro (rfl | hx)
            · exact h0 rfl
            · rw [p1] at hx; cases hx
          · intro p hp' hne
            have : p = [part] := by
              rcases List.prefix_cons_iff.1 hp' with rfl | ⟨q, rfl, hq⟩
              · exact absurd rfl hne
              · rw [List.prefix_nil.1 hq]
            subst this
            unfold OpenEnd
            simp only [List.flatten_cons, List.flatten_nil, List.append_nil]
            obtain ⟨b, hb, hr⟩ := parsed_reads hst
            rcases Nat.lt_or_eq_of_le ((reads_bal hr).2 part hp) with hlt | heq
            · exact hlt
            · obtain ⟨d, hd, e⟩ := single_closed hr hb hp (List.mem_of_head? p1) heq.symm
              exact absurd (piece_space hs.2.2.1 hd e) hps
        have happ : ∀ xs : List Str, (∀ l ∈ xs, Piece l) → Groups (xs ++ [part]) xs := by
          intro xs hx
          induction xs with
          | nil => exact hopen
          | cons x xs ih =>
            have := Groups.group (hx x (by simp)).group (ih fun l hl => hx l (by simp [hl]))
            simpa using this
        exact happ _ htake
      | false =>
        obtain ⟨r, hr, hrt⟩ := Props.C45_parsing_total f part
        obtain ⟨e, rfl⟩ : ∃ e, r = .error e := by
          cases r with
          | error e => exact ⟨e, rfl⟩
          | ok u =>
            obtain ⟨-, d, hd, e⟩ := parsed_prefix hp hr hst
            exact absurd (piece_space hs.2.2.1 hd e) hps
        refine ⟨[.error e], fun fuel hf => ?_, fun h => absurd h hps, fun _ h => ?_, fun _ _ => ⟨e, rfl⟩⟩
        · refine single ?_ (List.rel_append hok (.cons hr .nil)) fuel hf
          intro l hl
          rcases List.mem_append.1 hl with hl | hl
          · exact hheads l hl
          · rw [List.mem_singleton.1 hl]; exact p1
        · rcases h with h | h
          · cases h
          · exact absurd h h0

/-- The lines written for trees. -/
theorem written_pieces {f : Format} {ts : List Tree} (h : ∀ t ∈ ts, t.WF ∧ t.isProjective = true ∧ t.Writable f) :
    ∃ (ls : List Str) (ts' : List Tree), List.Forall₂ (fun t s => treeToString f t = .ok (.ok s)) ts ls ∧
      (∀ l ∈ ls, Piece l) ∧ List.Forall₂ (fun l t => stringToTree f l = .ok (.ok t)) ls ts' ∧
      List.Forall₂ (fun t t' => ∀ F, t.Is F → t'.Is (F.written f)) ts ts' := by
  induction ts with
  | nil => exact ⟨[], [], .nil, by simp, .nil, .nil⟩
  | cons t ts ih =>
    obtain ⟨ls, ts', h1, h2, h3, h4⟩ := ih fun u hu => h u (by simp [hu])
    obtain ⟨W, hp, hw⟩ := h t (by simp)
    obtain ⟨F, hF⟩ := W.is_exists
    obtain ⟨s, t', g1, g2, g3, g4, g5⟩ := round_trip W hp hF (Rep.clean hw hF)
    obtain ⟨s', k1, k2⟩ := treeToString_ok W hp hF f
    rw [k1] at g1; cases g1
    refine ⟨s :: ls, t' :: ts', .cons k1 h1, ?_, .cons g2 h3, .cons (fun G hG => by rwa [Rep.unique hG hF]) h4⟩
    intro l hl
    rcases List.mem_cons.1 hl with rfl | hl
    · exact pieces (sep := sepOf f) (by cases f <;> simp [sepOf])
        (brackets_wordy (W.is_seq hp hF).1 (Rep.clean hw hF)) l (by rw [k2]; simp)
    · exact h2 l hl

end Ptb
end Lumberjack
