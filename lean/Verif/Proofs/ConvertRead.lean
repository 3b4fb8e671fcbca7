import Verif.Proofs.ConvertRun
import Verif.Proofs.NegraCopy
import Verif.Proofs.PtbOrder
import Verif.Props.ConllxRead
import Verif.Props.NegraTree

/-!
# What the conversion tool reads
-/

namespace Lumberjack
namespace Convert

open Lumberjack.Tree

variable {t t' : Tree}

/-- A bound for the number of items that are left. -/
def Source.size (src : Source) : Nat := src.lines.length + src.sentences.length

/-! ## Trees that have been read -/

/-- The trees that come from a reader. -/
structure Read (t : Tree) : Prop where
  wf : t.WF
  order : t.InOrder
  sec : t.SecondaryNt

theorem Read.suits {o : Options} (R : Read t) (h : Enough o t) : Suits o t := by
  rcases h with h | ⟨h1, h2, h3⟩
  · exact ⟨⟨R.wf, rootNt_of_two R.wf h, R.order, R.sec⟩, .inl h⟩
  · exact ⟨⟨R.wf, h1, R.order, R.sec⟩, .inr ⟨h2, h3⟩⟩

theorem ptb_read {f : Ptb.Format} {s : Str} (h : Ptb.stringToTree f s = .ok (.ok t)) : Read t := by
  obtain ⟨h1, h2⟩ := Ptb.stringToTree_order h
  refine ⟨?_, h1, h2⟩
  by_cases hb : ∃ b : Brackets, b.Single ∧ Bracketed.Reads s b
  · obtain ⟨b, hb, hr⟩ := hb
    obtain ⟨t1, h1, W, _⟩ := Ptb.stringToTree_ok (f := f) hr hb
    rw [h] at h1; cases h1
    exact W
  · rw [Ptb.stringToTree_err hb] at h; cases h

theorem decoded_read {e : AbsEncoding} {toks : List Conllx.Token} (D : Conllx.Decoded e toks t) : Read t :=
  ⟨D.wf, D.order, fun r hr hw => by rw [D.prim r hr] at hw; cases hw⟩

namespace Neg
open Negra

variable {id : Nat} {info : Option Str} {T : List TermRow} {N : List NtRow} {τ ν : Nat → Nat}

theorem described_sec (D : Described id info T N t τ ν) (hk : SecKnown T N)
    (hp : ∀ k ∈ parents T N, k ∈ 0 :: N.map (·.id)) : t.SecondaryNt := by
  have known : ∀ k ∈ secParents T N, t.IsNt (ν k) := by
    intro k h
    rcases hk k h with rfl | h
    · exact D.isNt (by simp)
    · exact D.isNt (hp k h)
  intro r hr hw
  rcases (D.sec_iff hw).1 ⟨r, hr, rfl, rfl, rfl⟩ with ⟨i, q, l, k, h1, h2, _, h3, _⟩ | ⟨q, h1, l, k, h2, _, h3, _⟩
  · rw [h3]
    refine known k (List.mem_append_left _ (List.mem_filterMap.2 ⟨q, List.mem_of_getElem? h1, by rw [h2]; rfl⟩))
  · rw [h3]
    exact known k (List.mem_append_right _ (List.mem_filterMap.2 ⟨q, h1, by rw [h2]; rfl⟩))

end Neg

open Negra in
theorem negra_read {ls rest : List Str} (h : readerNext ls = .ok (some (.ok t), rest)) (hO : Orderly ls) : Read t := by
  obtain ⟨pre, hd, body, f, id, info, T, N, rfl, h1, h2, h3, h4, h5, h6, h7, h8⟩ := (Props.C49_tree ls rest).1 ⟨t, h⟩
  obtain ⟨ho, hc⟩ := hO pre hd body f rest id info T N rfl h2 h3 h5
  obtain ⟨b, τ, i1, i2, i3, i4⟩ := sentence_inv (id := id) (info := info) h3 h4
  rw [next_outside h1, next_opens h2, i4, next_footer h5.1] at h
  rcases footer_ok i1 h5 with ⟨g1, _⟩ | ⟨_, g1, _⟩ | ⟨_, _, g1, _⟩ | ⟨g1, g2, g3, root, x, g4, g5, g6⟩
  · exact absurd h7 g1
  · exact absurd h8 g1
  · exact absurd g1 h6
  · rw [g6] at h
    simp only [Res.ok_bind, Res.pure_eq, Res.ok.injEq, Prod.mk.injEq, Option.some.injEq, Except.ok.injEq,
      and_true] at h
    subst h
    have D := finish_described i1 (i2 ho) ho h7 h8 g4 g5
    exact ⟨finish_wf i1 (i2 ho) (i3 ho hc) ho hc h6 h7 h8 g4 g5, D.in_order,
      Neg.described_sec D h7 (keys_of i1 ho h8).2.1⟩

theorem Orderly.suffix {used rest : List Str} (h : Orderly (used ++ rest)) : Orderly rest := by
  intro pre hd body f r id info T N e
  exact h (used ++ pre) hd body f r id info T N (by rw [e]; simp)

/-! ## One call of the reader -/

theorem absolute_total (s : List Conllx.Token) : Conllx.tryFromAbsolute s = .panic ∨
    (∃ e, Conllx.tryFromAbsolute s = .ok (.error e)) ∨ ∃ t, Conllx.tryFromAbsolute s = .ok (.ok t) ∧ Read t := by
  rcases Props.C59_cases "abs_ancestor".toList AbsAncestor.parse s with ⟨e, h, _⟩ | ⟨h, _⟩
  · by_cases hs : s = []
    · subst hs; exact .inl Props.C59_empty.1
    · by_cases hp : AbsPositive e
      · obtain ⟨t, h1, h2⟩ := Props.C59_absolute s hs e h hp
        exact .inr (.inr ⟨t, h1, decoded_read h2⟩)
      · exact .inl (Props.C59_zero s e h hp)
  · exact .inr (.inl ((Props.C59_error s).1 h))

theorem relative_total (s : List Conllx.Token) : Conllx.tryFromRelative s = .panic ∨
    (∃ e, Conllx.tryFromRelative s = .ok (.error e)) ∨ ∃ t, Conllx.tryFromRelative s = .ok (.ok t) ∧ Read t := by
  rcases Props.C59_cases "rel_ancestor".toList RelAncestor.parse s with ⟨e, h, _⟩ | ⟨h, _⟩
  · by_cases hs : s = []
    · subst hs; exact .inl Props.C59_empty.2
    · obtain ⟨t, h1, h2⟩ := Props.C59_relative s hs e h
      exact .inr (.inr ⟨t, h1, decoded_read h2⟩)
  · exact .inr (.inl ((Props.C59_error s).2 h))

/-- One call panics, or reports the end, or uses up some of the input; a tree is one that comes from a reader. -/
def Step (P : Prop) (src : Source) (r : Res (Option (Except Err Tree) × Source)) : Prop :=
  r = .panic ∨ (∃ src', r = .ok (none, src')) ∨
    ∃ item src', r = .ok (some item, src') ∧ src'.size < src.size ∧ (∃ used, src.lines = used ++ src'.lines) ∧
      (P → ∀ t, item = .ok t → Read t)

theorem sentences_step (P : Prop) (dec : List Conllx.Token → Res (Except Err Tree))
    (hd : ∀ s, dec s = .panic ∨ (∃ e, dec s = .ok (.error e)) ∨ ∃ t, dec s = .ok (.ok t) ∧ Read t) (src : Source) :
    Step P src (fromSentences dec src) := by
  unfold fromSentences
  cases h : src.sentences with
  | nil => exact .inr (.inl ⟨_, rfl⟩)
  | cons s rest =>
    cases s with
    | none =>
      refine .inr (.inr ⟨_, _, rfl, by simp [Source.size, h], ⟨[], rfl⟩, ?_⟩)
      intro _ t ht; cases ht
    | some s =>
      rcases hd s with h1 | ⟨e, h1⟩ | ⟨t, h1, h2⟩
      · exact .inl (by simp [h1])
      · refine .inr (.inr ⟨.error e, { src with sentences := rest }, by simp [h1], by simp [Source.size, h], ⟨[], rfl⟩, ?_⟩)
        intro _ t ht; cases ht
      · refine .inr (.inr ⟨.ok t, { src with sentences := rest }, by simp [h1], by simp [Source.size, h], ⟨[], rfl⟩, ?_⟩)
        rintro _ t' ⟨⟩; exact h2

theorem nextSingle_suffix {f : Ptb.Format} {lines rest : List Str} {r : Except Err Tree}
    (h : Ptb.nextSingle f lines = .ok (some r, rest)) : ∃ used, lines = used ++ rest := by
  induction lines with
  | nil => cases h
  | cons l ls ih =>
    rw [Ptb.nextSingle] at h
    split at h
    · obtain ⟨used, e⟩ := ih h
      exact ⟨l :: used, by rw [e]; rfl⟩
    · obtain ⟨r', hr⟩ := Ptb.stringToTree_total f l
      rw [hr] at h
      simp only [Res.ok_bind, Res.pure_eq, Res.ok.injEq, Prod.mk.injEq] at h
      exact ⟨[l], by rw [h.2]; rfl⟩

theorem ptb_step (P : Prop) (f : Ptb.Format) (lf : Ptb.LineFormat) (src : Source) :
    Step P src (fromLines src (Ptb.readerNext f lf src.lines)) := by
  unfold fromLines
  cases lf with
  | single =>
    show Step P src (Ptb.nextSingle f src.lines >>= _)
    rcases Ptb.nextSingle_spec f src.lines with ⟨h, _⟩ | ⟨l, r, rest, h1, h2, _, h4⟩
    · exact .inr (.inl ⟨_, by rw [h]; rfl⟩)
    · refine .inr (.inr ⟨r, { src with lines := rest }, by rw [h1]; rfl, by simp [Source.size]; exact h4, ?_, ?_⟩)
      · exact nextSingle_suffix h1
      · rintro _ t rfl; exact ptb_read h2
  | multi =>
    show Step P src (Ptb.nextMulti f src.lines [] 0 >>= _)
    rcases Ptb.nextMulti_spec f src.lines with ⟨s, g, rest, h1, _, hg, r, h2, h3⟩ | ⟨s, u, _, _, _, _, h⟩ | ⟨s, g, rest, _, _, _, _, _, h⟩
    · refine .inr (.inr ⟨r, { src with lines := rest }, by rw [h3]; rfl, ?_, ⟨s ++ g, by simp [h1]⟩, ?_⟩)
      · have : g ≠ [] := by
          rintro rfl
          obtain ⟨l, hl, _⟩ := hg.first
          cases hl
        have := List.length_pos_iff.2 this
        simp [Source.size, h1]; omega
      · rintro _ t rfl; exact ptb_read h2
    · exact .inr (.inl ⟨_, by rw [h]; rfl⟩)
    · exact .inl (by rw [h]; rfl)

theorem negra_step (src : Source) :
    Step (Orderly src.lines) src (fromLines src (Negra.readerNext src.lines)) := by
  unfold fromLines
  rcases Props.C49_progress src.lines with h | ⟨item, rest, used, h1, h2, h3⟩ | h
  · exact .inl (by rw [h]; rfl)
  · refine .inr (.inr ⟨item, { src with lines := rest }, by rw [h1]; rfl, ?_, ⟨used, h2⟩, ?_⟩)
    · have := List.length_pos_iff.2 h3
      simp [Source.size, h2]; omega
    · rintro hO t rfl; exact negra_read h1 hO
  · exact .inr (.inl ⟨_, by rw [h]; rfl⟩)

theorem next_step (f : InFormat) (multiline : Bool) (src : Source) :
    Step (f = .negra → Orderly src.lines) src (next f multiline src) := by
  cases f with
  | absolute => exact sentences_step _ _ absolute_total src
  | relative => exact sentences_step _ _ relative_total src
  | negra =>
    rcases negra_step src with h | h | ⟨item, src', h1, h2, h3, h4⟩
    · exact .inl h
    · exact .inr (.inl h)
    · exact .inr (.inr ⟨item, src', h1, h2, h3, fun h => h4 (h rfl)⟩)
  | ptb => exact ptb_step _ _ _ src
  | simple => exact ptb_step _ _ _ src
  | tueba => exact ptb_step _ _ _ src

/-! ## All calls -/

/-- Every input is a sequence of items. -/
theorem stream_exists (f : InFormat) (multiline : Bool) : ∀ (k : Nat) (src : Source), src.size ≤ k →
    ∃ items b, Stream f multiline src items b ∧ items.length ≤ src.size ∧
      ((f = .negra → Orderly src.lines) → ∀ t, .ok t ∈ items → Read t) := by
  intro k
  induction k with
  | zero =>
    intro src hk
    rcases next_step f multiline src with h | ⟨src', h⟩ | ⟨item, src', h1, h2, _⟩
    · exact ⟨[], false, .crash h, by simp, by simp⟩
    · exact ⟨[], true, .stop h, by simp, by simp⟩
    · omega
  | succ k ih =>
    intro src hk
    rcases next_step f multiline src with h | ⟨src', h⟩ | ⟨item, src', h1, h2, ⟨used, h3⟩, h4⟩
    · exact ⟨[], false, .crash h, by simp, by simp⟩
    · exact ⟨[], true, .stop h, by simp, by simp⟩
    · obtain ⟨items, b, g1, g2, g3⟩ := ih src' (by omega)
      refine ⟨item :: items, b, .item h1 g1, by simp; omega, fun hO t ht => ?_⟩
      rw [List.mem_cons] at ht
      rcases ht with ht | ht
      · exact h4 hO t ht.symm
      · exact g3 (fun hf => (h3 ▸ hO hf).suffix) t ht

theorem Stream.unique {f : InFormat} {multiline : Bool} {src : Source} {items items' : List (Except Err Tree)} {b b' : Bool}
    (h : Stream f multiline src items b) (h' : Stream f multiline src items' b') : items = items' ∧ b = b' := by
  induction h generalizing items' b' with
  | stop h =>
    cases h' with
    | stop h' => exact ⟨rfl, rfl⟩
    | crash h' => rw [h] at h'; cases h'
    | item h' _ => rw [h] at h'; cases h'
  | crash h =>
    cases h' with
    | stop h' => rw [h] at h'; cases h'
    | crash h' => exact ⟨rfl, rfl⟩
    | item h' _ => rw [h] at h'; cases h'
  | item h _ ih =>
    cases h' with
    | stop h' => rw [h] at h'; cases h'
    | crash h' => rw [h] at h'; cases h'
    | item h' hs =>
      rw [h] at h'
      cases h'
      obtain ⟨rfl, rfl⟩ := ih hs
      exact ⟨rfl, rfl⟩

/-! ## Runs -/

section runs
variable {o : Options} {items : List (Except Err Tree)} {b : Bool} {pos : Option (List PosItem)} {c : Nat}
  {ws : List Written} {e : End}

theorem Run.ends (h : Run o items b pos c ws e) : e ≠ .diverged ∧ (e = .panicked → b = false) := by
  induction h <;> simp_all

theorem Run.written (h : Run o items b pos c ws e) : ws.length ≤ items.length ∧
    ∀ (i : Nat) w, ws[i]? = some w → ∃ t t' tags c c', items[i]? = some (.ok t) ∧ TagsAt pos i tags ∧
      (∀ l, tags = some l → l.length = t.nTerminals) ∧ Pipeline o tags t t' ∧ Output o.out c t' w c' := by
  induction h with
  | @write t t' items b pos tags pos' c w c' ws e h1 h2 h3 h4 _ ih =>
    refine ⟨by simpa using ih.1, fun i v hv => ?_⟩
    cases i with
    | zero =>
      simp only [List.getElem?_cons_zero, Option.some.injEq] at hv
      subst hv
      refine ⟨t, t', tags, c, c', rfl, ?_, h2, h3, h4⟩
      cases h1 with
      | without => exact .inl ⟨rfl, rfl⟩
      | tags => exact .inr ⟨_, _, rfl, rfl, rfl⟩
    | succ i =>
      rw [List.getElem?_cons_succ] at hv
      obtain ⟨u, u', tg, d, d', g1, g2, g3⟩ := ih.2 i v hv
      refine ⟨u, u', tg, d, d', by simpa using g1, ?_, g3⟩
      cases h1 with
      | without =>
        rcases g2 with g2 | ⟨ps, l, g2, _⟩
        · exact .inl g2
        · cases g2
      | @tags l0 ps0 =>
        rcases g2 with ⟨g2, _⟩ | ⟨ps, l, g2, g4, g5⟩
        · cases g2
        · cases g2
          exact .inr ⟨_, l, rfl, by simpa using g4, g5⟩
  | _ => exact ⟨by simp, by simp⟩

/-- Every tree is written if there are tags for its words and the format holds it. -/
theorem Run.complete (h : Run o items b pos c ws e) (hS : ∀ t, .ok t ∈ items → Suits o t)
    (hp : ∀ ps, pos = some ps → ∀ (i : Nat) (t : Tree), items[i]? = some (.ok t) → ∃ l, ps[i]? = some (.ok l) ∧ l.length = t.nTerminals)
    (hb : b = true) (hi : ∀ x ∈ items, ∃ t, x = .ok t)
    (hg : HoldsGaps o.out ∨ (o.reattachLabel = none ∧ (o.projectivize = true ∨ ∀ t, .ok t ∈ items → NoGaps t))) :
    e = .finished ∧ ws.length = items.length := by
  induction h with
  | finished => exact ⟨rfl, rfl⟩
  | crashed => cases hb
  | @unreadable er => obtain ⟨t, ht⟩ := hi (.error er) (by simp); cases ht
  | noTags => obtain ⟨l, h, _⟩ := hp _ rfl 0 _ rfl; cases h
  | badTags => obtain ⟨l, h, _⟩ := hp _ rfl 0 _ rfl; cases h
  | short h1 => obtain ⟨l, h, h2⟩ := hp _ rfl 0 _ rfl; cases h; omega
  | long h1 => obtain ⟨l, h, h2⟩ := hp _ rfl 0 _ rfl; cases h; omega
  | @gaps t t' items b pos tags pos' c h1 h2 h3 h4 h5 =>
    rcases hg with hg | ⟨hr, hg⟩
    · exact absurd hg h4
    · exfalso
      have S := hS t (by simp)
      obtain ⟨G, hG⟩ := pipeline_good S h3
      apply h5
      rw [← noGaps_iff G.fit.wf]
      rcases hg with hg | hg
      · exact hG hg hr
      · refine G.proj (by rw [hr]; rfl) ?_
        rw [noGaps_iff S.fit.wf]
        exact hg t (by simp)
  | @write t t' items b pos tags pos' c w c' ws e h1 h2 h3 h4 _ ih =>
    have := ih (fun t ht => hS t (by simp [ht])) (by
        cases h1 with
        | without => intro ps h; cases h
        | tags => intro ps h i t ht; cases h; exact hp _ rfl (i + 1) t ht) hb (fun x hx => hi x (by simp [hx]))
      (hg.imp_right fun ⟨a, d⟩ => ⟨a, d.imp_right fun d t ht => d t (by simp [ht])⟩)
    exact ⟨this.1, by simpa using this.2⟩

end runs

end Convert
end Lumberjack
