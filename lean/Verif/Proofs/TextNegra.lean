import Verif.Proofs.Cli
import Verif.Proofs.TextSays

/-!
# The words in a NEGRA file
-/

namespace Lumberjack
namespace Negra

open Lumberjack.Tree Bracketed

variable {id : Nat} {info : Option Str} {T : List TermRow} {N : List NtRow} {t : Tree} {τ ν : Nat → Nat}

/-- What a tree read from a NEGRA file has in common with its rows. -/
structure FromRows (T : List TermRow) (N : List NtRow) (t : Tree) : Prop where
  terminals : ∃ ts, t.Terminals ts ∧ ts.map (·.form) = T.map (·.form)
  size : t.nTerminals = T.length
  root : t.IsNt t.root
  forms : ∀ r ∈ T, Field r.form
  texts : NoClosing T N → t.Texts (fun s => ')' ∉ s)

theorem field_word {s : Str} (h : Field s) : Word (escape s) := by
  refine escape_solid h.1 fun c hc => ?_
  have := h.2 c hc
  refine ⟨?_, ?_, ?_⟩ <;> (rintro rfl; revert this; decide)

theorem attach_closing {a : Attach} (h : ∀ e, a.edge = some e → ')' ∉ e) {n : Nat} {r : EdgeRec} (hp : r.w.isPrimary = true)
    (hr : (r.src, r.tgt, r.w) ∈ a.edges ν n) {l : Str} (hl : r.w.label = some l) : ')' ∉ l := by
  unfold Attach.edges at hr
  rcases List.mem_cons.1 hr with hr | hr
  · simp only [Prod.mk.injEq] at hr
    rw [hr.2.2] at hl
    exact h l hl
  · split at hr
    · rw [List.mem_singleton] at hr
      simp only [Prod.mk.injEq] at hr
      rw [hr.2.2] at hp; cases hp
    · cases hr

theorem Described.fromRows (D : Described id info T N t τ ν) (hT : ∀ r ∈ T, GoodTerm r) : FromRows T N t := by
  refine ⟨⟨T.zipIdx.map fun p => p.1.terminal p.2, ⟨by rw [D.nTerminals]; simp, fun n x i hx hi => ?_⟩, ?_⟩, D.nTerminals,
    by rw [D.root]; exact ⟨_, D.root_node⟩, fun r hr => (hT r hr).form, fun hc => ⟨fun n x hx => ?_, fun n x a hx ha => ?_, ?_⟩⟩
  · rcases D.all n ⟨_, hx⟩ with ⟨j, hj, rfl⟩ | ⟨k, hk, rfl⟩
    · have h1 := D.terms j T[j] (by simp [hj])
      rw [hx] at h1
      injection h1 with h1
      injection h1 with h1
      subst h1
      obtain ⟨y, hy, hs⟩ := hi
      rw [hx] at hy
      cases hy
      have : j = i := by
        have : (Span.ofIdx j).start = (Span.ofIdx i).start := by rw [← hs]; rfl
        simpa [Span.ofIdx] using this
      subst this
      simp [hj]
    · obtain ⟨y, hy⟩ := D.isNt hk
      rw [hx] at hy; cases hy
  · rw [List.map_map]
    have : (fun x : Terminal => x.form) ∘ (fun p : TermRow × Nat => p.1.terminal p.2) = (·.form) ∘ Prod.fst := rfl
    rw [this, ← List.map_map, List.zipIdx_map_fst]
  · rcases D.all n ⟨_, hx⟩ with ⟨i, hi, rfl⟩ | ⟨k, hk, rfl⟩
    · have h1 := D.terms i T[i] (by simp [hi])
      rw [hx] at h1; cases h1
    · rcases List.mem_cons.1 hk with rfl | hk
      · rw [D.root_node] at hx; cases hx
        show ')' ∉ vroot
        decide
      · obtain ⟨r, hr, rfl⟩ := List.mem_map.1 hk
        obtain ⟨s, h1⟩ := D.nts r hr
        rw [hx] at h1; cases h1
        exact (hc.2 r hr).1
  · rcases D.all n ⟨_, hx⟩ with ⟨i, hi, rfl⟩ | ⟨k, hk, rfl⟩
    · have h1 := D.terms i T[i] (by simp [hi])
      rw [hx] at h1; cases h1
    · rcases List.mem_cons.1 hk with rfl | hk
      · rw [D.root_node] at hx; cases hx
        exfalso
        revert ha
        cases info <;> simp [annotationOf, headFeatures]
      · obtain ⟨r, hr, rfl⟩ := List.mem_map.1 hk
        obtain ⟨s, h1⟩ := D.nts r hr
        rw [hx] at h1; cases h1
        cases hm : r.ann with
        | none => simp [NtRow.nonterminal, hm, annotationOf] at ha
        | some b =>
          simp [NtRow.nonterminal, hm, annotationOf] at ha
          subst ha
          exact (hc.2 r hr).2.1 b hm
  · intro n l hl
    obtain ⟨e, he, hp, _, hel⟩ := inLabel_edge hl
    have := (D.edges.mem_iff (a := (e.src, e.tgt, e.w))).1 (List.mem_map.2 ⟨e, he, rfl⟩)
    unfold rowEdges at this
    rcases List.mem_append.1 this with h | h
    · obtain ⟨p, h1, h2⟩ := List.mem_flatMap.1 h
      exact attach_closing (hc.1 p.1 (List.fst_mem_of_mem_zipIdx h1)) hp h2 hel
    · obtain ⟨r, h1, h2⟩ := List.mem_flatMap.1 h
      exact attach_closing (hc.2 r h1).2.2 hp h2 hel

theorem mem_of_splitWs {q s : Str} (h : q ∈ splitWs s) {c : Char} (hc : c ∈ q) : c ∈ s := by
  obtain ⟨_, _, a, b, rfl, _⟩ := Convert.mem_splitWs.1 h
  simp [hc]

theorem attach_free {cs : List Str} {a : Attach} (hf : ∀ c ∈ cs, ')' ∉ c) (h : Attach.read cs = some a) :
    ∀ e, a.edge = some e → ')' ∉ e := by
  match cs, hf, h with
  | e :: p :: more, hf, h =>
    simp only [Attach.read, Option.bind_eq_bind, Option.bind_eq_some_iff] at h
    obtain ⟨k, _, s, _, h⟩ := h
    simp only [Option.some.injEq] at h
    subst h
    intro e' he
    obtain ⟨rfl, _⟩ := undash_ne he
    exact hf _ (by simp)

/-- Lines without closing brackets. -/
theorem rows_free {ls : List Str} (h : Rows ls T N) (hf : ∀ l ∈ ls, ')' ∉ l) : NoClosing T N := by
  obtain ⟨tl, nl, rfl, h1, h2⟩ := h
  have cols : ∀ l ∈ tl ++ nl, ∀ c ∈ splitWs (trim l), ')' ∉ c := fun l hl c hc hx =>
    hf l hl (mem_trim (mem_of_splitWs hc hx))
  rw [List.forall₂_iff_get] at h1 h2
  constructor
  · intro r hr
    obtain ⟨i, hi, rfl⟩ := List.mem_iff_getElem.1 hr
    have hi' : i < tl.length := by rw [h1.1]; exact hi
    obtain ⟨_, h⟩ := h1.2 i hi' hi
    have hc := cols tl[i] (List.mem_append_left _ (List.getElem_mem hi'))
    simp only [List.get_eq_getElem] at h
    generalize splitWs (trim tl[i]) = cs at h hc
    match cs, hc, h with
    | form :: lem :: pos :: morph :: more, hc, h =>
      rw [TermRow.read, Option.map_eq_some_iff] at h
      obtain ⟨a, ha, h⟩ := h
      rw [← h]
      exact attach_free (fun c hm => hc c (by simp [hm])) ha
  · intro r hr
    obtain ⟨i, hi, rfl⟩ := List.mem_iff_getElem.1 hr
    have hi' : i < nl.length := by rw [h2.1]; exact hi
    obtain ⟨_, _, h⟩ := h2.2 i hi' hi
    have hc := cols nl[i] (List.mem_append_right _ (List.getElem_mem hi'))
    simp only [List.get_eq_getElem] at h
    generalize splitWs (trim nl[i]) = cs at h hc
    match cs, hc, h with
    | first :: lem :: label :: morph :: more, hc, h =>
      simp only [NtRow.read, Option.bind_eq_bind, Option.bind_eq_some_iff] at h
      obtain ⟨k, _, a, ha, h⟩ := h
      simp only [Option.some.injEq] at h
      rw [← h]
      have part : ∀ p ∈ splitOn '=' label, ')' ∉ p := fun p hp hx => hc label (by simp) (mem_of_mem_splitOn hp _ hx)
      refine ⟨?_, fun b hb => part b (List.mem_of_getElem? hb), attach_free (fun c hm => hc c (by simp [hm])) ha⟩
      cases hs : splitOn '=' label with
      | nil => simp
      | cons p ps => exact part p (by rw [hs]; simp)

theorem free_noClosing {ls : List Str} (hf : ∀ l ∈ ls, ')' ∉ l) : EverySentence ls NoClosing := by
  intro pre hd body f rest id info T N e _ hR _
  exact rows_free hR fun l hl => hf l (by rw [e]; simp [hl])

theorem EverySentence.suffix {used rest : List Str} {Q : List TermRow → List NtRow → Prop}
    (h : EverySentence (used ++ rest) Q) : EverySentence rest Q := by
  intro pre hd body f r id info T N e
  exact h (used ++ pre) hd body f r id info T N (by rw [e]; simp)

theorem read_rows {ls rest : List Str} (h : readerNext ls = .ok (some (.ok t), rest)) (hO : Convert.Orderly ls) :
    ∃ pre hd body f id info T N, ls = pre ++ hd :: (body ++ f :: rest) ∧ (∀ l ∈ pre, ¬ IsFrame l) ∧
      Opens hd id info ∧ Rows body T N ∧ Closes f id ∧ FromRows T N t := by
  obtain ⟨pre, hd, body, f, id, info, T, N, h1, h2, h3, h4, h5, h6, _⟩ := Props.C50_read ls rest t h
  obtain ⟨ho, _⟩ := hO pre hd body f rest id info T N h1 h3 h4 h5
  obtain ⟨τ, ν, D⟩ := h6 ho
  exact ⟨pre, hd, body, f, id, info, T, N, h1, h2, h3, h4, h5, D.fromRows (rows_good h4).1⟩

/-- The trees come from the sentences in their order, up to the first error. -/
theorem stream_rows {m : Bool} {src : Convert.Source} {items : List (Except Err Tree)} {b : Bool}
    (h : Convert.Stream .negra m src items b) {Q : List TermRow → List NtRow → Prop} (hO : Convert.Orderly src.lines)
    (hQ : EverySentence src.lines Q) :
    (∀ t, .ok t ∈ items → ∃ T N, Q T N ∧ FromRows T N t) ∧
    ∃ Ts, Sentences src.lines Ts ∧ ∀ (i : Nat), (∀ j ≤ i, ∃ t, items[j]? = some (.ok t)) →
      ∃ T N t, Ts[i]? = some (T, N) ∧ items[i]? = some (.ok t) ∧ Q T N ∧ FromRows T N t := by
  induction h with
  | stop => exact ⟨by simp, [], .nil, fun i hi => by obtain ⟨t, ht⟩ := hi i (Nat.le_refl _); simp at ht⟩
  | crash => exact ⟨by simp, [], .nil, fun i hi => by obtain ⟨t, ht⟩ := hi i (Nat.le_refl _); simp at ht⟩
  | @item src src' r rs b hn hs ih =>
    have hr : ∃ rest, readerNext src.lines = .ok (some r, rest) ∧ src'.lines = rest := by
      simp only [Convert.next, Convert.fromLines] at hn
      cases hr : readerNext src.lines with
      | panic => rw [hr] at hn; cases hn
      | diverge => rw [hr] at hn; cases hn
      | ok p =>
        rw [hr] at hn
        simp only [Res.ok_bind, Res.pure_eq, Res.ok.injEq, Prod.mk.injEq] at hn
        obtain ⟨item, rest⟩ := p
        simp only at hn
        exact ⟨rest, by rw [hn.1], by rw [← hn.2]⟩
    obtain ⟨rest, h1, h2⟩ := hr
    obtain ⟨used, hu⟩ : ∃ used, src.lines = used ++ src'.lines := by
      rcases Props.C49_progress src.lines with h | ⟨_, rest', used, h3, h4, _⟩ | h
      · rw [h1] at h; cases h
      · rw [h1] at h3; cases h3; exact ⟨used, by rw [h2]; exact h4⟩
      · rw [h1] at h; cases h
    obtain ⟨i1, Ts, i2, i3⟩ := ih (hO := Convert.Orderly.suffix (hu ▸ hO)) (hQ := EverySentence.suffix (hu ▸ hQ))
    cases r with
    | error e =>
      refine ⟨fun t ht => i1 t (by simpa using ht), [], .nil, fun i hi => ?_⟩
      obtain ⟨t, ht⟩ := hi 0 (Nat.zero_le _)
      cases ht
    | ok t =>
      obtain ⟨pre, hd, body, f, id, info, T, N, e, g1, g2, g3, g4, g5⟩ := read_rows h1 hO
      have q := hQ pre hd body f rest id info T N e g2 g3 g4
      refine ⟨fun t' ht' => ?_, (T, N) :: Ts, ?_, fun i hi => ?_⟩
      · rcases List.mem_cons.1 ht' with ht' | ht'
        · cases ht'; exact ⟨T, N, q, g5⟩
        · exact i1 t' ht'
      · rw [e]; exact .cons g1 g2 g3 g4 (h2 ▸ i2)
      · cases i with
        | zero => exact ⟨T, N, t, rfl, rfl, q, g5⟩
        | succ i =>
          obtain ⟨T', N', t', k1, k2, k3⟩ := i3 i fun j hj => by simpa using hi (j + 1) (by omega)
          exact ⟨T', N', t', by simpa using k1, by simpa using k2, k3⟩

end Negra
end Lumberjack

namespace Lumberjack
namespace Convert

open Lumberjack.Tree

/-- The reader of a format for tagged sentences. -/
theorem stream_sentences {f : InFormat} {dec : List Conllx.Token → Res (Except Err Tree)} {m : Bool}
    (hf : ∀ src, next f m src = fromSentences dec src) {src : Source} {items : List (Except Err Tree)} {b : Bool}
    (h : Stream f m src items b) : ∀ (i : Nat) t, items[i]? = some (.ok t) →
      ∃ toks, src.sentences[i]? = some (some toks) ∧ dec toks = .ok (.ok t) := by
  induction h with
  | stop => simp
  | crash => simp
  | @item src src' r rs b hn hs ih =>
    rw [hf] at hn
    unfold fromSentences at hn
    intro i t ht
    cases hsn : src.sentences with
    | nil => rw [hsn] at hn; cases hn
    | cons s rest =>
      rw [hsn] at hn
      cases s with
      | none =>
        simp only [Res.ok.injEq, Prod.mk.injEq, Option.some.injEq] at hn
        obtain ⟨rfl, rfl⟩ := hn
        cases i with
        | zero => cases ht
        | succ i => simpa using ih i t (by simpa using ht)
      | some s =>
        cases hd : dec s with
        | panic => simp [hd] at hn
        | diverge => simp [hd] at hn
        | ok q =>
          simp only [hd, Res.ok_bind, Res.pure_eq, Res.ok.injEq, Prod.mk.injEq, Option.some.injEq] at hn
          obtain ⟨rfl, rfl⟩ := hn
          cases i with
          | zero =>
            simp only [List.getElem?_cons_zero, Option.some.injEq] at ht
            exact ⟨s, rfl, by rw [hd, ht]⟩
          | succ i => simpa using ih i t (by simpa using ht)

theorem decoded_forms {e : AbsEncoding} {toks : List Conllx.Token} {t : Tree} (D : Conllx.Decoded e toks t)
    {ts : List Terminal} (hts : t.Terminals ts) : ts.map (·.form) = toks.map (·.form) := by
  refine List.ext_getElem (by simp [hts.1, D.size]) fun i h1 h2 => ?_
  simp only [List.length_map] at h1 h2
  obtain ⟨n, x, hx, hs⟩ := D.wf.sentence.occupied i (by rw [D.size]; exact h2)
  have a := hts.2 n x i hx ⟨x, hx, hs⟩
  obtain ⟨tok, b, c, _⟩ := D.words n x i hx hs
  rw [List.getElem?_eq_getElem h1] at a
  rw [List.getElem?_eq_getElem h2] at b
  simp only [Option.some.injEq] at a b
  simp [a, b, c]

theorem absolute_forms {toks : List Conllx.Token} {t : Tree} (h : Conllx.tryFromAbsolute toks = .ok (.ok t))
    {ts : List Terminal} (hts : t.Terminals ts) : ts.map (·.form) = toks.map (·.form) := by
  rcases Props.C59_cases "abs_ancestor".toList AbsAncestor.parse toks with ⟨e, h', _⟩ | ⟨h', _⟩
  · by_cases hs : toks = []
    · subst hs; rw [Props.C59_empty.1] at h; cases h
    · by_cases hp : AbsPositive e
      · obtain ⟨t', h1, h2⟩ := Props.C59_absolute toks hs e h' hp
        rw [h] at h1; cases h1
        exact decoded_forms h2 hts
      · rw [Props.C59_zero toks e h' hp] at h; cases h
  · obtain ⟨e, he⟩ := (Props.C59_error toks).1 h'
    rw [h] at he; cases he

theorem relative_forms {toks : List Conllx.Token} {t : Tree} (h : Conllx.tryFromRelative toks = .ok (.ok t))
    {ts : List Terminal} (hts : t.Terminals ts) : ts.map (·.form) = toks.map (·.form) := by
  rcases Props.C59_cases "rel_ancestor".toList RelAncestor.parse toks with ⟨e, h', _⟩ | ⟨h', _⟩
  · by_cases hs : toks = []
    · subst hs; rw [Props.C59_empty.2] at h; cases h
    · obtain ⟨t', h1, h2⟩ := Props.C59_relative toks hs e h'
      rw [h] at h1; cases h1
      exact decoded_forms h2 hts
  · obtain ⟨e, he⟩ := (Props.C59_error toks).2 h'
    rw [h] at he; cases he

end Convert
end Lumberjack
