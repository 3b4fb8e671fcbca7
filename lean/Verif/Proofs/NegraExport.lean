import Verif.Proofs.ConvertRead
import Verif.Proofs.NegraFix
import Verif.Props.NegraTrip

/-!
# Trees read from NEGRA text can be written again
-/

namespace Lumberjack
namespace Negra

open Lumberjack.Tree

/-! ## Fields of a line -/

theorem splitWs_fields {s c : Str} (h : c ∈ splitWs s) : Field c := by
  induction s generalizing c with
  | nil => cases h
  | cons x s ih =>
    rw [splitWs.eq_def] at h
    simp only at h
    split at h
    · exact ih h
    · rename_i hx
      have hx : isWs x = false := by simpa using hx
      have one : Field [x] := ⟨by simp, by simpa using hx⟩
      split at h
      · rw [List.mem_singleton] at h; subst h; exact one
      · split at h
        · rcases List.mem_cons.1 h with rfl | h
          · exact one
          · exact ih h
        · split at h
          · rename_i w ws hw
            rcases List.mem_cons.1 h with rfl | h
            · have := ih (c := w) (by rw [hw]; simp)
              refine ⟨by simp, fun y hy => ?_⟩
              rcases List.mem_cons.1 hy with rfl | hy
              · exact hx
              · exact this.2 y hy
            · exact ih (by rw [hw]; simp [h])
          · rw [List.mem_singleton] at h; subst h; exact one

theorem splitWs_first {s c : Str} {cs : List Str} (hs : Tight s) (h : splitWs s = c :: cs) : c.head? = s.head? := by
  cases s with
  | nil => cases h
  | cons x s =>
    have hx := hs.1 x rfl
    rw [splitWs.eq_def] at h
    simp only at h
    rw [if_neg (by simp [hx])] at h
    split at h
    · cases h; rfl
    · split at h
      · cases h; rfl
      · split at h <;> (cases h; rfl)

theorem trim_trim (s : Str) : trim (trim s) = trim s := by
  have hd : ∀ (l : Str) c, (l.dropWhile isWs).head? = some c → isWs c = false := by
    intro l c hc
    have := List.head?_dropWhile_not isWs l
    rw [hc] at this
    simpa using this
  refine trim_tight ⟨fun c hc => ?_, fun c hc => ?_⟩
  · have h0 : trim s <+: s.dropWhile isWs := by
      unfold trim
      rw [← List.reverse_suffix, List.reverse_reverse]
      exact List.dropWhile_suffix _
    obtain ⟨r, hr⟩ := h0
    refine hd s c ?_
    rw [← hr]
    cases ht : trim s with
    | nil => rw [ht] at hc; cases hc
    | cons x u => rw [ht] at hc; simpa using hc
  · unfold trim at hc
    rw [List.getLast?_reverse] at hc
    exact hd _ _ hc

theorem tight_of_trim (s : Str) : Tight (trim s) := tight_trim (trim_trim s)

theorem mem_trim {s : Str} {c : Char} (h : c ∈ trim s) : c ∈ s := by
  unfold trim at h
  rw [List.mem_reverse] at h
  have := (List.dropWhile_suffix isWs).subset h
  rw [List.mem_reverse] at this
  exact (List.dropWhile_suffix isWs).subset this

theorem undash_ne {s v : Str} (h : undash s = some v) : v = s ∧ v ≠ "--".toList := by
  unfold undash at h
  split at h
  · cases h
  · rename_i hs; cases h; exact ⟨rfl, hs⟩

/-! ## Rows -/

/-- What can be said about an attachment that has been read. -/
structure GoodAttach (a : Attach) : Prop where
  edge : ∀ s, a.edge = some s → Field s ∧ s ≠ "--".toList
  sec : ∀ s k, a.sec = some (s, k) → Field s ∧ s.head? ≠ some '%'

theorem attach_good_read {cs : List Str} {a : Attach} (hf : ∀ c ∈ cs, Field c) (h : Attach.read cs = some a) :
    GoodAttach a := by
  match cs, hf, h with
  | e :: p :: more, hf, h =>
    simp only [Attach.read, Option.bind_eq_bind, Option.bind_eq_some_iff] at h
    obtain ⟨k, _, s, hs, h⟩ := h
    simp only [Option.some.injEq] at h
    subst h
    refine ⟨fun v hv => ?_, fun v j hv => ?_⟩
    · obtain ⟨rfl, h2⟩ := undash_ne hv
      exact ⟨hf _ (by simp), h2⟩
    · simp only at hv
      subst hv
      match more, hf, hs with
      | [], _, hs => simp [readSec] at hs
      | [l], _, hs => simp [readSec] at hs
      | l :: q :: _, hf, hs =>
        rw [readSec] at hs
        split at hs
        · simp at hs
        · rename_i hl
          rw [Option.map_eq_some_iff] at hs
          obtain ⟨k', _, hs⟩ := hs
          simp only [Option.some.injEq, Prod.mk.injEq] at hs
          obtain ⟨rfl, rfl⟩ := hs
          refine ⟨hf _ (by simp), fun hh => hl ?_⟩
          cases l with
          | nil => cases hh
          | cons x l =>
            simp only [List.head?_cons, Option.some.injEq] at hh
            subst hh
            rfl

/-- What can be said about the row of a terminal that has been read. -/
structure GoodTerm (r : TermRow) : Prop where
  form : Field r.form
  comment : r.form.head? ≠ some '#'
  pos : Field r.pos
  lem : ∀ l, r.lem = some l → Field l ∧ l ≠ "--".toList
  morph : ∀ l, r.morph = some l → Field l ∧ l ≠ "--".toList
  att : GoodAttach r.att

theorem term_good {raw : Str} {r : TermRow} (h : IsTermLine raw r) : GoodTerm r := by
  obtain ⟨h1, h2⟩ := h
  have hf : ∀ c ∈ splitWs (trim raw), Field c := fun c hc => splitWs_fields hc
  have hfirst := fun c cs => splitWs_first (c := c) (cs := cs) (tight_of_trim raw)
  generalize splitWs (trim raw) = cs at *
  match cs, hf, hfirst, h2 with
  | form :: lem :: pos :: morph :: more, hf, hfirst, h2 =>
    rw [TermRow.read, Option.map_eq_some_iff] at h2
    obtain ⟨a, ha, rfl⟩ := h2
    refine ⟨hf _ (by simp), ?_, hf _ (by simp), fun l hl => ?_, fun l hl => ?_,
      attach_good_read (fun c hc => hf c (by simp [hc])) ha⟩
    · simp only
      rw [hfirst _ _ rfl]
      intro hh
      cases hr : trim raw with
      | nil => rw [hr] at hh; cases hh
      | cons x s =>
        rw [hr] at hh h1
        simp only [List.head?_cons, Option.some.injEq] at hh
        subst hh
        simp [List.isPrefixOf] at h1
    · obtain ⟨rfl, h⟩ := undash_ne hl
      exact ⟨hf _ (by simp), h⟩
    · obtain ⟨rfl, h⟩ := undash_ne hl
      exact ⟨hf _ (by simp), h⟩

/-- What can be said about the row of a nonterminal that has been read. -/
structure GoodNt (r : NtRow) : Prop where
  label : ∀ c ∈ r.label, isWs c = false ∧ c ≠ '='
  ann : ∀ a, r.ann = some a → ∀ c ∈ a, isWs c = false ∧ c ≠ '='
  something : r.label ≠ [] ∨ r.ann ≠ none
  att : GoodAttach r.att

theorem nt_good {raw : Str} {r : NtRow} (h : IsNtLine raw r) : GoodNt r := by
  obtain ⟨-, -, h2⟩ := h
  have hf : ∀ c ∈ splitWs (trim raw), Field c := fun c hc => splitWs_fields hc
  generalize splitWs (trim raw) = cs at *
  match cs, hf, h2 with
  | first :: lem :: label :: morph :: more, hf, h2 =>
    simp only [NtRow.read, Option.bind_eq_bind, Option.bind_eq_some_iff] at h2
    obtain ⟨k, _, a, ha, h2⟩ := h2
    simp only [Option.some.injEq] at h2
    subst h2
    have hl : Field label := hf _ (by simp)
    have part : ∀ p ∈ splitOn '=' label, ∀ c ∈ p, isWs c = false ∧ c ≠ '=' := fun p hp c hc =>
      ⟨hl.2 c (mem_of_mem_splitOn hp c hc), fun e => not_mem_of_mem_splitOn hp (e ▸ hc)⟩
    refine ⟨?_, ?_, ?_, attach_good_read (fun c hc => hf c (by simp [hc])) ha⟩
    · simp only
      have hne := splitOn_ne_nil '=' label
      cases hs : splitOn '=' label with
      | nil => exact absurd hs hne
      | cons p ps => exact part p (by rw [hs]; simp)
    · intro b hb
      exact part b (List.mem_of_getElem? hb)
    · simp only
      by_cases hm : '=' ∈ label
      · right
        have := join_splitOn '=' label
        intro hn
        cases hs : splitOn '=' label with
        | nil => exact splitOn_ne_nil '=' label hs
        | cons p ps =>
          cases ps with
          | nil =>
            rw [hs] at this
            simp only [join] at this
            subst this
            exact not_mem_of_mem_splitOn (by rw [hs]; simp) hm
          | cons q qs => rw [hs] at hn; simp at hn
      · left
        rw [splitOn_of_not_mem hm]
        exact hl.1

theorem rows_good {ls : List Str} {T : List TermRow} {N : List NtRow} (h : Rows ls T N) :
    (∀ r ∈ T, GoodTerm r) ∧ ∀ r ∈ N, GoodNt r := by
  obtain ⟨tl, nl, e, h1, h2⟩ := h
  clear e
  constructor
  · intro r hr
    induction h1 with
    | nil => cases hr
    | cons h _ ih =>
      rcases List.mem_cons.1 hr with rfl | hr
      · exact term_good h
      · exact ih hr
  · intro r hr
    induction h2 with
    | nil => cases hr
    | cons h _ ih =>
      rcases List.mem_cons.1 hr with rfl | hr
      · exact nt_good h
      · exact ih hr

theorem rows_length {ls : List Str} {T : List TermRow} {N : List NtRow} (h : Rows ls T N) :
    T.length + N.length = ls.length := by
  obtain ⟨tl, nl, rfl, h1, h2⟩ := h
  rw [List.length_append, h1.length_eq, h2.length_eq]

/-! ## Headers -/

theorem splitFirstWs_some {s a b : Str} (h : splitFirstWs s = (a, some b)) : ∃ c, isWs c = true ∧ s = a ++ c :: b := by
  induction s generalizing a with
  | nil => cases h
  | cons x s ih =>
    rw [splitFirstWs] at h
    split at h
    · cases h
      exact ⟨x, by assumption, rfl⟩
    · cases hs : splitFirstWs s with
      | mk p q =>
        rw [hs] at h
        cases h
        obtain ⟨c, h1, h2⟩ := ih hs
        exact ⟨c, h1, by rw [h2]; rfl⟩

theorem opens_clean {raw : Str} {id : Nat} {info : Option Str} (h : Opens raw id info) (hn : '\n' ∉ raw) :
    id < 2 ^ 64 ∧ ∀ m, info = some m → m ≠ [] ∧ trim m = m ∧ '\n' ∉ m := by
  obtain ⟨-, w, n, m, h1, h2, rfl⟩ := h
  constructor
  · unfold parseUsize at h2
    split at h2
    · cases h2
    · split at h2
      · split at h2
        · rename_i hlt; cases h2; exact hlt
        · cases h2
      · cases h2
  · intro v hv
    rw [Option.map_eq_some_iff] at hv
    obtain ⟨u, hu, rfl⟩ := hv
    have hsplit : ∃ p, trim raw = p ++ u ∧ u ≠ [] := by
      unfold splitn3 at h1
      split at h1
      · cases h1
      · rename_i a r hr
        split at h1
        · cases h1; cases hu
        · rename_i b r' hr'
          cases h1
          cases hu
          obtain ⟨c, hc, e1⟩ := splitFirstWs_some hr
          obtain ⟨d, hd, e2⟩ := splitFirstWs_some hr'
          refine ⟨w ++ c :: (n ++ [d]), by rw [e1, e2]; simp, ?_⟩
          rintro rfl
          have := (tight_of_trim raw).2 d (by rw [e1, e2]; simp [List.getLast?_cons])
          rw [hd] at this
          cases this
    obtain ⟨p, hp, hne⟩ := hsplit
    refine ⟨?_, trim_trim u, fun h => hn ?_⟩
    · intro he
      obtain ⟨v, x, rfl⟩ := List.eq_nil_or_concat u |>.resolve_left hne
      have hx : isWs x = false := (tight_of_trim raw).2 x (by rw [hp]; simp)
      unfold trim at he
      rw [List.reverse_eq_nil_iff, List.dropWhile_eq_nil_iff] at he
      have hmem : x ∈ (v.concat x).dropWhile isWs := by
        rw [List.concat_eq_append, List.dropWhile_append]
        split
        · simp [List.dropWhile, hx]
        · simp
      have := he x (by simpa using hmem)
      rw [hx] at this
      cases this
    · have h1 := mem_trim h
      exact mem_trim (s := raw) (by rw [hp]; simp [h1])

/-! ## Trees -/

theorem withSec_length (m : List (Nat × Nat)) (S : List (Nat × Str × Nat)) (g : Graph) :
    (withSec m S g).nodes.length = g.nodes.length := by rw [withSec_nodes]

theorem inv_size {id : Nat} {b : Builder} {T : List TermRow} {N : List NtRow} {τ : List Nat} (h : Inv id b T N τ)
    (hc : Complete T N) : b.graph.nodes.length ≤ T.length + N.length + 1 := by
  have hk : (keys b).length = N.length + 1 := by
    rw [← h.proc, (complete_iff h).1 hc]; simp [keys]
  have hs : List.range b.graph.nodes.length ⊆ (keys b).map (idx b) ++ τ := by
    intro n hn
    rcases (h.cover n).1 (List.mem_range.1 hn) with ⟨k, h1, rfl⟩ | h1
    · exact List.mem_append_left _ (List.mem_map_of_mem h1)
    · exact List.mem_append_right _ h1
  have := (List.nodup_range.subperm hs).length_le
  simp only [List.length_range, List.length_append, List.length_map] at this
  rw [hk, h.len] at this
  omega

variable {id : Nat} {info : Option Str} {T : List TermRow} {N : List NtRow} {t : Tree} {τ ν : Nat → Nat}

theorem GoodAttach.edges_good {a : Attach} (G : GoodAttach a) {n : Nat} {e : Nat × Nat × Edge} (h : e ∈ a.edges ν n) :
    ExportEdge e.2.2 := by
  unfold Attach.edges at h
  rcases List.mem_cons.1 h with rfl | h
  · exact G.edge
  · split at h
    · rename_i l k hs
      rw [List.mem_singleton] at h
      subst h
      exact ⟨l, rfl, G.sec l k hs⟩
    · cases h

theorem Described.exportable (D : Described id info T N t τ ν) (W : t.WF) (hT : ∀ r ∈ T, GoodTerm r)
    (hN : ∀ r ∈ N, GoodNt r) (hs : t.SecondaryNt) (hz : t.nonterminals.length + 499 ≤ 2 ^ 64) : Exportable t := by
  refine ⟨W, ⟨_, by rw [D.root]; exact D.root_node⟩, fun n x hx => ?_, fun n x hn hx => ?_, fun e he => ?_, hs, hz⟩
  · rcases D.all n ⟨_, hx⟩ with ⟨i, hi, rfl⟩ | ⟨k, hk, rfl⟩
    · have h1 := D.terms i T[i] (by simp [hi])
      rw [hx] at h1
      injection h1 with h1
      injection h1 with h1
      subst h1
      have G := hT T[i] (by simp)
      refine ⟨G.form, G.comment, G.pos, G.lem, ?_⟩
      cases hm : T[i].morph with
      | none => left; simp [TermRow.terminal, NoFeatures, hm]
      | some m => right; exact ⟨m, by simp [TermRow.terminal, hm], G.morph m hm⟩
    · obtain ⟨y, hy⟩ := D.isNt hk
      rw [hx] at hy; cases hy
  · rcases D.all n ⟨_, hx⟩ with ⟨i, hi, rfl⟩ | ⟨k, hk, rfl⟩
    · have h1 := D.terms i T[i] (by simp [hi])
      rw [hx] at h1; cases h1
    · rw [D.root] at hn
      rcases List.mem_cons.1 hk with rfl | hk
      · exact absurd rfl hn
      · obtain ⟨r, hr, rfl⟩ := List.mem_map.1 hk
        obtain ⟨s, h1⟩ := D.nts r hr
        rw [hx] at h1
        injection h1 with h1
        injection h1 with h1
        subst h1
        have G := hN r hr
        refine ⟨G.label, ?_, ?_⟩
        · cases hm : r.ann with
          | none => left; simp [NtRow.nonterminal, NoFeatures, hm]
          | some m => right; exact ⟨m, by simp [NtRow.nonterminal, hm], G.ann m hm⟩
        · rcases G.something with h | h
          · exact .inl h
          · right
            cases hm : r.ann with
            | none => exact absurd hm h
            | some m => simp [NtRow.nonterminal, NoFeatures, hm, Features.empty]
  · have := (D.edges.mem_iff (a := (e.src, e.tgt, e.w))).1 (List.mem_map.2 ⟨e, he, rfl⟩)
    unfold rowEdges at this
    rcases List.mem_append.1 this with h | h
    · obtain ⟨p, h1, h2⟩ := List.mem_flatMap.1 h
      exact (hT p.1 (List.fst_mem_of_mem_zipIdx h1)).att.edges_good h2
    · obtain ⟨r, h1, h2⟩ := List.mem_flatMap.1 h
      exact (hN r h1).att.edges_good h2

theorem _root_.Lumberjack.Tree.Sentence.length_terminals (Z : t.Sentence) : t.terminals.length = t.nTerminals := by
  rw [← sorted_terminals_length Z, (sortIndices_perm (t := t) t.terminals).length_eq]

theorem _root_.Lumberjack.Tree.WF.nodes_le (W : t.WF) : t.nonterminals.length + t.nTerminals ≤ t.graph.nodes.length := by
  have hd : (t.nonterminals ++ t.terminals).Nodup := List.nodup_append'.2 ⟨nonterminals_nodup, terminals_nodup, fun n h1 h2 => by
    obtain ⟨x, hx⟩ := mem_nonterminals.1 h1
    obtain ⟨y, hy⟩ := mem_terminals.1 h2
    rw [hx] at hy; cases hy⟩
  have hs : t.nonterminals ++ t.terminals ⊆ List.range t.graph.nodes.length := fun n h => by
    rcases List.mem_append.1 h with h | h
    · obtain ⟨x, hx⟩ := mem_nonterminals.1 h
      exact List.mem_range.2 (node?_lt hx)
    · obtain ⟨x, hx⟩ := mem_terminals.1 h
      exact List.mem_range.2 (node?_lt hx)
  have := (hd.subperm hs).length_le
  simpa [W.sentence.length_terminals] using this

/-- A tree that has been read from an orderly file can be written, with the number and the metadata of its sentence. -/
theorem read_exportable {ls rest : List Str} (h : readerNext ls = .ok (some (.ok t), rest)) (hO : Convert.Orderly ls)
    (hn : ∀ l ∈ ls, '\n' ∉ l) (hz : ls.length + 500 ≤ 2 ^ 64) :
    Exportable t ∧ (∃ id info, SameRoot t id info ∧ ∀ counter, Head t counter id info) ∧
      t.nonterminals.length + t.nTerminals ≤ ls.length := by
  obtain ⟨pre, hd, body, f, id, info, T, N, rfl, h1, h2, h3, h4, h5, h6, h7, h8⟩ := (Props.C49_tree ls rest).1 ⟨t, h⟩
  obtain ⟨ho, hc⟩ := hO pre hd body f rest id info T N rfl h2 h3 h5
  obtain ⟨b, τ, i1, i2, i3, i4⟩ := sentence_inv (id := id) (info := info) h3 h4
  rw [next_outside h1, next_opens h2, i4, next_footer h5.1] at h
  rcases footer_ok i1 h5 with ⟨g1, _⟩ | ⟨_, g1, _⟩ | ⟨_, _, g1, _⟩ | ⟨g1, g2, g3, root, x, g4, g5, g6⟩
  · exact absurd h7 g1
  · exact absurd h8 g1
  · exact absurd g1 h6
  · rw [g6] at h
    simp only [Res.ok_bind, Res.pure_eq, Res.ok.injEq, Prod.mk.injEq, Option.some.injEq, Except.ok.injEq,
      and_true] at h
    subst h
    have D := finish_described i1 (i2 ho) ho h7 h8 g4 g5
    have W := finish_wf i1 (i2 ho) (i3 ho hc) ho hc h6 h7 h8 g4 g5
    obtain ⟨hT, hN⟩ := rows_good h3
    have hsz : (finish b root x).nonterminals.length + (finish b root x).nTerminals ≤ body.length + 1 := by
      have e1 : (finish b root x).graph.nodes.length = b.graph.nodes.length := by
        simp [finish, Graph.setNode, withSec_length]
      have e2 := inv_size i1 h8
      have e3 := rows_length h3
      have e4 := W.nodes_le
      omega
    obtain ⟨c1, c2⟩ := opens_clean h2 (hn hd (by simp))
    refine ⟨D.exportable W hT hN (Convert.Neg.described_sec D h7 (keys_of i1 ho h8).2.1) ?_, ⟨id, info, ?_, fun counter => ?_⟩, ?_⟩
    · simp only [List.length_append, List.length_cons] at hz
      omega
    · exact ⟨_, by rw [D.root]; exact D.root_node, rfl, rfl⟩
    · have hroot : rootFeatures (finish b root x) = some (headFeatures id info) := by
        unfold rootFeatures
        rw [D.root, D.root_node]; rfl
      obtain ⟨f1, f2⟩ := featOf_headFeatures id info
      refine ⟨?_, c1, ?_, c2⟩
      · rw [hroot]; show (featOf _ sentenceIdKey).getD _ = _; rw [f1]; rfl
      · rw [hroot]; exact f2
    · simp only [List.length_append, List.length_cons]
      omega

end Negra
end Lumberjack
