import Verif.Proofs.SecondaryOrder
import Verif.Proofs.ConvertRead
import Verif.Proofs.Text

/-!
# What follows the sixth column of a NEGRA file
-/

namespace Lumberjack
namespace Negra

/-- The builder with other secondary edges. -/
abbrev Builder.with (b : Builder) (S : List (Nat × Str × Nat)) : Builder := { b with secEdges := S }

theorem edges_with (b : Builder) (S : List (Nat × Str × Nat)) (n : Nat) (e p : Str) (more more' : List Str) {b1 : Builder}
    (h : processEdges b n (e :: p :: more) = .ok (.ok b1)) :
    (∃ S1, processEdges (b.with S) n (e :: p :: more') = .ok (.ok (b1.with S1)) ∧ (more' = [] → S1 = S)) ∨
      (more' ≠ [] ∧ ∃ x, processEdges (b.with S) n (e :: p :: more') = .ok (.error x)) := by
  unfold processEdges at h ⊢
  simp only [strField, List.getElem?_cons_zero, List.getElem?_cons_succ] at h ⊢
  cases hp : numField (some p) with
  | error x => rw [hp] at h; cases h
  | ok pid =>
    rw [hp] at h
    simp only at h ⊢
    have key : ∀ (c : Builder) (q : Nat), (do
          let (g, _) ← c.graph.addEdge q n (.primary (if e = Ptb.dashes then none else some e))
          let b2 := { c with graph := g }
          match optionalFields more with
          | .error e => return .error e
          | .ok none => return .ok b2
          | .ok (some (label, id)) => return .ok { b2 with secEdges := b2.secEdges ++ [(id, label, n)] } :
            Res (Except Err Builder)) = .ok (.ok b1) →
        (∃ S1, (do
          let (g, _) ← c.graph.addEdge q n (.primary (if e = Ptb.dashes then none else some e))
          let b2 := { c.with S with graph := g }
          match optionalFields more' with
          | .error e => return .error e
          | .ok none => return .ok b2
          | .ok (some (label, id)) => return .ok { b2 with secEdges := b2.secEdges ++ [(id, label, n)] } :
            Res (Except Err Builder)) = .ok (.ok (b1.with S1)) ∧ (more' = [] → S1 = S)) ∨
        (more' ≠ [] ∧ ∃ x, (do
          let (g, _) ← c.graph.addEdge q n (.primary (if e = Ptb.dashes then none else some e))
          let b2 := { c.with S with graph := g }
          match optionalFields more' with
          | .error e => return .error e
          | .ok none => return .ok b2
          | .ok (some (label, id)) => return .ok { b2 with secEdges := b2.secEdges ++ [(id, label, n)] } :
            Res (Except Err Builder)) = .ok (.error x)) := by
      intro c q hc
      obtain ⟨⟨g, i⟩, hg, hc⟩ := Res.bind_eq_ok.1 hc
      rw [hg]
      simp only [Res.ok_bind] at hc ⊢
      have hb : ∃ S0, b1 = { c with graph := g, secEdges := S0 } := by
        cases ho : optionalFields more with
        | error x => rw [ho] at hc; cases hc
        | ok o =>
          rw [ho] at hc
          match o with
          | none => simp only [Res.pure_eq, Res.ok.injEq, Except.ok.injEq] at hc; exact ⟨c.secEdges, hc.symm⟩
          | some (l, id) => simp only [Res.pure_eq, Res.ok.injEq, Except.ok.injEq] at hc; exact ⟨_, hc.symm⟩
      obtain ⟨S0, rfl⟩ := hb
      cases ho : optionalFields more' with
      | error x =>
        refine .inr ⟨?_, x, rfl⟩
        rintro rfl
        cases ho
      | ok o =>
        left
        match o with
        | none => exact ⟨S, rfl, fun _ => rfl⟩
        | some (l, id) =>
          refine ⟨_, rfl, ?_⟩
          rintro rfl
          cases ho
    cases hl : lookupIdx b.ntIndices pid with
    | some q => rw [hl] at h; exact key b q h
    | none =>
      rw [hl] at h
      exact key { b with
          graph := (b.graph.addNode (.nt (NonTerminal.new [] (Span.ofIdx b.nTerminals)))).1
          ntIndices := b.ntIndices ++ [(pid, (b.graph.addNode (.nt (NonTerminal.new [] (Span.ofIdx b.nTerminals)))).2)] }
        (b.graph.addNode (.nt (NonTerminal.new [] (Span.ofIdx b.nTerminals)))).2 h

/-- The columns of a line that is accepted. -/
theorem edges_columns {b : Builder} {n : Nat} {parts : List Str} {b1 : Builder}
    (h : processEdges b n parts = .ok (.ok b1)) : ∃ e p more, parts = e :: p :: more := by
  match parts with
  | [] => cases h
  | [e] => cases h
  | e :: p :: more => exact ⟨e, p, more, rfl⟩

theorem line_with (b : Builder) (S : List (Nat × Str × Nat)) {l l' : Str} {b1 : Builder}
    (hh : startsWith ['#'] l' = startsWith ['#'] l) (hw : (splitWs l').take 6 = (splitWs l).take 6)
    (h : processLine b l = .ok (.ok b1)) :
    (∃ S1, processLine (b.with S) l' = .ok (.ok (b1.with S1)) ∧ ((splitWs l').length ≤ 6 → S1 = S)) ∨
      (6 < (splitWs l').length ∧ ∃ x, processLine (b.with S) l' = .ok (.error x)) := by
  unfold processLine at h ⊢
  rw [hh]
  by_cases hs : startsWith ['#'] l = true
  · rw [if_pos hs] at h ⊢
    unfold nonterminalLine at h ⊢
    by_cases h0 : b.nTerminals = 0
    · rw [if_pos h0] at h; cases h
    · rw [if_neg h0] at h
      rw [if_neg (show ¬ (b.with S).nTerminals = 0 from h0)]
      simp only at h ⊢
      revert h hw
      generalize splitWs l = ws
      generalize splitWs l' = ws'
      intro hw h
      match ws, h with
      | first :: rest, h =>
        simp only at h
        cases hn : numField (some (first.drop 1)) with
        | error x => rw [hn] at h; cases h
        | ok selfId =>
          rw [hn] at h
          simp only at h
          cases hl : lookupIdx b.ntIndices selfId with
          | none => rw [hl] at h; cases h
          | some self =>
            rw [hl] at h
            match rest, h with
            | lem :: label :: more, h =>
              simp only at h
              cases hsp : splitOn '=' label with
              | nil => rw [hsp] at h; cases h
              | cons lab anns =>
                rw [hsp] at h
                simp only at h
                obtain ⟨nd, hnd, h⟩ := Res.bind_eq_ok.1 h
                match more, h with
                | morph :: edges, h =>
                  simp only at h
                  obtain ⟨r, hr, k⟩ := Res.bind_eq_ok.1 h
                  cases r with
                  | error x => cases k
                  | ok b2 =>
                    obtain ⟨e, p, more, rfl⟩ := edges_columns hr
                    obtain ⟨more', rfl⟩ : ∃ more', ws' = first :: lem :: label :: morph :: e :: p :: more' := by
                      match ws', hw with
                      | a :: b :: c :: d :: e' :: f :: more', hw =>
                        simp only [List.take_succ_cons, List.cons.injEq, List.take_zero, and_true] at hw
                        obtain ⟨rfl, rfl, rfl, rfl, rfl, rfl⟩ := hw
                        exact ⟨more', rfl⟩
                    simp only [hn, hl, hsp, hnd, Res.ok_bind]
                    rcases edges_with _ S _ _ _ _ more' hr with ⟨S1, k1, k2⟩ | ⟨k1, x, k2⟩
                    · left
                      refine ⟨S1, ?_, fun hle => k2 (List.length_eq_zero_iff.1 (by simp at hle; omega))⟩
                      erw [k1]
                      simp only [Res.ok_bind] at k ⊢
                      obtain ⟨sp, hsp', k⟩ := Res.bind_eq_ok.1 k
                      erw [hsp']
                      simp only [Res.ok_bind]
                      cases sp with
                      | error x => cases k
                      | ok span =>
                        simp only at k ⊢
                        obtain ⟨nd2, hnd2, k⟩ := Res.bind_eq_ok.1 k
                        erw [hnd2]
                        simp only [Res.ok_bind]
                        cases hset : nd2.setSpan span with
                        | error x => rw [hset] at k; cases k
                        | ok nd3 =>
                          rw [hset] at k
                          simp only [Res.pure_eq, Res.ok.injEq, Except.ok.injEq] at k ⊢
                          rw [← k]
                    · right
                      refine ⟨?_, x, ?_⟩
                      · have := List.length_pos_iff.2 k1
                        simp; omega
                      · erw [k2]; rfl
  · rw [if_neg hs] at h ⊢
    unfold terminalLine at h ⊢
    by_cases h0 : b.finishedTerminals = true
    · rw [if_pos h0] at h; cases h
    · rw [if_neg h0] at h
      rw [if_neg (show ¬ (b.with S).finishedTerminals = true from h0)]
      revert h hw
      generalize splitWs l = ws
      generalize splitWs l' = ws'
      intro hw h
      match ws, h with
      | form :: lem :: pos :: morph :: rest, h =>
        simp only at h
        obtain ⟨r, hr, k⟩ := Res.bind_eq_ok.1 h
        cases r with
        | error x => cases k
        | ok b2 =>
          obtain ⟨e, p, more, rfl⟩ := edges_columns hr
          obtain ⟨more', rfl⟩ : ∃ more', ws' = form :: lem :: pos :: morph :: e :: p :: more' := by
            match ws', hw with
            | a :: b :: c :: d :: e' :: f :: more', hw =>
              simp only [List.take_succ_cons, List.cons.injEq, List.take_zero, and_true] at hw
              obtain ⟨rfl, rfl, rfl, rfl, rfl, rfl⟩ := hw
              exact ⟨more', rfl⟩
          simp only
          rcases edges_with _ S _ _ _ _ more' hr with ⟨S1, k1, k2⟩ | ⟨k1, x, k2⟩
          · left
            refine ⟨S1, ?_, fun hle => k2 (List.length_eq_zero_iff.1 (by simp at hle; omega))⟩
            erw [k1]
            simp only [Res.ok_bind, Res.pure_eq, Res.ok.injEq, Except.ok.injEq] at k ⊢
            rw [← k]
          · right
            refine ⟨?_, x, ?_⟩
            · have := List.length_pos_iff.2 k1
              simp; omega
            · erw [k2]; rfl

/-! ## Lines -/

open Text in
theorem starts_same {p : Str} (hp : p ≠ []) (hn : ∀ c ∈ p, ¬ White c) {l l' : Str}
    (h : (splitWs l').take 6 = (splitWs l).take 6) : startsWith p (trim l') = startsWith p (trim l) := by
  rw [Bool.eq_iff_iff, prefix_trim hp hn, prefix_trim hp hn]
  simp only [← splitWs_iff]
  constructor
  · rintro ⟨w, more, h1, h2⟩
    rw [h1] at h
    match hl : splitWs l with
    | [] => rw [hl] at h; cases h
    | w' :: more' =>
      rw [hl] at h
      simp only [List.take_succ_cons, List.cons.injEq] at h
      exact ⟨w', more', rfl, h.1 ▸ h2⟩
  · rintro ⟨w, more, h1, h2⟩
    rw [h1] at h
    match hl : splitWs l' with
    | [] => rw [hl] at h; cases h
    | w' :: more' =>
      rw [hl] at h
      simp only [List.take_succ_cons, List.cons.injEq] at h
      exact ⟨w', more', rfl, h.1.symm ▸ h2⟩

theorem SameColumns.cases {l l' : Str} (h : SameColumns l l') : (IsFrame l ∧ l' = l) ∨
    (¬ IsFrame l ∧ ¬ IsFrame l' ∧ startsWith ['#'] (trim l') = startsWith ['#'] (trim l) ∧
      (splitWs (trim l')).take 6 = (splitWs (trim l)).take 6) := by
  rcases h with h | ⟨h, ws, ws', h1, h2, h3⟩
  · exact .inl h
  · right
    rw [← Text.splitWs_iff] at h1 h2
    rw [← h1, ← h2] at h3
    refine ⟨h, ?_, starts_same (by simp) (by decide) h3, by rw [Text.splitWs_trim, Text.splitWs_trim, h3]⟩
    rw [IsFrame, starts_same (p := bos) (by decide) (by decide) h3, starts_same (p := eos) (by decide) (by decide) h3]
    exact h

theorem SameColumns.symm {l l' : Str} (h : SameColumns l l') : SameColumns l' l := by
  rcases h.cases with ⟨h1, rfl⟩ | ⟨_, h2, _⟩
  · exact .inl ⟨h1, rfl⟩
  · rcases h with ⟨h1, rfl⟩ | ⟨_, ws, ws', k1, k2, k3⟩
    · exact .inl ⟨h1, rfl⟩
    · exact .inr ⟨h2, ws', ws, k2, k1, k3.symm⟩

theorem Stripped.same {l l' : Str} (h : Stripped l l') : SameColumns l l' := by
  rcases h with h | ⟨h, ws, h1, h2⟩
  · exact .inl h
  · exact .inr ⟨h, ws, _, h1, h2, by simp⟩

theorem Stripped.length {l l' : Str} (h : Stripped l l') (hf : ¬ IsFrame l) : (splitWs (trim l')).length ≤ 6 := by
  rcases h with h | ⟨h, ws, h1, h2⟩
  · exact absurd h.1 hf
  · rw [Text.splitWs_trim, h2.splitWs_eq]
    simp

/-! ## Sentences -/

/-- What secondary edges leave of the graph. -/
theorem addSec_prim {m : List (Nat × Nat)} : ∀ {S : List (Nat × Str × Nat)} {g g' : Graph}, addSecEdges m S g = .ok g' →
    g'.nodes = g.nodes ∧ g'.freeNodes = g.freeNodes ∧
      g'.edges.filter (·.w.isPrimary) = g.edges.filter (·.w.isPrimary)
  | [], g, g', h => by cases h; exact ⟨rfl, rfl, rfl⟩
  | (src, label, tgt) :: S, g, g', h => by
    unfold addSecEdges at h
    obtain ⟨s, _, h⟩ := Res.bind_eq_ok.1 h
    obtain ⟨⟨g1, i⟩, h1, h⟩ := Res.bind_eq_ok.1 h
    obtain ⟨k1, k2, k3⟩ := addSec_prim h
    rw [k1, k2, k3]
    unfold Graph.addEdge at h1
    obtain ⟨_, _, h1⟩ := Res.bind_eq_ok.1 h1
    split at h1 <;> (cases h1; exact ⟨rfl, rfl, rfl⟩)

theorem addSec_halts {m : List (Nat × Nat)} : ∀ {S : List (Nat × Str × Nat)} {g : Graph}, addSecEdges m S g ≠ .diverge
  | [], g, h => by cases h
  | (src, label, tgt) :: S, g, h => by
    unfold addSecEdges at h
    cases hl : lookupIdx m src with
    | none => rw [hl] at h; cases h
    | some s =>
      rw [hl] at h
      simp only [Res.ofOption_some, Res.ok_bind] at h
      unfold Graph.addEdge at h
      by_cases hc : (g.contains s && g.contains tgt) = true
      · rw [hc] at h
        simp only [Res.assert_true, Res.ok_bind] at h
        split at h <;> exact addSec_halts h
      · rw [Bool.not_eq_true] at hc
        rw [hc] at h
        cases h

/-- Trees that differ in the secondary edges only, with the same edge indices. -/
structure Beside (t u : Tree) : Prop where
  nodes : u.graph.nodes = t.graph.nodes
  free : u.graph.freeNodes = t.graph.freeNodes
  edges : u.primEdges = t.primEdges
  root : u.root = t.root
  nTerminals : u.nTerminals = t.nTerminals
  numDisc : u.numDisc = t.numDisc

theorem Beside.other {t u : Tree} (h : Beside t u) : Tree.OtherSecondary t u :=
  ⟨h.nodes, h.free, congrArg (List.map _) h.edges, h.root, h.nTerminals, h.numDisc⟩

theorem footer_with {b : Builder} (S : List (Nat × Str × Nat)) {l : Str} {t : Tree} (h : tryIntoTree b l = .ok (.ok t)) :
    (∃ u, tryIntoTree (b.with S) l = .ok (.ok u) ∧ Beside t u ∧ (S = [] → u.graph.edges = b.graph.edges)) ∨
      (S ≠ [] ∧ tryIntoTree (b.with S) l = .panic) := by
  unfold tryIntoTree at h ⊢
  obtain ⟨_, ha, h⟩ := Res.bind_eq_ok.1 h
  rw [ha]
  simp only [Res.ok_bind] at h ⊢
  cases hs : strField (splitWs l)[1]? with
  | error x => rw [hs] at h; cases h
  | ok id =>
    rw [hs] at h
    simp only at h ⊢
    by_cases hi : id ≠ b.sentenceId
    · rw [if_pos hi] at h; cases h
    · rw [if_neg hi] at h ⊢
      obtain ⟨g, hg, h⟩ := Res.bind_eq_ok.1 h
      obtain ⟨root, hr, h⟩ := Res.bind_eq_ok.1 h
      have hp := addSec_prim hg
      cases hg' : addSecEdges b.ntIndices S b.graph with
      | panic =>
        refine .inr ⟨?_, rfl⟩
        rintro rfl
        cases hg'
      | diverge => exact absurd hg' addSec_halts
      | ok g' =>
        left
        have hp' := addSec_prim hg'
        simp only [Res.ok_bind, hr]
        by_cases hc : b.processedNts ≠ b.ntIndices.length
        · rw [if_pos hc] at h; cases h
        · rw [if_neg hc] at h ⊢
          obtain ⟨span, hspan, h⟩ := Res.bind_eq_ok.1 h
          obtain ⟨nd, hnd, h⟩ := Res.bind_eq_ok.1 h
          have hnd' : Res.ofOption (g'.node? root) = .ok nd := by
            rw [← hnd]
            unfold Graph.node?
            rw [hp'.1, hp.1]
          rw [hspan]
          simp only [Res.ok_bind, hnd']
          cases hset : nd.setSpan span with
          | error x => rw [hset] at h; cases h
          | ok nd2 =>
            rw [hset] at h
            simp only [Res.pure_eq, Res.ok.injEq, Except.ok.injEq] at h ⊢
            refine ⟨_, rfl, ?_, ?_⟩
            · rw [← h]
              refine ⟨?_, ?_, ?_, rfl, rfl, rfl⟩
              · show g'.nodes.set _ _ = g.nodes.set _ _
                rw [hp'.1, hp.1]
              · exact hp'.2.1.trans hp.2.1.symm
              · exact hp'.2.2.trans hp.2.2.symm
            · rintro rfl
              cases hg'
              rfl

/-- All edges so far belong to the tree proper. -/
def AllPrimary (b : Builder) : Prop := ∀ e ∈ b.graph.edges, e.w.isPrimary = true

theorem edges_primary {b b1 : Builder} {n : Nat} {parts : List Str} (hb : AllPrimary b)
    (h : processEdges b n parts = .ok (.ok b1)) : AllPrimary b1 := by
  unfold processEdges at h
  split at h
  · cases h
  · split at h
    · cases h
    · have key : ∀ (c : Builder) (q : Nat) (w : Option Str), AllPrimary c → (do
          let (g, _) ← c.graph.addEdge q n (.primary w)
          let b2 := { c with graph := g }
          match optionalFields (parts.drop 2) with
          | .error e => return .error e
          | .ok none => return .ok b2
          | .ok (some (label, id)) => return .ok { b2 with secEdges := b2.secEdges ++ [(id, label, n)] } :
            Res (Except Err Builder)) = .ok (.ok b1) → AllPrimary b1 := by
        intro c q w hc h
        obtain ⟨⟨g, i⟩, hg, h⟩ := Res.bind_eq_ok.1 h
        have hg' : ∀ e ∈ g.edges, e.w.isPrimary = true := by
          unfold Graph.addEdge at hg
          obtain ⟨_, _, hg⟩ := Res.bind_eq_ok.1 hg
          split at hg
          all_goals
            simp only [Res.pure_eq, Res.ok.injEq, Prod.mk.injEq] at hg
            rw [← hg.1]
            intro e he
            simp only [List.mem_cons] at he
            rcases he with rfl | he
            · rfl
            · exact hc e he
        simp only at h
        split at h
        · cases h
        · cases h; exact hg'
        · cases h; exact hg'
      rename_i pid hpid
      cases hl : lookupIdx b.ntIndices pid with
      | some q => rw [hl] at h; exact key b q _ hb h
      | none =>
        rw [hl] at h
        refine key { b with
            graph := (b.graph.addNode (.nt (NonTerminal.new [] (Span.ofIdx b.nTerminals)))).1
            ntIndices := b.ntIndices ++ [(pid, (b.graph.addNode (.nt (NonTerminal.new [] (Span.ofIdx b.nTerminals)))).2)] }
          (b.graph.addNode (.nt (NonTerminal.new [] (Span.ofIdx b.nTerminals)))).2 _ ?_ h
        show ∀ e ∈ (b.graph.addNode _).1.edges, _
        unfold Graph.addNode
        split <;> exact hb

theorem line_primary {b b1 : Builder} {l : Str} (hb : AllPrimary b) (h : processLine b l = .ok (.ok b1)) :
    AllPrimary b1 := by
  unfold processLine at h
  split at h
  · unfold nonterminalLine at h
    split at h
    · cases h
    · simp only at h
      split at h
      · split at h
        · cases h
        · split at h
          · cases h
          · split at h
            · split at h
              · cases h
              · obtain ⟨nd, hnd, h⟩ := Res.bind_eq_ok.1 h
                split at h
                · cases h
                · obtain ⟨r, hr, h⟩ := Res.bind_eq_ok.1 h
                  split at h
                  · cases h
                  · have := edges_primary (by exact hb) hr
                    obtain ⟨sp, _, h⟩ := Res.bind_eq_ok.1 h
                    split at h
                    · cases h
                    · obtain ⟨nd, _, h⟩ := Res.bind_eq_ok.1 h
                      split at h
                      · cases h
                      · cases h
                        exact this
            · cases h
      · cases h
  · unfold terminalLine at h
    split at h
    · cases h
    · split at h
      · obtain ⟨r, hr, h⟩ := Res.bind_eq_ok.1 h
        split at h
        · cases h
        · have := edges_primary (by
            show ∀ e ∈ (b.graph.addNode _).1.edges, _
            unfold Graph.addNode
            split <;> exact hb) hr
          cases h
          exact this
      · cases h

theorem header_primary {l : Str} {b : Builder} (h : fromHeader l = .ok (.ok b)) : AllPrimary b ∧ b.secEdges = [] := by
  unfold fromHeader at h
  obtain ⟨_, _, h⟩ := Res.bind_eq_ok.1 h
  simp only at h
  split at h
  · cases h
  · cases h
    exact ⟨fun e he => (by cases he), rfl⟩

/-! ## Calls of the reader -/

theorem next_frame {l : Str} (h : IsFrame l) (rest : List Str) (b : Builder) {t : Tree} {r : List Str} 
    (hn : nextFrom (l :: rest) (some b) = .ok (some (.ok t), r)) : r = rest ∧ tryIntoTree b (trim l) = .ok (.ok t) := by
  rw [nextFrom] at hn
  rcases h with h | h
  · rw [if_pos h] at hn; cases hn
  · rw [if_neg (by rw [eos_not_bos h]; simp), if_pos h] at hn
    obtain ⟨r, hr, hn⟩ := Res.bind_eq_ok.1 hn
    cases hn
    exact ⟨rfl, hr⟩

theorem next_line {l : Str} (h : ¬ IsFrame l) (rest : List Str) (b : Builder) : nextFrom (l :: rest) (some b) = (do
    let r ← processLine b (trim l)
    match r with
    | .ok b' => nextFrom rest (some b')
    | .error e => return (some (.error e), rest)) := by
  rw [nextFrom]
  rw [if_neg (fun k => h (.inl k)), if_neg (fun k => h (.inr k))]
  rfl

/-- A call that gives a tree in one file gives that tree with other secondary edges in the other, if it gives a tree. -/
theorem sentence_with {ls ls' : List Str} (H : List.Forall₂ SameColumns ls ls') : ∀ {b : Builder} {t : Tree} {rest : List Str}
    (S : List (Nat × Str × Nat)), nextFrom ls (some b) = .ok (some (.ok t), rest) →
    nextFrom ls' (some (b.with S)) = .panic ∨ ∃ r rest', nextFrom ls' (some (b.with S)) = .ok (some r, rest') ∧
      ∀ u, r = .ok u → Beside t u ∧ List.Forall₂ SameColumns rest rest' := by
  induction H with
  | nil => intro b t rest S h; cases h
  | @cons l l' ls ls' hl hls ih =>
    intro b t rest S h
    rcases hl.cases with ⟨hf, rfl⟩ | ⟨hf, hf', h1, h2⟩
    · obtain ⟨rfl, ht⟩ := next_frame hf _ _ h
      have he : startsWith eos (trim l') = true := by
        rcases hf with hf | hf
        · rw [nextFrom] at h
          simp only [hf, if_true] at h
          cases h
        · exact hf
      rw [next_footer he]
      rcases footer_with S ht with ⟨u, hu, hB, _⟩ | ⟨_, hp⟩
      · right
        rw [hu]
        refine ⟨_, _, rfl, ?_⟩
        intro u' he
        cases he
        exact ⟨hB, hls⟩
      · left; rw [hp]; rfl
    · rw [next_line hf] at h
      rw [next_line hf']
      obtain ⟨r, hr, h⟩ := Res.bind_eq_ok.1 h
      cases r with
      | error e => cases h
      | ok b1 =>
        rcases line_with b S h1 h2 hr with ⟨S1, k, _⟩ | ⟨_, x, k⟩
        · rw [k]
          exact ih S1 h
        · right
          rw [k]
          exact ⟨_, _, rfl, fun u hu => by cases hu⟩

/-- The file without what follows the sixth column can be read as far as the file can. -/
theorem sentence_stripped {ls ls' : List Str} (H : List.Forall₂ Stripped ls ls') : ∀ {b : Builder} {r : Option (Except Err Tree)}
    {rest : List Str}, AllPrimary b → nextFrom ls (some b) = .ok (r, rest) → (∀ e, r ≠ some (.error e)) →
    ∃ r' rest', nextFrom ls' (some (b.with [])) = .ok (r', rest') ∧ (r = none → r' = none) ∧
      ∀ t, r = some (.ok t) → ∃ u, r' = some (.ok u) ∧ Beside t u ∧ u.NoSecondary ∧ List.Forall₂ Stripped rest rest' := by
  induction H with
  | nil =>
    intro b r rest _ h _
    cases h
    exact ⟨none, [], rfl, fun _ => rfl, fun t ht => by cases ht⟩
  | @cons l l' ls ls' hl hls ih =>
    intro b r rest hb h hne
    rcases hl.same.cases with ⟨hf, rfl⟩ | ⟨hf, hf', h1, h2⟩
    · rcases hf with hf | hf
      · rw [nextFrom] at h
        simp only [hf, if_true] at h
        cases h
        exact absurd rfl (hne _)
      · rw [next_footer hf] at h ⊢
        obtain ⟨x, hx, h⟩ := Res.bind_eq_ok.1 h
        cases h
        cases x with
        | error e => exact absurd rfl (hne e)
        | ok t =>
          rcases footer_with [] hx with ⟨u, hu, hB, hE⟩ | ⟨hp, _⟩
          · rw [hu]
            refine ⟨_, _, rfl, fun h => (by cases h), ?_⟩
            intro t' ht'
            cases ht'
            refine ⟨u, rfl, hB, ?_, hls⟩
            intro e he
            rw [hE rfl] at he
            exact hb e he
          · exact absurd rfl hp
    · rw [next_line hf] at h
      rw [next_line hf']
      obtain ⟨x, hx, h⟩ := Res.bind_eq_ok.1 h
      cases x with
      | error e => cases h; exact absurd rfl (hne e)
      | ok b1 =>
        rcases line_with b [] h1 h2 hx with ⟨S1, k, k'⟩ | ⟨k', _⟩
        · rw [k, k' (hl.length hf)]
          exact ih (line_primary hb hx) h hne
        · exact absurd (hl.length hf) (by omega)

theorem next_none {l : Str} (h : ¬ IsFrame l) (rest : List Str) : nextFrom (l :: rest) none = nextFrom rest none := by
  rw [nextFrom]
  rw [if_neg (fun k => h (.inl k)), if_neg (fun k => h (.inr k))]

theorem next_bos {l : Str} (h : startsWith bos (trim l) = true) (rest : List Str) : nextFrom (l :: rest) none = (do
    let r ← fromHeader (trim l)
    match r with
    | .ok b => nextFrom rest (some b)
    | .error e => return (some (.error e), rest)) := by
  rw [nextFrom]
  rw [if_pos h]
  rfl

theorem next_eos {l : Str} (h : startsWith eos (trim l) = true) (rest : List Str) :
    nextFrom (l :: rest) none = .ok (some (.error (.parse 28)), rest) := by
  rw [nextFrom]
  rw [if_neg (by rw [eos_not_bos h]; simp), if_pos h]

theorem with_self {b : Builder} {S : List (Nat × Str × Nat)} (h : b.secEdges = S) : b.with S = b := by
  subst h; rfl

theorem reader_with {ls ls' : List Str} (H : List.Forall₂ SameColumns ls ls') {t : Tree} {rest : List Str}
    (h : readerNext ls = .ok (some (.ok t), rest)) :
    readerNext ls' = .panic ∨ ∃ r rest', readerNext ls' = .ok (some r, rest') ∧
      ∀ u, r = .ok u → Beside t u ∧ List.Forall₂ SameColumns rest rest' := by
  unfold readerNext at h ⊢
  induction H with
  | nil => cases h
  | @cons l l' ls ls' hl hls ih =>
    rcases hl.cases with ⟨hf, rfl⟩ | ⟨hf, hf', _⟩
    · rcases hf with hf | hf
      · rw [next_bos hf] at h ⊢
        obtain ⟨x, hx, h⟩ := Res.bind_eq_ok.1 h
        rw [hx]
        cases x with
        | error e => cases h
        | ok b => exact sentence_with hls b.secEdges h
      · rw [next_eos hf] at h; cases h
    · rw [next_none hf] at h
      rw [next_none hf']
      exact ih h

theorem reader_stripped {ls ls' : List Str} (H : List.Forall₂ Stripped ls ls') {r : Option (Except Err Tree)} {rest : List Str}
    (h : readerNext ls = .ok (r, rest)) (hne : ∀ e, r ≠ some (.error e)) :
    ∃ r' rest', readerNext ls' = .ok (r', rest') ∧ (r = none → r' = none) ∧
      ∀ t, r = some (.ok t) → ∃ u, r' = some (.ok u) ∧ Beside t u ∧ u.NoSecondary ∧ List.Forall₂ Stripped rest rest' := by
  unfold readerNext at h ⊢
  induction H with
  | nil => cases h; exact ⟨none, [], rfl, fun _ => rfl, fun t ht => by cases ht⟩
  | @cons l l' ls ls' hl hls ih =>
    rcases hl.same.cases with ⟨hf, rfl⟩ | ⟨hf, hf', _⟩
    · rcases hf with hf | hf
      · rw [next_bos hf] at h ⊢
        obtain ⟨x, hx, h⟩ := Res.bind_eq_ok.1 h
        rw [hx]
        cases x with
        | error e => cases h; exact absurd rfl (hne e)
        | ok b =>
          obtain ⟨h1, h2⟩ := header_primary hx
          have := sentence_stripped hls h1 h hne
          rwa [with_self h2] at this
      · rw [next_eos hf] at h; cases h; exact absurd rfl (hne _)
    · rw [next_none hf] at h
      rw [next_none hf']
      exact ih h

open Lumberjack.Convert in
theorem fromLines_ok {src : Source} {x : Res (Option (Except Err Tree) × List Str)} {r : Option (Except Err Tree)}
    {src' : Source} : fromLines src x = .ok (r, src') ↔ ∃ rest, x = .ok (r, rest) ∧ src' = { src with lines := rest } := by
  unfold fromLines
  constructor
  · intro h
    obtain ⟨⟨r1, rest⟩, h1, h⟩ := Res.bind_eq_ok.1 h
    cases h
    exact ⟨rest, h1, rfl⟩
  · rintro ⟨rest, rfl, rfl⟩
    rfl

open Lumberjack.Convert in
theorem streams_with {m m' : Bool} : ∀ {ts us : List Tree} {src src' : Source},
    List.Forall₂ SameColumns src.lines src'.lines → Stream .negra m src (ts.map .ok) true →
    Stream .negra m' src' (us.map .ok) true → List.Forall₂ Tree.OtherSecondary ts us
  | [], [], _, _, _, _, _ => .nil
  | t :: ts, u :: us, src, src', H, h, h' => by
    cases h with
    | item h1 h => cases h' with
      | item h1' h' =>
        obtain ⟨rest, k1, rfl⟩ := fromLines_ok.1 h1
        obtain ⟨rest', k1', rfl⟩ := fromLines_ok.1 h1'
        rcases reader_with H k1 with hp | ⟨r, rest2, hr, hu⟩
        · rw [hp] at k1'; cases k1'
        · rw [hr] at k1'
          cases k1'
          obtain ⟨hB, hl⟩ := hu u rfl
          exact .cons hB.other (streams_with hl h h')
  | [], u :: us, src, src', H, h, h' => by
    cases h with
    | stop h1 => cases h' with
      | item h1' h' =>
        obtain ⟨rest, k1, rfl⟩ := fromLines_ok.1 h1
        obtain ⟨rest', k1', rfl⟩ := fromLines_ok.1 h1'
        rcases reader_with (H.flip.imp fun _ _ h => SameColumns.symm h) k1' with hp | ⟨r, rest2, hr, hu⟩
        · rw [hp] at k1; cases k1
        · rw [hr] at k1; cases k1
  | t :: ts, [], src, src', H, h, h' => by
    cases h with
    | item h1 h => cases h' with
      | stop h1' =>
        obtain ⟨rest, k1, rfl⟩ := fromLines_ok.1 h1
        obtain ⟨rest', k1', rfl⟩ := fromLines_ok.1 h1'
        rcases reader_with H k1 with hp | ⟨r, rest2, hr, hu⟩
        · rw [hp] at k1'; cases k1'
        · rw [hr] at k1'; cases k1'

open Lumberjack.Convert in
theorem negra_graph {ls rest : List Str} {t : Tree} (h : readerNext ls = .ok (some (.ok t), rest)) : t.graph.OK := by
  obtain ⟨pre, hd, body, f, id, info, T, N, rfl, h1, h2, h3, h4, h5, h6, h7, h8⟩ := (Props.C49_tree ls rest).1 ⟨t, h⟩
  obtain ⟨b, τ, i1, i2, i3, i4⟩ := sentence_inv (id := id) (info := info) h3 h4
  rw [next_outside h1, next_opens h2, i4, next_footer h5.1] at h
  rcases footer_ok i1 h5 with ⟨g1, _⟩ | ⟨_, g1, _⟩ | ⟨_, _, g1, _⟩ | ⟨g1, g2, g3, root, x, g4, g5, g6⟩
  · exact absurd h7 g1
  · exact absurd h8 g1
  · exact absurd g1 h6
  · rw [g6] at h
    simp only [Res.ok_bind, Res.pure_eq, Res.ok.injEq, Prod.mk.injEq, Option.some.injEq, Except.ok.injEq,
      and_true] at h
    subst h
    exact finish_ok i1 h7 g5

open Lumberjack.Convert Lumberjack.Tree in
theorem Beside.suits {t u : Tree} (B : Beside t u) (hu : u.graph.OK) (hn : u.NoSecondary) {o : Options} (S : Suits o t) :
    Suits o u := by
  have hnode : ∀ n, u.graph.node? n = t.graph.node? n := fun n => by unfold Graph.node?; rw [B.nodes]
  have hT : ∀ n i, u.TermAt n i ↔ t.TermAt n i := fun n i => by unfold TermAt; rw [hnode]
  refine ⟨⟨S.fit.wf.congr hu B.edges B.root B.nTerminals B.numDisc hnode, ?_, ?_, ?_⟩, ?_⟩
  · obtain ⟨x, hx⟩ := S.fit.rootNt
    exact ⟨x, by rw [B.root, hnode]; exact hx⟩
  · intro n m i j h1 h2
    exact S.fit.order n m i j ((hT n i).1 h1) ((hT m j).1 h2)
  · intro r hr hw
    rw [hn r hr] at hw; cases hw
  · rw [B.nTerminals]; exact S.words

open Lumberjack.Convert in
theorem stream_stripped {m m' : Bool} : ∀ {ts : List Tree} {src src' : Source},
    List.Forall₂ Stripped src.lines src'.lines → Stream .negra m src (ts.map .ok) true →
    ∃ us, Stream .negra m' src' (us.map .ok) true ∧ List.Forall₂ (fun t u => Tree.OtherSecondary t u ∧ u.NoSecondary ∧
      ∀ o, Suits o t → Suits o u) ts us
  | [], src, src', H, h => by
    cases h with
    | stop h1 =>
      obtain ⟨rest, k1, rfl⟩ := fromLines_ok.1 h1
      obtain ⟨r', rest', k, k', _⟩ := reader_stripped H k1 (fun _ h => by cases h)
      rw [k' rfl] at k
      exact ⟨[], .stop (fromLines_ok.2 ⟨rest', k, rfl⟩), .nil⟩
  | t :: ts, src, src', H, h => by
    cases h with
    | item h1 h =>
      obtain ⟨rest, k1, rfl⟩ := fromLines_ok.1 h1
      obtain ⟨r', rest', k, _, k'⟩ := reader_stripped H k1 (fun _ h => by cases h)
      obtain ⟨u, rfl, hB, hn, hl⟩ := k' t rfl
      obtain ⟨us, g1, g2⟩ := stream_stripped (m' := m') (src' := { src' with lines := rest' }) hl h
      exact ⟨u :: us, .item (fromLines_ok.2 ⟨rest', k, rfl⟩) g1,
        .cons ⟨hB.other, hn, fun o S => hB.suits (negra_graph k) hn S⟩ g2⟩

end Negra

namespace Convert

open Lumberjack.Tree

theorem other_loop {o : Options} {f f' : InFormat} {m m' : Bool} {pick pick' : Tree → Finset Nat → Option Nat}
    (hpick : IsOrder pick) (hpick' : IsOrder pick') (ho : o.out ≠ .negra) (b : Bool) {ts us : List Tree}
    (h : List.Forall₂ (fun t u => Suits o t ∧ Suits o u ∧ Tree.OtherSecondary t u) ts us) :
    ∀ {src src' : Source} {pos : Option (List PosItem)} {k k' c : Nat},
    Stream f m src (ts.map .ok) true → Stream f' m' src' (us.map .ok) true → ts.length < k → us.length < k' →
    loop f m pick o k src pos c = loop f' m' pick' { o with secEdges := b } k' src' pos c := by
  induction h with
  | nil =>
    intro src src' pos k k' c hs hs' hk hk'
    obtain ⟨k, rfl⟩ : ∃ j, k = j + 1 := ⟨k - 1, by simp at hk; omega⟩
    obtain ⟨k', rfl⟩ : ∃ j, k' = j + 1 := ⟨k' - 1, by simp at hk'; omega⟩
    cases hs with
    | stop hn => cases hs' with
      | stop hn' => rw [loop, loop, hn, hn']
  | @cons t u ts us h _ ih =>
    intro src src' pos k k' c hs hs' hk hk'
    obtain ⟨k, rfl⟩ : ∃ j, k = j + 1 := ⟨k - 1, by simp at hk; omega⟩
    obtain ⟨k', rfl⟩ : ∃ j, k' = j + 1 := ⟨k' - 1, by simp at hk'; omega⟩
    obtain ⟨S, S', H⟩ := h
    cases hs with
    | item h1 hs => cases hs' with
      | item h1' hs' =>
        rw [loop, loop, h1, h1']
        simp only
        rw [other_convert H S S' ho b hpick hpick' (nextPos pos).1 c]
        cases convertTree pick o (nextPos pos).1 c t with
        | panic => rfl
        | diverge => rfl
        | ok r => cases r with
          | error e => rfl
          | ok r =>
            obtain ⟨w, c'⟩ := r
            simp only
            rw [ih hs hs' (by simpa using hk) (by simpa using hk')]

end Convert
end Lumberjack
