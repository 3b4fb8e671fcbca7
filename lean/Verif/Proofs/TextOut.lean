import Verif.Proofs.ConvertRead
import Verif.Proofs.IsoSteps
import Verif.Proofs.TextWords

/-!
# The words in the output of the conversion tool
-/

namespace Lumberjack
namespace Bracketed

/-- No closing bracket in a tag, words, and something below every node. -/
def OpenTags : Brackets → Prop
  | .nil => True
  | .leaf tag w r => ')' ∉ tag ∧ Word w ∧ OpenTags r
  | .node tag k r => ')' ∉ tag ∧ k ≠ .nil ∧ OpenTags k ∧ OpenTags r

/-- The bracketings, each with the separator before it. -/
def joined (sep : Str) (b : Brackets) : Str := (b.text sep).flatMap (sep ++ ·)

theorem leaf_wordsFrom {tag w : Str} (h : ')' ∉ tag) (hw : Word w) (q e : Str) :
    wordsFrom q ('(' :: (tag ++ ' ' :: w ++ [')']) ++ e) = w :: wordsIn e := by
  have e1 : '(' :: (tag ++ ' ' :: w ++ [')']) ++ e = '(' :: (tag ++ ' ' :: w) ++ ')' :: e := by simp
  rw [e1, wordsFrom_piece, wordsFrom_close]
  · have e2 : q ++ '(' :: (tag ++ ' ' :: w) = (q ++ '(' :: tag) ++ ' ' :: (w ++ []) := by simp
    rw [e2, lastWord_word rfl hw (by intro c hc; simp at hc)]; rfl
  · simp only [List.mem_append, List.mem_cons, not_or]
    exact ⟨by decide, h, by decide, word_close hw⟩

theorem wordsIn_close (e : Str) : wordsIn (')' :: e) = wordsIn e := by
  show wordsFrom [] _ = _
  rw [wordsFrom_close, lastWord_space (by intro c hc; simp at hc)]; rfl

theorem node_wordsFrom {sep tag : Str} {k : Brackets} (h : ')' ∉ tag)
    (hk : ∀ q e, Tail e → wordsFrom q (joined sep k ++ e) = k.words ++ wordsIn e) (q e : Str) :
    wordsFrom q ('(' :: (List.intercalate sep (tag :: k.text sep) ++ [')']) ++ e) = k.words ++ wordsIn e := by
  have e1 : '(' :: (List.intercalate sep (tag :: k.text sep) ++ [')']) ++ e =
      '(' :: tag ++ (joined sep k ++ ')' :: e) := by
    rw [Ptb.intercalate_cons]; simp [joined]
  rw [e1, wordsFrom_piece, hk _ _ (.inr ⟨_, rfl⟩), wordsIn_close]
  simp only [List.mem_cons, not_or]
  exact ⟨by decide, h⟩

theorem joined_words {sep : Str} (hs : Space sep) {b : Brackets} (h : OpenTags b) :
    (∀ e, Tail e → wordsIn (joined sep b ++ e) = b.words ++ wordsIn e) ∧
    (b ≠ .nil → ∀ q e, Tail e → wordsFrom q (joined sep b ++ e) = b.words ++ wordsIn e) := by
  induction b with
  | nil => exact ⟨fun e _ => rfl, fun h => absurd rfl h⟩
  | leaf tag w r ih =>
    obtain ⟨h1, h2, h3⟩ := h
    have key : ∀ q e, Tail e → wordsFrom q (joined sep (.leaf tag w r) ++ e) = (Brackets.leaf tag w r).words ++ wordsIn e := by
      intro q e he
      have e1 : joined sep (.leaf tag w r) ++ e = sep ++ ('(' :: (tag ++ ' ' :: w ++ [')']) ++ (joined sep r ++ e)) := by
        simp [joined, Brackets.text]
      rw [e1, wordsFrom_piece (space_close hs), leaf_wordsFrom h1 h2, (ih h3).1 e he]
      simp [Brackets.words]
    exact ⟨fun e he => key [] e he, fun _ => key⟩
  | node tag k r ihk ih =>
    obtain ⟨h1, h2, h3, h4⟩ := h
    have key : ∀ q e, Tail e → wordsFrom q (joined sep (.node tag k r) ++ e) = (Brackets.node tag k r).words ++ wordsIn e := by
      intro q e he
      have e1 : joined sep (.node tag k r) ++ e =
          sep ++ ('(' :: (List.intercalate sep (tag :: k.text sep) ++ [')']) ++ (joined sep r ++ e)) := by
        simp [joined, Brackets.text]
      rw [e1, wordsFrom_piece (space_close hs), node_wordsFrom h1 ((ihk h3).2 h2), (ih h4).1 e he]
      simp [Brackets.words]
    exact ⟨fun e he => key [] e he, fun _ => key⟩

theorem text_words {sep : Str} (hs : Space sep) {b : Brackets} (h : OpenTags b) {s : Str} (ht : b.text sep = [s]) (e : Str) :
    wordsIn (s ++ e) = b.words ++ wordsIn e := by
  cases b with
  | nil => simp [Brackets.text] at ht
  | leaf tag w r =>
    simp only [Brackets.text, List.cons.injEq] at ht
    obtain ⟨rfl, hr⟩ := ht
    have : r = .nil := by cases r <;> simp_all [Brackets.text]
    subst this
    show wordsFrom [] _ = _
    rw [leaf_wordsFrom h.1 h.2.1]; rfl
  | node tag k r =>
    simp only [Brackets.text, List.cons.injEq] at ht
    obtain ⟨rfl, hr⟩ := ht
    have : r = .nil := by cases r <;> simp_all [Brackets.text]
    subst this
    show wordsFrom [] _ = _
    rw [node_wordsFrom h.1 ((joined_words hs h.2.2.1).2 h.2.1)]; simp [Brackets.words]

theorem escape_close (s : Str) : ')' ∉ escape s := by
  intro h
  unfold escape at h
  rw [List.mem_flatMap] at h
  obtain ⟨c, _, h⟩ := h
  split at h
  · exact absurd h (by decide)
  · split at h
    · exact absurd h (by decide)
    · rename_i h1; simp at h; exact h1 h.symm

theorem writeTag_close {f : Ptb.Format} {l : Str} {e a : Option Str} (hl : ')' ∉ l) (he : ∀ s, e = some s → ')' ∉ s)
    (ha : ∀ s, a = some s → ')' ∉ s) : ')' ∉ writeTag f l e a := by
  cases f with
  | simple => exact hl
  | ptb =>
    cases a with
    | none => simpa [writeTag] using hl
    | some a => simpa [writeTag, hl] using ha a rfl
  | tueba =>
    cases a with
    | none =>
      cases e with
      | none => simp [writeTag, hl]
      | some e => simpa [writeTag, hl] using he e rfl
    | some a =>
      have := ha a rfl
      cases e with
      | none => simpa [writeTag, hl] using this
      | some e => simpa [writeTag, hl, this] using he e rfl

theorem brackets_words (f : Ptb.Format) (F : Forest) : (F.brackets f).words = F.leaves.map fun x => escape x.form := by
  induction F with
  | nil => rfl
  | leaf e x r ih => simp [Forest.brackets, Brackets.words, Forest.leaves, ih]
  | node e x k r ihk ih => simp [Forest.brackets, Brackets.words, Forest.leaves, ihk, ih]

end Bracketed

namespace Tree

open Bracketed

variable {t t' : Tree} {P : Str → Prop}

theorem Rep.openTags {f : Ptb.Format} (h : t.Texts (fun s => ')' ∉ s)) (hw : ∀ n x, t.graph.node? n = some (.term x) → Word (escape x.form))
    {F : Forest} : ∀ {ids : List Nat} {k : Nat}, t.Rep ids F → F.Seq k → OpenTags (F.brackets f) := by
  induction F with
  | nil => intro _ _ _ _; trivial
  | leaf e x r ih =>
    rintro ids k ⟨n, ns, rfl, h4, rfl, h6⟩ hs
    refine ⟨writeTag_close (escape_close _) (fun s hs => h.edge n s hs) (by simp), hw n x h4, ?_⟩
    exact ih h6 hs.2
  | node e x k r ihk ih =>
    rintro ids j ⟨n, ns, ks, rfl, h4, rfl, h6, h7, h8⟩ hs
    refine ⟨writeTag_close (h.label n x h4) (fun s hs => h.edge n s hs) (fun a ha => h.annotation n x a h4 ha), ?_, ?_, ?_⟩
    · exact Ptb.brackets_ne_nil hs.1
    · exact ihk h7 hs.2.2.1
    · exact ih h8 hs.2.2.2

/-! ## What the steps keep -/

theorem inLabel_edge {n : Nat} {l : Str} (h : t.inLabel n = some l) :
    ∃ r ∈ t.graph.edges, r.w.isPrimary = true ∧ r.tgt = n ∧ r.w.label = some l := by
  unfold inLabel edgeLabel at h
  rw [Option.bind_eq_some_iff] at h
  obtain ⟨w, h1, h2⟩ := h
  rw [Option.map_eq_some_iff] at h1
  obtain ⟨r, h3, rfl⟩ := h1
  have h4 := List.find?_some h3
  simp only [Bool.and_eq_true, decide_eq_true_eq] at h4
  exact ⟨r, List.mem_of_find?_eq_some h3, h4.2, h4.1, h2⟩

theorem edge_inLabel (S : t.Shape) {r : EdgeRec} (hr : r ∈ t.graph.edges) (hp : r.w.isPrimary = true) :
    t.inLabel r.tgt = r.w.label := by
  unfold inLabel
  rw [S.edgeLabel_of_edge hr hp]; rfl

theorem content_texts {n : Nat} {y : NonTerminal} (hc : t'.content n = t.content n) (h : t'.graph.node? n = some (.nt y)) :
    ∃ x, t.graph.node? n = some (.nt x) ∧ x.label = y.label ∧ x.features = y.features := by
  unfold content at hc
  rw [h] at hc
  cases hx : t.graph.node? n with
  | none => rw [hx] at hc; simp at hc
  | some nd =>
    rw [hx] at hc
    cases nd with
    | term x => simp [Node.replaceSpan] at hc
    | nt x =>
      simp only [Node.replaceSpan, Option.map_some, Option.some.injEq, Node.nt.injEq, NonTerminal.mk.injEq] at hc
      exact ⟨x, rfl, hc.1.symm, hc.2.1.symm⟩

/-- Labels and annotations of the nonterminals are kept, and labels of edges are kept or dropped. -/
theorem Texts.next (h : t.Texts P) (hn : ∀ n y, t'.graph.node? n = some (.nt y) →
      ∃ x, t.graph.node? n = some (.nt x) ∧ x.label = y.label ∧ x.features = y.features)
    (he : ∀ n l, t'.inLabel n = some l → t.inLabel n = some l) : t'.Texts P where
  label n y hy := by obtain ⟨x, h1, h2, _⟩ := hn n y hy; rw [← h2]; exact h.label n x h1
  annotation n y a hy ha := by obtain ⟨x, h1, _, h3⟩ := hn n y hy; rw [← h3] at ha; exact h.annotation n x a h1 ha
  edge n l hl := h.edge n l (he n l hl)

theorem Texts.removed {R : Nat → Prop} (h : t.Texts P) (W : t.WF) (H : Removed t t' R) : t'.Texts P := by
  refine h.next (fun n y hy => ?_) fun n l hl => ?_
  · have : ¬ R n := fun hR => H.gone n hR ⟨_, hy⟩
    rw [H.node n this] at hy
    exact ⟨y, hy, rfl, rfl⟩
  · obtain ⟨r, h1, h2, rfl, h3⟩ := inLabel_edge hl
    rcases H.added r h1 with h4 | ⟨_, h4⟩
    · rw [edge_inLabel W.shape h4 h2, h3]
    · rw [h4] at h3; simp [Edge.label] at h3

theorem Texts.edit {g : Nat → Terminal → Terminal} (h : t.Texts P) (E : TermEdit t t' g) : t'.Texts P := by
  refine h.next (fun n y hy => ?_) fun n l hl => ?_
  · cases hx : t.graph.node? n with
    | none => rw [E.none n hx] at hy; cases hy
    | some nd =>
      cases nd with
      | term x => rw [E.term n x hx] at hy; cases hy
      | nt x => rw [E.nt n x hx] at hy; cases hy; exact ⟨_, rfl, rfl, rfl⟩
  · have : t'.graph.edges = t.graph.edges := by rw [E.graph]
    unfold inLabel edgeLabel at hl ⊢
    rw [this] at hl; exact hl

theorem Texts.moves {log : List Move} (h : t.Texts P) (M : Moves t log t') : t'.Texts P := by
  induction M with
  | nil => exact h
  | @snoc t1 t2 log m hM W hm ih =>
    obtain ⟨q, id, id', g1, g2, _, _, _, _, _, g3, g4, _⟩ := hm
    refine ih.next (fun n y hy => content_texts (g4 n) hy) fun n l hl => ?_
    obtain ⟨r, h1, h2, rfl, h3⟩ := inLabel_edge hl
    rw [g3, List.mem_cons] at h1
    rcases h1 with rfl | h1
    · have := edge_inLabel W.shape g1 g2
      simp only at this h3 ⊢
      rw [this, h3]
    · rw [edge_inLabel W.shape (List.mem_filter.1 h1).1 h2, h3]

end Tree

namespace Convert

open Lumberjack.Tree

variable {t t' : Tree} {P : Str → Prop}

theorem Texts.recorded {log : List Move} (h : t.Texts P) (W : t.WF) (R : Recorded log t t') : t'.Texts P := by
  refine h.next (fun n y hy => ⟨y, by rw [← R.node]; exact hy, rfl, rfl⟩) fun n l hl => ?_
  obtain ⟨r, h1, h2, rfl, h3⟩ := inLabel_edge hl
  obtain ⟨new, g1, g2⟩ := R.edges
  rw [g1, List.mem_append] at h1
  rcases h1 with h1 | h1
  · have : (r.src, r.tgt, r.w) ∈ new.reverse.map (fun r => (r.src, r.tgt, r.w)) :=
      List.mem_map.2 ⟨r, List.mem_reverse.2 h1, rfl⟩
    rw [g2, List.mem_map] at this
    obtain ⟨m, _, hm⟩ := this
    simp only [Prod.mk.injEq] at hm
    rw [← hm.2.2] at h2; cases h2
  · rw [edge_inLabel W.shape h1 h2, h3]

theorem Texts.gathered {a : Nat} {M : Nat → Prop} (h : t.Texts P) (G : Gathered t a M t') : t'.Texts P := by
  refine h.next (fun n y hy => content_texts (G.content n ⟨_, hy⟩) hy) fun n l hl => ?_
  obtain ⟨r, h1, h2, rfl, h3⟩ := inLabel_edge hl
  by_cases hM : M r.tgt
  · rw [G.moved _ hM] at hl; cases hl
  · rw [← G.label _ (G.wf.graph.ends r h1).2 hM]; exact hl

theorem Texts.inserted {K : Nat → Nat → Prop} {l : Str} (h : t.Texts P) (hl : P l) (I : Inserted t K (fun _ => l) t') :
    t'.Texts P := by
  have key : ∀ n y, t'.graph.node? n = some (.nt y) → t.graph.node? n = some (.nt y) ∨ ∃ s, y = NonTerminal.new l s := by
    intro n y hy
    by_cases hn : t.Live n
    · rw [I.old n hn] at hy; exact .inl hy
    · obtain ⟨p, c, _, _, _, ⟨s, hs⟩, _⟩ := I.new n ⟨_, hy⟩ hn
      rw [hy] at hs
      simp only [Option.some.injEq, Node.nt.injEq] at hs
      exact .inr ⟨s, hs⟩
  refine ⟨fun n y hy => ?_, fun n y a hy ha => ?_, fun n k hk => ?_⟩
  · rcases key n y hy with hy | ⟨s, rfl⟩
    · exact h.label n y hy
    · exact hl
  · rcases key n y hy with hy | ⟨s, rfl⟩
    · exact h.annotation n y a hy ha
    · cases ha
  · obtain ⟨r, h1, h2, rfl, h3⟩ := inLabel_edge hk
    have hL := (I.wf.graph.ends r h1).2
    by_cases hn : t.Live r.tgt
    · by_cases hf : ∀ p d i, K p r.tgt → K p d → t.TermAt d i → ¬ t.TermAt r.tgt (i + 1)
      · rw [I.first _ hn hf] at hk; exact h.edge _ _ hk
      · simp only [not_forall, not_not] at hf
        obtain ⟨p, d, i, a1, a2, a3, a4⟩ := hf
        rw [I.follow p _ d i a1 a2 a3 a4] at hk; cases hk
    · obtain ⟨p, c, _, _, h5, _⟩ := I.new _ hL hn
      rw [h5] at hk; cases hk

/-- The steps add no text but the label of inserted nodes. -/
theorem pipeline_texts {o : Options} {tags : Option (List Str)} (S : Suits o t) (h : Pipeline o tags t t')
    (ht : t.Texts P) (hl : o.insertionSet ≠ none → P o.insertionLabel) : t'.Texts P := by
  obtain ⟨t1, t2, t3, t4, t5, t6, t7, b1, b2, b3, b4, b5, b6, b7, b8⟩ := h
  have W := S.fit.wf
  have c1 : t1.WF ∧ t1.Texts P := by
    cases h : o.removeDummies with
    | false => rw [b1.2 h]; exact ⟨W, ht⟩
    | true => obtain ⟨R, h1, _⟩ := b1.1 h; exact ⟨h1.wf, ht.removed W h1⟩
  have c2 : t2.WF ∧ t2.Texts P := by
    cases h : o.projectivize with
    | false => rw [b2.2 h]; exact c1
    | true =>
      rcases b2.1 h with ⟨_, rfl⟩ | ⟨_, log, u, _, M, W', _, h1, h2⟩
      · exact c1
      · have hu := c1.2.moves M
        cases hs : o.secEdges with
        | false => rw [h2 hs]; exact ⟨W', hu⟩
        | true => exact ⟨(h1 hs).wf, Texts.recorded hu W' (h1 hs)⟩
  have c3 : t3.WF ∧ t3.Texts P := by
    cases tags with
    | none => rw [show t3 = t2 from b3]; exact c2
    | some l => exact ⟨TermEdit.wf b3 (fun _ _ => rfl) c2.1, c2.2.edit b3⟩
  have c4 : t4.WF ∧ t4.Texts P := by
    cases h : o.reattachLabel with
    | none => rw [h] at b4; rw [show t4 = t3 from b4]; exact c3
    | some p => rw [h] at b4; exact ⟨b4.wf, Texts.gathered c3.2 b4⟩
  have c5 : t5.WF ∧ t5.Texts P := by
    cases h : o.idSet with
    | none => rw [h] at b5; rw [show t5 = t4 from b5]; exact c4
    | some p => rw [h] at b5; obtain ⟨num, E, _⟩ := b5; exact ⟨E.wf (fun _ _ => rfl) c4.1, c4.2.edit E⟩
  have c6 : t6.WF ∧ t6.Texts P := by
    cases h : o.filterSet with
    | none => rw [h] at b6; rw [show t6 = t5 from b6]; exact c5
    | some p => rw [h] at b6; exact ⟨b6.2.wf, c5.2.removed c5.1 b6.2⟩
  have c7 : t7.WF ∧ t7.Texts P := by
    cases h : o.insertionSet with
    | none => rw [h] at b7; rw [show t7 = t6 from b7]; exact c6
    | some p => rw [h] at b7; exact ⟨b7.wf, Texts.inserted c6.2 (hl (by rw [h]; simp)) b7⟩
  cases h : o.parentFeature with
  | none => rw [h] at b8; rw [show t' = t7 from b8]; exact c7.2
  | some p => rw [h] at b8; obtain ⟨val, E, _⟩ := b8; exact c7.2.edit E

/-- The words in the text written for a tree. -/
theorem bracketText_words {f : Ptb.Format} {s : Str} (W : t.WF) (hN : NoGaps t) (h : BracketText f t s)
    (ht : t.Texts (fun s => ')' ∉ s)) (hw : ∀ n x, t.graph.node? n = some (.term x) → Bracketed.Word (Bracketed.escape x.form))
    {ts : List Terminal} (hts : t.Terminals ts) : Bracketed.wordsIn s = ts.map fun x => Bracketed.escape x.form := by
  obtain ⟨F, b, h1, h2, rfl⟩ := h
  have hp := (noGaps_iff W).2 hN
  have hq := (W.is_seq hp h1).1
  rw [Bracketed.text_words (Ptb.sepOf_space f) (Rep.openTags ht hw h1 hq) h2, Bracketed.brackets_words,
    Terminals.unique W hts (terminals_leaves W hp h1)]
  simp [Bracketed.wordsIn, Bracketed.wordsFrom]

end Convert
end Lumberjack
