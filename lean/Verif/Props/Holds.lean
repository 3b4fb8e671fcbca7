import Verif.Spec.Holds
import Verif.Proofs.Through
import Verif.Proofs.Holds
import Verif.Props.Bracket
import Verif.Props.Through
import Verif.Props.NegraTrip
import Verif.Props.Conllx
import Verif.Proofs.Check

/-!
# What each format holds (C87)
-/

namespace Lumberjack
namespace Ptb

open Bracketed

theorem agree_brackets {f : Format} {F G : Forest} (h : F.Agree f G) : F.brackets f = G.brackets f := by
  induction h with
  | nil => rfl
  | leaf h1 h2 h3 _ ih =>
    simp only [Forest.brackets, h1, h2, ih]
    cases f with
    | simple => rfl
    | ptb => rfl
    | tueba => rw [h3 rfl]
  | node h1 h2 h3 _ _ ih1 ih2 =>
    simp only [Forest.brackets, h1, ih1, ih2]
    cases f with
    | simple => rfl
    | ptb => rw [h2 (by simp)]; rfl
    | tueba => rw [h2 (by simp), h3 rfl]

theorem annotated_inj {a b : Option Str} (h : annotated a = annotated b) : a = b := by
  have := congrArg annotationOf h
  rwa [annotationOf_annotated, annotationOf_annotated] at this

theorem written_agree {f : Format} : ∀ {F G : Forest}, F.written f = G.written f → F.Agree f G
  | .nil, .nil, _ => .nil
  | .leaf e x r, .leaf e' y r', h => by
    simp only [Forest.written, Forest.leaf.injEq, Terminal.mk.injEq] at h
    refine .leaf h.2.1.1 h.2.1.2.1 ?_ (written_agree h.2.2)
    rintro rfl
    simpa using h.1
  | .node e x k r, .node e' y k' r', h => by
    simp only [Forest.written, Forest.node.injEq, NonTerminal.mk.injEq] at h
    obtain ⟨h1, ⟨h2, h3, _⟩, h4, h5⟩ := h
    refine .node h2 ?_ ?_ (written_agree h4) (written_agree h5)
    · intro hf
      cases f with
      | simple => exact absurd rfl hf
      | ptb =>
        have := annotated_inj h3
        cases hx : annotationOf x.features <;> cases hy : annotationOf y.features <;> simp_all
      | tueba => exact annotated_inj h3
    · rintro rfl
      simpa using h1
  | .nil, .leaf _ _ _, h => by cases h
  | .nil, .node _ _ _ _, h => by cases h
  | .leaf _ _ _, .nil, h => by cases h
  | .node _ _ _ _, .nil, h => by cases h
  | .leaf _ _ _, .node _ _ _ _, h => by cases h
  | .node _ _ _ _, .leaf _ _ _, h => by cases h

end Ptb

namespace Props

open Lumberjack.Tree Lumberjack.Convert Bracketed

/-- What is written is read as a copy. -/
theorem negra_back {t : Tree} (E : Negra.Exportable t) {c id : Nat} {info : Option Str} (H : Negra.Head t c id info)
    {text : Str} {c' : Nat} (h : Negra.writeTree c t = .ok (text, c')) :
    ∃ r φ, Negra.readAll ((Negra.lines text).length + 1) (Negra.lines text) = .ok [.ok r] ∧ Negra.Copy id info t r φ := by
  obtain ⟨text', ts', h1, h2, h3, h4⟩ := C48_file [t] (fun _ => id) (fun _ => info) c (fun i u hu => by
    cases i with
    | succ i => simp at hu
    | zero =>
      simp only [List.getElem?_cons_zero, Option.some.injEq] at hu
      subst hu
      exact ⟨E, by simpa using H⟩)
  match ts', h3 with
  | [t'], _ =>
    obtain ⟨φ, C⟩ := h4 0 t t' rfl rfl
    rw [Negra.writeTrees, h] at h1
    simp only [Negra.writeTrees, Res.ok_bind, Res.pure_eq, List.append_nil, Res.ok.injEq] at h1
    subst h1
    exact ⟨t', φ, h2, C⟩

/-- C87: two trees without gaps that agree in what a bracketed format holds are written as the same text. Conversely, if
the strings of both can be represented, trees that are written as the same text agree in that. -/
theorem C87_brackets (f : Ptb.Format) (t u : Tree) (W : t.WF) (W' : u.WF) (hp : t.isProjective = true)
    (hp' : u.isProjective = true) (F G : Forest) (hF : t.Is F) (hG : u.Is G) :
    (F.Agree f G → Ptb.treeToString f t = Ptb.treeToString f u) ∧
    (t.Writable f → u.Writable f → Ptb.treeToString f t = Ptb.treeToString f u → F.Agree f G) := by
  obtain ⟨s, h1, h2⟩ := Ptb.treeToString_ok W hp hF f
  obtain ⟨s', h1', h2'⟩ := Ptb.treeToString_ok W' hp' hG f
  constructor
  · intro h
    rw [Ptb.agree_brackets h, h2'] at h2
    cases h2
    rw [h1, h1']
  · intro hw hw' h
    rw [h1, h1'] at h
    cases h
    obtain ⟨s1, r, k1, k2, _, _, k3⟩ := C43_written t W hp f hw F hF
    obtain ⟨s2, r', k1', k2', _, _, k3'⟩ := C43_written u W' hp' f hw' G hG
    rw [h1] at k1; cases k1
    rw [h1'] at k1'; cases k1'
    rw [k2] at k2'; cases k2'
    exact Ptb.written_agree (Rep.unique k3 k3')

/-- C87: two runs that convert to a bracketed format, from whatever inputs, write the same text exactly if they read the
same number of trees and these agree in what the format holds. -/
theorem C87_files (g : Ptb.Format) (f f' : InFormat) (multiline multiline' : Bool)
    (pick pick' : Tree → Finset Nat → Option Nat) (src src' : Source) (ts us : List Tree)
    (hs : Stream f multiline src (ts.map .ok) true) (hs' : Stream f' multiline' src' (us.map .ok) true)
    (H : ∀ t ∈ ts, t.WF ∧ t.isProjective = true ∧ t.Writable g) (H' : ∀ u ∈ us, u.WF ∧ u.isProjective = true ∧ u.Writable g) :
    textOf (main f multiline pick (plain (bracketOutput g)) src none).1 =
        textOf (main f' multiline' pick' (plain (bracketOutput g)) src' none).1 ↔
      List.Forall₂ (fun t u => ∃ F G, t.Is F ∧ u.Is G ∧ F.Agree g G) ts us := by
  have clean : ∀ {t : Tree}, t.WF ∧ t.isProjective = true ∧ t.Writable g → Cleaned g t := by
    rintro t ⟨W, hp, hw⟩
    obtain ⟨F, hF⟩ := W.is_exists
    exact ⟨W, hp, F, hF, Ptb.Rep.clean hw hF⟩
  constructor
  · intro h
    obtain ⟨wn, rs, h1, h2, h3⟩ := via_bracket (m' := false) (pick := pick) [] g hs fun t ht => clean (H t ht)
    obtain ⟨wn', rs', h1', h2', h3'⟩ := via_bracket (m' := false) (pick := pick') [] g hs' fun t ht => clean (H' t ht)
    rw [h1, h1'] at h
    dsimp only at h
    rw [h] at h2
    have e := (h2.unique h2').1
    obtain rfl : rs = rs' := List.map_injective_iff.2 (fun a b h => by injection h) e
    clear e
    clear h1 h1' h2 h2' hs hs' h
    have W : ∀ t ∈ ts, t.WF := fun t ht => (H t ht).1
    have W' : ∀ t ∈ us, t.WF := fun t ht => (H' t ht).1
    clear H H' clean
    induction h3 generalizing us with
    | nil => cases h3'; exact .nil
    | @cons t r ts rs h _ ih =>
      cases h3' with
      | @cons u _ us _ h' h'' =>
        obtain ⟨F, hF⟩ := (W t (by simp)).is_exists
        obtain ⟨G, hG⟩ := (W' u (by simp)).is_exists
        exact .cons ⟨F, G, hF, hG, Ptb.written_agree (Rep.unique (h.1 F hF) (h'.1 G hG))⟩
          (ih us h'' (fun t ht => W t (by simp [ht])) (fun t ht => W' t (by simp [ht])))
  · intro h
    have key : ∃ bs : List Str, List.Forall₂ (fun t s => ∃ F, t.Is F ∧ (F.brackets g).text (sepOf g) = [s]) ts bs ∧
        List.Forall₂ (fun t s => ∃ F, t.Is F ∧ (F.brackets g).text (sepOf g) = [s]) us bs := by
      clear hs hs'
      induction h with
      | nil => exact ⟨[], .nil, .nil⟩
      | @cons t u ts us h _ ih =>
        obtain ⟨bs, b1, b2⟩ := ih (fun t ht => H t (by simp [ht])) (fun t ht => H' t (by simp [ht]))
        obtain ⟨F, G, hF, hG, hA⟩ := h
        obtain ⟨W, hp, _⟩ := H t (by simp)
        obtain ⟨s, w1, w2⟩ := Ptb.treeToString_ok W hp hF g
        exact ⟨s :: bs, .cons ⟨F, hF, w2⟩ b1, .cons ⟨G, hG, by rw [← Ptb.agree_brackets hA]; exact w2⟩ b2⟩
    obtain ⟨bs, b1, b2⟩ := key
    rw [direct g hs (fun t ht => ⟨(H t ht).1, (H t ht).2.1⟩) b1, direct g hs' (fun t ht => ⟨(H' t ht).1, (H' t ht).2.1⟩) b2]

/-- C87: the simple format holds less than the PTB format, and this less than the TueBa format. -/
theorem C87_order (F G : Forest) : (F.Agree .tueba G → F.Agree .ptb G) ∧ (F.Agree .ptb G → F.Agree .simple G) := by
  constructor
  · intro h
    induction h with
    | nil => exact .nil
    | leaf h1 h2 _ _ ih => exact .leaf h1 h2 (by simp) ih
    | node h1 h2 _ _ _ ih1 ih2 => exact .node h1 (fun _ => h2 (by simp)) (by simp) ih1 ih2
  · intro h
    induction h with
    | nil => exact .nil
    | leaf h1 h2 _ _ ih => exact .leaf h1 h2 (by simp) ih
    | node h1 h2 _ _ _ ih1 ih2 => exact .node h1 (by simp) (by simp) ih1 ih2

/-- C87: two trees the NEGRA format can hold are written as the same text exactly if they have the same number and metadata
and agree in what the format holds. -/
theorem C87_negra (t u : Tree) (E : Negra.Exportable t) (E' : Negra.Exportable u) (c d id id' : Nat) (info info' : Option Str)
    (H : Negra.Head t c id info) (H' : Negra.Head u d id' info') :
    (∃ text c' d', Negra.writeTree c t = .ok (text, c') ∧ Negra.writeTree d u = .ok (text, d')) ↔
      id = id' ∧ info = info' ∧ ∃ φ, Negra.Agree t u φ := by
  have n1 : (Negra.featOf (Negra.rootFeatures t) Negra.sentenceIdKey).getD (natToStr c) = natToStr id := H.number
  have n2 : (Negra.featOf (Negra.rootFeatures u) Negra.sentenceIdKey).getD (natToStr d) = natToStr id' := H'.number
  have m1 : Negra.featOf (Negra.rootFeatures t) Negra.metadataKey = info := H.metadata
  have m2 : Negra.featOf (Negra.rootFeatures u) Negra.metadataKey = info' := H'.metadata
  constructor
  · rintro ⟨text, c', d', h, h'⟩
    obtain ⟨r, φ, k, C⟩ := negra_back E H h
    obtain ⟨r', ψ, k', D⟩ := negra_back E' H' h'
    rw [k] at k'
    simp only [Res.ok.injEq, List.cons.injEq, Except.ok.injEq, and_true] at k'
    subst k'
    obtain ⟨_, _, x⟩ := C.root_node
    obtain ⟨_, _, y⟩ := D.root_node
    rw [x] at y
    simp only [Option.some.injEq, Node.nt.injEq, NonTerminal.mk.injEq] at y
    obtain ⟨f1, f2⟩ := Negra.featOf_headFeatures id info
    obtain ⟨g1, g2⟩ := Negra.featOf_headFeatures id' info'
    rw [y.2.1] at f1 f2
    have e1 : id = id' := natToStr_inj (by simpa using f1.symm.trans g1)
    have e2 : info = info' := f2.symm.trans g2
    subst e1 e2
    exact ⟨rfl, rfl, Negra.agree_of_copies C D E E'⟩
  · rintro ⟨rfl, rfl, φ, A⟩
    obtain ⟨ls, h⟩ := (A.body E').writeTree E.wf E.root E.sources c d
    have h1 := h t c (.inl ⟨rfl, rfl⟩)
    have h2 := h u d (.inr ⟨rfl, rfl⟩)
    rw [n1, m1] at h1
    rw [n2, m2] at h2
    exact ⟨_, _, _, h1, h2⟩

/-- C87: two trees are written as the same CONLLX sentence exactly if their words agree in form, lemma, tag and the text
of the features. Nothing else is held. -/
theorem C87_conllx (t u : Tree) (W : t.WF) (W' : u.WF) (ts us : List Terminal) (h : t.Terminals ts) (h' : u.Terminals us) :
    Conllx.toConllx t = Conllx.toConllx u ↔
      List.Forall₂ (fun x y => x.form = y.form ∧ x.lem = y.lem ∧ x.pos = y.pos ∧
        x.features.map Features.toStr = y.features.map Features.toStr) ts us := by
  rw [(C52_tokens t W ts h).1, (C52_tokens u W' us h').1]
  constructor
  · intro e
    injection e with e
    clear h h'
    induction ts generalizing us with
    | nil => cases us with
      | nil => exact .nil
      | cons => cases e
    | cons x ts ih => cases us with
      | nil => cases e
      | cons y us =>
        simp only [List.map_cons, List.cons.injEq] at e
        have e1 := e.1
        simp only [Conllx.tokenOf, Conllx.Token.mk.injEq, Option.some.injEq] at e1
        exact .cons ⟨e1.1, e1.2.1, e1.2.2.1, e1.2.2.2⟩ (ih us e.2)
  · intro e
    congr 1
    clear h h'
    induction e with
    | nil => rfl
    | cons h _ ih =>
      simp only [List.map_cons, ih, Conllx.tokenOf, h.1, h.2.1, h.2.2.1, h.2.2.2]

/-! ## The hypotheses are met -/

/-- `edgy` without annotations and edge labels, but with a lemma. -/
def plainer : Tree :=
  ⟨⟨[Examples.nt "S" ⟨0, 3, none⟩, some (.term ⟨"barks".toList, "V".toList, some "bark".toList, none, ⟨2, 3, none⟩⟩),
      Examples.nt "NP" ⟨0, 2, none⟩, Examples.tm "dog" "N" 1, Examples.tm "the" "D" 0],
    [], [Examples.pe 3 2 4, Examples.pe 2 2 3, Examples.pe 1 0 2, Examples.pe 0 0 1], 4, []⟩, 3, 0, 0⟩

theorem plainer_words : ∀ n nd, plainer.graph.node? n = some nd → match nd with
    | .term x => Word x.form ∧ Word x.pos ∧ '-' ∉ x.pos
    | .nt x => Word x.label ∧ '-' ∉ x.label ∧ x.features = none := by
  intro n nd h
  refine node_all (t := plainer) (P := fun nd => match nd with
    | .term x => Word x.form ∧ Word x.pos ∧ '-' ∉ x.pos
    | .nt x => Word x.label ∧ '-' ∉ x.label ∧ x.features = none) ?_ h
  simp only [plainer, List.mem_cons, List.not_mem_nil, or_false]
  rintro o (rfl | rfl | rfl | rfl | rfl) nd hnd <;> cases hnd <;> decide

theorem plainer_ptb : plainer.Writable .ptb := by
  refine ⟨fun n x h => ?_, fun n x h => ?_, fun _ => trivial⟩
  · obtain ⟨h1, h2, h3⟩ := plainer_words n _ h
    rw [Ptb.escape_word h1, Ptb.escape_word h2]; exact ⟨⟨h2, h3⟩, h1⟩
  · obtain ⟨h1, h2, h3⟩ := plainer_words n _ h
    refine ⟨⟨h1, h2⟩, fun s hs => ?_⟩
    rw [h3] at hs
    simp [annotationOf] at hs

theorem edgy_ptb : edgy.Writable .ptb := by
  refine ⟨fun n x h => ?_, fun n x h => ?_, fun _ => trivial⟩
  · obtain ⟨h1, h2, h3, -⟩ := edgy_nodes n _ h
    rw [Ptb.escape_word h1, Ptb.escape_word h2]; exact ⟨⟨h2, h3⟩, h1⟩
  · obtain ⟨h1, h2, -, -, h4⟩ := edgy_nodes n _ h
    refine ⟨⟨h1, h2⟩, fun s hs => ?_⟩
    rcases h4 with h4 | h4
    · rw [h4] at hs; simp [annotationOf] at hs
    · rw [h4, Ptb.annotationOf_annotated] at hs; simp at hs; subst hs; exact .inr (by decide)

theorem writable_simple {t : Tree} (h : t.Writable .ptb) : t.Writable .simple :=
  ⟨fun n x hx => ⟨(h.term n x hx).1.1, (h.term n x hx).2⟩, fun n x hx => ⟨(h.nt n x hx).1.1, trivial⟩, fun _ => trivial⟩

/-- The two trees are the same in the simple format but not in the PTB format. -/
example : ∀ F G, edgy.Is F → plainer.Is G → F.Agree .simple G ∧ ¬ F.Agree .ptb G := by
  intro F G hF hG
  have W : plainer.WF := wf_of_check (by decide +kernel)
  refine ⟨(C87_brackets .simple edgy plainer edgy_wf W (by decide) (by decide) F G hF hG).2 (writable_simple edgy_ptb)
    (writable_simple plainer_ptb) (by decide +kernel), fun h => ?_⟩
  have := (C87_brackets .ptb edgy plainer edgy_wf W (by decide) (by decide) F G hF hG).1 h
  revert this
  decide +kernel

/-- Two files, one with comments, white space and line breaks: the TueBa texts are the same, so the trees agree. -/
example : ∃ t u, Stream .tueba true ⟨["( S (NP:SB (D a)".toList, " (N b)) (V c) )".toList], []⟩ [.ok t] true ∧
    Stream .tueba false ⟨["%x".toList, "(S:-- (NP:SB(D a) (N b)) (V:-- c))".toList], []⟩ [.ok u] true ∧
    ∃ F G, t.Is F ∧ u.Is G ∧ F.Agree .tueba G := by
  obtain ⟨t, h1, h2⟩ := onlyItem_spec (f := .tueba) (multiline := true)
    (src := ⟨["( S (NP:SB (D a)".toList, " (N b)) (V c) )".toList], []⟩) (test := heldB) (by decide +kernel)
  obtain ⟨u, k1, k2⟩ := onlyItem_spec (f := .tueba) (multiline := false)
    (src := ⟨["%x".toList, "(S:-- (NP:SB(D a) (N b)) (V:-- c))".toList], []⟩) (test := heldB) (by decide +kernel)
  have H := heldB_sound h2
  have K := heldB_sound k2
  have := (C87_files .tueba .tueba .tueba true false minPick minPick _ _ [t] [u] h1 k1
    (by rintro x hx; rw [List.mem_singleton.1 hx]; exact ⟨H.wf, H.noGap, H.writable⟩)
    (by rintro x hx; rw [List.mem_singleton.1 hx]; exact ⟨K.wf, K.noGap, K.writable⟩)).1 (by decide +kernel)
  cases this with
  | cons h _ => exact ⟨t, u, h1, k1, h⟩

/-- `sample` with another root label and one more secondary parent of a word that has one. -/
def sampleToo : Tree :=
  ⟨⟨[some (.term ⟨"a".toList, "X".toList, some "l".toList, some ⟨[("morph".toList, some "m".toList)]⟩, ⟨0, 1, none⟩⟩),
      Examples.tm "b" "Y" 1, Examples.tm "c" "Z" 2,
      some (.nt ⟨"A".toList, some ⟨[("node_annotation".toList, some "n".toList)]⟩, ⟨0, 3, some {1}⟩⟩),
      some (.nt ⟨"TOP".toList, some ⟨[("metadata".toList, some "u v".toList), ("sentence_id".toList, some "17".toList)]⟩,
        ⟨0, 3, none⟩⟩)],
    [], [⟨5, 3, 1, .secondary (some "SB".toList)⟩, ⟨4, 4, 1, .secondary (some "OA".toList)⟩, Examples.pe 3 4 1, Examples.pe 2 4 3,
      ⟨1, 3, 2, .primary (some "HD".toList)⟩, Examples.pe 0 3 0], 6, []⟩, 3, 4, 1⟩

theorem sampleToo_exportable : Negra.Exportable sampleToo := by
  have hn : ∀ n nd, sampleToo.graph.node? n = some nd → n < 5 := fun n nd h => Negra.node?_lt h
  refine ⟨wf_of_check (by decide +kernel), ⟨_, rfl⟩, ?_, ?_, ?_, ?_, by decide⟩
  · intro n x hx
    have := hn n _ hx
    interval_cases n
    · injection hx with hx
      injection hx with hx
      subst hx
      exact ⟨by unfold Negra.Field; decide, by decide, by unfold Negra.Field; decide,
        fun l hl => by injection hl with hl; subst hl; unfold Negra.Field; decide,
        .inr ⟨"m".toList, rfl, by unfold Negra.Field; decide⟩⟩
    · injection hx with hx
      injection hx with hx
      subst hx
      exact ⟨by unfold Negra.Field; decide, by decide, by unfold Negra.Field; decide, fun l hl => (by cases hl), .inl rfl⟩
    · injection hx with hx
      injection hx with hx
      subst hx
      exact ⟨by unfold Negra.Field; decide, by decide, by unfold Negra.Field; decide, fun l hl => (by cases hl), .inl rfl⟩
    · cases hx
    · cases hx
  · intro n x hr hx
    have := hn n _ hx
    interval_cases n
    · cases hx
    · cases hx
    · cases hx
    · injection hx with hx
      injection hx with hx
      subst hx
      exact ⟨by decide, .inr ⟨"n".toList, rfl, by decide⟩, .inl (by decide)⟩
    · exact absurd rfl hr
  · intro e he
    simp only [sampleToo, List.mem_cons, List.not_mem_nil, or_false] at he
    rcases he with rfl | rfl | rfl | rfl | rfl | rfl
    · exact ⟨_, rfl, by unfold Negra.Field; decide⟩
    · exact ⟨_, rfl, by unfold Negra.Field; decide⟩
    · intro s hs; cases hs
    · intro s hs; cases hs
    · intro s hs
      injection hs with hs
      subst hs
      unfold Negra.Field
      decide
    · intro s hs; cases hs
  · intro e he hw
    simp only [sampleToo, List.mem_cons, List.not_mem_nil, or_false] at he
    rcases he with rfl | rfl | rfl | rfl | rfl | rfl
    · exact ⟨_, rfl⟩
    · exact ⟨_, rfl⟩
    all_goals cases hw

/-- They agree in what the NEGRA format holds. -/
example : sample.eq sampleToo = .ok false ∧ ∃ φ, Negra.Agree sample sampleToo φ := by
  refine ⟨by decide +kernel, ((C87_negra sample sampleToo sample_exportable sampleToo_exportable 0 0 17 17 (some "u v".toList)
    (some "u v".toList) sample_head ⟨by decide +kernel, by decide, by decide +kernel,
      fun m hm => by injection hm with hm; subst hm; decide +kernel⟩).1 ?_).2.2⟩
  obtain ⟨text, c, _, h, _⟩ := C48_round_trip sample sample_exportable 17 _ 0 sample_head ⟨_, rfl, rfl, by decide +kernel⟩
  refine ⟨text, c, c, h, ?_⟩
  rw [← h]
  decide +kernel

/-- Two trees over the same words. -/
example (ts us : List Terminal) (h : Examples.proj.Terminals ts) (h' : edgy.Terminals us) :
    List.Forall₂ (fun x y => x.form = y.form ∧ x.lem = y.lem ∧ x.pos = y.pos ∧
        x.features.map Features.toStr = y.features.map Features.toStr) ts us :=
  (C87_conllx Examples.proj edgy (wf_of_check (by decide +kernel)) edgy_wf ts us h h').1 (by decide +kernel)

end Props
end Lumberjack
