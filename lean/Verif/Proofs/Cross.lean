import Verif.Proofs.TagFiles
import Verif.Spec.Cross

/-!
# Going through the NEGRA format
-/

namespace Lumberjack

open Lumberjack.Tree Lumberjack.Bracketed

variable {t t' : Tree}

theorem annotationOf_same {f g : Option Features} (h : Forest.FeatSame f g) : annotationOf f = annotationOf g := by
  have key : ∀ f : Option Features, annotationOf f = annotationOf (some (f.getD Features.empty)) := by
    intro f; cases f <;> rfl
  rw [key f, key g, h]

namespace Negra
namespace Copy

variable {id : Nat} {info : Option Str} {φ : Nat → Nat} (C : Copy id info t t' φ) (W : t.WF)

include C W

omit W in
theorem startBelow {n : Nat} (hn : t.Live n) (h : n ≠ t.root) : t'.startOf (φ n) = t.startOf n := by
  obtain ⟨nd, hnd⟩ := hn
  unfold Tree.startOf
  cases nd with
  | term x =>
    obtain ⟨f, h1, _⟩ := C.terms n x hnd
    rw [h1, hnd]
    rfl
  | nt x =>
    obtain ⟨f, h1, _⟩ := C.nts n x h hnd
    rw [h1, hnd]
    rfl

theorem kidsBelow {n : Nat} (hn : t.Live n) {ks : List Nat} (h : t.Kids n ks) :
    t'.Kids (φ n) (ks.map φ) ∧ ∀ k ∈ ks, t.Live k ∧ k ≠ t.root := by
  have hl : ∀ k ∈ ks, t.Live k ∧ k ≠ t.root := by
    intro k hk
    have hc := (h.1 k).1 hk
    obtain ⟨e, h1, _, h3, _⟩ := (show _ from hc)
    exact ⟨h3 ▸ (W.graph.ends e h1).2, fun e => W.shape.root_top n (e ▸ hc)⟩
  refine ⟨⟨fun c => ?_, ?_⟩, hl⟩
  · rw [List.mem_map]
    constructor
    · rintro ⟨k, hk, rfl⟩
      exact (C.child hn (hl k hk).1).2 ((h.1 k).1 hk)
    · intro hc
      obtain ⟨e, h1, _, h3, _⟩ := (show _ from hc)
      obtain ⟨k, k1, rfl⟩ := C.onto c (h3 ▸ (C.wf.graph.ends e h1).2)
      exact ⟨k, (h.1 k).2 ((C.child hn k1).1 hc), rfl⟩
  · rw [List.pairwise_map]
    refine h.2.imp_of_mem fun {a b} ha hb hab => ?_
    rwa [C.startBelow (hl a ha).1 (hl a ha).2, C.startBelow (hl b hb).1 (hl b hb).2]

theorem repBelow (fm : Ptb.Format) (f : Forest) : ∀ (ids : List Nat), (∀ n ∈ ids, t.Live n ∧ n ≠ t.root) → t.Rep ids f →
    ∃ g, t'.Rep (ids.map φ) g ∧ g.brackets fm = f.brackets fm := by
  induction f with
  | nil =>
    intro ids _ h
    have h : ids = [] := h
    subst h
    exact ⟨.nil, rfl, rfl⟩
  | leaf e x r ih =>
    rintro ids hl ⟨n, ns, rfl, h1, h2, h3⟩
    obtain ⟨g, g1, g2⟩ := ih ns (fun m hm => hl m (by simp [hm])) h3
    obtain ⟨f, k1, k2⟩ := C.terms n x h1
    refine ⟨.leaf e { x with features := f } g, ⟨φ n, ns.map φ, rfl, k1, ?_, g1⟩, ?_⟩
    · rw [C.inLabel W ⟨_, h1⟩, h2]
    · simp only [Forest.brackets, g2]
  | node e x k r ihk ihr =>
    rintro ids hl ⟨n, ns, ks, rfl, h1, h2, h3, h4, h5⟩
    obtain ⟨c1, c2⟩ := C.kidsBelow W (n := n) ⟨_, h1⟩ h3
    obtain ⟨g, g1, g2⟩ := ihr ns (fun m hm => hl m (by simp [hm])) h5
    obtain ⟨gk, m1, m2⟩ := ihk ks c2 h4
    obtain ⟨f, k1, k2⟩ := C.nts n x (hl n (by simp)).2 h1
    refine ⟨.node e { x with features := f } gk g, ⟨φ n, ns.map φ, ks.map φ, rfl, k1, ?_, c1, m1, g1⟩, ?_⟩
    · rw [C.inLabel W ⟨_, h1⟩, h2]
    · simp only [Forest.brackets, g2, m2, annotationOf_same k2]

/-- A copy is written like the tree, up to the root. -/
theorem brackets (fm : Ptb.Format) {f g : Forest} (hf : t.Is f) (hg : t'.Is g) :
    g.brackets fm = f.underVroot.brackets fm := by
  obtain ⟨x, h1, h2⟩ := C.root_node
  cases f with
  | nil => cases (show [t.root] = [] from hf)
  | leaf e y r =>
    obtain ⟨n, ns, h3, h4, _⟩ := hf
    cases h3
    rw [h1] at h4; cases h4
  | node e y k r =>
    obtain ⟨n, ns, ks, h3, h4, h5, h6, h7, h8⟩ := hf
    cases h3
    rw [h1] at h4; cases h4
    obtain ⟨c1, c2⟩ := C.kidsBelow W W.shape.root_live h6
    obtain ⟨gk, m1, m2⟩ := C.repBelow W fm k ks c2 h7
    have hr : r = .nil := by
      cases r with
      | nil => rfl
      | leaf => obtain ⟨_, _, h, _⟩ := h8; cases h
      | node => obtain ⟨_, _, _, h, _⟩ := h8; cases h
    subst hr
    have : t'.Is (.node e ⟨vroot, some (headFeatures id info), x.span⟩ gk .nil) := by
      refine ⟨t'.root, [], ks.map φ, rfl, h2, ?_, by rw [C.root]; exact c1, m1, rfl⟩
      rw [C.root, C.inLabel W W.shape.root_live, h5]
    rw [Rep.unique hg this]
    have ha : annotationOf (some (headFeatures id info)) = none := by
      unfold annotationOf headFeatures
      cases info <;> simp
    simp only [Forest.underVroot, Forest.brackets, m2, ha]
    rfl

/-- A copy has gaps where the tree has. -/
theorem projective (hp : t.isProjective = true) : t'.isProjective = true := by
  rw [isProjective_iff W.count] at hp
  rw [isProjective_iff C.wf.count]
  rintro n' ⟨x', hx', hs⟩
  obtain ⟨n, hn, rfl⟩ := C.onto n' ⟨_, hx'⟩
  by_cases h : n = t.root
  · obtain ⟨y, h1, h2⟩ := C.root_node
    rw [C.root, ← h, hx'] at h2
    cases h2
    exact hp n ⟨y, by rw [h]; exact h1, hs⟩
  · obtain ⟨nd, hnd⟩ := hn
    cases nd with
    | term y =>
      obtain ⟨f, h1, _⟩ := C.terms n y hnd
      rw [h1] at hx'; cases hx'
    | nt y =>
      obtain ⟨f, h1, _⟩ := C.nts n y h hnd
      rw [h1] at hx'; cases hx'
      exact hp n ⟨y, hnd, hs⟩

end Copy
end Negra

namespace Convert

theorem underVroot_brackets (fm : Ptb.Format) {f : Forest} (hf : t.Is f) (h : TopVroot t) :
    f.underVroot.brackets fm = f.brackets fm := by
  obtain ⟨x, h1, h2, h3⟩ := h
  cases f with
  | nil => rfl
  | leaf e y r => rfl
  | node e y k r =>
    obtain ⟨n, ns, ks, h4, h5, _⟩ := hf
    cases h4
    rw [h1] at h5; cases h5
    simp only [Forest.underVroot, Forest.brackets, h2, h3]
    rfl

/-- Writing trees in the NEGRA format one after the other. -/
theorem loop_negra {f : InFormat} {m : Bool} {pick : Tree → Finset Nat → Option Nat} :
    ∀ {ts : List Tree} {fuel : Nat} {src : Source} {c : Nat} {text : Str}, Stream f m src (ts.map .ok) true →
      Negra.writeTrees c ts = .ok text → ts.length < fuel →
      ∃ ws, loop f m pick (plain .negra) fuel src none c = (ws, .finished) ∧ textOf ws = text := by
  intro ts
  induction ts with
  | nil =>
    intro fuel src c text hs hw hf
    obtain ⟨k, rfl⟩ : ∃ k, fuel = k + 1 := ⟨fuel - 1, by simp at hf; omega⟩
    cases hw
    cases hs with
    | stop hn => exact ⟨[], by rw [loop, hn], rfl⟩
  | cons t ts ih =>
    intro fuel src c text hs hw hf
    obtain ⟨k, rfl⟩ : ∃ k, fuel = k + 1 := ⟨fuel - 1, by simp at hf; omega⟩
    rw [Negra.writeTrees] at hw
    obtain ⟨⟨s, c'⟩, h1, h2⟩ := Res.bind_eq_ok.1 hw
    obtain ⟨more, h3, h4⟩ := Res.bind_eq_ok.1 h2
    cases h4
    cases hs with
    | item hn hs =>
      obtain ⟨ws, g1, g2⟩ := ih (fuel := k) hs h3 (by simpa using hf)
      refine ⟨.text s :: ws, ?_, by rw [← g2]; rfl⟩
      have hc : convertTree pick (plain .negra) none c t = .ok (.ok (.text s, c')) := by
        rw [convert_plain (by simp) (by simp)]
        rw [show write .negra c t = (Negra.writeTree c t >>= fun p => Res.ok (.ok (.text p.1, p.2))) from rfl, h1]
        rfl
      rw [loop, hn]
      simp only [show (nextPos none).1 = none from rfl, show (nextPos none).2 = none from rfl, hc]
      rw [g1]

theorem main_negra {f : InFormat} {m : Bool} {pick : Tree → Finset Nat → Option Nat} {src : Source}
    {ts : List Tree} {text : Str} (hs : Stream f m src (ts.map .ok) true) (h : Negra.writeTrees 0 ts = .ok text) :
    ∃ ws, main f m pick (plain .negra) src none = (ws, .finished) ∧ textOf ws = text := by
  obtain ⟨items, b, h', hlen, _⟩ := stream_exists f m src.size src (Nat.le_refl _)
  obtain ⟨rfl, rfl⟩ := hs.unique h'
  refine loop_negra hs h ?_
  rw [List.length_map] at hlen
  unfold Source.size at hlen
  omega

theorem convert_bracket (g : Ptb.Format) (pick : Tree → Finset Nat → Option Nat) (c : Nat) (t : Tree) :
    convertTree pick (plain (bracketOutput g)) none c t = write (bracketOutput g) c t := by
  rw [convert_plain] <;> cases g <;> simp [bracketOutput]

/-- Through NEGRA: what is written in a bracketed format for the trees that are read back. -/
theorem via_negra {f : InFormat} {m m' : Bool} {pick pick' : Tree → Finset Nat → Option Nat} {src : Source}
    {ss : List (Option (List Conllx.Token))} {ts : List Tree} (g : Ptb.Format) (hs : Stream f m src (ts.map .ok) true)
    (H : Numbered ts) (hp : ∀ t ∈ ts, t.isProjective = true) :
    ∃ wn bs, main f m pick (plain .negra) src none = (wn, .finished) ∧
      List.Forall₂ (fun t s => ∃ F, t.Is F ∧ (F.underVroot.brackets g).text (Bracketed.sepOf g) = [s]) ts bs ∧
      main .negra m' pick' (plain (bracketOutput g)) ⟨Negra.lines (textOf wn), ss⟩ none =
        (bs.map fun s => .text (s ++ ['\n']), .finished) := by
  have : ∀ i, ∃ id info, ∀ t, ts[i]? = some t → Negra.Exportable t ∧ Negra.Head t (0 + ((ts.take i).filter
      fun u => (Negra.featOf (Negra.rootFeatures u) "sentence_id".toList).isNone).length) id info := by
    intro i
    cases hi : ts[i]? with
    | none => exact ⟨0, none, by simp⟩
    | some t =>
      obtain ⟨E, id, info, Hd⟩ := H i t hi
      refine ⟨id, info, fun u hu => ?_⟩
      cases hu
      rw [Nat.zero_add]
      exact ⟨E, Hd⟩
  choose id info Hd using this
  obtain ⟨text, ts', g1, g2, g3, g4⟩ := Props.C48_file ts id info 0 fun i t ht => Hd i t ht
  obtain ⟨wn, k1, k2⟩ := main_negra (pick := pick) hs g1
  have key : ∃ bs, List.Forall₂ (fun t s => ∃ F, t.Is F ∧ (F.underVroot.brackets g).text (Bracketed.sepOf g) = [s]) ts bs ∧
      List.Forall₂ (fun t w => convertTree pick' (plain (bracketOutput g)) none 0 t = .ok (.ok (w, 0))) ts'
        (bs.map fun s => .text (s ++ ['\n'])) := by
    have hall : ∀ (i : Nat) (t t' : Tree), ts[i]? = some t → ts'[i]? = some t' →
        ∃ s, (∃ F, t.Is F ∧ (F.underVroot.brackets g).text (Bracketed.sepOf g) = [s]) ∧
          convertTree pick' (plain (bracketOutput g)) none 0 t' = .ok (.ok (.text (s ++ ['\n']), 0)) := by
      intro i t t' ht ht'
      obtain ⟨φ, C⟩ := g4 i t t' ht ht'
      have W := (Hd i t ht).1.wf
      obtain ⟨F, hF⟩ := W.is_exists
      obtain ⟨G, hG⟩ := C.wf.is_exists
      obtain ⟨s, w1, w2⟩ := Ptb.treeToString_ok C.wf (C.projective W (hp t (List.mem_of_getElem? ht))) hG g
      refine ⟨s, ⟨F, hF, ?_⟩, ?_⟩
      · rw [← C.brackets W g hF hG]; exact w2
      · rw [convert_bracket, write_bracket g 0 w1]
    clear hs H hp Hd g1 g2 g4 k1 k2
    induction ts generalizing ts' with
    | nil =>
      rw [List.length_eq_zero_iff.1 g3]
      exact ⟨[], .nil, .nil⟩
    | cons t ts ih =>
      match ts', g3 with
      | t' :: ts', g3 =>
        obtain ⟨bs, b1, b2⟩ := ih ts' (by simpa using g3) fun i u u' hu hu' =>
          hall (i + 1) u u' (by simpa using hu) (by simpa using hu')
        obtain ⟨s, s1, s2⟩ := hall 0 t t' rfl rfl
        exact ⟨s :: bs, .cons s1 b1, .cons s2 b2⟩
  obtain ⟨bs, b1, b2⟩ := key
  exact ⟨wn, bs, k1, b1, main_write (by rw [k2]; exact (negra_stream m' _ _ ss _ g2).1) b2⟩

theorem direct {f : InFormat} {m : Bool} {pick : Tree → Finset Nat → Option Nat} {src : Source} {ts : List Tree}
    (g : Ptb.Format) (hs : Stream f m src (ts.map .ok) true) (H : ∀ t ∈ ts, t.WF ∧ t.isProjective = true)
    {bs : List Str} (hb : List.Forall₂ (fun t s => ∃ F, t.Is F ∧ (F.brackets g).text (Bracketed.sepOf g) = [s]) ts bs) :
    main f m pick (plain (bracketOutput g)) src none = (bs.map fun s => .text (s ++ ['\n']), .finished) := by
  refine main_write hs ?_
  clear hs
  induction hb with
  | nil => exact .nil
  | @cons t s ts bs h _ ih =>
    obtain ⟨F, hF, h⟩ := h
    obtain ⟨W, hp⟩ := H t (by simp)
    obtain ⟨s', w1, w2⟩ := Ptb.treeToString_ok W hp hF g
    rw [h] at w2; cases w2
    exact .cons (by rw [convert_bracket, write_bracket g 0 w1]) (ih fun u hu => H u (by simp [hu]))

end Convert
end Lumberjack
