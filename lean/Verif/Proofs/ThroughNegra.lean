import Verif.Proofs.Through

/-!
# Going through NEGRA
-/

namespace Lumberjack

open Lumberjack.Tree

variable {t t' : Tree}

namespace Negra

/-- What is special about trees from NEGRA files: there are no empty sets of features, no node has two secondary
edges, the root has none. -/
structure Plainly (t : Tree) : Prop where
  tidy : ∀ n nd, t.graph.node? n = some nd → nd.features ≠ some Features.empty
  one : t.OneSecondary
  top : ∀ e ∈ t.graph.edges, e.w.isPrimary = false → e.tgt ≠ t.root

theorem read_plainly {ls rest : List Str} (h : readerNext ls = .ok (some (.ok t), rest)) (hO : Convert.Orderly ls) :
    Plainly t := by
  obtain ⟨pre, hd, body, f, id, info, T, N, rfl, h1, h2, h3, h4, h5, -⟩ := Props.C50_read ls rest t h
  obtain ⟨ho, hc⟩ := hO pre hd body f rest id info T N rfl h2 h3 h4
  obtain ⟨τ, ν, D⟩ := h5 ho
  refine ⟨D.tidy, ?_, ?_⟩
  · intro e he e' he' h1 h2 h3
    exact List.inj_on_of_nodup_map (D.sec_targets_nodup ho) (List.mem_filter.2 ⟨he, by simp [h1]⟩)
      (List.mem_filter.2 ⟨he', by simp [h2]⟩) h3
  · intro e he hw hr
    rw [D.root] at hr
    rcases (D.sec_iff hw).1 ⟨e, he, rfl, rfl, rfl⟩ with ⟨i, r, l, k, g1, _, g3, _, _⟩ | ⟨r, g1, l, k, _, g3, _, _⟩
    · have := D.terms i r g1
      rw [← g3, hr, D.root_node] at this
      cases this
    · have : r.id = 0 := D.distinct _ (List.mem_cons_of_mem _ (List.mem_map_of_mem g1)) 0 (by simp) (by rw [← g3, hr])
      exact ho.2 (this ▸ List.mem_map_of_mem g1)

theorem featSame_tidy {f g : Option Features} (h : Forest.FeatSame f g) (hf : f ≠ some Features.empty)
    (hg : g ≠ some Features.empty) : g = f := by
  unfold Forest.FeatSame at h
  cases f with
  | none =>
    cases g with
    | none => rfl
    | some y => exact absurd (by rw [show y = Features.empty from h.symm]) hg
  | some x =>
    cases g with
    | none => exact absurd (by rw [show x = Features.empty from h]) hf
    | some y => rw [show x = y from h]

/-- A copy of such a tree, with the same root, differs in the numbering only. -/
theorem Copy.iso {id : Nat} {info : Option Str} {φ : Nat → Nat} (C : Copy id info t t' φ) (W : t.WF) (P : Plainly t)
    (hr : SameRoot t id info) : Iso t t' φ where
  root := C.root
  inj := C.inj
  onto := C.onto
  node := by
    rintro n ⟨nd, hn⟩
    cases nd with
    | term x =>
      obtain ⟨f, h1, h2⟩ := C.terms n x hn
      rw [h1, hn, featSame_tidy h2 (P.tidy n _ hn) (C.tidy _ _ h1)]
    | nt x =>
      by_cases e : n = t.root
      · obtain ⟨y, h1, h2⟩ := C.root_node
        obtain ⟨z, h3, h4, h5⟩ := hr
        rw [e, h1] at hn
        rw [h1] at h3
        cases hn
        cases h3
        rw [e, ← C.root, h2, h1]
        have : x.features = some (headFeatures id info) :=
          featSame_tidy (f := some (headFeatures id info)) h5.symm (by cases info <;> simp [headFeatures, Features.empty])
            (P.tidy _ _ h1)
        cases x
        subst h4 this
        rfl
      · obtain ⟨f, h1, h2⟩ := C.nts n x e hn
        rw [h1, hn, featSame_tidy h2 (P.tidy n _ hn) (C.tidy _ _ h1)]
  edge := by
    intro p n w hp hn
    cases hw : w.isPrimary with
    | true =>
      cases w with
      | primary l => exact C.primary p n l hp hn
      | secondary l => cases hw
    | false =>
      constructor
      · rintro ⟨e, he, rfl, rfl, rfl⟩
        obtain ⟨e', g1, g2, g3⟩ := C.sec_to e he hw (P.top e he hw)
        obtain ⟨d, k1, _, k2, k3, k4⟩ := C.sec_from e' g1 g2
        have : d = e := P.one d k1 e he (by rw [k4, g2]) hw
          (C.inj _ _ (W.graph.ends d k1).2 hn (k3.trans g3))
        subst this
        exact ⟨e', g1, k2.symm, g3, k4.symm⟩
      · rintro ⟨e', g1, g2, g3, rfl⟩
        obtain ⟨d, k1, _, k2, k3, k4⟩ := C.sec_from e' g1 hw
        exact ⟨d, k1, C.inj _ _ (W.graph.ends d k1).1 hp (k2.trans g2), C.inj _ _ (W.graph.ends d k1).2 hn (k3.trans g3), k4⟩

theorem Copy.read {id : Nat} {info : Option Str} {φ : Nat → Nat} (C : Copy id info t t' φ) (hs : t.SecondaryNt) :
    Convert.Read t' where
  wf := C.wf
  order := C.order
  sec := by
    intro e' he hw
    obtain ⟨d, k1, _, k2, _, k4⟩ := C.sec_from e' he hw
    obtain ⟨x, hx⟩ := hs d k1 (by rw [k4, hw])
    rw [← k2]
    by_cases e : d.src = t.root
    · obtain ⟨_, _, h2⟩ := C.root_node
      rw [e, ← C.root]
      exact ⟨_, h2⟩
    · obtain ⟨f, h1, _⟩ := C.nts _ x e hx
      exact ⟨_, h1⟩

end Negra

namespace Convert

theorem stream_found {f : InFormat} {m : Bool} {src : Source} {items : List (Except Err Tree)} {b : Bool}
    (h : Stream f m src items b) : ∀ t, .ok t ∈ items → ∃ (s : Source) (used : List Str) (s' : Source),
      next f m s = .ok (some (.ok t), s') ∧ src.lines = used ++ s.lines := by
  induction h with
  | stop => simp
  | crash => simp
  | @item src src' r rs b hn _ ih =>
    intro t ht
    rcases List.mem_cons.1 ht with rfl | ht
    · exact ⟨src, [], src', hn, rfl⟩
    · obtain ⟨s, used, s', h1, h2⟩ := ih t ht
      obtain ⟨u, hu⟩ : ∃ used, src.lines = used ++ src'.lines := by
        rcases next_step f m src with h | ⟨s, h⟩ | ⟨item, s, h1, _, h3, _⟩
        · rw [hn] at h; cases h
        · rw [hn] at h; cases h
        · rw [hn] at h1; cases h1; exact h3
      exact ⟨s, u ++ used, s', h1, by rw [hu, h2, List.append_assoc]⟩

theorem through_negra {m m' : Bool} {pick pick' : Tree → Finset Nat → Option Nat} (hpick : IsOrder pick)
    (hpick' : IsOrder pick') {ls : List Str} {ss : List (Option (List Conllx.Token))}
    (ss' : List (Option (List Conllx.Token))) {ts : List Tree} (hO : Orderly ls) (hn : ∀ l ∈ ls, '\n' ∉ l)
    (hz : ls.length + 500 ≤ 2 ^ 64) (hs : Stream .negra m ⟨ls, ss⟩ (ts.map .ok) true) :
    ∃ wn, main .negra m pick (plain .negra) ⟨ls, ss⟩ none = (wn, .finished) ∧
      ∀ o pos, (∀ t ∈ ts, Enough o t) → (o.projectivize = true → ∀ t ∈ ts, t.isProjective = true) →
        main .negra m' pick' o ⟨Negra.lines (textOf wn), ss'⟩ pos = main .negra m pick o ⟨ls, ss⟩ pos := by
  have good : ∀ t ∈ ts, Read t ∧ Negra.Plainly t ∧ Negra.Exportable t ∧ ∃ id info, Negra.SameRoot t id info ∧
      ∀ counter, Negra.Head t counter id info := by
    intro t ht
    obtain ⟨s, used, s', h1, h2⟩ := stream_found hs t (List.mem_map_of_mem ht)
    simp only at h2
    subst h2
    simp only [next, fromLines] at h1
    obtain ⟨⟨it, rest⟩, g1, g2⟩ := Res.bind_eq_ok.1 h1
    cases g2
    have hO' := hO.suffix
    obtain ⟨h3, h4, _⟩ := Negra.read_exportable g1 hO' (fun l hl => hn l (by simp [hl])) (by simp at hz; omega)
    exact ⟨negra_read g1 hO', Negra.read_plainly g1 hO', h3, h4⟩
  have : Inhabited Tree := ⟨⟨⟨[], [], [], 0, []⟩, 0, 0, 0⟩⟩
  choose! hR hP hE id info hr Hd using good
  obtain ⟨text, us, g1, g2, g3, g4⟩ := Props.C48_file ts (fun i => id (ts[i]?.getD default)) (fun i => info (ts[i]?.getD default)) 0
    (fun i t ht => by
      have hm := List.mem_of_getElem? ht
      rw [ht]
      exact ⟨hE t hm, Hd t hm _⟩)
  obtain ⟨wn, h1, h2⟩ := main_negra (pick := pick) hs g1
  refine ⟨wn, h1, fun o pos hS hp => ?_⟩
  refine (Props.C74_option_runs .negra .negra m m' pick pick' hpick hpick' o _ _ pos ts us hs
    (h2.symm ▸ (negra_stream m' _ _ ss' _ g2).1) ?_).symm
  rw [List.forall₂_iff_get]
  refine ⟨g3.symm, fun i hi hi' => ?_⟩
  simp only [List.get_eq_getElem]
  have hm : ts[i] ∈ ts := List.getElem_mem hi
  obtain ⟨φ, C⟩ := g4 i ts[i] us[i] (by simp) (by simp)
  rw [List.getElem?_eq_getElem hi, Option.getD_some] at C
  have I := C.iso (hE _ hm).wf (hP _ hm) (hr _ hm)
  have S := (hR _ hm).suits (hS _ hm)
  exact ⟨S, iso_suits I S (C.read (hE _ hm).sources), fun e => hp e _ hm, fun _ => (hP _ hm).one,
    φ, I⟩

end Convert
end Lumberjack
