import Verif.Proofs.RewriteAny
import Verif.Proofs.RewritePipeline

/-!
# Numbers for the words of a tree with gaps
-/

namespace Lumberjack

theorem card_image_congr {α β γ : Type} [DecidableEq α] [DecidableEq β] [DecidableEq γ] (S : Finset α) {f : α → β} {g : α → γ}
    (h : ∀ a ∈ S, ∀ b ∈ S, f a = f b ↔ g a = g b) : (S.image f).card = (S.image g).card := by
  induction S using Finset.induction_on with
  | empty => rfl
  | insert a S ha ih =>
    have ih := ih fun a ha b hb => h a (Finset.mem_insert_of_mem ha) b (Finset.mem_insert_of_mem hb)
    have hm : f a ∈ S.image f ↔ g a ∈ S.image g := by
      simp only [Finset.mem_image]
      refine exists_congr fun b => and_congr_right fun hb => ?_
      exact h b (Finset.mem_insert_of_mem hb) a (Finset.mem_insert_self _ _)
    rw [Finset.image_insert, Finset.image_insert]
    by_cases hf : f a ∈ S.image f
    · rw [Finset.insert_eq_of_mem hf, Finset.insert_eq_of_mem (hm.1 hf), ih]
    · rw [Finset.card_insert_of_notMem hf, Finset.card_insert_of_notMem (fun h => hf (hm.2 h)), ih]

namespace Tree

open Relation Lumberjack.Convert

variable {t t' : Tree} {q : Tree → Nat → Bool} {P : NonTerminal → Bool} {num : Nat → Nat}

/-- What the list of owners says. -/
structure Owned (t : Tree) (q : Tree → Nat → Bool) (ids : List Nat) (own next a : Nat) (l : List (Nat × Nat)) (next' : Nat) : Prop where
  le : next ≤ next'
  owner : ∀ i o, (i, o) ∈ l → ∃ m b, t.TermAt m i ∧ t.Closest q m b ∧
    ((o = own ∧ b = a) ∨ (next ≤ o ∧ o < next' ∧ ∃ c ∈ ids, t.Dom c b))
  all : ∀ c ∈ ids, ∀ m i, t.Dom c m → t.TermAt m i → ∃ o, (i, o) ∈ l
  same : ∀ i o j o' m m' b b', (i, o) ∈ l → (j, o') ∈ l → t.TermAt m i → t.TermAt m' j → t.Closest q m b → t.Closest q m' b' →
    (o = o' ↔ b = b')

theorem owners_rep (W : t.WF) (hP : ∀ n x, n ≠ t.root → t.graph.node? n = some (.nt x) → q t n = P x) {f : Forest} :
    ∀ {ids : List Nat} {own next a : Nat}, t.Rep ids f → ids.Pairwise (fun a b => ¬ t.Dom a b ∧ ¬ t.Dom b a) →
    (∀ c ∈ ids, t.Closest q c a) → own < next →
    Owned t q ids own next a (f.owners P own next).1 (f.owners P own next).2 := by
  induction f with
  | nil =>
    intro ids own next a h _ _ _
    rw [show ids = [] from h]
    exact ⟨Nat.le_refl _, by simp [Forest.owners], by simp, by simp [Forest.owners]⟩
  | leaf e x r ih =>
    rintro ids own next a ⟨n, ns, rfl, h4, h5, h6⟩ hq ho hlt
    obtain ⟨hq1, hq2⟩ := List.pairwise_cons.1 hq
    have I := ih h6 hq2 (fun c hc => ho c (List.mem_cons_of_mem _ hc)) hlt
    have hcl := ho n List.mem_cons_self
    obtain ⟨k, _, hn⟩ := W.sentence.pos n ⟨x, h4⟩
    have hx : x.span.start = k := by rw [← startOf_leaf h4, hn.start]
    simp only [Forest.owners, hx]
    have hout : ∀ j o m b, (j, o) ∈ (r.owners P own next).1 → t.TermAt m j → t.Closest q m b → (own = o ↔ a = b) := by
      intro j o m b hj hm hb
      obtain ⟨m', b', q1, q2, q3⟩ := I.owner j o hj
      obtain rfl := W.sentence.inj m m' j hm q1
      obtain rfl := closest_unique W hb q2
      rcases q3 with ⟨e1, e2⟩ | ⟨e1, _, c, hc, hd⟩
      · simp [e1, e2]
      · refine ⟨fun h => by omega, fun h => ?_⟩
        subst h
        have hc' := ho c (List.mem_cons_of_mem _ hc)
        exact absurd (W.shape.dom_antisymm W.graph hc'.1.2.1 hd) hc'.1.1
    refine ⟨I.le, ?_, ?_, ?_⟩
    · intro i o hi
      rcases List.mem_cons.1 hi with h | h
      · cases h
        exact ⟨n, a, hn, hcl, .inl ⟨rfl, rfl⟩⟩
      · obtain ⟨m, b, q1, q2, q3⟩ := I.owner i o h
        refine ⟨m, b, q1, q2, q3.imp_right fun ⟨e1, e2, c, hc, hd⟩ => ⟨e1, e2, c, List.mem_cons_of_mem _ hc, hd⟩⟩
    · intro c hc m i hd hm
      rcases List.mem_cons.1 hc with rfl | hc
      · have := W.shape.dom_term ⟨x, h4⟩ hd
        subst this
        rw [hm.pos_unique hn]
        exact ⟨own, List.mem_cons_self⟩
      · obtain ⟨o, ho⟩ := I.all c hc m i hd hm
        exact ⟨o, List.mem_cons_of_mem _ ho⟩
    · intro i o j o' m m' b b' h1 h2 hm hm' hb hb'
      rcases List.mem_cons.1 h1 with h1 | h1 <;> rcases List.mem_cons.1 h2 with h2 | h2
      · cases h1; cases h2
        rw [W.sentence.inj m m' k hm hm'] at hb
        simp [closest_unique W hb hb']
      · cases h1
        rw [W.sentence.inj m n k hm hn] at hb
        rw [closest_unique W hb hcl]
        exact hout j o' m' b' h2 hm' hb'
      · cases h2
        rw [W.sentence.inj m' n k hm' hn] at hb'
        rw [closest_unique W hb' hcl, eq_comm, hout i o m b h1 hm hb, eq_comm]
      · exact I.same i o j o' m m' b b' h1 h2 hm hm' hb hb'
  | node e x ks r ihk ih =>
    rintro ids own next a ⟨n, ns, kk, rfl, h4, h5, h6, h7, h8⟩ hq ho hlt
    obtain ⟨hq1, hq2⟩ := List.pairwise_cons.1 hq
    have hcl := ho n List.mem_cons_self
    have hnr : n ≠ t.root := by
      rintro rfl
      exact hcl.1.1 (dom_top W.shape hcl.1.2.1)
    have hid : q t n = P x := hP n x hnr h4
    have hnt : ∀ {m i}, t.TermAt m i → n ≠ m := by
      rintro m i ⟨y, hy, _⟩ rfl
      rw [h4] at hy; cases hy
    have above : ∀ {c b : Nat}, c ∈ n :: ns → t.Dom c b → a ≠ b := by
      rintro c b hc hd rfl
      have hc' := ho c hc
      exact hc'.1.1 (W.shape.dom_antisymm W.graph hc'.1.2.1 hd)
    simp only [Forest.owners]
    -- the words below the node
    have K : Owned t q [n] own next a (ks.owners P (if P x then next else own) (next + 1)).1
        (ks.owners P (if P x then next else own) (next + 1)).2 := by
      by_cases hp : P x = true
      · rw [if_pos hp]
        have I := ihk (own := next) (next := next + 1) (a := n) h7 (kids_apart W.graph W.shape h6) (fun c hc => by
          have := closest_child W hcl ((h6.1 c).1 hc)
          rwa [hid, if_pos hp] at this) (Nat.lt_succ_self _)
        refine ⟨Nat.le_of_succ_le I.le, fun i o hi => ?_, fun c hc m i hd hm => ?_, I.same⟩
        · obtain ⟨m, b, q1, q2, q3⟩ := I.owner i o hi
          refine ⟨m, b, q1, q2, .inr ?_⟩
          have := I.le
          rcases q3 with ⟨rfl, rfl⟩ | ⟨e1, e2, c, hc, hd⟩
          · exact ⟨Nat.le_refl _, by omega, b, by simp, .refl⟩
          · exact ⟨by omega, e2, n, by simp, .head ((h6.1 c).1 hc) hd⟩
        · rw [List.mem_singleton.1 hc] at hd
          rcases hd.cases_child with e | ⟨d, h1, h2⟩
          · exact absurd e (hnt hm)
          · exact I.all d ((h6.1 d).2 h1) m i h2 hm
      · rw [if_neg hp]
        have I := ihk (own := own) (next := next + 1) (a := a) h7 (kids_apart W.graph W.shape h6) (fun c hc => by
          have := closest_child W hcl ((h6.1 c).1 hc)
          rwa [hid, if_neg hp] at this) (Nat.lt_succ_of_lt hlt)
        refine ⟨Nat.le_of_succ_le I.le, fun i o hi => ?_, fun c hc m i hd hm => ?_, I.same⟩
        · obtain ⟨m, b, q1, q2, q3⟩ := I.owner i o hi
          refine ⟨m, b, q1, q2, q3.imp_right fun ⟨e1, e2, c, hc, hd⟩ => ⟨by omega, e2, n, by simp, .head ((h6.1 c).1 hc) hd⟩⟩
        · rw [List.mem_singleton.1 hc] at hd
          rcases hd.cases_child with e | ⟨d, h1, h2⟩
          · exact absurd e (hnt hm)
          · exact I.all d ((h6.1 d).2 h1) m i h2 hm
    generalize ks.owners P (if P x then next else own) (next + 1) = kr at K ⊢
    obtain ⟨l1, n1⟩ := kr
    simp only at K ⊢
    have R := ih (own := own) (next := n1) h8 hq2 (fun c hc => ho c (List.mem_cons_of_mem _ hc)) (Nat.lt_of_lt_of_le hlt K.le)
    generalize r.owners P own n1 = rr at R ⊢
    obtain ⟨l2, n2⟩ := rr
    simp only at R ⊢
    -- words below different nodes
    have cross : ∀ i o j o' m m' b b', (i, o) ∈ l1 → (j, o') ∈ l2 → t.TermAt m i → t.TermAt m' j → t.Closest q m b →
        t.Closest q m' b' → (o = o' ↔ b = b') := by
      intro i o j o' m m' b b' h1 h2 hm hm' hb hb'
      have hle := K.le
      obtain ⟨m1, b1, q1, q2, q3⟩ := K.owner i o h1
      obtain rfl := W.sentence.inj m m1 i hm q1
      obtain rfl := closest_unique W hb q2
      obtain ⟨m2, b2, r1, r2, r3⟩ := R.owner j o' h2
      obtain rfl := W.sentence.inj m' m2 j hm' r1
      obtain rfl := closest_unique W hb' r2
      rcases q3 with ⟨rfl, rfl⟩ | ⟨e1, e2, c, hc, hd⟩ <;> rcases r3 with ⟨rfl, rfl⟩ | ⟨e1', e2', c', hc', hd'⟩
      · simp
      · exact ⟨fun h => by omega, fun h => absurd h (above (List.mem_cons_of_mem _ hc') hd')⟩
      · rw [List.mem_singleton.1 hc] at hd
        exact ⟨fun h => by omega, fun h => absurd h.symm (above List.mem_cons_self hd)⟩
      · rw [List.mem_singleton.1 hc] at hd
        refine ⟨fun h => by omega, fun h => ?_⟩
        subst h
        rcases W.shape.dom_linear hd hd' with h | h
        · exact absurd h (hq1 c' hc').1
        · exact absurd h (hq1 c' hc').2
    refine ⟨Nat.le_trans K.le R.le, ?_, ?_, ?_⟩
    · intro i o hi
      have hK := K.le
      have hR := R.le
      rcases List.mem_append.1 hi with h | h
      · obtain ⟨m, b, q1, q2, q3⟩ := K.owner i o h
        refine ⟨m, b, q1, q2, q3.imp_right fun ⟨e1, e2, c, hc, hd⟩ => ⟨e1, by omega, c, ?_, hd⟩⟩
        rw [List.mem_singleton.1 hc]
        exact List.mem_cons_self
      · obtain ⟨m, b, q1, q2, q3⟩ := R.owner i o h
        exact ⟨m, b, q1, q2, q3.imp_right fun ⟨e1, e2, c, hc, hd⟩ => ⟨by omega, e2, c, List.mem_cons_of_mem _ hc, hd⟩⟩
    · intro c hc m i hd hm
      rcases List.mem_cons.1 hc with rfl | hc
      · obtain ⟨o, ho⟩ := K.all c (by simp) m i hd hm
        exact ⟨o, List.mem_append_left _ ho⟩
      · obtain ⟨o, ho⟩ := R.all c hc m i hd hm
        exact ⟨o, List.mem_append_right _ ho⟩
    · intro i o j o' m m' b b' h1 h2 hm hm' hb hb'
      rcases List.mem_append.1 h1 with h1 | h1 <;> rcases List.mem_append.1 h2 with h2 | h2
      · exact K.same i o j o' m m' b b' h1 h2 hm hm' hb hb'
      · exact cross i o j o' m m' b b' h1 h2 hm hm' hb hb'
      · rw [eq_comm, cross j o' i o m' m b' b h2 h1 hm' hm hb' hb, eq_comm]
      · exact R.same i o j o' m m' b b' h1 h2 hm hm' hb hb'

theorem mem_of_lookup {l : List (Nat × Nat)} {i o : Nat} (h : l.lookup i = some o) : (i, o) ∈ l := by
  induction l with
  | nil => simp at h
  | cons p l ih =>
    obtain ⟨j, v⟩ := p
    rw [List.lookup_cons] at h
    split at h
    · rename_i hj
      obtain rfl : i = j := by simpa using hj
      cases h
      exact List.mem_cons_self
    · exact List.mem_cons_of_mem _ (ih h)

theorem exists_lookup {l : List (Nat × Nat)} {i o : Nat} (h : (i, o) ∈ l) : ∃ o', l.lookup i = some o' := by
  induction l with
  | nil => simp at h
  | cons p l ih =>
    obtain ⟨j, v⟩ := p
    rw [List.lookup_cons]
    split
    · exact ⟨_, rfl⟩
    · rename_i hj
      rcases List.mem_cons.1 h with h | h
      · cases h
        simp at hj
      · exact ih h

/-- The numbers are ranks. -/
theorem rank_num (W : t.WF) {own : Nat → Option Nat} (hup : CountsUp t num)
    (hs : ∀ n m i j, t.TermAt n i → t.TermAt m j → (own i = own j ↔ num n = num m)) {n i : Nat} (hn : t.TermAt n i) :
    Forest.rank own i = num n := by
  have hi : i < t.nTerminals := by
    obtain ⟨j, hj, hj'⟩ := W.sentence.pos n hn.isTerm
    rw [hn.pos_unique hj']; exact hj
  have at' : ∀ j, ∃ m, j ≤ i → t.TermAt m j := by
    intro j
    by_cases hj : j ≤ i
    · obtain ⟨m, hm⟩ := W.sentence.occupied j (by omega)
      exact ⟨m, fun _ => hm⟩
    · exact ⟨0, fun h => absurd h hj⟩
  choose w hw using at'
  have hwn : w i = n := W.sentence.inj _ _ i (hw i (Nat.le_refl _)) hn
  -- the first word with this number
  obtain ⟨k, hk1, hk2, hk3, hk4⟩ : ∃ k, ((List.range i).find? fun j => own j = own i).getD i = k ∧ k ≤ i ∧ own k = own i ∧
      ∀ j < k, own j ≠ own i := by
    cases hf : (List.range i).find? fun j => own j = own i with
    | none =>
      refine ⟨i, rfl, Nat.le_refl _, rfl, fun j hj => ?_⟩
      have := List.find?_eq_none.1 hf j (List.mem_range.2 hj)
      simpa using this
    | some k =>
      obtain ⟨h1, as, bs, h2, h3⟩ := List.find?_eq_some_iff_append.1 hf
      have hk : k < i := by
        have : k ∈ List.range i := by rw [h2]; simp
        simpa using this
      refine ⟨k, rfl, Nat.le_of_lt hk, by simpa using h1, fun j hj => ?_⟩
      have hlen : as.length = k := by
        have h4 : (List.range i)[as.length]? = some k := by rw [h2]; simp
        rw [List.getElem?_range (by
          have := congrArg List.length h2
          simp at this; omega)] at h4
        simpa using h4
      have h5 : (List.range i)[j]? = as[j]? := by rw [h2, List.getElem?_append_left (by omega)]
      rw [List.getElem?_range (by omega)] at h5
      have := h3 j (List.mem_of_getElem? h5.symm)
      simpa using this
  unfold Forest.rank
  rw [hk1]
  have hkn : num (w k) = num n := (hs _ _ _ _ (hw k hk2) hn).1 hk3
  have hc := hup (w k) k (hw k hk2) (fun m j hm hj e => hk4 j hj ((hs m n j i hm hn).2 (by rw [e, hkn])))
  have himg : (Finset.range k).image (fun j => num (w j)) = Finset.range (num n) := by
    ext v
    rw [Finset.mem_range, ← hkn, hc]
    simp only [Finset.mem_image, Finset.mem_range]
    constructor
    · rintro ⟨j, hj, rfl⟩
      exact ⟨w j, j, hw j (by omega), hj, rfl⟩
    · rintro ⟨m, j, hm, hj, rfl⟩
      exact ⟨j, hj, by rw [W.sentence.inj _ _ j (hw j (by omega)) hm]⟩
  rw [card_image_congr (Finset.range k) (f := own) (g := fun j => num (w j)), himg, Finset.card_range]
  intro a ha b hb
  rw [Finset.mem_range] at ha hb
  exact hs _ _ _ _ (hw a (by omega)) (hw b (by omega))

/-- Numbers given to the words. -/
theorem numberedBy_is (W : t.WF) (hroot : t.IsNt t.root) (hq0 : q t t.root = true)
    (hP : ∀ n x, n ≠ t.root → t.graph.node? n = some (.nt x) → q t n = P x) {name : Str}
    (E : TermEdit t t' (fun n => withFeature name (Nat.toDigits 10 (num n))))
    (hnum : ∀ n m a b, t.IsTerm n → t.IsTerm m → t.Closest q n a → t.Closest q m b → (num n = num m ↔ a = b))
    (hup : CountsUp t num) {F : Forest} (hF : t.Is F) : t'.Is (F.numberedBy name P) := by
  obtain ⟨ids, own, next, hall, O⟩ : ∃ ids own next, (∀ m i, t.TermAt m i → ∃ c ∈ ids, t.Dom c m) ∧
      Owned t q ids own next t.root (F.owners P 0 1).1 (F.owners P 0 1).2 := by
    unfold Is at hF
    cases F with
    | nil => simp [Rep] at hF
    | leaf e y r =>
      obtain ⟨m, ns, h1, h2, _⟩ := hF
      obtain ⟨z, hz⟩ := hroot
      simp only [List.cons.injEq] at h1
      rw [h1.1, h2] at hz; cases hz
    | node e y k r =>
      obtain ⟨m, ns, kk, h1, h4, h5, h6, h7, h8⟩ := hF
      simp only [List.cons.injEq] at h1
      obtain ⟨rfl, rfl⟩ := h1
      obtain rfl := rep_empty h8
      have hown : ∀ c ∈ kk, t.Closest q c t.root := by
        intro c hc
        have hch := (h6.1 c).1 hc
        have hne : t.root ≠ c := fun e => W.shape.root_top t.root (e ▸ hch)
        refine ⟨⟨hne, .single hch, hq0⟩, fun b b1 b2 _ => ?_⟩
        rcases b2.cases_parent with e | ⟨q, k3, k4⟩
        · exact absurd e.symm b1
        · rw [W.shape.isChild_unique hch k4]; exact k3
      refine ⟨kk, if P y then 1 else 0, 2, fun m i hm => ?_, ?_⟩
      · rcases (W.shape.reach m hm.isTerm.live).cases_child with e | ⟨c, q1, q2⟩
        · rw [← e] at hm
          obtain ⟨z, hz, _⟩ := hm
          rw [h4] at hz; cases hz
        · exact ⟨c, (h6.1 c).2 q1, q2⟩
      · have := owners_rep W hP (own := if P y then 1 else 0) (next := 2) h7 (kids_apart W.graph W.shape h6) hown (by split <;> omega)
        simpa only [Forest.owners, List.append_nil] using this
  generalize (F.owners P 0 1).2 = next' at O
  have hlook : ∀ m i, t.TermAt m i → ∃ o, (F.owners P 0 1).1.lookup i = some o ∧ (i, o) ∈ (F.owners P 0 1).1 := by
    intro m i hm
    obtain ⟨c, hc, hd⟩ := hall m i hm
    obtain ⟨o, ho⟩ := O.all c hc m i hd hm
    obtain ⟨o', ho'⟩ := exists_lookup ho
    exact ⟨o', ho', mem_of_lookup ho'⟩
  have hs : ∀ n m i j, t.TermAt n i → t.TermAt m j →
      ((F.owners P 0 1).1.lookup i = (F.owners P 0 1).1.lookup j ↔ num n = num m) := by
    intro n m i j hn hm
    obtain ⟨o, h1, h2⟩ := hlook n i hn
    obtain ⟨o', h1', h2'⟩ := hlook m j hm
    obtain ⟨n', b, q1, q2, _⟩ := O.owner i o h2
    obtain rfl := W.sentence.inj n n' i hn q1
    obtain ⟨m', b', r1, r2, _⟩ := O.owner j o' h2'
    obtain rfl := W.sentence.inj m m' j hm r1
    rw [h1, h1', Option.some.injEq, O.same i o j o' n m b b' h2 h2' hn hm q2 r2, hnum n m b b' hn.isTerm hm.isTerm q2 r2]
  have key : ∀ n x, t.graph.node? n = some (.term x) →
      Forest.rank (fun i => (F.owners P 0 1).1.lookup i) x.span.start = num n := by
    intro n x hx
    obtain ⟨i, hi, hn⟩ := W.sentence.pos n ⟨x, hx⟩
    rw [← startOf_leaf hx, hn.start]
    exact rank_num W hup hs hn
  obtain ⟨f', h1, h2⟩ := TermEdit.rep E (fun _ _ => rfl) (h := id)
    (h' := fun x => withFeature name (Nat.toDigits 10 (Forest.rank (fun i => (F.owners P 0 1).1.lookup i) x.span.start)) x)
    (fun n x hx => by rw [key n x hx]; rfl) hF
  rw [Forest.mapLeaves_id] at h2
  unfold Is
  rw [E.root, show F.numberedBy name P = f' from h2.symm]
  exact h1

end Tree
end Lumberjack
