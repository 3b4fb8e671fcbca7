import Verif.Proofs.TagFiles
import Verif.Props.ConllxRead

/-!
# Trees read from tags
-/

namespace Lumberjack

open Conllx Lumberjack.Tree

theorem rsplitOnce_not_mem {c : Char} {s : Str} (h : rsplitOnce c s = none) : c ∉ s := by
  induction s with
  | nil => simp
  | cons x xs ih =>
    unfold rsplitOnce at h
    cases h' : rsplitOnce c xs with
    | some p => rw [h'] at h; simp at h
    | none =>
      rw [h'] at h
      simp only at h
      split at h
      · cases h
      · rename_i hx
        simp only [List.mem_cons, not_or]
        exact ⟨fun e => hx e.symm, ih h'⟩

theorem rsplitOnce_some {c : Char} {s a b : Str} (h : rsplitOnce c s = some (a, b)) : s = a ++ c :: b ∧ c ∉ b := by
  induction s generalizing a b with
  | nil => cases h
  | cons x xs ih =>
    unfold rsplitOnce at h
    cases h' : rsplitOnce c xs with
    | some p =>
      rw [h'] at h
      obtain ⟨rfl, rfl⟩ : x :: p.1 = a ∧ p.2 = b := by simpa using h
      obtain ⟨h1, h2⟩ := ih h'
      exact ⟨by rw [h1]; rfl, h2⟩
    | none =>
      rw [h'] at h
      simp only at h
      split at h
      · rename_i hx
        cases h
        exact ⟨by simp [hx], rsplitOnce_not_mem h'⟩
      · cases h

theorem splitStr_single (c : Char) (s : Str) : splitStr [c] s = splitOn c s := by
  conv_lhs => rw [← join_splitOn c s]
  exact splitStr_join (by simp) (splitOn_ne_nil _ _) (fun l hl d hd => by
    rw [List.mem_singleton] at hd
    subst hd; exact not_mem_of_mem_splitOn hl)

/-! ## Characters in tags -/

/-- The text has none of the characters that delimit chains, features and values. -/
def Inside (s : Str) : Prop := ∀ c ∈ ['~', '|', ':'], c ∉ s

/-- The label can be the label of a decoded node. -/
def ReadLabel (s : Str) : Prop := ∀ c ∈ ['_', '~', '|', ':'], c ∉ s

theorem ReadLabel.of_inside {s : Str} (h : Inside s) (hu : '_' ∉ s) : ReadLabel s := by
  intro c hc
  rcases List.mem_cons.1 hc with rfl | hc
  · exact hu
  · exact h c hc

theorem Inside.sub {s p : Str} (h : Inside s) (hp : ∀ c ∈ p, c ∈ s) : Inside p :=
  fun c hc hm => h c hc (hp c hm)

/-- Features with a chain only. -/
def ChainAtMost (fs : Option Features) : Prop := fs.getD Features.empty = Features.empty ∨
  ∃ c, Inside c ∧ fs.getD Features.empty = ⟨[(Forest.chainKey, some c)]⟩

theorem ChainAtMost.insert {fs : Option Features} (h : ChainAtMost fs) {c : Str} (hc : Inside c) :
    ChainAtMost (some ((fs.getD Features.empty).insert Forest.chainKey (some c)).1) := by
  refine .inr ⟨c, hc, ?_⟩
  rcases h with h | ⟨d, _, h⟩ <;> rw [h]
  · rfl
  · simp [Features.insert, Features.insertEntry]

/-- A node of the forest that tags stand for. -/
def RawNode (nd : Node) : Prop :=
  ChainAtMost nd.features ∧ (∀ x, nd = .nt x → ReadLabel x.label) ∧ ∀ x, nd = .term x → x.lem = none

theorem RawNode.relabel {x : NonTerminal} (h : RawNode (.nt x)) {l : Str} (hl : Inside l) :
    RawNode (.nt (Decoding.relabel l x)) := by
  unfold Decoding.relabel
  cases hs : rsplitOnce '_' l with
  | none =>
    exact ⟨h.1, by rintro y ⟨⟩; exact .of_inside hl (rsplitOnce_not_mem hs), by rintro y ⟨⟩⟩
  | some p =>
    obtain ⟨c, l'⟩ := p
    obtain ⟨h1, h2⟩ := rsplitOnce_some hs
    refine ⟨ChainAtMost.insert h.1 (hl.sub fun d hd => by rw [h1]; simp [hd]), ?_, by rintro y ⟨⟩⟩
    rintro y ⟨⟩
    exact .of_inside (hl.sub fun d hd => by rw [h1]; simp [hd]) h2

theorem RawNode.fresh : RawNode (.nt Decoding.fresh) :=
  ⟨.inl rfl, by rintro y ⟨⟩; unfold ReadLabel; decide, by rintro y ⟨⟩⟩

theorem RawNode.chained {x : Terminal} (h1 : x.features = none) (h2 : x.lem = none) {c : Option Str}
    (hc : ∀ s, c = some s → Inside s) : RawNode (.term (Decoding.chained c x)) := by
  cases c with
  | none => exact ⟨.inl (by show x.features.getD _ = _; rw [h1]; rfl), by rintro y ⟨⟩, by rintro y ⟨⟩; exact h2⟩
  | some s => exact ⟨ChainAtMost.insert (.inl (by rw [h1]; rfl)) (hc s rfl), by rintro y ⟨⟩, by rintro y ⟨⟩; exact h2⟩

theorem Forest.All.append' {P : Node → Prop} {f g : Forest} (hf : f.All P) (hg : g.All P) : (f.append g).All P := by
  induction f with
  | nil => exact hg
  | leaf e x r ih => exact ⟨hf.1, ih hf.2⟩
  | node e x k r _ ih => exact ⟨hf.1, hf.2.1, ih hf.2.2⟩

namespace Decoding

/-- All nodes on the stack are such. -/
def RawStack (Z : Stack) : Prop := ∀ p ∈ Z, RawNode (.nt p.1) ∧ p.2.All RawNode

theorem RawStack.app {Z : Stack} (h : RawStack Z) {F : Forest} (hF : F.All RawNode) : RawStack (Decoding.app F Z) := by
  cases Z with
  | nil => exact h
  | cons p Z =>
    intro q hq
    rcases List.mem_cons.1 hq with rfl | hq
    · exact ⟨(h p (by simp)).1, (h p (by simp)).2.append' hF⟩
    · exact h q (by simp [hq])

theorem RawStack.rel {Z : Stack} (h : RawStack Z) {l : Str} (hl : Inside l) : RawStack (Decoding.rel l Z) := by
  cases Z with
  | nil => exact h
  | cons p Z =>
    intro q hq
    rcases List.mem_cons.1 hq with rfl | hq
    · exact ⟨(h p (by simp)).1.relabel hl, (h p (by simp)).2⟩
    · exact h q (by simp [hq])

theorem RawStack.push {Z : Stack} (h : RawStack Z) (k : Nat) : RawStack (Decoding.push k Z) := by
  induction k generalizing Z with
  | zero => exact h
  | succ k ih =>
    refine ih fun q hq => ?_
    rcases List.mem_cons.1 hq with rfl | hq
    · exact ⟨.fresh, trivial⟩
    · exact h q hq

theorem RawStack.pop {Z : Stack} (h : RawStack Z) (k : Nat) : RawStack (Decoding.pop k Z) := by
  induction k generalizing Z with
  | zero => cases Z <;> exact h
  | succ k ih =>
    match Z with
    | [] => exact h
    | [p] => exact h
    | (x, d) :: (y, e) :: Z =>
      refine ih fun q hq => ?_
      rcases List.mem_cons.1 hq with rfl | hq
      · exact ⟨(h (y, e) (by simp)).1, (h (y, e) (by simp)).2.append'
          ⟨(h (x, d) (by simp)).1, (h (x, d) (by simp)).2, trivial⟩⟩
      · exact h q (by simp [hq])

theorem RawStack.run {l : List ((Option AbsAncestor × Option Str) × Terminal)} {Z : Stack} (h : RawStack Z)
    (hl : ∀ p ∈ l, (∀ a, p.1.1 = some a → Inside a.label) ∧ (∀ s, p.1.2 = some s → Inside s) ∧
      p.2.features = none ∧ p.2.lem = none) : RawStack (Decoding.run l Z) := by
  induction l generalizing Z with
  | nil => exact h
  | cons p l ih =>
    obtain ⟨⟨e, c⟩, x⟩ := p
    obtain ⟨h1, h2, h3, h4⟩ := hl _ (List.mem_cons_self ..)
    refine ih ?_ (fun q hq => hl q (by simp [hq]))
    have hx : (Forest.leaf none (chained c x) .nil).All RawNode := ⟨.chained h3 h4 h2, trivial⟩
    unfold step
    cases e with
    | none => exact h.app hx
    | some a => exact (((h.push _).app hx).pop _).rel (h1 a rfl)

theorem forest_raw {e : AbsEncoding} {ts : List Terminal} (he : ∀ p ∈ e, (∀ a, p.1 = some a → Inside a.label) ∧
    ∀ s, p.2 = some s → Inside s) (hts : ∀ x ∈ ts, x.features = none ∧ x.lem = none) : (forest e ts).All RawNode := by
  have hr : RawStack (popTo 1 (run (e.zip ts) [(fresh, .nil)])) := by
    refine RawStack.pop (RawStack.run ?_ fun p hp => ?_) _
    · intro p hp
      rw [List.mem_singleton] at hp
      subst hp
      exact ⟨.fresh, trivial⟩
    · obtain ⟨h1, h2⟩ := List.of_mem_zip (show (p.1, p.2) ∈ e.zip ts from hp)
      exact ⟨(he _ h1).1, (he _ h1).2, hts _ h2⟩
  unfold forest
  split
  · rename_i c x
    exact ⟨.chained (hts x (by simp)).1 (hts x (by simp)).2 (he (none, c) (by simp)).2, trivial⟩
  · revert hr
    cases popTo 1 (run (e.zip ts) [(fresh, .nil)]) with
    | nil => intro _; trivial
    | cons p Z =>
      intro hr
      exact ⟨(hr p (by simp)).1, (hr p (by simp)).2, trivial⟩

end Decoding

namespace Forest

theorem raw_respan {f : Forest} (h : f.All RawNode) : ∀ k, (f.respan k).All RawNode := by
  induction f with
  | nil => intro k; trivial
  | leaf e x r ih => intro k; exact ⟨h.1, ih h.2 _⟩
  | node e x ks r ihk ih =>
    intro k
    refine ⟨⟨h.1.1, ?_, by rintro y ⟨⟩⟩, ihk h.2.1 _, ih h.2.2 _⟩
    rintro y ⟨⟩
    exact h.1.2.1 x rfl

theorem ChainAtMost.unchain {fs : Option Features} (h : ChainAtMost fs) :
    (Forest.unchain fs).getD Features.empty = Features.empty := by
  cases fs with
  | none => rfl
  | some f =>
    rcases h with h | ⟨c, _, h⟩ <;> rw [show f = _ from h]
    · rfl
    · simp [Forest.unchain, Features.remove, Features.removeEntry, Features.empty]

theorem ChainAtMost.chainOf {fs : Option Features} (h : ChainAtMost fs) : ∀ l ∈ Forest.chainOf ['_'] fs, ReadLabel l := by
  intro l hl
  unfold Forest.chainOf at hl
  rcases h with h | ⟨c, hc, h⟩ <;> rw [h] at hl
  · simp [Features.getVal, Features.lookupEntry, Features.empty] at hl
  · simp only [Features.getVal, Features.lookupEntry, if_true] at hl
    rw [splitStr_single] at hl
    exact .of_inside (hc.sub fun d hd => mem_of_mem_splitOn hl _ hd) (not_mem_of_mem_splitOn hl)

theorem plainly_wrap {s : Span} {ls : List Str} (hls : ∀ l ∈ ls, ReadLabel l) {g : Forest}
    (hg : g.All (Convert.Plainly ReadLabel)) : (wrap s ls g).All (Convert.Plainly ReadLabel) := by
  induction ls generalizing g with
  | nil => exact hg
  | cons l ls ih =>
    refine ih (fun l hl => hls l (by simp [hl])) ⟨⟨rfl, ?_, by rintro y ⟨⟩⟩, hg, trivial⟩
    rintro y ⟨⟩
    exact hls l (by simp)

theorem raw_restore {f : Forest} (h : f.All RawNode) : (f.restore ['_']).All (Convert.Plainly ReadLabel) := by
  induction f with
  | nil => trivial
  | leaf e x r ih =>
    refine All.append' (plainly_wrap (ChainAtMost.chainOf h.1.1) ?_) (ih h.2)
    refine ⟨⟨ChainAtMost.unchain h.1.1, by rintro y ⟨⟩, ?_⟩, trivial⟩
    rintro y ⟨⟩
    exact h.1.2.2 x rfl
  | node e x k r ihk ih =>
    refine All.append' (plainly_wrap (ChainAtMost.chainOf h.1.1) ?_) (ih h.2.2)
    refine ⟨⟨ChainAtMost.unchain h.1.1, ?_, by rintro y ⟨⟩⟩, ihk h.2.1, trivial⟩
    rintro y ⟨⟩
    exact h.1.2.1 x rfl

end Forest

namespace Conllx

theorem decoded_plainly {e : AbsEncoding} {toks : List Token} {t : Tree} (D : Decoded e toks t)
    (he : ∀ p ∈ e, (∀ a, p.1 = some a → Inside a.label) ∧ ∀ s, p.2 = some s → Inside s) :
    ∀ n nd, t.graph.node? n = some nd → Convert.Plainly ReadLabel nd := by
  obtain ⟨f, hf, hn⟩ := D.shape
  have h := Forest.raw_restore (Forest.raw_respan (Decoding.forest_raw he (ts := toks.zipIdx.map fun p => wordOf p.1 p.2)
    (fun x hx => by
      obtain ⟨p, _, rfl⟩ := List.mem_map.1 hx
      exact ⟨rfl, rfl⟩)) 0)
  rw [← Convert.plainly_norm, ← hn, Convert.plainly_norm] at h
  exact fun n nd hnd => hf.all_conv D.wf.shape h hnd

theorem featLookup_inside {key s v : Str} (h : featLookup key s = some (some v)) : '|' ∉ v ∧ ':' ∉ v := by
  have key' : ∀ (l : List Str) (acc : Option (Option Str)), (∀ p ∈ l, '|' ∉ p) →
      (acc = some (some v) → '|' ∉ v ∧ ':' ∉ v) →
      (l.map Features.parseOne).foldl (fun acc kv => if kv.1 = key then some kv.2 else acc) acc = some (some v) →
      '|' ∉ v ∧ ':' ∉ v := by
    intro l
    induction l with
    | nil => intro acc _ ha h; exact ha h
    | cons p l ih =>
      intro acc hp ha h
      refine ih _ (fun q hq => hp q (by simp [hq])) ?_ h
      intro hs
      simp only at hs
      split at hs
      · simp only [Option.some.injEq] at hs
        unfold Features.parseOne at hs
        cases hc : splitOn ':' p with
        | nil => rw [hc] at hs; cases hs
        | cons k rest =>
          rw [hc] at hs
          cases rest with
          | nil => cases hs
          | cons w ws =>
            obtain rfl : w = v := by simpa using hs
            have hm : w ∈ splitOn ':' p := by rw [hc]; simp
            exact ⟨fun hb => hp p (by simp) (mem_of_mem_splitOn hm _ hb), not_mem_of_mem_splitOn hm⟩
      · exact ha hs
  exact key' (splitOn '|' s) none (fun p hp => not_mem_of_mem_splitOn hp) (by simp) h

theorem readsAs_inside {α : Type} {key : Str} {parse : Str → Except Err α} {lab : α → Str} {tok : Token}
    {e : Option α × Option Str} (hparse : ∀ s x, parse s = .ok x → ∀ c ∈ lab x, c ∈ s) (h : Tag key parse tok e) :
    (∀ a, e.1 = some a → Inside (lab a)) ∧ ∀ s, e.2 = some s → Inside s := by
  obtain ⟨v, ⟨fs, _, hv⟩, a, rest, hs, h2, h1⟩ := h
  obtain ⟨hb, hc⟩ := featLookup_inside hv
  have hpiece : ∀ p ∈ splitOn '~' v, Inside p := by
    intro p hp c hm hcp
    rcases List.mem_cons.1 hm with rfl | hm
    · exact not_mem_of_mem_splitOn hp hcp
    · have := mem_of_mem_splitOn hp _ hcp
      rcases List.mem_cons.1 hm with rfl | hm
      · exact hb this
      · rw [List.mem_singleton] at hm
        subst hm; exact hc this
  constructor
  · intro x hx
    rcases h1 with ⟨_, h1⟩ | ⟨_, y, hy, h1⟩
    · rw [h1] at hx; cases hx
    · rw [h1] at hx
      cases hx
      exact (hpiece a (by rw [hs]; simp)).sub (hparse _ _ hy)
  · intro s hse
    rw [h2] at hse
    cases rest with
    | nil => simp at hse
    | cons r rs =>
      simp only [List.head?_cons, Option.filter_eq_some_iff, Option.some.injEq] at hse
      rw [← hse.1]
      exact hpiece r (by rw [hs]; simp)

theorem absParse_label (s : Str) (x : AbsAncestor) (h : AbsAncestor.parse s = .ok x) : ∀ c ∈ x.label, c ∈ s := by
  unfold AbsAncestor.parse at h
  cases hs : splitOn '+' s with
  | nil => rw [hs] at h; cases h
  | cons l rest =>
    rw [hs] at h
    cases rest with
    | nil => cases h
    | cons o rest =>
      simp only at h
      split at h
      · cases h
        exact fun c hc => mem_of_mem_splitOn (p := l) (by rw [hs]; simp) _ hc
      · cases h

theorem relParse_label (s : Str) (x : RelAncestor) (h : RelAncestor.parse s = .ok x) : ∀ c ∈ x.lab, c ∈ s := by
  unfold RelAncestor.parse at h
  cases hs : splitOn '+' s with
  | nil => rw [hs] at h; cases h
  | cons l rest =>
    rw [hs] at h
    simp only at h
    split at h
    · cases h
    · cases rest with
      | nil =>
        simp only [Except.ok.injEq] at h
        subst h
        exact fun c hc => mem_of_mem_splitOn (p := l) (by rw [hs]; simp) _ hc
      | cons o rest =>
        simp only at h
        split at h
        · simp only [Except.ok.injEq] at h
          subst h
          exact fun c hc => mem_of_mem_splitOn (p := l) (by rw [hs]; simp) _ hc
        · cases h

theorem forall₂_mem_right {α β : Type} {R : α → β → Prop} {l : List α} {l' : List β} (h : List.Forall₂ R l l') :
    ∀ b ∈ l', ∃ a ∈ l, R a b := by
  induction h with
  | nil => simp
  | cons h1 _ ih =>
    intro b hb
    rcases List.mem_cons.1 hb with rfl | hb
    · exact ⟨_, by simp, h1⟩
    · obtain ⟨a, ha, hr⟩ := ih b hb
      exact ⟨a, by simp [ha], hr⟩

end Conllx

namespace Convert

/-- What trees read from tags are like. -/
theorem decode_plainly (k : TagKind) {toks : List Token} {t : Tree} (h : k.decode toks = .ok (.ok t)) :
    t.WF ∧ t.isProjective = true ∧ ∀ n nd, t.graph.node? n = some nd → Plainly ReadLabel nd := by
  have hne : toks ≠ [] := by
    rintro rfl
    cases k
    · rw [show TagKind.absolute.decode [] = _ from Props.C59_empty.1] at h; cases h
    · rw [show TagKind.relative.decode [] = _ from Props.C59_empty.2] at h; cases h
  cases k with
  | absolute =>
    rcases tags_total "abs_ancestor".toList AbsAncestor.parse toks with ⟨e, he⟩ | hbad
    · by_cases hp : AbsPositive e
      · obtain ⟨t', h1, D⟩ := Props.C59_absolute toks hne e he hp
        obtain rfl : t' = t := by
          have := h1.symm.trans h
          simpa using this
        refine ⟨D.wf, D.proj, decoded_plainly D fun p hp => ?_⟩
        obtain ⟨tok, _, ht⟩ := forall₂_mem_right he p hp
        exact readsAs_inside absParse_label ht
      · rw [show TagKind.absolute.decode toks = _ from Props.C59_zero toks e he hp] at h; cases h
    · obtain ⟨err, h1⟩ := (Props.C59_error toks).1 hbad
      rw [show TagKind.absolute.decode toks = _ from h1] at h; cases h
  | relative =>
    rcases tags_total "rel_ancestor".toList RelAncestor.parse toks with ⟨e, he⟩ | hbad
    · obtain ⟨t', h1, D⟩ := Props.C59_relative toks hne e he
      obtain rfl : t' = t := by
        have := h1.symm.trans h
        simpa using this
      refine ⟨D.wf, D.proj, decoded_plainly D fun p hp => ?_⟩
      have hm : (p.1.map (·.label), p.2) ∈ e.map (fun x => (x.1.map RelAncestor.lab, x.2)) := by
        rw [← (Props.C35_unwrap_or_fix e).2.1]
        exact List.mem_map_of_mem (f := fun x : Option AbsAncestor × Option Str => (x.1.map (·.label), x.2)) hp
      obtain ⟨q, hq, hqp⟩ := List.mem_map.1 hm
      obtain ⟨tok, _, ht⟩ := forall₂_mem_right he q hq
      obtain ⟨g1, g2⟩ := readsAs_inside relParse_label ht
      simp only [Prod.mk.injEq] at hqp
      refine ⟨fun a ha => ?_, fun s hs => g2 s (hqp.2.trans hs)⟩
      rw [ha] at hqp
      obtain ⟨r, hr, hl⟩ := Option.map_eq_some_iff.1 hqp.1
      exact (show RelAncestor.lab r = a.label from hl) ▸ g1 r hr
    · obtain ⟨err, h1⟩ := (Props.C59_error toks).2 hbad
      rw [show TagKind.relative.decode toks = _ from h1] at h; cases h

theorem stream_next {f : InFormat} {m : Bool} {src : Source} {items : List (Except Err Tree)} {b : Bool}
    (h : Stream f m src items b) {t : Tree} (ht : .ok t ∈ items) : ∃ s s', next f m s = .ok (some (.ok t), s') := by
  induction h with
  | stop _ => simp at ht
  | crash _ => simp at ht
  | item h1 _ ih =>
    rcases List.mem_cons.1 ht with rfl | ht
    · exact ⟨_, _, h1⟩
    · exact ih ht

theorem next_decoded (k : TagKind) {m : Bool} {s s' : Source} {t : Tree} (h : next k.input m s = .ok (some (.ok t), s')) :
    ∃ toks, k.decode toks = .ok (.ok t) := by
  have hn : next k.input m s = fromSentences k.decode s := by cases k <;> rfl
  rw [hn] at h
  unfold fromSentences at h
  split at h
  · cases h
  · cases h
  · rename_i toks _ _
    obtain ⟨r, g1, g2⟩ := Res.bind_eq_ok.1 h
    cases g2
    exact ⟨_, g1⟩

/-- A word without lemma and features, or an inner node without chain. -/
def Light (nd : Node) : Prop := (nd.features.getD Features.empty).getVal Forest.chainKey = none ∧
  ∀ x, nd = .term x → x.lem = none ∧ x.features.getD Features.empty = Features.empty

theorem light_brackets (f : Ptb.Format) (b : Brackets) : ∀ k, (b.forest f k).All Light := by
  induction b with
  | nil => intro k; trivial
  | leaf tag w r ih => intro k; exact ⟨⟨rfl, by rintro x ⟨⟩; exact ⟨rfl, rfl⟩⟩, ih _⟩
  | node tag ks r ihk ih =>
    intro k
    refine ⟨⟨?_, by rintro x ⟨⟩⟩, ihk _, ih _⟩
    show ((Bracketed.annotated (Bracketed.readTag f tag).2.2).getD _).getVal _ = none
    cases (Bracketed.readTag f tag).2.2 <;> rfl

/-- Formats other than NEGRA give trees without features on words and without chains. -/
theorem next_light {f : InFormat} (hf : f ≠ .negra) {m : Bool} {s s' : Source} {t : Tree}
    (h : next f m s = .ok (some (.ok t), s')) : t.isProjective = true ∧ BareWords t ∧
      ∀ n nd, t.graph.node? n = some nd → (nd.features.getD Features.empty).getVal Forest.chainKey = none := by
  have tagged : ∀ k : TagKind, f = k.input → t.isProjective = true ∧ BareWords t ∧
      ∀ n nd, t.graph.node? n = some nd → (nd.features.getD Features.empty).getVal Forest.chainKey = none := by
    rintro k rfl
    obtain ⟨toks, ht⟩ := next_decoded k h
    obtain ⟨_, hp, hn⟩ := decode_plainly k ht
    exact ⟨hp, fun n x hx => ⟨(hn n _ hx).2.2 x rfl, (hn n _ hx).1⟩, fun n nd hx => by rw [(hn n _ hx).1]; rfl⟩
  have bracketed : ∀ g : Ptb.Format, f = bracketInput g → t.isProjective = true ∧ BareWords t ∧
      ∀ n nd, t.graph.node? n = some nd → (nd.features.getD Features.empty).getVal Forest.chainKey = none := by
    rintro g rfl
    obtain ⟨s, hx⟩ := next_parsed h
    by_cases hb : ∃ b, Brackets.Single b ∧ Bracketed.Reads s b
    · obtain ⟨b, hb, hr⟩ := hb
      obtain ⟨t1, k1, W, hp, hF⟩ := Ptb.stringToTree_ok (f := g) hr hb
      rw [hx] at k1
      cases k1
      have hl : ∀ n nd, t.graph.node? n = some nd → Light nd :=
        fun n nd hnd => hF.all_conv W.shape (Ptb.setTop_all (light_brackets g b 0)) hnd
      exact ⟨hp, fun n x hn => (hl n _ hn).2 x rfl, fun n nd hn => (hl n nd hn).1⟩
    · rw [Ptb.stringToTree_err hb] at hx; cases hx
  cases f with
  | negra => exact absurd rfl hf
  | absolute => exact tagged .absolute rfl
  | relative => exact tagged .relative rfl
  | ptb => exact bracketed .ptb rfl
  | simple => exact bracketed .simple rfl
  | tueba => exact bracketed .tueba rfl

theorem TagKind.Names.holds {k : TagKind} {t : Tree} (h : k.Names t) (hb : BareWords t)
    (hc : ∀ n nd, t.graph.node? n = some nd → (nd.features.getD Features.empty).getVal Forest.chainKey = none) :
    k.Holds t := by
  refine ⟨⟨hc, fun n x hx => ?_, fun n x hx => ?_, h.label, h.height⟩, h.notNone⟩
  · rw [(hb n x hx).2]; exact List.Pairwise.nil
  · rw [(hb n x hx).2]; intro e he; simp [Features.empty] at he

theorem stream_light {f : InFormat} (hf : f ≠ .negra) {m : Bool} {src : Source} {items : List (Except Err Tree)} {b : Bool}
    (h : Stream f m src items b) {t : Tree} (ht : .ok t ∈ items) :
    t.isProjective = true ∧ BareWords t ∧ ∀ k : TagKind, k.Names t → k.Holds t := by
  obtain ⟨s, s', hn⟩ := stream_next h ht
  obtain ⟨hp, hb, hc⟩ := next_light hf hn
  exact ⟨hp, hb, fun k hk => hk.holds hb hc⟩

theorem stream_labels (k : TagKind) {m : Bool} {src : Source} {items : List (Except Err Tree)} {b : Bool}
    (h : Stream k.input m src items b) {t : Tree} (ht : .ok t ∈ items) :
    ∀ n x, t.graph.node? n = some (.nt x) → ∀ c ∈ ['_', '~', '|', ':'], c ∉ x.label := by
  obtain ⟨s, s', hn⟩ := stream_next h ht
  obtain ⟨toks, hd⟩ := next_decoded k hn
  exact fun n x hx => (((decode_plainly k hd).2.2 n _ hx).2.1 x rfl)

end Convert
end Lumberjack
