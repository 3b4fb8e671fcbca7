import Verif.Proofs.DecodeTrip
import Verif.Spec.Conllx

/-!
# Trees as tagged sentences: the forests involved
-/

namespace Lumberjack

open Conllx

namespace Forest

/-- The labels of a chain as they appear in a tag. -/
def ChainStr (c : Str) : Prop := c ≠ [] ∧ ∀ ch ∈ ['+', '~', '|', ':'], ch ∉ c

/-- No features but a chain. -/
def ChainTag (fs : Option Features) : Prop := fs.getD Features.empty = Features.empty ∨
  ∃ c, ChainStr c ∧ fs.getD Features.empty = ⟨[(chainKey, some c)]⟩

def Bare : Forest → Prop
  | nil => True
  | leaf e x r => e = none ∧ x.lem = none ∧ x.features.getD Features.empty = Features.empty ∧ r.Bare
  | node e x k r => e = none ∧ TagLabel x.label ∧ x.features.getD Features.empty = Features.empty ∧ k.Bare ∧ r.Bare

def Tagged : Forest → Prop
  | nil => True
  | leaf e x r => e = none ∧ x.lem = none ∧ ChainTag x.features ∧ r.Tagged
  | node e x k r => e = none ∧ TagLabel x.label ∧ ChainTag x.features ∧ k.Tagged ∧ r.Tagged

theorem ChainTag.add {fs : Option Features} (h : ChainTag fs) {l : Str} (hl : TagLabel l) :
    ChainTag (addChain ['_'] l fs) := by
  refine .inr ?_
  rcases h with h | ⟨c, hc, h⟩
  · refine ⟨l, ⟨hl.1, fun ch hch => hl.2 ch ?_⟩, ?_⟩
    · simp at hch ⊢; tauto
    · unfold addChain; rw [h]; rfl
  · refine ⟨c ++ ['_'] ++ l, ⟨by simp, fun ch hch hm => ?_⟩, ?_⟩
    · have h1 := hc.2 ch hch
      have h2 := hl.2 ch (by simp at hch ⊢; tauto)
      simp only [List.append_assoc, List.mem_append, List.mem_singleton] at hm
      rcases hm with hm | hm | hm
      · exact h1 hm
      · subst hm; simp at hch
      · exact h2 hm
    · unfold addChain; rw [h]
      simp [Features.getVal, Features.lookupEntry, Features.insert, Features.insertEntry]

theorem Bare.tagged {f : Forest} (h : f.Bare) : (f.collapse ['_']).Tagged := by
  induction f with
  | nil => trivial
  | leaf e x r ih => exact ⟨h.1, h.2.1, .inl h.2.2.1, ih h.2.2.2⟩
  | node e x k r ihk ih =>
    obtain ⟨h1, h2, h3, h4, h5⟩ := h
    have hk := ihk h4
    have hr := ih h5
    rw [collapse]
    split
    · rename_i e' y hy
      rw [hy] at hk
      exact ⟨rfl, hk.2.1, hk.2.2.1.add h2, hr⟩
    · rename_i e' y k' hy
      rw [hy] at hk
      exact ⟨rfl, hk.2.1, hk.2.2.1.add h2, hk.2.2.2.1, hr⟩
    · exact ⟨h1, h2, .inl h3, hk, hr⟩

theorem ChainTag.sorted {fs : Option Features} (h : ChainTag fs) : (fs.getD Features.empty).Sorted := by
  rcases h with h | ⟨c, _, h⟩ <;> rw [h]
  · exact List.Pairwise.nil
  · exact List.pairwise_singleton _ _

theorem ChainTag.feats {fs : Option Features} (h : ChainTag fs) : fs.getD Features.empty = Features.empty ∨
    ∃ c, fs.getD Features.empty = ⟨[(chainKey, some c)]⟩ := by
  rcases h with h | ⟨c, _, h⟩
  · exact .inl h
  · exact .inr ⟨c, h⟩

theorem ChainTag.value {fs : Option Features} (h : ChainTag fs) :
    (fs.getD Features.empty).getVal chainKey ≠ some none := by
  rcases h with h | ⟨c, _, h⟩ <;> rw [h] <;> simp [Features.getVal, Features.lookupEntry, Features.empty]

theorem Tagged.leaf_sorted {f : Forest} (h : f.Tagged) : ∀ x ∈ f.leaves, (x.features.getD Features.empty).Sorted := by
  induction f with
  | nil => intro x hx; simp [leaves] at hx
  | leaf e y r ih =>
    intro x hx
    rcases List.mem_cons.1 hx with rfl | hx
    · exact h.2.2.1.sorted
    · exact ih h.2.2.2 x hx
  | node e y k r ihk ih =>
    intro x hx
    rcases List.mem_append.1 hx with hx | hx
    · exact ihk h.2.2.2.1 x hx
    · exact ih h.2.2.2.2 x hx

theorem Tagged.norm {f : Forest} : ∀ {k : Nat}, f.Tagged → f.Seq k → (f.redecode.respan k).norm = f.norm := by
  induction f with
  | nil => intro k _ _; rfl
  | leaf e x r ih =>
    intro k h hs
    have h1 : (Forest.leaf none x .nil).redecode.leaves = [x] :=
      Forest.leaves_redecode (f := .leaf none x .nil) (by simp [Forest.leaves]; exact h.2.2.1.sorted)
    simp only [Forest.redecode, Forest.leaves, List.cons.injEq, and_true] at h1
    simp only [Forest.redecode, Forest.respan, Forest.norm, h1]
    rw [ih h.2.2.2 hs.2, h.1]
  | node e x ks r ihk ih =>
    intro k h hs
    have hl : ks.redecode.leaves.length = ks.leaves.length := by
      rw [Forest.leaves_redecode h.2.2.2.1.leaf_sorted]
    obtain ⟨q1, q2⟩ := Tree.relabel_full (h.2.1.2 '_' (by simp)) h.2.2.1.feats
    simp only [Forest.redecode, Forest.respan, Forest.norm, q1, q2, hl]
    rw [ih h.2.2.2.2 hs.2.2.2, ihk h.2.2.2.1 hs.2.2.1, h.1, ← hs.2.1]

/-- The terminal as the reader builds it. -/
def bare (x : Terminal) : Terminal := Terminal.new x.form x.pos x.span.start

/-- A forest with its terminals as the reader builds them, with their chains. -/
def strip : Forest → Forest
  | nil => nil
  | leaf e x r => leaf e (Decoding.chained x.chain (bare x)) r.strip
  | node e x k r => node e x k.strip r.strip

theorem strip_nil {f : Forest} : f.strip = nil ↔ f = nil := by cases f <;> simp [strip]

theorem chain_chained (c : Option Str) (x : Terminal) : (Decoding.chained c (bare x)).chain = c := by
  cases c <;> simp [Decoding.chained, Terminal.chain, bare, Terminal.new, Features.getVal, Features.lookupEntry,
    Features.empty, Features.insert, Features.insertEntry]

theorem encoding_strip {f : Forest} : ∀ {d : Nat} {lab : Str} {last : Option AbsAncestor},
    f.strip.encoding d lab last = f.encoding d lab last := by
  induction f with
  | nil => intros; rfl
  | leaf e x r ih => intros; simp only [strip, encoding, chain_chained, strip_nil, ih]
  | node e x k r ihk ih => intros; simp only [strip, encoding, strip_nil, ih, ihk]

theorem leaves_strip {f : Forest} : f.strip.leaves = f.leaves.map (fun x => Decoding.chained x.chain (bare x)) := by
  induction f with
  | nil => rfl
  | leaf e x r ih => simp [strip, leaves, ih]
  | node e x k r ihk ih => simp [strip, leaves, ih, ihk]

theorem span_chained (c : Option Str) (x : Terminal) : (Decoding.chained c x).span = x.span := by
  cases c <;> rfl

theorem Seq.strip {f : Forest} : ∀ {k : Nat}, f.Seq k → f.strip.Seq k := by
  induction f with
  | nil => intro k _; trivial
  | leaf e x r ih =>
    intro k h
    refine ⟨?_, ih h.2⟩
    rw [span_chained]; simp [bare, Terminal.new, h.1, Span.ofIdx]
  | node e x ks r ihk ih =>
    intro k h
    have hl : ks.strip.leaves.length = ks.leaves.length := by rw [leaves_strip]; simp
    exact ⟨fun hc => h.1 (strip_nil.1 hc), by rw [hl]; exact h.2.1, ihk h.2.2.1, by rw [hl]; exact ih h.2.2.2⟩

theorem width_strip {f : Forest} : f.strip.width = f.width := by
  induction f with
  | nil => rfl
  | leaf e x r ih => simp [strip, width, ih]
  | node e x k r ihk ih => simp [strip, width, ih]

theorem NoUnary.strip {f : Forest} (h : f.NoUnary) : f.strip.NoUnary := by
  induction f with
  | nil => trivial
  | leaf e x r ih => exact ih h
  | node e x k r ihk ih => exact ⟨by rw [width_strip]; exact h.1, ihk h.2.1, ih h.2.2⟩

theorem ChainTag.stripped {x : Terminal} (h : ChainTag x.features) (hl : x.lem = none) (hs : ∃ i, x.span = ⟨i, i + 1, none⟩) :
    ({ Decoding.chained x.chain (bare x) with
        features := some ((Decoding.chained x.chain (bare x)).features.getD Features.empty) } : Terminal) =
      { x with features := some (x.features.getD Features.empty) } ∧
    ChainTag (Decoding.chained x.chain (bare x)).features ∧ (Decoding.chained x.chain (bare x)).lem = none := by
  obtain ⟨i, hs⟩ := hs
  obtain ⟨form, pos, lem, fs, sp⟩ := x
  simp only at hl hs h
  subst hl hs
  rcases h with h | ⟨c, hc, h⟩
  · have : Terminal.chain ⟨form, pos, none, fs, ⟨i, i + 1, none⟩⟩ = none := by unfold Terminal.chain; simp only [h]; rfl
    rw [this]
    simp only [h]
    exact ⟨rfl, .inl rfl, rfl⟩
  · have : Terminal.chain ⟨form, pos, none, fs, ⟨i, i + 1, none⟩⟩ = some c := by
      unfold Terminal.chain; simp only [h]; simp [Features.getVal, Features.lookupEntry]
    rw [this]
    simp only [h]
    exact ⟨rfl, .inr ⟨c, hc, rfl⟩, rfl⟩

theorem Tagged.strip {f : Forest} : ∀ {k : Nat}, f.Tagged → f.Seq k → f.strip.Tagged ∧ f.strip.norm = f.norm := by
  induction f with
  | nil => intro k _ _; exact ⟨trivial, rfl⟩
  | leaf e x r ih =>
    intro k h hs
    obtain ⟨i1, i2⟩ := ih h.2.2.2 hs.2
    obtain ⟨q1, q2, q3⟩ := h.2.2.1.stripped h.2.1 ⟨k, hs.1⟩
    refine ⟨⟨h.1, q3, q2, i1⟩, ?_⟩
    simp only [Forest.strip, Forest.norm, i2, q1]
  | node e x ks r ihk ih =>
    intro k h hs
    obtain ⟨i1, i2⟩ := ih h.2.2.2.2 hs.2.2.2
    obtain ⟨j1, j2⟩ := ihk h.2.2.2.1 hs.2.2.1
    exact ⟨⟨h.1, h.2.1, h.2.2.1, j1, i1⟩, by simp only [Forest.strip, Forest.norm, i2, j2]⟩

theorem unchain_norm (fs : Option Features) : (unchain (some (fs.getD Features.empty))).getD Features.empty =
    (unchain fs).getD Features.empty := by
  cases fs <;> rfl

theorem restore_norm (d : Str) (f : Forest) : (f.norm.restore d).norm = (f.restore d).norm := by
  induction f with
  | nil => rfl
  | leaf e x r ih =>
    simp only [Forest.norm, restore, norm_append, ih]
    congr 1
    refine norm_wrap _ _ _ _ ?_
    simp only [Forest.norm, unchain_norm]
  | node e x k r ihk ih =>
    simp only [Forest.norm, restore, norm_append, ih]
    congr 1
    refine norm_wrap _ _ _ _ ?_
    simp only [Forest.norm, unchain_norm, ihk]

theorem Bare.coll {f : Forest} (h : f.Bare) : f.Coll ['_'] := by
  have hs : ∀ fs : Option Features, fs.getD Features.empty = Features.empty →
      (fs.getD Features.empty).Sorted ∧ ChainFree fs := by
    intro fs hfs
    unfold ChainFree
    rw [hfs]
    exact ⟨List.Pairwise.nil, rfl⟩
  induction f with
  | nil => trivial
  | leaf e x r ih => exact ⟨(hs _ h.2.2.1).1, (hs _ h.2.2.1).2, ih h.2.2.2⟩
  | node e x k r ihk ih =>
    obtain ⟨h1, h2, h3, h4, h5⟩ := h
    refine ⟨(hs _ h3).1, (hs _ h3).2, fun hw => ⟨?_, h3, h1, ?_⟩, ihk h4, ih h5⟩
    · intro c hc; simp only [List.mem_singleton] at hc; subst hc; exact h2.2 _ (by simp)
    · rcases width_one hw with ⟨e', y, rfl⟩ | ⟨e', y, k', rfl⟩
      · exact h4.1
      · exact h4.1

theorem Tagged.all {f : Forest} (h : f.Tagged) : f.All (fun nd => ChainTag nd.features ∧ ∀ x, nd = .nt x → TagLabel x.label) := by
  induction f with
  | nil => trivial
  | leaf e x r ih => exact ⟨⟨h.2.2.1, by rintro y ⟨⟩⟩, ih h.2.2.2⟩
  | node e x k r ihk ih =>
    exact ⟨⟨h.2.2.1, by rintro y hy; cases hy; exact h.2.1⟩, ihk h.2.2.2.1, ih h.2.2.2.2⟩

end Forest

namespace Decoding

theorem chained_twice (c : Option Str) (x : Terminal) :
    chained c (chained c (Forest.bare x)) = chained c (Forest.bare x) := by
  cases c with
  | none => rfl
  | some c => simp [chained, Forest.bare, Terminal.new, Features.empty, Features.insert, Features.insertEntry]

theorem run_bare : ∀ (e : AbsEncoding) (ts : List Terminal) (Z : Stack), e.map (·.2) = ts.map Terminal.chain →
    run (e.zip (ts.map fun x => chained x.chain (Forest.bare x))) Z = run (e.zip (ts.map Forest.bare)) Z := by
  intro e
  induction e with
  | nil => intros; rfl
  | cons p e ih =>
    intro ts Z h
    obtain ⟨a, c⟩ := p
    cases ts with
    | nil => simp at h
    | cons x ts =>
      simp only [List.map_cons, List.cons.injEq] at h
      simp only [List.map_cons, List.zip_cons_cons, run]
      rw [h.1, chained_twice, ih _ _ h.2]

theorem forest_bare {e : AbsEncoding} {ts : List Terminal} (h : e.map (·.2) = ts.map Terminal.chain) :
    forest e (ts.map fun x => chained x.chain (Forest.bare x)) = forest e (ts.map Forest.bare) := by
  have hrun := run_bare e ts [(fresh, .nil)] h
  match e, ts with
  | [], [] => rfl
  | [], _ :: _ => simp at h
  | _ :: _, [] => simp at h
  | [(none, c)], [x] =>
    simp only [List.map_cons, List.map_nil, List.cons.injEq, and_true] at h
    simp only [List.map_cons, List.map_nil, forest]
    rw [h, chained_twice]
  | [(some a, c)], [x] =>
    simp only [List.map_cons, List.map_nil] at hrun
    simp only [forest, List.map_cons, List.map_nil]
    rw [hrun]
  | [_], _ :: _ :: _ => simp at h
  | _ :: _ :: _, [_] => simp at h
  | p :: q :: e, x :: y :: ts =>
    simp only [List.map_cons] at hrun
    simp only [forest, List.map_cons]
    rw [hrun]

end Decoding

theorem Forest.encoding_chains {f : Forest} : ∀ {d : Nat} {lab : Str} {last : Option AbsAncestor},
    (f.encoding d lab last).map (·.2) = f.leaves.map Terminal.chain := by
  induction f with
  | nil => intros; rfl
  | leaf e x r ih => intros; simp [encoding, leaves, ih]
  | node e x k r ihk ih => intros; simp [encoding, leaves, ih, ihk]

end Lumberjack
