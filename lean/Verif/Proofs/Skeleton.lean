import Verif.Proofs.ConllxTrip
import Verif.Spec.Skeleton

/-!
# The skeleton of a tree survives in tags
-/

namespace Lumberjack

open Conllx Lumberjack.Tree

namespace Forest

/-- Of the features only the chain. -/
def chainOnly (fs : Option Features) : Option Features :=
  match (fs.getD Features.empty).getVal chainKey with
  | none => none
  | some v => some ⟨[(chainKey, v)]⟩

/-- The skeleton with the chains. -/
def essence : Forest → Forest
  | nil => nil
  | leaf _ x r => leaf none { x with lem := none, features := chainOnly x.features } r.essence
  | node _ x k r => node none { x with features := chainOnly x.features } k.essence r.essence

theorem chainOnly_val (fs : Option Features) : ((chainOnly fs).getD Features.empty).getVal chainKey =
    (fs.getD Features.empty).getVal chainKey := by
  unfold chainOnly
  cases h : (fs.getD Features.empty).getVal chainKey with
  | none => rfl
  | some v => simp [Features.getVal, Features.lookupEntry]

theorem chainOnly_entries (fs : Option Features) : chainOnly fs = none ∨ ∃ v, chainOnly fs = some ⟨[(chainKey, v)]⟩ := by
  unfold chainOnly
  split
  · exact .inl rfl
  · exact .inr ⟨_, rfl⟩

theorem chainOnly_add (d l : Str) (fs : Option Features) :
    chainOnly (addChain d l fs) = addChain d l (chainOnly fs) := by
  have h1 : ∀ v, ((chainOnly fs).getD Features.empty).insert chainKey v = (⟨[(chainKey, v)]⟩,
      (((chainOnly fs).getD Features.empty).insert chainKey v).2) := by
    intro v
    rcases chainOnly_entries fs with h | ⟨w, h⟩ <;> rw [h] <;>
      simp [Features.insert, Features.insertEntry, Features.empty]
  unfold addChain
  rw [chainOnly_val, h1]
  unfold chainOnly
  simp only [Option.getD_some, Features.getVal, Features.insert, Features.lookup_insert, if_true]

theorem essence_nil {f : Forest} : f.essence = nil ↔ f = nil := by cases f <;> simp [essence]

theorem essence_collapse (d : Str) (f : Forest) : (f.collapse d).essence = f.essence.collapse d := by
  induction f with
  | nil => rfl
  | leaf e x r ih => simp only [collapse, essence, ih]
  | node e x k r ihk ih =>
    rw [essence, collapse, collapse, ← ihk]
    cases hk : k.collapse d with
    | nil => simp only [essence, ih]
    | leaf e' y r' =>
      cases r' <;> simp only [essence, ih, chainOnly_add]
    | node e' y k' r' =>
      cases r' <;> simp only [essence, ih, chainOnly_add]

theorem essence_skeleton {f : Forest} (h : f.AllFeats ChainFree) : f.essence = f.skeleton := by
  have key : ∀ fs : Option Features, ChainFree fs → chainOnly fs = none := by
    intro fs h; unfold chainOnly; rw [h]
  induction f with
  | nil => rfl
  | leaf e x r ih =>
    have h1 : ChainFree x.features := h.1
    simp only [essence, skeleton, ih h.2, key _ h1]
  | node e x k r ihk ih =>
    have h1 : ChainFree x.features := h.1
    simp only [essence, skeleton, ih h.2.2, ihk h.2.1, key _ h1]

theorem essence_encoding {f : Forest} : ∀ {d : Nat} {lab : Str} {last : Option AbsAncestor},
    f.essence.encoding d lab last = f.encoding d lab last := by
  have h1 : ∀ x : Terminal, Terminal.chain { x with lem := none, features := chainOnly x.features } = x.chain := by
    intro x; unfold Terminal.chain; simp only [chainOnly_val]
  have h2 : ∀ x : NonTerminal, NonTerminal.fullLabel { x with features := chainOnly x.features } = x.fullLabel := by
    intro x; unfold NonTerminal.fullLabel; simp only [chainOnly_val]
  induction f with
  | nil => intros; rfl
  | leaf e x r ih => intros; simp only [essence, encoding, h1, essence_nil, ih]
  | node e x k r ihk ih => intros; simp only [essence, encoding, h2, essence_nil, ih, ihk]

theorem essence_leaves {f : Forest} : f.essence.leaves.map bare = f.leaves.map bare := by
  induction f with
  | nil => rfl
  | leaf e x r ih => simp only [essence, leaves, List.map_cons, ih]; rfl
  | node e x k r ihk ih => simp only [essence, leaves, List.map_append, ih, ihk]

theorem essence_length {f : Forest} : f.essence.leaves.length = f.leaves.length := by
  rw [← List.length_map (f := bare), essence_leaves, List.length_map]

theorem essence_width {f : Forest} : f.essence.width = f.width := by
  induction f with
  | nil => rfl
  | leaf e x r ih => simp only [essence, width, ih]
  | node e x k r ihk ih => simp only [essence, width, ih]

theorem NoUnary.essence {f : Forest} (h : f.NoUnary) : f.essence.NoUnary := by
  induction f with
  | nil => trivial
  | leaf e x r ih => exact ih h
  | node e x k r ihk ih => exact ⟨by rw [essence_width]; exact h.1, ihk h.2.1, ih h.2.2⟩

theorem Seq.essence {f : Forest} : ∀ {k : Nat}, f.Seq k → f.essence.Seq k := by
  induction f with
  | nil => intro k _; trivial
  | leaf e x r ih => intro k h; exact ⟨h.1, ih h.2⟩
  | node e x ks r ihk ih =>
    intro k h
    exact ⟨fun hc => h.1 (essence_nil.1 hc), by rw [essence_length]; exact h.2.1, ihk h.2.2.1,
      by rw [essence_length]; exact ih h.2.2.2⟩

theorem All.essence {P : Span → Prop} {f : Forest} (h : f.All (fun nd => P nd.span)) :
    f.essence.All (fun nd => P nd.span) := by
  induction f with
  | nil => trivial
  | leaf e x r ih => exact ⟨h.1, ih h.2⟩
  | node e x k r ihk ih => exact ⟨h.1, ihk h.2.1, ih h.2.2⟩

theorem essence_cov {f : Forest} : f.essence.cov = f.cov := by
  induction f with
  | nil => rfl
  | leaf e x r ih => simp only [essence, cov, ih]
  | node e x k r ihk ih => simp only [essence, cov, ih, ihk]

theorem Good.essence {f : Forest} (h : f.Good) : f.essence.Good := by
  induction f with
  | nil => trivial
  | leaf e x r ih => exact ⟨h.1, by rw [essence_cov]; exact h.2.1, ih h.2.2⟩
  | node e x k r ihk ih =>
    obtain ⟨h1, h2, h3, h4, h5, h6⟩ := h
    exact ⟨fun hc => h1 (essence_nil.1 hc), h2, by rw [essence_cov]; exact h3,
      by rw [essence_cov, essence_cov]; exact h4, ihk h5, ih h6⟩

theorem essence_tagged {f : Forest} (h : f.essence.Tagged) :
    f.All (fun nd => ChainTag (chainOnly nd.features) ∧ ∀ x, nd = .nt x → TagLabel x.label) := by
  induction f with
  | nil => trivial
  | leaf e x r ih => exact ⟨⟨h.2.2.1, by rintro y ⟨⟩⟩, ih h.2.2.2⟩
  | node e x k r ihk ih =>
    exact ⟨⟨h.2.2.1, by rintro y hy; cases hy; exact h.2.1⟩, ihk h.2.2.2.1, ih h.2.2.2.2⟩

theorem skeleton_bare {f : Forest} (h : f.All (fun nd => ∀ x, nd = .nt x → TagLabel x.label)) : f.skeleton.Bare := by
  induction f with
  | nil => trivial
  | leaf e x r ih => exact ⟨rfl, rfl, rfl, ih h.2⟩
  | node e x k r ihk ih => exact ⟨rfl, h.1 x rfl, rfl, ihk h.2.1, ih h.2.2⟩

/-! ## Features of words -/

/-- Sorted and quiet. -/
def Silent (key : Str) (fs : Option Features) : Prop :=
  (fs.getD Features.empty).Sorted ∧ (fs.getD Features.empty).Quiet key

theorem Silent.add {key : Str} {fs : Option Features} (h : Silent key fs) (hk : key < chainKey)
    (hc : ChainTag (chainOnly fs)) {l : Str} (hl : TagLabel l) : Silent key (addChain ['_'] l fs) := by
  have hne : chainKey ≠ key := (ne_of_lt hk).symm
  have hct := hc.add hl
  rw [← chainOnly_add] at hct
  refine ⟨Features.insert_sorted h.1, fun e he hek piece hp => ?_⟩
  rcases Features.mem_insertEntry he with rfl | he'
  · set v := (match (fs.getD Features.empty).getVal chainKey with
      | some (some chain) => chain ++ ['_'] ++ l
      | _ => l) with hv
    have hval : ChainStr v := by
      have h0 : chainOnly (addChain ['_'] l fs) = some ⟨[(chainKey, some v)]⟩ := by
        unfold chainOnly addChain
        simp only [Option.getD_some, Features.getVal, Features.insert, Features.lookup_insert, if_true]
        rfl
      rw [h0] at hct
      rcases hct with hct | ⟨c, h1, h2⟩
      · cases hct
      · simp only [Option.getD_some, Features.mk.injEq, List.cons.injEq, Prod.mk.injEq, Option.some.injEq] at h2
        rw [h2.1.2]; exact h1
    have hbar : '|' ∉ Features.printOne (chainKey, some v) := by
      simp only [Features.printOne, List.mem_append, List.mem_singleton, not_or]
      exact ⟨⟨by decide, by decide⟩, hval.2 _ (by simp)⟩
    change piece ∈ splitOn '|' (Features.printOne (chainKey, some v)) at hp
    rw [splitOn_of_not_mem hbar, List.mem_singleton] at hp
    subst hp
    rw [Features.parseOne_printOne (e := (chainKey, some v)) (show ':' ∉ chainKey by decide)
      (by rintro w hw; injection hw with hw; subst hw; exact hval.2 _ (by simp))]
    exact hne
  · exact h.2 e he' hek piece hp

theorem Silent.collapse {key : Str} (hk : key < chainKey) {f : Forest} (h : f.essence.Bare)
    (hq : ∀ x ∈ f.leaves, Silent key x.features) : ∀ x ∈ (f.collapse ['_']).leaves, Silent key x.features := by
  induction f with
  | nil => intro x hx; simp [Forest.collapse, leaves] at hx
  | leaf e y r ih =>
    intro x hx
    rcases List.mem_cons.1 hx with rfl | hx
    · exact hq _ (by simp [leaves])
    · exact ih h.2.2.2 (fun z hz => hq z (by simp [leaves, hz])) x hx
  | node e y k r ihk ih =>
    obtain ⟨h1, h2, h3, h4, h5⟩ := h
    have hk' := ihk h4 (fun z hz => hq z (by simp [leaves, hz]))
    have hr' := ih h5 (fun z hz => hq z (by simp [leaves, hz]))
    have ht : (k.collapse ['_']).essence.Tagged := by rw [essence_collapse]; exact h4.tagged
    intro x hx
    rw [Forest.collapse] at hx
    split at hx
    · rename_i e' z hz
      rw [hz] at hk' ht
      rcases List.mem_cons.1 hx with rfl | hx
      · exact (hk' z (by simp [leaves])).add hk ht.2.2.1 h2
      · exact hr' x hx
    · rename_i e' z k' hz
      rw [hz] at hk'
      rcases List.mem_append.1 hx with hx | hx
      · exact hk' x (by simp [leaves, hx])
      · exact hr' x hx
    · rcases List.mem_append.1 hx with hx | hx
      · exact hk' x hx
      · exact hr' x hx

end Forest

theorem splitOn_pieces {c : Char} : ∀ (p s : Str), splitOn c (p ++ c :: s) = splitOn c p ++ splitOn c s := by
  intro p s
  induction p with
  | nil => simp [splitOn]
  | cons x xs ih =>
    rw [List.cons_append, splitOn, splitOn, ih]
    split
    · rfl
    · cases h : splitOn c xs with
      | nil => exact absurd h (splitOn_ne_nil c xs)
      | cons q qs => rfl

theorem splitOn_joined {c : Char} {ps : List Str} (h : ps ≠ []) : splitOn c (join [c] ps) = ps.flatMap (splitOn c) := by
  induction ps with
  | nil => exact absurd rfl h
  | cons p ps ih =>
    cases ps with
    | nil => simp [join]
    | cons q qs =>
      simp only [join]
      rw [List.append_assoc, List.singleton_append, splitOn_pieces, ih (by simp)]
      rfl

theorem foldl_last {key : Str} {v : Option Str} : ∀ (l : List (Str × Option Str)) (acc : Option (Option Str)),
    (∀ e ∈ l, e.1 = key → e.2 = v) → (acc = some v ∨ ∃ e ∈ l, e.1 = key) →
    l.foldl (fun acc kv => if kv.1 = key then some kv.2 else acc) acc = some v := by
  intro l
  induction l with
  | nil => rintro acc _ (h | ⟨e, he, _⟩); exact h; simp at he
  | cons e l ih =>
    intro acc h hx
    rw [List.foldl_cons]
    refine ih _ (fun e' he' => h e' (by simp [he'])) ?_
    by_cases hk : e.1 = key
    · left; rw [if_pos hk, h e (by simp) hk]
    · rw [if_neg hk]
      rcases hx with hx | ⟨e', he', hk'⟩
      · exact .inl hx
      · rcases List.mem_cons.1 he' with rfl | he'
        · exact absurd hk' hk
        · exact .inr ⟨e', he', hk'⟩

theorem mem_insertEntry_self (k : Str) (v : Option Str) (l : List (Str × Option Str)) :
    (k, v) ∈ Features.insertEntry k v l := by
  induction l with
  | nil => simp [Features.insertEntry]
  | cons e l ih =>
    simp only [Features.insertEntry]
    split
    · simp
    · split
      · simp
      · simp [ih]

theorem featLookup_silent {key : Str} {fs : Option Features} {v : Str} (hf : Forest.Silent key fs)
    (hk1 : '|' ∉ key) (hk2 : ':' ∉ key) (hv1 : '|' ∉ v) (hv2 : ':' ∉ v) :
    featLookup key ((fs.getD Features.empty).insert key (some v)).1.toStr = some (some v) := by
  have hp : '|' ∉ Features.printOne (key, some v) := by
    simp only [Features.printOne, List.mem_append, List.mem_singleton, not_or]
    exact ⟨⟨hk1, by decide⟩, hv1⟩
  have hp2 := Features.parseOne_printOne (e := (key, some v)) hk2 (by rintro w hw; injection hw with hw; subst hw; exact hv2)
  have hself := mem_insertEntry_self key (some v) (fs.getD Features.empty).entries
  have hs := Features.insert_sorted (k := key) (v := some v) hf.1
  have huniq : ∀ e ∈ Features.insertEntry key (some v) (fs.getD Features.empty).entries, e.1 = key → e = (key, some v) := by
    intro e he hek
    exact List.Pairwise.forall_of_forall_of_flip
      (R := fun a b : Str × Option Str => a.1 = b.1 → a = b) (fun _ _ _ => rfl)
      (hs.imp fun hlt heq => absurd heq (ne_of_lt hlt))
      (hs.imp fun hlt heq => absurd heq.symm (ne_of_lt hlt)) he hself hek
  unfold featLookup
  rw [show ((fs.getD Features.empty).insert key (some v)).1.toStr = join ['|']
    ((Features.insertEntry key (some v) (fs.getD Features.empty).entries).map Features.printOne) from rfl]
  rw [splitOn_joined (by intro hc; rw [List.map_eq_nil_iff] at hc; rw [hc] at hself; simp at hself)]
  refine foldl_last _ _ (fun kv hkv hkey => ?_) (.inr ⟨(key, some v), ?_, rfl⟩)
  · obtain ⟨piece, h1, rfl⟩ := List.mem_map.1 hkv
    obtain ⟨q, h2, h3⟩ := List.mem_flatMap.1 h1
    obtain ⟨e, h4, rfl⟩ := List.mem_map.1 h2
    by_cases hek : e.1 = key
    · have := huniq e h4 hek
      subst this
      rw [splitOn_of_not_mem hp, List.mem_singleton] at h3
      subst h3
      rw [hp2]
    · rcases Features.mem_insertEntry h4 with rfl | h5
      · exact absurd rfl hek
      · exact absurd hkey (hf.2 e h5 hek piece h3)
  · refine List.mem_map.2 ⟨Features.printOne (key, some v), ?_, hp2⟩
    exact List.mem_flatMap.2 ⟨_, List.mem_map.2 ⟨_, hself, rfl⟩, by rw [splitOn_of_not_mem hp]; simp⟩

theorem Forest.all_leaves {P : Terminal → Prop} {f : Forest} (h : f.All (fun nd => ∀ x, nd = .term x → P x)) :
    ∀ x ∈ f.leaves, P x := by
  induction f with
  | nil => intro x hx; simp [Forest.leaves] at hx
  | leaf e y r ih =>
    intro x hx
    rcases List.mem_cons.1 hx with rfl | hx
    · exact h.1 _ rfl
    · exact ih h.2 x hx
  | node e y k r ihk ih =>
    intro x hx
    rcases List.mem_append.1 hx with hx | hx
    · exact ihk h.2.1 x hx
    · exact ih h.2.2 x hx

variable {t : Tree}

theorem ancestorStr_silent {key : Str} {x : Terminal} {v : Str} (hf : Forest.Silent key x.features)
    (hk1 : '|' ∉ key) (hk2 : ':' ∉ key) (hv1 : '|' ∉ v) (hv2 : ':' ∉ v) :
    ancestorStr key (tokenOf (withFeature key v x)) = .ok v := by
  unfold ancestorStr
  have : (tokenOf (withFeature key v x)).features.bind (featLookup key) = some (some v) := by
    simp only [tokenOf, withFeature, Option.map_some, Option.bind_some]
    exact featLookup_silent hf hk1 hk2 hv1 hv2
  rw [this]

theorem entries_silent {α : Type} {key : Str} {parse : Str → Except Err α} {text : Option α × Option Str → Str}
    (hk1 : '|' ∉ key) (hk2 : ':' ∉ key) {F : Forest} (hs : F.Seq 0) (hq : ∀ x ∈ F.leaves, Forest.Silent key x.features)
    {E : List (Option α × Option Str)} (hl : E.length = F.leaves.length) (dflt : Option α × Option Str)
    (hE : ∀ e ∈ E, splitAncestor parse (text e) = .ok e ∧ '|' ∉ text e ∧ ':' ∉ text e) :
    List.Forall₂ (fun x e => ancestorStr key (tokenOf (withFeature key (text (E[x.span.start]?.getD dflt)) x)) =
        .ok (text (E[x.span.start]?.getD dflt)) ∧ splitAncestor parse (text (E[x.span.start]?.getD dflt)) = .ok e)
      F.leaves E := by
  rw [List.forall₂_iff_get]
  refine ⟨hl.symm, fun i h1 h2 => ?_⟩
  have hsp := hs.leaf_span (List.getElem?_eq_getElem h1)
  have e1 : (F.leaves.get ⟨i, h1⟩).span.start = i := by
    simp only [List.get_eq_getElem, hsp, Span.ofIdx, Nat.zero_add]
  have e2 : E[(F.leaves.get ⟨i, h1⟩).span.start]?.getD dflt = E.get ⟨i, h2⟩ := by
    rw [e1, List.getElem?_eq_getElem h2]; rfl
  simp only [e2]
  obtain ⟨q1, q2, q3⟩ := hE _ (List.get_mem E ⟨i, h2⟩)
  exact ⟨ancestorStr_silent (hq _ (List.get_mem _ _)) hk1 hk2 q2 q3, q1⟩

theorem height_collapse {d : Str} {f : Forest} : (f.collapse d).height ≤ f.height := by
  induction f with
  | nil => exact le_rfl
  | leaf e x r ih => exact ih
  | node e x k r ihk ih =>
    rw [Forest.collapse]
    split
    · simp only [Forest.height]; omega
    · rename_i e' y k' hy
      rw [hy] at ihk
      simp only [Forest.height] at ihk ⊢
      omega
    · simp only [Forest.height]; omega

/-- Collapsing a tree whose skeleton can be tagged. -/
theorem collapse_storable {key : Str} (hk : key < Forest.chainKey) (W : t.WF) (hp : t.isProjective = true)
    (H : t.Storable key) :
    ∃ t1 f, t.collapseUnaryChains ['_'] = .ok t1 ∧ t.Is f ∧ t1.WF ∧ t1.isProjective = true ∧
      t1.Is (f.collapse ['_']) ∧ (f.collapse ['_']).NoUnary ∧ (f.collapse ['_']).essence.Tagged ∧
      (f.collapse ['_']).height < 2 ^ 63 ∧ ((f.collapse ['_']).essence.restore ['_']).norm = f.skeleton.norm ∧
      (∀ x ∈ (f.collapse ['_']).leaves, Forest.Silent key x.features) ∧
      ∀ n x, t1.graph.node? n = some (.nt x) → ∃ m y, t.graph.node? m = some (.nt y) ∧ x.label = y.label := by
  obtain ⟨f, hf⟩ := W.is_exists
  obtain ⟨t1, h1, I, hno⟩ := collapseUnaryChains_spec W ['_'] hf
  obtain ⟨f1, hf1, hc⟩ := I.is
  have hnu : f1.NoUnary := Rep.noUnary hno hf1
  have hf1' : f1 = f.collapse ['_'] := by rw [← hc, hnu.collapse]
  subst hf1'
  have hb : f.skeleton.Bare := Forest.skeleton_bare (Rep.all hf fun n nd hn x hx => by subst hx; exact H.label n x hn)
  have he : f.essence = f.skeleton := Forest.essence_skeleton (Rep.allFeats hf fun n nd hn => H.free n nd hn)
  have hs : f.skeleton.Good := by
    have hg := (W.is_good hf).1
    rw [← he]
    exact hg.essence
  refine ⟨t1, f, h1, hf, I.wf, ?_, hf1, hnu, ?_, lt_of_le_of_lt height_collapse (H.height f hf), ?_, ?_, ?_⟩
  · refine (isProjective_iff I.wf.count).2 (no_disc ?_)
    intro n nd hn
    obtain ⟨nd0, g, k1, rfl⟩ := I.kept n nd hn
    rw [withFeats_span]; exact projective_skips W hp n nd0 k1
  · rw [Forest.essence_collapse, he]; exact hb.tagged
  · rw [Forest.essence_collapse, he]; exact (Forest.restore_collapse (by simp) hs hb.coll).1
  · refine Forest.Silent.collapse hk (by rw [he]; exact hb) ?_
    have hall : f.All (fun nd => ∀ x, nd = .term x → Forest.Silent key x.features) :=
      Rep.all hf fun n nd hn x hx => by subst hx; exact ⟨H.sorted n x hn, H.quiet n x hn⟩
    exact Forest.all_leaves hall
  · intro n x hn
    obtain ⟨nd0, g, k1, k2⟩ := I.kept n _ hn
    cases nd0 with
    | term y => simp [withFeats] at k2
    | nt y =>
      refine ⟨n, y, k1, ?_⟩
      simp only [withFeats, Node.nt.injEq] at k2
      rw [k2]

theorem rep_height (G : t.graph.OK) (S : t.Shape) {f : Forest} : ∀ {ids : List Nat} {d : Nat}, t.Rep ids f →
    (∀ n ∈ ids, t.depth n = d) → f.height = 0 ∨ d + f.height ≤ t.graph.nodes.length := by
  induction f with
  | nil => intro ids d _ _; exact .inl rfl
  | leaf e x r ih =>
    rintro ids d ⟨n, ns, rfl, h4, h5, h6⟩ hd
    exact ih h6 fun m hm => hd m (by simp [hm])
  | node e x k r ihk ih =>
    rintro ids d ⟨n, ns, ks, rfl, h4, h5, h6, h7, h8⟩ hd
    have hn := hd n (by simp)
    have hlt := depth_lt G S ⟨_, h4⟩
    have h1 := ihk (d := d + 1) h7 fun m hm => by rw [depth_child G S ((h6.1 m).1 hm), hn]
    have h2 := ih (d := d) h8 fun m hm => hd m (by simp [hm])
    simp only [Forest.height]
    omega

theorem height_le (W : t.WF) {f : Forest} (hf : t.Is f) : f.height ≤ t.graph.nodes.length := by
  rcases rep_height W.graph W.shape (d := t.depth t.root) hf (by simp) with h | h <;> omega

theorem height_eq_of_norm {f g : Forest} (h : f.norm = g.norm) : f.height = g.height := by
  have key : ∀ f : Forest, f.norm.height = f.height := by
    intro f
    induction f with
    | nil => rfl
    | leaf e x r ih => exact ih
    | node e x k r ihk ih => simp only [Forest.norm, Forest.height, ih, ihk]
  rw [← key f, h, key]

theorem height_skeleton {f : Forest} : f.skeleton.height = f.height := by
  induction f with
  | nil => rfl
  | leaf e x r ih => exact ih
  | node e x k r ihk ih => simp only [Forest.skeleton, Forest.height, ih, ihk]

theorem encoding_height {f : Forest} : ∀ {d : Nat} {lab : Str} {last : Option AbsAncestor} {b : Nat},
    (∀ a, last = some a → a.common ≤ b) → d + f.height ≤ b → ∀ p ∈ f.encoding d lab last, ∀ a, p.1 = some a → a.common ≤ b := by
  induction f with
  | nil => intro d lab last b _ _ p hp; simp [Forest.encoding] at hp
  | leaf e x r ih =>
    intro d lab last b h1 h2 p hp a ha
    simp only [Forest.height] at h2
    rcases List.mem_cons.1 hp with rfl | hp
    · simp only at ha
      split at ha
      · exact h1 a ha
      · cases ha; show d ≤ b; omega
    · exact ih h1 h2 p hp a ha
  | node e x k r ihk ih =>
    intro d lab last b h1 h2 p hp a ha
    simp only [Forest.height] at h2
    rcases List.mem_append.1 hp with hp | hp
    · refine ihk (b := b) (fun c hc => ?_) (by omega) p hp a ha
      split at hc
      · exact h1 c hc
      · cases hc; show d ≤ b; omega
    · exact ih h1 (by omega) p hp a ha

theorem Forest.width_zero {f : Forest} (h : f.width = 0) : f = .nil := by
  cases f <;> simp [Forest.width] at h ⊢

theorem encoding_label {P : Str → Prop} {f : Forest} : ∀ {d : Nat} {lab : Str} {last : Option AbsAncestor},
    (∀ a, last = some a → P a.label) → (f.width ≤ 1 ∨ P lab) → f.All (fun nd => ∀ x, nd = .nt x → P x.fullLabel) →
    ∀ p ∈ f.encoding d lab last, ∀ a, p.1 = some a → P a.label := by
  induction f with
  | nil => intro d lab last _ _ _ p hp; simp [Forest.encoding] at hp
  | leaf e x r ih =>
    intro d lab last h1 h2 hf p hp a ha
    rcases List.mem_cons.1 hp with rfl | hp
    · simp only at ha
      split at ha
      · exact h1 a ha
      · rename_i hr
        cases ha
        rcases h2 with h2 | h2
        · exact absurd (Forest.width_zero (by simp only [Forest.width] at h2; omega)) hr
        · exact h2
    · exact ih h1 (h2.imp (by simp only [Forest.width]; omega) id) hf.2 p hp a ha
  | node e x k r ihk ih =>
    intro d lab last h1 h2 hf p hp a ha
    rcases List.mem_append.1 hp with hp | hp
    · refine ihk (fun c hc => ?_) (.inr (hf.1 x rfl)) hf.2.1 p hp a ha
      split at hc
      · exact h1 c hc
      · rename_i hr
        cases hc
        rcases h2 with h2 | h2
        · exact absurd (Forest.width_zero (by simp only [Forest.width] at h2; omega)) hr
        · exact h2
    · exact ih h1 (h2.imp (by simp only [Forest.width]; omega) id) hf.2.2 p hp a ha

/-- The entries of the encoding of a collapsed tree can be stored in tags. -/
theorem entries_storable {F : Forest} (hw : F.width = 1) (hT : F.essence.Tagged) (hh : F.height < 2 ^ 63) :
    ∀ p ∈ F.encoding 0 [] none, EntryOk p ∧
      (F.All (fun nd => ∀ x, nd = .nt x → x.label ≠ noneMarker) → ∀ a, p.1 = some a → a.label ≠ noneMarker) := by
  have hall := Forest.essence_tagged hT
  have hchain : ∀ x ∈ F.leaves, ∀ c, x.chain = some c → Forest.ChainStr c := by
    refine Forest.all_leaves (Forest.all_imp ?_ hall)
    rintro nd h x rfl c hc
    refine chain_ok (x := { x with features := Forest.chainOnly x.features }) h.1 c ?_
    unfold Terminal.chain at hc ⊢
    simp only [Forest.chainOnly_val]
    exact hc
  have hfull : F.All (fun nd => ∀ y, nd = .nt y → Forest.ChainStr y.fullLabel ∧
      (y.label ≠ noneMarker → y.fullLabel ≠ noneMarker)) := by
    refine Forest.all_imp ?_ hall
    rintro nd h' y rfl
    have h := fullLabel_ok (y := { y with features := Forest.chainOnly y.features }) (h'.2 y rfl) h'.1
    have e : NonTerminal.fullLabel { y with features := Forest.chainOnly y.features } = y.fullLabel := by
      unfold NonTerminal.fullLabel; simp only [Forest.chainOnly_val]
    rw [e] at h
    exact h
  intro p hp
  refine ⟨⟨?_, ?_, ?_⟩, ?_⟩
  · exact encoding_label (P := Forest.ChainStr) (by simp) (.inl (by omega))
      (Forest.all_imp (fun nd h x hx => (h x hx).1) hfull) p hp
  · intro a ha
    have := encoding_height (b := F.height) (by simp) (by omega) p hp a ha
    omega
  · intro c hc
    have : p.2 ∈ F.leaves.map Terminal.chain := by
      rw [← Forest.encoding_chains (d := 0) (lab := []) (last := none)]
      exact List.mem_map_of_mem hp
    obtain ⟨x, hx, e⟩ := List.mem_map.1 this
    exact hchain x hx c (by rw [e, hc])
  · intro hN a ha
    refine encoding_label (P := fun l => l ≠ noneMarker) (by simp) (.inl (by omega)) ?_ p hp a ha
    have both : ∀ {P Q : Node → Prop} {f : Forest}, f.All P → f.All Q → f.All (fun nd => P nd ∧ Q nd) := by
      intro P Q f
      induction f with
      | nil => intros; trivial
      | leaf e x r ih => intro h g; exact ⟨⟨h.1, g.1⟩, ih h.2 g.2⟩
      | node e x k r ihk ih => intro h g; exact ⟨⟨h.1, g.1⟩, ihk h.2.1 g.2.1, ih h.2.2 g.2.2⟩
    exact Forest.all_imp (fun nd h x hx => (h.1 x hx).2 (h.2 x hx)) (both hfull hN)

theorem finish_skeleton (W : t.WF) (hp : t.isProjective = true) {F f : Forest} (hF : t.Is F) (hnu : F.NoUnary)
    (hT : F.essence.Tagged) (hr : (F.essence.restore ['_']).norm = f.skeleton.norm)
    (hskip : f.skeleton.All (fun nd => nd.span.skips = none)) :
    ∃ t' f', finishDecode (F.encoding 0 [] none) (F.leaves.map Forest.bare) = .ok (.ok t') ∧ t'.WF ∧
      t'.isProjective = true ∧ t'.Is f' ∧ f'.norm = f.skeleton.norm := by
  obtain ⟨hs, hn⟩ := W.is_seq hp hF
  have hw : F.width = 1 := by rw [Rep.width hF]; rfl
  obtain ⟨t', f', k1, k2, k3, _, k5, k6⟩ := finishDecode_spec hs.essence (by rw [Forest.essence_width]; exact hw) hnu.essence hT hr hskip
  rw [Forest.essence_encoding, Forest.essence_leaves] at k1
  exact ⟨t', f', k1, k2, k3, k5, k6⟩

theorem skeleton_skips (W : t.WF) (hp : t.isProjective = true) {f : Forest} (hf : t.Is f) :
    f.skeleton.All (fun nd => nd.span.skips = none) := by
  have h : f.All (fun nd => nd.span.skips = none) := Rep.all hf (projective_skips W hp)
  clear hf
  induction f with
  | nil => trivial
  | leaf e x r ih => exact ⟨h.1, ih h.2⟩
  | node e x k r ihk ih => exact ⟨h.1, ihk h.2.1, ih h.2.2⟩

/-- Tagging with absolute ancestors and reading the tags. -/
theorem absolute_skeleton (W : t.WF) (hp : t.isProjective = true) (H : t.Storable "abs_ancestor".toList) :
    ∃ t1 t2 toks t' f f', t.collapseUnaryChains ['_'] = .ok t1 ∧ t1.annotateAbsolute = .ok (t2, .ok ()) ∧
      toConllx t2 = .ok toks ∧ toks = (f.collapse ['_']).leaves.map (fun x => tokenOf (withFeature "abs_ancestor".toList
        (absText (((f.collapse ['_']).encoding 0 [] none)[x.span.start]?.getD (none, none))) x)) ∧
      tryFromAbsolute toks = .ok (.ok t') ∧ t'.WF ∧ t'.isProjective = true ∧
      t.Is f ∧ t'.Is f' ∧ f'.norm = f.skeleton.norm := by
  obtain ⟨t1, f, h1, hf, W1, hp1, hf1, hnu, hT, hlen, hr, hq, _⟩ := collapse_storable (by decide) W hp H
  obtain ⟨e, t2, a1, a2, a3, W2, a4⟩ := Props.C38_annotate_absolute t1 W1 hp1
  rw [encodeAbsolute_eq W1 hp1 hf1] at a1
  simp only [Res.ok.injEq, Except.ok.injEq] at a1
  subst a1
  obtain ⟨hs, hn⟩ := W1.is_seq hp1 hf1
  have hts := TermEdit.terminals a4 (fun _ => rfl) (terminals_leaves W1 hp1 hf1)
  have htok := toConllx_eq W2 hts
  rw [List.map_map] at htok
  have hread := readTokens_ok (k := 0) (P := fun x => tokenOf (withFeature "abs_ancestor".toList
      (absText (((f.collapse ['_']).encoding 0 [] none)[x.span.start]?.getD (none, none))) x))
    (fun _ => ⟨rfl, rfl⟩)
    (entries_silent (by decide) (by decide) hs hq Forest.length_encoding (none, none)
      (fun p hpm => (entries_storable (by rw [Rep.width hf1]; rfl) hT hlen p hpm).1.abs))
    (fun i x hx => by rw [hs.leaf_span hx]; rfl)
  obtain ⟨t', f', k1, k2, k3, k5, k6⟩ := finish_skeleton W1 hp1 hf1 hnu hT hr (skeleton_skips W hp hf)
  refine ⟨t1, t2, _, t', f, f', h1, a3, htok, rfl, ?_, k2, k3, hf, k5, k6⟩
  unfold tryFromAbsolute
  rw [← k1]
  simp only [Function.comp_def]
  rw [hread]

/-- Tagging with relative ancestors and reading the tags. -/
theorem relative_skeleton_read (W : t.WF) (hp : t.isProjective = true) (H : t.Storable "rel_ancestor".toList)
    (hN : ∀ n x, t.graph.node? n = some (.nt x) → x.label ≠ "NONE".toList) :
    ∃ t1 t2 toks t' f f', t.collapseUnaryChains ['_'] = .ok t1 ∧ t1.annotateRelative = .ok (t2, .ok ()) ∧
      toConllx t2 = .ok toks ∧ toks = (f.collapse ['_']).leaves.map (fun x => tokenOf (withFeature "rel_ancestor".toList
        (relText ((relFromAbs ((f.collapse ['_']).encoding 0 [] none))[x.span.start]?.getD (none, none))) x)) ∧
      Conllx.tryFromRelative toks = .ok (.ok t') ∧ t'.WF ∧ t'.isProjective = true ∧
      t.Is f ∧ t'.Is f' ∧ f'.norm = f.skeleton.norm ∧
      ∃ e tms, readTokens "rel_ancestor".toList RelAncestor.parse toks 0 = .ok (relFromAbs e, tms) ∧
        AbsPositive e ∧ ∀ x ∈ e, ∀ a, x.1 = some a → a.common < 2 ^ 63 := by
  obtain ⟨t1, f, h1, hf, W1, hp1, hf1, hnu, hT, hlen, hr, hq, hlab⟩ := collapse_storable (by decide) W hp H
  obtain ⟨e, t2, a1, a2, a3, W2, a4⟩ := Props.C38_annotate_relative t1 W1 hp1
  rw [Props.C36_encode_relative, encodeAbsolute_eq W1 hp1 hf1] at a1
  simp only [Res.ok_bind, Res.pure_eq, Except.map, Res.ok.injEq, Except.ok.injEq] at a1
  subst a1
  obtain ⟨hs, hn⟩ := W1.is_seq hp1 hf1
  have hw : (f.collapse ['_']).width = 1 := by rw [Rep.width hf1]; rfl
  have hts := TermEdit.terminals a4 (fun _ => rfl) (terminals_leaves W1 hp1 hf1)
  have htok := toConllx_eq W2 hts
  rw [List.map_map] at htok
  have hN1 : ∀ n x, t1.graph.node? n = some (.nt x) → x.label ≠ noneMarker := by
    intro n x hx
    obtain ⟨m, y, hy, he⟩ := hlab n x hx
    rw [he]; exact hN m y hy
  have hNF : (f.collapse ['_']).All (fun nd => ∀ x, nd = .nt x → x.label ≠ noneMarker) :=
    Rep.all hf1 fun n nd hn x hx => by subst hx; exact hN1 n x hn
  have hent := entries_storable (by rw [Rep.width hf1]; rfl) hT hlen
  have hread := readTokens_ok (k := 0) (P := fun x => tokenOf (withFeature "rel_ancestor".toList
      (relText ((relFromAbs ((f.collapse ['_']).encoding 0 [] none))[x.span.start]?.getD (none, none))) x))
    (fun _ => ⟨rfl, rfl⟩)
    (entries_silent (by decide) (by decide) hs hq
      (by rw [relFromAbs_length, Forest.length_encoding]) (none, none)
      (fun p hpm => (relEntries_ok _ 0 (by omega) (by omega) (fun q hq => ⟨(hent q hq).1, (hent q hq).2 hNF⟩) p hpm).rel))
    (fun i x hx => by rw [hs.leaf_span hx]; rfl)
  obtain ⟨t', f', k1, k2, k3, k5, k6⟩ := finish_skeleton W1 hp1 hf1 hnu hT hr (skeleton_skips W hp hf)
  refine ⟨t1, t2, _, t', f, f', h1, a3, htok, rfl, ?_, k2, k3, hf, k5, k6, _, _, hread, encoding_positive (.inr (by omega)) (by simp),
    fun q hq a ha => (hent q hq).1.count a ha⟩
  unfold Conllx.tryFromRelative
  rw [← k1]
  simp only [Function.comp_def]
  rw [hread]
  simp only
  rw [Props.C34_abs_rel_abs _ (encoding_positive (.inr (by omega)) (by simp))]
  rfl

theorem relative_skeleton (W : t.WF) (hp : t.isProjective = true) (H : t.Storable "rel_ancestor".toList)
    (hN : ∀ n x, t.graph.node? n = some (.nt x) → x.label ≠ "NONE".toList) :
    ∃ t1 t2 toks t' f f', t.collapseUnaryChains ['_'] = .ok t1 ∧ t1.annotateRelative = .ok (t2, .ok ()) ∧
      toConllx t2 = .ok toks ∧ toks = (f.collapse ['_']).leaves.map (fun x => tokenOf (withFeature "rel_ancestor".toList
        (relText ((relFromAbs ((f.collapse ['_']).encoding 0 [] none))[x.span.start]?.getD (none, none))) x)) ∧
      Conllx.tryFromRelative toks = .ok (.ok t') ∧ t'.WF ∧ t'.isProjective = true ∧
      t.Is f ∧ t'.Is f' ∧ f'.norm = f.skeleton.norm := by
  obtain ⟨t1, t2, toks, t', f, f', h1, h2, h3, h4, h5, h6, h7, h8, h9, h10, _⟩ := relative_skeleton_read W hp H hN
  exact ⟨t1, t2, toks, t', f, f', h1, h2, h3, h4, h5, h6, h7, h8, h9, h10⟩

end Lumberjack
