import Verif.Proofs.Skeleton
import Verif.Proofs.Stable
import Verif.Spec.TagFiles

/-!
# Files of tags
-/

namespace Lumberjack

open Conllx Lumberjack.Tree

namespace Forest

theorem chainOnly_congr {fs gs : Option Features} (h : fs.getD Features.empty = gs.getD Features.empty) :
    chainOnly fs = chainOnly gs := by
  unfold chainOnly; rw [h]

theorem essence_norm (f : Forest) : f.norm.essence = f.essence := by
  induction f with
  | nil => rfl
  | leaf e x r ih =>
    simp only [norm, essence, ih]
    rw [show chainOnly (some (x.features.getD Features.empty)) = chainOnly x.features from chainOnly_congr rfl]
  | node e x k r ihk ih =>
    simp only [norm, essence, ih, ihk]
    rw [show chainOnly (some (x.features.getD Features.empty)) = chainOnly x.features from chainOnly_congr rfl]

theorem essence_of_norm {f g : Forest} (h : f.norm = g.norm) : f.essence = g.essence := by
  rw [← essence_norm f, h, essence_norm]

theorem skeleton_essence (f : Forest) : f.skeleton.essence = f.skeleton := by
  have h : chainOnly none = none := rfl
  induction f with
  | nil => rfl
  | leaf e x r ih => simp only [skeleton, essence, ih, h]
  | node e x k r ihk ih => simp only [skeleton, essence, ih, ihk, h]

theorem brackets_essence (f : Forest) : f.essence.brackets .simple = f.brackets .simple := by
  induction f with
  | nil => rfl
  | leaf e x r ih => simp only [essence, brackets, ih, Bracketed.writeTag]
  | node e x k r ihk ih => simp only [essence, brackets, ih, ihk, Bracketed.writeTag]

/-- No lemma, and no feature but the chain. -/
def Slim (x : Terminal) : Prop :=
  x.lem = none ∧ (chainOnly x.features).getD Features.empty = x.features.getD Features.empty

theorem Slim.add {x : Terminal} (h : Slim x) (d l : Str) : Slim { x with features := addChain d l x.features } := by
  refine ⟨h.1, ?_⟩
  show (chainOnly (addChain d l x.features)).getD Features.empty = _
  rw [chainOnly_add]
  unfold addChain
  rw [h.2]

theorem lean_collapse {d : Str} {f : Forest} (h : ∀ x ∈ f.leaves, Slim x) : ∀ x ∈ (f.collapse d).leaves, Slim x := by
  induction f with
  | nil => exact h
  | leaf e y r ih =>
    intro x hx
    rcases List.mem_cons.1 hx with rfl | hx
    · exact h _ (by simp [leaves])
    · exact ih (fun z hz => h z (by simp [leaves, hz])) x hx
  | node e y k r ihk ih =>
    have hk' := ihk (fun z hz => h z (by simp [leaves, hz]))
    have hr' := ih (fun z hz => h z (by simp [leaves, hz]))
    intro x hx
    rw [collapse] at hx
    split at hx
    · rename_i e' z hz
      rw [hz] at hk'
      rcases List.mem_cons.1 hx with rfl | hx
      · exact (hk' z (by simp [leaves])).add _ _
      · exact hr' x hx
    · rename_i e' z k' hz
      rw [hz] at hk'
      rcases List.mem_append.1 hx with hx | hx
      · exact hk' x (by simp [leaves, hx])
      · exact hr' x hx
    · rcases List.mem_append.1 hx with hx | hx
      · exact hk' x hx
      · exact hr' x hx

theorem leaves_essence (f : Forest) :
    f.essence.leaves = f.leaves.map fun x => { x with lem := none, features := chainOnly x.features } := by
  induction f with
  | nil => rfl
  | leaf e x r ih => simp only [essence, leaves, List.map_cons, ih]
  | node e x k r ihk ih => simp only [essence, leaves, List.map_append, ih, ihk]

end Forest

namespace Convert

variable {t : Tree}

/-- The decoder. -/
def TagKind.decode : TagKind → List Token → Res (Except Err Tree)
  | .absolute => tryFromAbsolute
  | .relative => Conllx.tryFromRelative

/-- The tag of a word. -/
def TagKind.tag (k : TagKind) (F : Forest) (i : Nat) : Str :=
  match k with
  | .absolute => absText ((F.encoding 0 [] none)[i]?.getD (none, none))
  | .relative => relText ((relFromAbs (F.encoding 0 [] none))[i]?.getD (none, none))

/-- The sentence with the tags. -/
def TagKind.tokens (k : TagKind) (F : Forest) : List Token :=
  F.leaves.map fun x => tokenOf (withFeature k.feature (k.tag F x.span.start) x)

theorem tag_essence (k : TagKind) (F : Forest) (i : Nat) : k.tag F.essence i = k.tag F i := by
  cases k <;> simp only [TagKind.tag, Forest.essence_encoding]

theorem tokens_essence (k : TagKind) {F : Forest} (h : ∀ x ∈ F.leaves, Forest.Slim x) : k.tokens F.essence = k.tokens F := by
  unfold TagKind.tokens
  rw [Forest.leaves_essence, List.map_map]
  refine List.map_congr_left fun x hx => ?_
  obtain ⟨h1, h2⟩ := h x hx
  simp only [Function.comp, tokenOf, withFeature, tag_essence, h1, h2]

/-- Tagging a tree and reading the tags. -/
theorem tag_tree (k : TagKind) (W : t.WF) (hp : t.isProjective = true) (H : k.Holds t) :
    ∃ f f' t', t.Is f ∧ (∀ pick c, convertTree pick (plain k.output) none c t =
        .ok (.ok (.sentence (k.tokens (f.collapse ['_'])), c))) ∧ k.decode (k.tokens (f.collapse ['_'])) = .ok (.ok t') ∧
      t'.WF ∧ t'.isProjective = true ∧ t'.Is f' ∧ f'.norm = f.skeleton.norm := by
  have hproc : ∀ pick out, process pick (plain out) none t = stepEncode (plain out) (.ok t) := fun _ _ => rfl
  cases k with
  | absolute =>
    obtain ⟨t1, t2, toks, t', f, f', h1, h2, h3, h4, h5, h6, h7, h8, h9, h10⟩ := absolute_skeleton W hp H.storable
    subst h4
    refine ⟨f, f', t', h8, fun pick c => ?_, h5, h6, h7, h9, h10⟩
    unfold convertTree
    rw [hproc]
    simp [stepEncode, stepIf, plain, TagKind.output, h1, h2, orExit, write, h3]
    rfl
  | relative =>
    obtain ⟨t1, t2, toks, t', f, f', h1, h2, h3, h4, h5, h6, h7, h8, h9, h10⟩ :=
      relative_skeleton W hp H.storable (H.label rfl)
    subst h4
    refine ⟨f, f', t', h8, fun pick c => ?_, h5, h6, h7, h9, h10⟩
    unfold convertTree
    rw [hproc]
    simp [stepEncode, stepIf, plain, TagKind.output, h1, h2, orExit, write, h3]
    rfl

/-- What decoded nodes are like. -/
def Plainly (P : Str → Prop) (nd : Node) : Prop :=
  nd.features.getD Features.empty = Features.empty ∧ (∀ x, nd = .nt x → P x.label) ∧ ∀ x, nd = .term x → x.lem = none

theorem plainly_norm {P : Str → Prop} (f : Forest) : f.norm.All (Plainly P) ↔ f.All (Plainly P) := by
  have h1 : ∀ x : Terminal, Plainly P (.term { x with features := some (x.features.getD Features.empty) }) ↔ Plainly P (.term x) := by
    intro x
    simp [Plainly, Node.features]
  have h2 : ∀ x : NonTerminal, Plainly P (.nt { x with features := some (x.features.getD Features.empty) }) ↔ Plainly P (.nt x) := by
    intro x
    simp [Plainly, Node.features]
  induction f with
  | nil => exact Iff.rfl
  | leaf e x r ih => simp only [Forest.norm, Forest.All, h1, ih]
  | node e x k r ihk ih => simp only [Forest.norm, Forest.All, h2, ih, ihk]

theorem plainly_skeleton {P : Str → Prop} {f : Forest} (h : f.All (fun nd => ∀ x, nd = .nt x → P x.label)) :
    f.skeleton.All (Plainly P) := by
  induction f with
  | nil => trivial
  | leaf e x r ih => exact ⟨⟨rfl, by rintro y ⟨⟩, by rintro y hy; cases hy; rfl⟩, ih h.2⟩
  | node e x k r ihk ih => exact ⟨⟨rfl, by rintro y hy; cases hy; exact h.1 x rfl, by rintro y ⟨⟩⟩, ihk h.2.1, ih h.2.2⟩

theorem kept_nodes {P : Str → Prop} {t' : Tree} {f f' : Forest} (hf : t.Is f) (W' : t'.WF) (hf' : t'.Is f')
    (hn : f'.norm = f.skeleton.norm) (hP : ∀ n x, t.graph.node? n = some (.nt x) → P x.label) :
    ∀ n nd, t'.graph.node? n = some nd → Plainly P nd := by
  have h : f.skeleton.All (Plainly P) := plainly_skeleton (Rep.all hf fun n nd hn x hx => by subst hx; exact hP n x hn)
  rw [← plainly_norm, ← hn, plainly_norm] at h
  exact fun n nd hnd => hf'.all_conv W'.shape h hnd

theorem kept_storable {t' : Tree} {f f' : Forest} (hf : t.Is f) (W' : t'.WF) (hf' : t'.Is f')
    (hn : f'.norm = f.skeleton.norm) (hl : ∀ n x, t.graph.node? n = some (.nt x) → TagLabel x.label)
    (hh : f.height < 2 ^ 63) (key : Str) : t'.Storable key := by
  have h := kept_nodes hf W' hf' hn hl
  refine ⟨fun n nd hnd => ?_, fun n x hx => ?_, fun n x hx => ?_, fun n x hx => (h n _ hx).2.1 x rfl, fun g hg => ?_⟩
  · rw [(h n nd hnd).1]; rfl
  · rw [show x.features.getD Features.empty = _ from (h n _ hx).1]; exact List.Pairwise.nil
  · rw [show x.features.getD Features.empty = _ from (h n _ hx).1]; intro e he; simp [Features.empty] at he
  · rw [Rep.unique hg hf', height_eq_of_norm hn, height_skeleton]; exact hh

theorem bare_words {f : Forest} (hf : t.Is f) (h : BareWords t) : ∀ x ∈ f.leaves, Forest.Slim x := by
  refine Forest.all_leaves (Rep.all hf fun n nd hn x hx => ?_)
  subst hx
  obtain ⟨h1, h2⟩ := h n x hn
  refine ⟨h1, ?_⟩
  rw [Forest.chainOnly_congr (gs := none) h2, h2]; rfl

/-- The tags of a tree that was read from tags. -/
theorem retag (k : TagKind) {t' : Tree} {f f' : Forest} (hf : t.Is f) (hf' : t'.Is f')
    (hn : f'.norm = f.skeleton.norm) (hfree : f.AllFeats Forest.ChainFree) (hb : BareWords t) (hb' : BareWords t') :
    k.tokens (f'.collapse ['_']) = k.tokens (f.collapse ['_']) := by
  rw [← tokens_essence k (Forest.lean_collapse (bare_words hf hb)),
    ← tokens_essence k (Forest.lean_collapse (bare_words hf' hb')), Forest.essence_collapse, Forest.essence_collapse,
    Forest.essence_of_norm hn, Forest.skeleton_essence, Forest.essence_skeleton hfree]

/-! ## Runs of the tool -/

theorem decode_stream (k : TagKind) (m : Bool) (lines : List Str) {ss : List (List Token)} {ts : List Tree}
    (h : List.Forall₂ (fun s t => k.decode s = .ok (.ok t)) ss ts) :
    Stream k.input m ⟨lines, ss.map some⟩ (ts.map .ok) true := by
  refine sentences_stream k.input k.decode m (by cases k <;> exact fun _ => rfl) lines ?_
  rw [List.forall₂_map_left_iff, List.forall₂_map_right_iff]
  exact h

/-- A run on trees that are written one by one, whatever the counter. -/
theorem main_write {f : InFormat} {m : Bool} {pick : Tree → Finset Nat → Option Nat} {o : Options} {src : Source}
    {ts : List Tree} {ws : List Written} (hs : Stream f m src (ts.map .ok) true)
    (h : List.Forall₂ (fun t w => convertTree pick o none 0 t = .ok (.ok (w, 0))) ts ws) :
    main f m pick o src none = (ws, .finished) := by
  obtain ⟨items, b, h', hlen, _⟩ := stream_exists f m src.size src (Nat.le_refl _)
  obtain ⟨rfl, rfl⟩ := hs.unique h'
  refine loop_write hs h ?_
  rw [List.length_map] at hlen
  unfold Source.size at hlen
  omega

/-- The converse. -/
theorem main_finished {f : InFormat} {m : Bool} {pick : Tree → Finset Nat → Option Nat} {o : Options} {src : Source}
    {ws : List Written} (hc : ∀ t c w c', convertTree pick o none c t = .ok (.ok (w, c')) → c' = c)
    (hm : main f m pick o src none = (ws, .finished)) : ∃ ts, Stream f m src (ts.map .ok) true ∧
      List.Forall₂ (fun t w => convertTree pick o none 0 t = .ok (.ok (w, 0))) ts ws := by
  obtain ⟨ts, h1, _, h3⟩ := loop_finished hm fun t c w c' hw _ => hc t c w c' hw
  exact ⟨ts, h1, h3⟩

theorem convert_simple (pick : Tree → Finset Nat → Option Nat) (c : Nat) (t : Tree) :
    convertTree pick (plain .simple) none c t = write .simple c t := convert_plain (by simp) (by simp) pick c t

theorem write_simple_counter {c c' : Nat} {w : Written} (h : write .simple c t = .ok (.ok (w, c'))) :
    c' = c ∧ t.isProjective = true := by
  have : write .simple c t = (do
    let r ← writePtb .simple t
    match r with
    | .ok s => return .ok (.text s, c)
    | .error e => return .error e) := rfl
  rw [this] at h
  obtain ⟨r, h1, h2⟩ := Res.bind_eq_ok.1 h
  cases r with
  | error e => cases h2
  | ok s =>
    cases h2
    refine ⟨rfl, ?_⟩
    by_contra hp
    unfold writePtb at h1
    rw [Ptb.treeToString_err hp .simple] at h1
    cases h1

/-- What is written in the simple format only depends on the skeleton. -/
theorem write_skeleton {t' : Tree} {f f' : Forest} (W : t.WF) (hp : t.isProjective = true) (hf : t.Is f)
    (W' : t'.WF) (hp' : t'.isProjective = true) (hf' : t'.Is f') (hn : f'.norm = f.skeleton.norm)
    (hfree : f.AllFeats Forest.ChainFree) (c : Nat) : write .simple c t' = write .simple c t := by
  obtain ⟨s, h1, h2⟩ := Ptb.treeToString_ok W hp hf .simple
  obtain ⟨s', h1', h2'⟩ := Ptb.treeToString_ok W' hp' hf' .simple
  have : s' = s := by
    rw [← Forest.brackets_essence, Forest.essence_of_norm hn, Forest.skeleton_essence, ← Forest.essence_skeleton hfree,
      Forest.brackets_essence, h2] at h2'
    simpa using h2'.symm
  subst this
  exact (write_bracket .simple c h1').trans (write_bracket .simple c h1).symm

theorem via_tags (k : TagKind) {f : InFormat} {m m' : Bool} {pick pick' : Tree → Finset Nat → Option Nat} {src : Source}
    {lines : List Str} {items : List (Except Err Tree)} {b : Bool} (hs : Stream f m src items b)
    (hO : f = .negra → Orderly src.lines) (H : ∀ t, .ok t ∈ items → k.Holds t) {ws : List Written}
    (hm : main f m pick (plain .simple) src none = (ws, .finished)) :
    ∃ ss : List (List Token), main f m pick (plain k.output) src none = (ss.map .sentence, .finished) ∧
      main k.input m' pick' (plain .simple) ⟨lines, ss.map some⟩ none = (ws, .finished) := by
  obtain ⟨ts, h1, h3⟩ := main_finished (fun t c w c' hw => by
    rw [convert_simple] at hw; exact (write_simple_counter hw).1) hm
  obtain ⟨rfl, rfl⟩ := hs.unique h1
  obtain ⟨items', b', h', hlen, hR⟩ := stream_exists f m src.size src (Nat.le_refl _)
  obtain ⟨rfl, rfl⟩ := hs.unique h'
  have hW : ∀ t ∈ ts, t.WF ∧ k.Holds t := fun t ht => ⟨(hR hO t (List.mem_map_of_mem ht)).wf, H t (List.mem_map_of_mem ht)⟩
  have key : ∃ ss ts', List.Forall₂ (fun t s => convertTree pick (plain k.output) none 0 t = .ok (.ok (.sentence s, 0))) ts ss ∧
      List.Forall₂ (fun s t => k.decode s = .ok (.ok t)) ss ts' ∧
      List.Forall₂ (fun t w => convertTree pick' (plain .simple) none 0 t = .ok (.ok (w, 0))) ts' ws := by
    clear hm hs h1 h' hR H hlen
    induction h3 with
    | nil => exact ⟨[], [], .nil, .nil, .nil⟩
    | @cons t w ts ws hw _ ih =>
      obtain ⟨ss, ts', g1, g2, g3⟩ := ih fun u hu => hW u (by simp [hu])
      obtain ⟨W, Ht⟩ := hW t (by simp)
      rw [convert_simple] at hw
      have hp := (write_simple_counter hw).2
      obtain ⟨f, f', t', k1, k2, k3, k4, k5, k6, k7⟩ := tag_tree k W hp Ht
      refine ⟨_ :: ss, t' :: ts', .cons (k2 pick 0) g1, .cons k3 g2, .cons ?_ g3⟩
      rw [convert_simple, write_skeleton W hp k1 k4 k5 k6 k7 (Rep.allFeats k1 Ht.storable.free), hw]
  obtain ⟨ss, ts', g1, g2, g3⟩ := key
  refine ⟨ss, main_write hs ?_, main_write (decode_stream k m' lines g2) g3⟩
  rw [List.forall₂_map_right_iff]
  exact g1

theorem tags_to_tags (k k' : TagKind) {f : InFormat} {m m' : Bool} {pick pick' : Tree → Finset Nat → Option Nat}
    {src : Source} {lines : List Str} {ts : List Tree} (hs : Stream f m src (ts.map .ok) true)
    (hO : f = .negra → Orderly src.lines) (hp : ∀ t ∈ ts, t.isProjective = true)
    (H : ∀ t ∈ ts, k.Holds t ∧ k'.Holds t ∧ BareWords t) :
    ∃ ss ss' : List (List Token), main f m pick (plain k.output) src none = (ss.map .sentence, .finished) ∧
      main f m pick (plain k'.output) src none = (ss'.map .sentence, .finished) ∧
      main k.input m' pick' (plain k'.output) ⟨lines, ss.map some⟩ none = (ss'.map .sentence, .finished) := by
  obtain ⟨items', b', h', hlen, hR⟩ := stream_exists f m src.size src (Nat.le_refl _)
  obtain ⟨rfl, rfl⟩ := hs.unique h'
  have hW : ∀ t ∈ ts, t.WF := fun t ht => (hR hO t (List.mem_map_of_mem ht)).wf
  have key : ∃ ss ts' ss', List.Forall₂ (fun t s => convertTree pick (plain k.output) none 0 t = .ok (.ok (.sentence s, 0))) ts ss ∧
      List.Forall₂ (fun t s => convertTree pick (plain k'.output) none 0 t = .ok (.ok (.sentence s, 0))) ts ss' ∧
      List.Forall₂ (fun s t => k.decode s = .ok (.ok t)) ss ts' ∧
      List.Forall₂ (fun t s => convertTree pick' (plain k'.output) none 0 t = .ok (.ok (.sentence s, 0))) ts' ss' := by
    clear hs h' hR hlen
    induction ts with
    | nil => exact ⟨[], [], [], .nil, .nil, .nil, .nil⟩
    | cons t ts ih =>
      obtain ⟨ss, ts', ss', g1, g2, g3, g4⟩ := ih (fun u hu => hp u (by simp [hu])) (fun u hu => H u (by simp [hu]))
        fun u hu => hW u (by simp [hu])
      have W := hW t (by simp)
      have hpt := hp t (by simp)
      obtain ⟨H1, H2, hb⟩ := H t (by simp)
      obtain ⟨f, f', t', k1, k2, k3, k4, k5, k6, k7⟩ := tag_tree k W hpt H1
      obtain ⟨e, _, _, l1, l2, _⟩ := tag_tree k' W hpt H2
      obtain rfl := Rep.unique k1 l1
      have H3 : k'.Holds t' := ⟨kept_storable k1 k4 k6 k7 H1.storable.label (H1.storable.height f k1) _,
        fun hk n x hx => (kept_nodes (P := fun l => l ≠ "NONE".toList) k1 k4 k6 k7 (H2.label hk) n _ hx).2.1 x rfl⟩
      have hb' : BareWords t' := fun n x hx =>
        ⟨(kept_nodes (P := fun _ => True) k1 k4 k6 k7 (fun _ _ _ => trivial) n _ hx).2.2 x rfl,
          (kept_nodes (P := fun _ => True) k1 k4 k6 k7 (fun _ _ _ => trivial) n _ hx).1⟩
      obtain ⟨e, _, _, m1, m2, _⟩ := tag_tree k' k4 k5 H3
      obtain rfl := Rep.unique k6 m1
      have hr := retag k' k1 k6 k7 (Rep.allFeats k1 H1.storable.free) hb hb'
      refine ⟨_ :: ss, t' :: ts', _ :: ss', .cons (k2 pick 0) g1, .cons (l2 pick 0) g2, .cons k3 g3, .cons ?_ g4⟩
      rw [m2 pick' 0, hr]
  obtain ⟨ss, ts', ss', g1, g2, g3, g4⟩ := key
  refine ⟨ss, ss', main_write hs ?_, main_write hs ?_, main_write (decode_stream k m' lines g3) ?_⟩ <;>
    rw [List.forall₂_map_right_iff]
  · exact g1
  · exact g2
  · exact g4

end Convert
end Lumberjack
