import Verif.Proofs.Added
import Verif.Proofs.Phrases
import Verif.Proofs.Rest
import Verif.Props.RewriteGather

/-!
# The phrases of a converted tree (C92)
-/

namespace Lumberjack
namespace Props

open Lumberjack.Tree Lumberjack.Convert

/-- C92: the steps of the tool, in any combination, on one tree; the encoding comes after. -/
theorem C92_phrases (pick : Tree → Finset Nat → Option Nat) (hpick : IsOrder pick) (o : Options) (tags : Option (List Str))
    (t : Tree) (S : Suits o t) (htags : ∀ l, tags = some l → l.length = t.nTerminals) :
    ∃ t', process pick o (tags.map .ok) t = stepEncode o (.ok t') ∧ t'.WF ∧ PhrasesKept o tags t t' ∧ RestKept o tags t t' := by
  obtain ⟨t', k, g, _, e⟩ := process_spec hpick o tags S htags
  exact ⟨t', e, g.fit.wf, pipeline_phrases S.fit.wf k, pipeline_rest S.fit.wf k⟩

/-- C92: how often a phrase occurs. No label and features but those of inserted nodes occur more often than before; those
that are neither dummies to be removed nor filtered out occur no less often, unless words are moved to the root. -/
theorem C92_count (o : Options) (tags : Option (List Str)) (t t' : Tree) (W : t.WF) (W' : t'.WF) (h : PhrasesKept o tags t t')
    (F F' : Forest) (hF : t.Is F) (hF' : t'.Is F') (p : Str × Option Features) :
    (¬ Insertable o p → F'.phrases.count p ≤ F.phrases.count p) ∧
    (o.reattachLabel = none → Lasting o p → F.phrases.count p ≤ F'.phrases.count p) :=
  ⟨fun hp => h.count_le W W' hF hF' hp, fun ho hp => h.le_count W W' hF hF' ho hp⟩

/-- C92: a whole run. What is written at position `i` is the output for a tree with the phrases of the `i`-th tree read. -/
theorem C92_run (pick : Tree → Finset Nat → Option Nat) (hpick : IsOrder pick) (f : InFormat) (multiline : Bool)
    (o : Options) (src : Source) (pos : Option (List PosItem)) (items : List (Except Err Tree)) (b : Bool)
    (h : Stream f multiline src items b) (hO : f = .negra → Orderly src.lines)
    (hE : ∀ t, .ok t ∈ items → Enough o t) (i : Nat) (w : Written)
    (hw : (main f multiline pick o src pos).1[i]? = some w) :
    ∃ t t' tags c c', items[i]? = some (.ok t) ∧ TagsAt pos i tags ∧ PhrasesKept o tags t t' ∧ RestKept o tags t t' ∧
      Output o.out c t' w c' := by
  obtain ⟨t, t', tags, c, c', g1, g2, _, g4, g5, W, _⟩ :=
    (C57_written pick hpick f multiline o src pos items b h hO hE).2 i w hw
  exact ⟨t, t', tags, c, c', g1, g2, pipeline_phrases W g4, pipeline_rest W g4, g5⟩

/-- C92: at most one nonterminal is added per word, so the tree has at most the nodes it had and one more per word. -/
theorem C92_added (pick : Tree → Finset Nat → Option Nat) (hpick : IsOrder pick) (o : Options) (tags : Option (List Str))
    (t : Tree) (S : Suits o t) (htags : ∀ l, tags = some l → l.length = t.nTerminals) :
    ∃ t', process pick o (tags.map .ok) t = stepEncode o (.ok t') ∧ t'.nTerminals = t.nTerminals ∧
      t'.nonterminals.length ≤ t.nonterminals.length + t.nTerminals := by
  obtain ⟨t', k, g, _, e⟩ := process_spec hpick o tags S htags
  exact ⟨t', e, g.words.len, pipeline_nonterminals S k⟩

/-- C92: without `--remove_dummies`, `--filter`, `--reattach` and `--insert`, the phrases are the same. -/
theorem C92_same {o : Options} {tags : Option (List Str)} {t t' : Tree} (h : PhrasesKept o tags t t')
    (h1 : o.removeDummies = false) (h2 : o.filterSet = none) (h3 : o.reattachLabel = none) (h4 : o.insertionSet = none)
    (n : Nat) (l : Str) (fs : Option Features) : t'.Phrase n l fs ↔ t.Phrase n l fs := by
  constructor
  · intro k
    rcases h.invented n l fs k with k | ⟨k, _⟩
    · exact k
    · exact absurd h4 k
  · intro k
    refine h.kept n l fs k ?_ ?_ ?_
    · simp [h1]
    · simp [h2]
    · simp [h3]

/-- C92: how often a phrase occurs, for a whole run. -/
theorem C92_run_count (pick : Tree → Finset Nat → Option Nat) (hpick : IsOrder pick) (f : InFormat) (multiline : Bool)
    (o : Options) (src : Source) (pos : Option (List PosItem)) (items : List (Except Err Tree)) (b : Bool)
    (h : Stream f multiline src items b) (hO : f = .negra → Orderly src.lines)
    (hE : ∀ t, .ok t ∈ items → Enough o t) (i : Nat) (w : Written)
    (hw : (main f multiline pick o src pos).1[i]? = some w) :
    ∃ t t' F F' c c', items[i]? = some (.ok t) ∧ t.Is F ∧ t'.Is F' ∧ Output o.out c t' w c' ∧
      ∀ p, (¬ Insertable o p → F'.phrases.count p ≤ F.phrases.count p) ∧
        (o.reattachLabel = none → Lasting o p → F.phrases.count p ≤ F'.phrases.count p) := by
  obtain ⟨t, t', tags, c, c', g1, _, _, g4, g5, W, W', _⟩ :=
    (C57_written pick hpick f multiline o src pos items b h hO hE).2 i w hw
  obtain ⟨F, hF⟩ := W.is_exists
  obtain ⟨F', hF'⟩ := W'.is_exists
  exact ⟨t, t', F, F', c, c', g1, hF, hF', g5,
    C92_count o tags t t' W W' (pipeline_phrases W g4) F F' hF hF'⟩

/-! ## Cases -/

/-- All steps that touch phrases, on a tree with gaps. -/
def phraseOptions : Options :=
  { rewriteOptions with reattachLabel := some ['$'] }

example : ∃ t', process minPick phraseOptions none Examples.nested = stepEncode phraseOptions (.ok t') ∧ t'.WF ∧
    PhrasesKept phraseOptions none Examples.nested t' ∧ RestKept phraseOptions none Examples.nested t' :=
  C92_phrases minPick minPick_order phraseOptions none _ (nested_suits _) (by simp)

example : ∃ t', process minPick phraseOptions none Examples.nested = stepEncode phraseOptions (.ok t') ∧
    t'.nTerminals = Examples.nested.nTerminals ∧
    t'.nonterminals.length ≤ Examples.nested.nonterminals.length + Examples.nested.nTerminals :=
  C92_added minPick minPick_order phraseOptions none _ (nested_suits _) (by simp)

/-- A tag for each word. -/
def gapTags : List Str := ["A", "B", "C", "D"].map String.toList

/-- With new tags and parent labels the first word has the first tag; its other features stay. -/
example : ∃ t', process minPick { phraseOptions with parentFeature := some "p".toList } (some (.ok gapTags)) Examples.disc =
      .ok (.ok t') ∧ ∀ n y, t'.graph.node? n = some (.term y) → y.span.start = 0 → some y.pos = gapTags[0]? ∧
      ∃ x, Examples.disc.graph.node? n = some (.term x) ∧ ∀ key, key ≠ "p".toList →
        (y.features.getD Features.empty).getVal key = (x.features.getD Features.empty).getVal key := by
  obtain ⟨t', e, _, _, h⟩ := C92_phrases minPick minPick_order { phraseOptions with parentFeature := some "p".toList }
    (some gapTags) _ (disc_suits _) (by rintro _ ⟨⟩; decide)
  refine ⟨t', e, fun n y hy hs => ?_⟩
  obtain ⟨x, hx, _, _, h1, h2, _, h3⟩ := h.word n y hy
  rw [h1] at hs
  refine ⟨?_, x, hx, fun key hk => h3 key (fun h => absurd rfl h) fun h => hk (Option.some.inj h).symm⟩
  rw [h2]
  simp only [hs]
  rfl

/-- On this tree the phrase `NP` stays, and it is the only one but for the root that can be there besides `UNK`. -/
example (t' : Tree) (h : PhrasesKept phraseOptions none Examples.nested t') :
    ∀ n l fs, t'.Phrase n l fs → n = t'.root ∨ l = "NP".toList ∨ l = "S".toList ∨ l = "UNK".toList := by
  intro n l fs k
  rcases h.filtered _ rfl n l fs k with k | k | k
  · exact .inl k
  · right
    have k : l ∈ ["NP".toList, ['S']] := k
    rw [List.mem_cons, List.mem_singleton] at k
    exact k.imp_right .inl
  · exact .inr (.inr (.inr k.2))

example : ∃ F F' : Forest, ∃ t' : Tree, Examples.nested.Is F ∧ t'.Is F' ∧
    F.phrases.count ("NP".toList, none) ≤ F'.phrases.count ("NP".toList, none) := by
  obtain ⟨F, hF⟩ := nested_wf.is_exists
  obtain ⟨t', _, W', h, _⟩ := C92_phrases minPick minPick_order rewriteOptions none _ (nested_suits _) (by simp)
  obtain ⟨F', hF'⟩ := W'.is_exists
  refine ⟨F, F', t', hF, hF', (C92_count _ _ _ _ nested_wf W' h F F' hF hF' _).2 rfl ⟨by decide, ?_⟩⟩
  intro s hs
  cases hs
  simp [Matches]

/-- A NEGRA file with a gap. -/
example : ∃ t t' F F' c c' w, Stream .negra false gapFile [.ok t] true ∧ t.Is F ∧ t'.Is F' ∧ Output .ptb c t' w c' ∧
    ∀ p, ¬ Insertable (many .ptb) p → F'.phrases.count p ≤ F.phrases.count p := by
  obtain ⟨t, h1, h2⟩ := onlyItem_spec (f := .negra) (multiline := false) (src := gapFile)
    (test := fun t => decide (2 ≤ t.nTerminals)) (by decide +kernel)
  have h2 : 2 ≤ t.nTerminals := by simpa using h2
  have hE : ∀ u, .ok u ∈ [Except.ok (ε := Err) t] → Enough (many .ptb) u := by simp; exact .inl h2
  have hl := (C57_complete minPick minPick_order .negra false (many .ptb) gapFile none [.ok t] h1 (fun _ => gapFile_orderly) hE
    (by simp) (by simp) (.inr ⟨rfl, .inl rfl⟩)).2
  obtain ⟨u, t', F, F', c, c', g1, g2, g3, g4, g5⟩ := C92_run_count minPick minPick_order .negra false (many .ptb) gapFile none _ _
    h1 (fun _ => gapFile_orderly) hE 0 _ (List.getElem?_eq_getElem (by rw [hl]; exact Nat.one_pos))
  cases g1
  exact ⟨t, t', F, F', c, c', _, h1, g2, g3, g4, fun p hp => (g5 p).1 hp⟩

/-- C92: words moved to the root can take phrases with them, although no step is asked to remove any: here `NP`. -/
theorem C92_reattach_drops : main .ptb false minPick { plain .ptb with reattachLabel := some "P".toList }
    ⟨["(S (NP (PP a)) (V b))".toList], []⟩ none = ([.text "(S (PP a) (V b))\n".toList], .finished) := by decide +kernel

end Props
end Lumberjack
