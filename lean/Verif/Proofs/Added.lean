import Verif.Proofs.NegraExport
import Verif.Proofs.Phrases

/-!
# How many nonterminals a conversion adds
-/

namespace Lumberjack

open Lumberjack.Tree

namespace Convert

variable {t t' : Tree} {o : Options}

/-- The steps add at most one nonterminal per word. -/
theorem pipeline_nonterminals {tags : Option (List Str)} (S : Suits o t) (h : Pipeline o tags t t') :
    t'.nonterminals.length ≤ t.nonterminals.length + t.nTerminals := by
  classical
  have P := pipeline_phrases S.fit.wf h
  have G := pipeline_good S h
  have W' := G.1.fit.wf
  have hk : ∀ n, ∃ c, t'.IsNt n → t'.IsChild n c := fun n => by
    by_cases hn : t'.IsNt n
    · obtain ⟨c, hc⟩ := W'.shape.nt_child n hn
      exact ⟨c, fun _ => hc⟩
    · exact ⟨0, fun h => absurd h hn⟩
  choose kid hkid using hk
  rw [List.length_eq_length_filter_add (l := t'.nonterminals) (fun n => decide (t.IsNt n))]
  refine Nat.add_le_add ?_ ?_
  · refine (List.Nodup.subperm (nonterminals_nodup.filter _) fun n hn => ?_).length_le
    exact mem_nonterminals.2 (by simpa using (List.mem_filter.1 hn).2)
  · rw [← G.1.words.len, ← W'.sentence.length_terminals, ← List.length_map (f := kid)]
    refine (List.Nodup.subperm (List.Nodup.map_on ?_ (nonterminals_nodup.filter _)) fun c hc => ?_).length_le
    · intro a ha b hb e
      have h1 := hkid a (mem_nonterminals.1 (List.mem_filter.1 ha).1)
      have h2 := hkid b (mem_nonterminals.1 (List.mem_filter.1 hb).1)
      rw [← e] at h2
      exact W'.shape.isChild_unique h1 h2
    · obtain ⟨n, hn, rfl⟩ := List.mem_map.1 hc
      obtain ⟨h1, h2⟩ := List.mem_filter.1 hn
      obtain ⟨x, hx⟩ := mem_nonterminals.1 h1
      rcases P.invented n _ _ ⟨x, hx, rfl, rfl⟩ with ⟨y, hy, _⟩ | ⟨_, _, _, h4⟩
      · have hno : ¬ t.IsNt n := by simpa using h2
        exact absurd ⟨y, hy⟩ hno
      · exact mem_terminals.2 (h4 _ (hkid n ⟨x, hx⟩))

end Convert
end Lumberjack
