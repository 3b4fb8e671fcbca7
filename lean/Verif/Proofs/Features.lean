import Verif.Spec.Features
import Verif.Proofs.Str
import Mathlib.Data.List.Lex

/-!
# Lemmas about feature sets
-/

namespace Lumberjack
namespace Features

theorem lookup_insert (k k' : Str) (v : Option Str) (l : List (Str × Option Str)) :
    lookupEntry k' (insertEntry k v l) = if k' = k then some v else lookupEntry k' l := by
  induction l with
  | nil => simp only [insertEntry, lookupEntry]
  | cons e l ih =>
    obtain ⟨k₀, v₀⟩ := e
    simp only [insertEntry]
    split
    · rename_i h
      subst h
      simp only [lookupEntry]
      split <;> simp_all
    · split
      · simp only [lookupEntry]
      · simp only [lookupEntry, ih]
        split
        · rename_i h1 h2 h3
          subst h3
          rw [if_neg (Ne.symm h1)]
        · rfl

theorem lookup_eq_none {k : Str} {l : List (Str × Option Str)} (h : ∀ e ∈ l, e.1 ≠ k) :
    lookupEntry k l = none := by
  induction l with
  | nil => rfl
  | cons e l ih =>
    simp only [lookupEntry]
    rw [if_neg (Ne.symm (h e (by simp))), ih (fun e he => h e (by simp [he]))]

theorem lookup_remove {l : List (Str × Option Str)} (hs : l.Pairwise (fun a b => a.1 < b.1))
    (k k' : Str) :
    lookupEntry k' (removeEntry k l) = if k' = k then none else lookupEntry k' l := by
  induction l with
  | nil => simp [removeEntry, lookupEntry]
  | cons e l ih =>
    obtain ⟨k₀, v₀⟩ := e
    rw [List.pairwise_cons] at hs
    simp only [removeEntry]
    split
    · rename_i h
      subst h
      split
      · rename_i h
        subst h
        exact lookup_eq_none (fun e he => ne_of_gt (hs.1 e he))
      · rename_i h
        simp only [lookupEntry, if_neg h]
    · rename_i h
      simp only [lookupEntry, ih hs.2]
      split
      · rename_i h'
        subst h'
        rw [if_neg (Ne.symm h)]
      · rfl

theorem mem_insertEntry {k : Str} {v : Option Str} {l : List (Str × Option Str)}
    {e : Str × Option Str} (h : e ∈ insertEntry k v l) : e = (k, v) ∨ e ∈ l := by
  induction l with
  | nil => simp [insertEntry] at h; exact .inl h
  | cons x l ih =>
    obtain ⟨k₀, v₀⟩ := x
    simp only [insertEntry] at h
    split at h
    · rcases List.mem_cons.1 h with h | h <;> simp_all
    · split at h
      · rcases List.mem_cons.1 h with h | h <;> simp_all
      · rcases List.mem_cons.1 h with h | h
        · simp_all
        · rcases ih h with h | h <;> simp_all

theorem insert_sorted {k : Str} {v : Option Str} {l : List (Str × Option Str)}
    (hs : l.Pairwise (fun a b => a.1 < b.1)) :
    (insertEntry k v l).Pairwise (fun a b => a.1 < b.1) := by
  induction l with
  | nil => simp [insertEntry]
  | cons e l ih =>
    obtain ⟨k₀, v₀⟩ := e
    have hs' := List.pairwise_cons.1 hs
    simp only [insertEntry]
    split
    · rename_i h
      subst h
      exact List.pairwise_cons.2 hs'
    · rename_i hne
      split
      · rename_i h
        refine List.pairwise_cons.2 ⟨fun e he => ?_, hs⟩
        rcases List.mem_cons.1 he with rfl | he
        · exact h
        · exact lt_trans h (hs'.1 e he)
      · rename_i h
        refine List.pairwise_cons.2 ⟨fun e he => ?_, ih hs'.2⟩
        rcases mem_insertEntry he with rfl | he
        · exact lt_of_le_of_ne (not_lt.1 h) (Ne.symm hne)
        · exact hs'.1 e he

theorem mem_removeEntry {k : Str} {l : List (Str × Option Str)} {e : Str × Option Str}
    (h : e ∈ removeEntry k l) : e ∈ l := by
  induction l with
  | nil => simp [removeEntry] at h
  | cons x l ih =>
    obtain ⟨k₀, v₀⟩ := x
    simp only [removeEntry] at h
    split at h
    · simp [h]
    · rcases List.mem_cons.1 h with h | h
      · simp [h]
      · simp [ih h]

theorem remove_sorted {k : Str} {l : List (Str × Option Str)}
    (hs : l.Pairwise (fun a b => a.1 < b.1)) :
    (removeEntry k l).Pairwise (fun a b => a.1 < b.1) := by
  induction l with
  | nil => simp [removeEntry]
  | cons e l ih =>
    obtain ⟨k₀, v₀⟩ := e
    have hs' := List.pairwise_cons.1 hs
    simp only [removeEntry]
    split
    · exact hs'.2
    · exact List.pairwise_cons.2 ⟨fun e he => hs'.1 e (mem_removeEntry he), ih hs'.2⟩

theorem foldl_sorted (l : List (Str × Option Str)) (m : List (Str × Option Str))
    (hm : m.Pairwise (fun a b => a.1 < b.1)) :
    (l.foldl (fun m kv => insertEntry kv.1 kv.2 m) m).Pairwise (fun a b => a.1 < b.1) := by
  induction l generalizing m with
  | nil => exact hm
  | cons e l ih => exact ih _ (insert_sorted hm)

theorem ofList_sorted (l : List (Str × Option Str)) : (ofList l).Sorted :=
  foldl_sorted l [] List.Pairwise.nil

theorem Built.sorted {f : Features} (h : Built f) : f.Sorted := by
  induction h with
  | empty => exact List.Pairwise.nil
  | ofList l => exact ofList_sorted l
  | parse s => exact ofList_sorted _
  | insert k v _ ih => exact insert_sorted ih
  | remove k _ ih => exact remove_sorted ih

theorem mem_foldl {l m : List (Str × Option Str)} {e : Str × Option Str}
    (h : e ∈ l.foldl (fun m kv => insertEntry kv.1 kv.2 m) m) : e ∈ l ∨ e ∈ m := by
  induction l generalizing m with
  | nil => exact .inr h
  | cons x l ih =>
    rcases ih h with h | h
    · simp [h]
    · rcases mem_insertEntry h with h | h <;> simp [h]

theorem mem_ofList {l : List (Str × Option Str)} {e : Str × Option Str}
    (h : e ∈ (ofList l).entries) : e ∈ l := by
  rcases mem_foldl h with h | h
  · exact h
  · simp at h

theorem insertEntry_last {k : Str} {v : Option Str} {m : List (Str × Option Str)}
    (h : ∀ e ∈ m, e.1 < k) : insertEntry k v m = m ++ [(k, v)] := by
  induction m with
  | nil => rfl
  | cons e m ih =>
    obtain ⟨k₀, v₀⟩ := e
    have h0 := h (k₀, v₀) (by simp)
    simp only [insertEntry]
    rw [if_neg (ne_of_gt h0), if_neg (not_lt.2 (le_of_lt h0)), ih (fun e he => h e (by simp [he]))]
    rfl

/-- Inserting a sorted list of entries one by one rebuilds it. -/
theorem foldl_insert_sorted {l m : List (Str × Option Str)}
    (h : (m ++ l).Pairwise (fun a b => a.1 < b.1)) :
    l.foldl (fun m kv => insertEntry kv.1 kv.2 m) m = m ++ l := by
  induction l generalizing m with
  | nil => simp
  | cons e l ih =>
    rw [List.foldl_cons, insertEntry_last, ih]
    · simp
    · simpa using h
    · intro x hx
      exact (List.pairwise_append.1 h).2.2 x hx e (by simp)

theorem ofList_entries {f : Features} (h : f.Sorted) : ofList f.entries = f := by
  have := foldl_insert_sorted (l := f.entries) (m := []) (by simpa [Sorted] using h)
  unfold ofList
  rw [this]
  rfl

theorem parseOne_printOne {e : Str × Option Str} (h1 : ':' ∉ e.1)
    (h2 : ∀ v, e.2 = some v → ':' ∉ v) : parseOne (printOne e) = e := by
  obtain ⟨k, v⟩ := e
  cases v with
  | none => simp only [printOne, parseOne, splitOn_of_not_mem h1]; rfl
  | some v =>
    have : splitOn ':' (k ++ [':'] ++ v) = [k, v] := by
      rw [List.append_assoc, List.singleton_append, splitOn_append h1,
        splitOn_of_not_mem (h2 v rfl)]
    simp only [printOne, parseOne, this]; rfl

theorem parse_toStr {f : Features} (hs : f.Sorted)
    (h1 : ∀ e ∈ f.entries, Plain e.1 ∧ ∀ v, e.2 = some v → Plain v)
    (h2 : ∀ e ∈ f.entries, e ≠ ([], none)) : parse f.toStr = f := by
  unfold parse toStr
  by_cases hf : f.entries = []
  · obtain ⟨es⟩ := f
    simp only at hf
    subst hf
    rfl
  · rw [splitOn_join (by simpa using hf)]
    · have hfilter : (f.entries.map printOne).filter (fun p => !p.isEmpty) = f.entries.map printOne := by
        rw [List.filter_eq_self]
        intro p hp
        obtain ⟨e, he, rfl⟩ := List.mem_map.1 hp
        obtain ⟨k, v⟩ := e
        cases v with
        | none =>
          have := h2 _ he
          cases k <;> simp_all [printOne]
        | some v => simp [printOne]
      rw [hfilter, List.map_map]
      have hmap : f.entries.map (parseOne ∘ printOne) = f.entries := by
        conv_rhs => rw [← List.map_id f.entries]
        apply List.map_congr_left
        intro e he
        exact parseOne_printOne (h1 e he).1.2 (fun v hv => ((h1 e he).2 v hv).2)
      rw [hmap]
      exact ofList_entries hs
    · intro p hp
      obtain ⟨e, he, rfl⟩ := List.mem_map.1 hp
      obtain ⟨k, v⟩ := e
      have hp := h1 _ he
      cases v with
      | none => exact hp.1.1
      | some v =>
        simp only [printOne, List.mem_append, not_or, List.mem_singleton]
        exact ⟨⟨hp.1.1, by decide⟩, (hp.2 v rfl).1⟩

theorem parse_plain {s : Str} : ∀ e ∈ (parse s).entries,
    (Plain e.1 ∧ ∀ v, e.2 = some v → Plain v) ∧ e ≠ ([], none) := by
  intro e he
  have he := mem_ofList he
  obtain ⟨p, hp, rfl⟩ := List.mem_map.1 he
  rw [List.mem_filter] at hp
  have hbar := not_mem_of_mem_splitOn hp.1
  unfold parseOne
  cases h : splitOn ':' p with
  | nil => exact absurd h (splitOn_ne_nil _ _)
  | cons k rest =>
    have hk : k ∈ splitOn ':' p := by simp [h]
    refine ⟨⟨⟨fun hm => hbar (mem_of_mem_splitOn hk _ hm), not_mem_of_mem_splitOn hk⟩, ?_⟩, ?_⟩
    · intro v hv
      have hv : v ∈ splitOn ':' p := by
        rw [h]; exact List.mem_cons_of_mem _ (List.mem_of_head? hv)
      exact ⟨fun hm => hbar (mem_of_mem_splitOn hv _ hm), not_mem_of_mem_splitOn hv⟩
    · intro e
      simp only [Prod.mk.injEq, List.head?_eq_none_iff] at e
      have := join_splitOn ':' p
      rw [h, e.1, e.2] at this
      simp only [join] at this
      rw [← this] at hp
      simp at hp

end Features
end Lumberjack
