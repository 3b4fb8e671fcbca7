import Verif.Proofs.Features

/-!
# Properties C07, C08: feature sets
-/

namespace Lumberjack
namespace Props
open Features

/-- **C07.** `insert(k, v)` makes `get_val(k)` be `v`, changes no other key and returns the previous
value of `k`. -/
theorem C07_insert (f : Features) (k : Str) (v : Option Str) :
    (f.insert k v).1.getVal k = some v ∧
    (∀ k', k' ≠ k → (f.insert k v).1.getVal k' = f.getVal k') ∧
    (f.insert k v).2 = (f.getVal k).join := by
  refine ⟨by simp [Features.insert, getVal, lookup_insert], fun k' h => ?_, ?_⟩
  · simp [Features.insert, getVal, lookup_insert, h]
  · simp only [Features.insert, getVal]
    cases lookupEntry k f.entries <;> rfl

/-- **C07.** `remove(k)` makes `k` absent, changes no other key and returns the previous entry. -/
theorem C07_remove (f : Features) (h : Built f) (k : Str) :
    (f.remove k).1.getVal k = none ∧
    (∀ k', k' ≠ k → (f.remove k).1.getVal k' = f.getVal k') ∧
    (f.remove k).2 = f.getVal k := by
  refine ⟨?_, fun k' hk => ?_, rfl⟩
  · simp [Features.remove, getVal, lookup_remove h.sorted]
  · simp [Features.remove, getVal, lookup_remove h.sorted, hk]

/-- **C07.** The entries of every obtainable feature set are in strictly increasing key order. -/
theorem C07_sorted (f : Features) (h : Built f) :
    f.entries.Pairwise (fun a b => a.1 < b.1) := h.sorted

example := C07_remove (Features.parse "b:2|a:1|c".toList) (.parse _) "b".toList
example : (Features.parse "b:2|a:1|c".toList).entries =
    [("a".toList, some "1".toList), ("b".toList, some "2".toList), ("c".toList, none)] := by
  decide

/-- **C08.** Printing and parsing gives the feature set back, if keys and values avoid the
separators and no entry is an empty key without value. -/
theorem C08_parse_print (f : Features) (h : Built f)
    (hplain : ∀ e ∈ f.entries, Plain e.1 ∧ ∀ v, e.2 = some v → Plain v)
    (hkey : ∀ e ∈ f.entries, e ≠ ([], none)) : Features.parse f.toStr = f :=
  parse_toStr h.sorted hplain hkey

example : Features.parse (Features.parse "b:2|a:1|c".toList).toStr =
    Features.parse "b:2|a:1|c".toList := C08_parse_print _ (.parse _)
  (fun e he => (parse_plain e he).1) (fun e he => (parse_plain e he).2)

/-- **C08.** Parsing always yields a feature set that survives printing and parsing: printing what
was parsed is a normal form. -/
theorem C08_normal_form (s : Str) :
    Features.parse (Features.parse s).toStr = Features.parse s ∧
    (Features.parse (Features.parse s).toStr).toStr = (Features.parse s).toStr := by
  have := C08_parse_print (Features.parse s) (.parse s) (fun e he => (parse_plain e he).1)
    (fun e he => (parse_plain e he).2)
  exact ⟨this, by rw [this]⟩

/-- **C08.** The separator conditions are needed: a value with a colon does not survive. -/
theorem C08_separator_needed : ∃ f, Built f ∧ Features.parse f.toStr ≠ f :=
  ⟨(Features.empty.insert "k".toList (some "a:b".toList)).1, .insert _ _ .empty, by decide⟩

end Props
end Lumberjack
