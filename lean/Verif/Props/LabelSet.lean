import Verif.Model.Convert

/-!
# Property C56: label sets
-/

namespace Lumberjack
namespace Props

/-- **C56.** A positive label set matches exactly its members. -/
theorem C56_positive (s : List Str) (q : Str) : (LabelSet.positive s).matches q = true ↔ q ∈ s := by
  simp [LabelSet.matches]

/-- **C56.** A negative label set matches exactly the non-members. -/
theorem C56_negative (s : List Str) (q : Str) : (LabelSet.negative s).matches q = true ↔ q ∉ s := by
  simp [LabelSet.matches]

example : (LabelSet.positive ["NP".toList]).matches "NP".toList = true ∧
    (LabelSet.negative ["NP".toList]).matches "NP".toList = false := by decide

end Props
end Lumberjack
