import Verif.Spec.Bracket
import Verif.Spec.ConvertRun

/-!
# Files that are cut
-/

namespace Lumberjack
namespace Bracketed

/-- The lines of a file are complete groups with skipped lines between them; the texts of the groups are
given. -/
inductive Whole : List Str → List Str → Prop where
  | nil : Whole [] []
  | skip {l : Str} {ls ts : List Str} : Skipped l → Whole ls ts → Whole (l :: ls) ts
  | group {g ls ts : List Str} : Group g → Whole ls ts → Whole (g ++ ls) (g.flatten :: ts)

end Bracketed

namespace Convert

/-- The input with more input after it. -/
def Source.followedBy (src more : Source) : Source := ⟨src.lines ++ more.lines, src.sentences ++ more.sentences⟩

end Convert

/-- A line with the characters that end it: a line feed, or a carriage return and a line feed. The line itself has
no line feed; if only a line feed ends it, its last character is not a carriage return. -/
structure EndedLine (line ending : Str) : Prop where
  one : '\n' ∉ line
  ends : ending = ['\r', '\n'] ∨ (ending = ['\n'] ∧ line.getLast? ≠ some '\r')

/-- The text of lines with their endings. -/
def endedText (ls : List (Str × Str)) : Str := ls.flatMap fun l => l.1 ++ l.2

end Lumberjack
