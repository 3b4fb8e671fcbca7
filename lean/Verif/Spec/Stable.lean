import Verif.Spec.ConvertRun
import Verif.Spec.Bracket

/-!
# Running the conversion tool on its own output
-/

namespace Lumberjack
namespace Convert

/-- The text of what has been written. -/
def textOf (ws : List Written) : Str :=
  ws.flatMap fun w => match w with
    | .text s => s
    | .sentence _ => []

/-- The texts of the trees in a file: the complete groups of lines (see `Groups`), or, with one tree per line, the lines
that are no comments. -/
def Texts (multiline : Bool) (lines texts : List Str) : Prop :=
  if multiline then Bracketed.Groups lines texts else texts = lines.filter fun l => l.head? ≠ some '%'

/-- The output format for a bracketed format. -/
def bracketOutput : Ptb.Format → OutFormat
  | .ptb => .ptb
  | .simple => .simple
  | .tueba => .tueba

end Convert
end Lumberjack
