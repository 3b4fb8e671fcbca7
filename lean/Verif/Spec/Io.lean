import Verif.Model.Io
import Verif.Spec.ConvertRun

/-!
# Items read from input that can fail, and the bytes of the output
-/

namespace Lumberjack
namespace Convert

open Io

/-- The items read from an input with unreadable lines; `false` if the reader panics after them. -/
inductive StreamIo (f : InFormat) (multiline : Bool) : Input → List (Except Err Tree) → Bool → Prop
  | stop {inp inp'} : nextIo f multiline inp = .ok (none, inp') → StreamIo f multiline inp [] true
  | crash {inp} : nextIo f multiline inp = .panic → StreamIo f multiline inp [] false
  | item {inp inp' r rs b} : nextIo f multiline inp = .ok (some r, inp') → StreamIo f multiline inp' rs b →
      StreamIo f multiline inp (r :: rs) b

/-- The text of an output; `render` gives that of a CONLLX sentence. -/
def Written.textBy (render : List Conllx.Token → Str) : Written → Str
  | .text s => s
  | .sentence s => render s

/-- The bytes of the outputs of a run. -/
def outputBytes (render : List Conllx.Token → Str) (ws : List Written) : Bytes := encode (ws.flatMap (·.textBy render))

/-- The formats that are read line by line by lumberjack itself. -/
def InFormat.ByLines (f : InFormat) : Prop := f ≠ .absolute ∧ f ≠ .relative

end Convert
end Lumberjack
