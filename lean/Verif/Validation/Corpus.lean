import Verif.Validation.FormatTests
import Mathlib.Data.Finset.Sort

/-!
# The repository's tests over its data files, run on the model

A program, not a proof: `lake env lean --run Verif/Validation/Corpus.lean /repo/lumberjack/testdata`
reads the files under the given directory and runs on the model the tests of /repo that go over
them (io/mod.rs:33-157 over 500 sentences, and the file-based tests of io/negra.rs and
io/conllx.rs), printing for every test the number of inputs on which the model departs from what
the test expects.  The build only compiles it.  It trusts the interpreter, and no theorem uses it.
-/

namespace Lumberjack.Validation

/-- The two extreme choices of the unordered gap set; the test's expectation holds for any. -/
def pickMin (_ : Tree) (g : Finset Nat) : Option Nat := (g.sort (· ≤ ·)).head?
def pickMax (_ : Tree) (g : Finset Nat) : Option Nat := (g.sort (· ≤ ·)).getLast?

/-- `NegraReader` over all lines, every result unwrapped. -/
def readNegra (text : String) : Option (List Tree) :=
  let ls := Negra.lines text.toList
  match Negra.readAll (ls.length + 1) ls with
  | .ok rs => rs.mapM fun
    | .ok t => some t
    | .error _ => none
  | _ => none

/-- io/mod.rs:33-42 `roundtrip`. -/
def roundtrip (line : Str) : Res Bool := do
  let t ← unwrap (Ptb.stringToTree .tueba line)
  return (← unwrap (Ptb.treeToString .tueba t)) == line

/-- io/mod.rs:44-57 `negra_to_ptb`. -/
def negraToPtb (p : Tree × Str) : Res Bool := do
  let (a, _) ← p.1.projectivize pickMin
  let (b, _) ← p.1.projectivize pickMax
  return (← unwrap (Ptb.treeToString .tueba a)) == p.2 && (← unwrap (Ptb.treeToString .tueba b)) == p.2

def rereads (t : Tree) : Res Bool := do
  let (text, _) ← Negra.writeTree 0 t
  match ← Negra.readerNext (Negra.lines text) with
  | (some (.ok t'), _) => t.eq t'
  | _ => return false

/-- io/mod.rs:59-80 `ptb_to_negra`. -/
def ptbToNegra (p : Str × Nat) : Res Bool := do
  let t ← unwrap (Ptb.stringToTree .tueba p.1)
  rereads (t.setNode t.root (feat (← t.node t.root) "sentence_id" (toString p.2)))

/-- io/mod.rs:96-123 `encoding_roundtrip`. -/
def encodingRoundtrip (line : Str) : Res Bool := do
  let t ← unwrap (Ptb.stringToTree .simple line)
  let words := terminalsIn t
  let t ← collapse t
  let d ← restore (← Tree.decode (← unwrap t.encodeAbsolute) words)
  let t ← restore t
  return (← unwrap (Ptb.treeToString .simple t)) == (← unwrap (Ptb.treeToString .simple d)) && (← t.eq d)

/-- io/mod.rs:125-157 `conllx_roundtrip`. -/
def conllxRoundtrip (line : Str) : Res Bool := do
  let t ← collapse (← unwrap (Ptb.stringToTree .tueba line))
  let (t, _) ← unwrapMut t.annotateRelative
  let rel ← restore (← unwrap (Conllx.tryFromRelative (← Conllx.toConllx t)))
  let (t, _) ← unwrapMut t.annotateAbsolute
  let abs ← restore (← unwrap (Conllx.tryFromAbsolute (← Conllx.toConllx t)))
  let t ← restore t
  let text ← unwrap (Ptb.treeToString .simple t)
  return text == (← unwrap (Ptb.treeToString .simple rel)) &&
    text == (← unwrap (Ptb.treeToString .simple abs)) && (← abs.eq rel)

/-- negra.rs:530-545, the sentence of `test_iter`. -/
def iterSentence : String := "#BOS 3  2 1070544990 0 %% HEADLINE\n" ++
  "L\tL\tNN\tnsf\t\tHD\t500\n" ++
  "U\t\t\tU\t\t\tNE\tnsf\t\t-\t501\n" ++
  "W\t\tW\t\tNE\tnsf\t\t-\t501\n" ++
  ":\t\t\t:\t\t\t$.\t--\t\t--\t0\n" ++
  "E\t\te\t\t\tART\tnsm\t\t-\t503\n" ++
  "B\t\tB\t\tNN\tnsm\t\tHD\t503\n" ++
  "#500\t\t\t--\t\t\tNX\t--\t\tAPP\t502\n" ++
  "#501\t\t\t--\t\t\tNX=PER\t--\t\tAPP\t502\n" ++
  "#502\t\t\t--\t\t\tNX\t--\t\t--\t0\n" ++
  "#503\t\t\t--\t\t\tNX\t--\t\t--\t0\n" ++
  "#EOS 3"

/-- negra.rs:529-552 `test_iter`. -/
def testIter (ten : List Tree) : Res Bool := do
  (← get ten[2]?).eq (← get (← export1 iterSentence))

/-- negra.rs:610-627 `test_string`. -/
def testString (t : Tree) : Bool :=
  (terminalsIn t).flatMap (fun tm => tm.form ++ [' ']) ==
    s ("V , s d S e M d A , s d L U W , d s j a \" S \" g , \" w " ++ "d a w , w e s m T z \" . ")

/-- conllx.rs:219-254 `to_conllx` (second part). -/
def testTokens (t : Tree) : Res Bool := do
  let expected : List (Option Conllx.Token) :=
    [some ⟨s "V", some (s "v"), some (s "ADJD"), none⟩, some ⟨s ",", some (s ","), some (s "$,"), none⟩,
      some ⟨s "e", some (s "e"), some (s "ART"), some (s "morph:gsf")⟩]
  let a ← Conllx.toConllx t
  let b ← Conllx.intoConllx t
  return [a[0]?, a[1]?, a[5]?] == expected && [b[0]?, b[1]?, b[5]?] == expected

def report {α : Type} (name : String) (f : α → Res Bool) (inputs : List α) : IO Unit :=
  IO.println s!"{name}: {inputs.length} inputs, {(inputs.filter fun x => !ok (f x)).length} departures"

end Lumberjack.Validation

open Lumberjack Lumberjack.Validation in
/-- Entry point for `lean --run`. -/
def main (args : List String) : IO Unit := do
  let dir := args.headD "/repo/lumberjack/testdata"
  let lines := Negra.lines (← IO.FS.readFile (dir ++ "/test.ptb")).toList
  let some trees := readNegra (← IO.FS.readFile (dir ++ "/test.negra")) | throw (IO.userError "test.negra")
  let some ten := readNegra (← IO.FS.readFile (dir ++ "/10.negra")) | throw (IO.userError "10.negra")
  let some long := readNegra (← IO.FS.readFile (dir ++ "/long_single.negra"))
    | throw (IO.userError "long_single.negra")
  let some one := readNegra (← IO.FS.readFile (dir ++ "/single.negra")) | throw (IO.userError "single.negra")
  let multi := Negra.lines (← IO.FS.readFile (dir ++ "/single_multiline.ptb")).toList
  report "io::roundtrip" roundtrip lines
  report "io::negra_to_ptb" negraToPtb (trees.zip lines)
  report "io::ptb_to_negra" ptbToNegra lines.zipIdx
  report "io::negra_roundtrip" rereads trees
  report "io::encoding_roundtrip" encodingRoundtrip lines
  report "io::conllx_roundtrip" conllxRoundtrip lines
  report "negra::test_first10_ok" rereads ten
  report "negra::test_iter" testIter [ten]
  report "negra::test_string" (fun t => .ok (testString t)) long
  report "conllx::to_conllx" testTokens long
  report "single.negra as in FormatTests" (fun t => do t.eq (← get (← export1 single))) one
  report "single_multiline.ptb as in FormatTests" (fun x => .ok (x == singleMultiline)) [multi]
