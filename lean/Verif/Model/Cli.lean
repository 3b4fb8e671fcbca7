import Verif.Model.Convert

/-!
# Model of the command line of `lumberjack-conversion`

`lumberjack-utils/src/bin/lumberjack-conversion.rs:20-55` and `262-391`. The model starts at the options
that occur on the command line; splitting the command line into options is left to the crate `clap`, whose
checks (values that are allowed, options required by others) and default values are modelled here.
-/

namespace Lumberjack
namespace Convert

/-- lumberjack-conversion.rs:285-391 `build`: the options on the command line, with their values. Files
are given by their contents, `none` for a file that cannot be read. -/
structure Cli where
  /-- `--input_format` -/
  inFormat : Option Str := none
  /-- `--output_format` -/
  outFormat : Option Str := none
  /-- `--multiline_brackets` -/
  multiline : Bool := false
  /-- `--parent` -/
  parent : Option Str := none
  /-- `--insertion_set` -/
  insertionSet : Option (Option Str) := none
  /-- `--insertion_label` -/
  insertionLabel : Option Str := none
  /-- `--id_set` -/
  idSet : Option (Option Str) := none
  /-- `--id_feature` -/
  idFeature : Option Str := none
  /-- `--filter` -/
  filter : Option (Option Str) := none
  /-- `--projectivize` -/
  projectivize : Bool := false
  /-- `--sec_edges` -/
  secEdges : Bool := false
  /-- `--reattach` -/
  reattach : Option Str := none
  /-- `--remove_dummies` -/
  removeDummies : Bool := false
  /-- `--pos`; the sentences of the file -/
  pos : Option (Option (List PosItem)) := none

/-- lumberjack-conversion.rs:299 `possible_values` of the input format. -/
def inNames : List Str :=
  ["absolute".toList, "negra".toList, "ptb".toList, "relative".toList, "simple".toList, "tueba".toList]

/-- lumberjack-conversion.rs:318-320 `possible_values` of the output format. -/
def outNames : List Str :=
  ["absolute".toList, "conllx".toList, "negra".toList, "ptb".toList, "relative".toList, "simple".toList,
    "tueba".toList]

/-- lumberjack-conversion.rs:300: the default. -/
def Cli.inName (c : Cli) : Str := c.inFormat.getD "tueba".toList

/-- lumberjack-conversion.rs:321: the default. -/
def Cli.outName (c : Cli) : Str := c.outFormat.getD "simple".toList

/-- The checks of clap: lumberjack-conversion.rs:299, 318-320 (`possible_values`, which are compared
exactly) and 374 (`requires`). -/
def Cli.allowed (c : Cli) : Bool :=
  inNames.contains c.inName && outNames.contains c.outName && (!c.secEdges || c.projectivize)

/-- lumberjack-conversion.rs:44-47 and 147-155: `map(get_set_from_file)`, which panics if the file cannot
be read. -/
def readSet : Option (Option Str) → Res (Option LabelSet)
  | none => .ok none
  | some none => .panic
  | some (some s) => .ok (some (setFromText s))

/-- lumberjack-conversion.rs:38-48: the options of a run. -/
def Cli.options (c : Cli) (out : OutFormat) : Res Options := do
  let filterSet ← readSet c.filter
  let idSet ← readSet c.idSet
  let insertionSet ← readSet c.insertionSet
  return {
    parentFeature := c.parent
    reattachLabel := c.reattach
    removeDummies := c.removeDummies
    projectivize := c.projectivize
    secEdges := c.secEdges
    filterSet := filterSet
    idSet := idSet
    idFeatureName := c.idFeature.getD "id".toList
    insertionSet := insertionSet
    insertionLabel := c.insertionLabel.getD "UNK".toList
    out := out }

/-- lumberjack-conversion.rs:50-53: the POS file, and the loop. -/
def runPos (f : InFormat) (multiline : Bool) (pick : Tree → Finset Nat → Option Nat) (o : Options)
    (src : Source) : Option (Option (List PosItem)) → List Written × End
  | none => main f multiline pick o src none
  | some none => ([], .exited (.parse 53))
  | some (some ps) => main f multiline pick o src (some ps)

/-- lumberjack-conversion.rs:20-144 `main`: the output and the end of a run. `input` is `none` if the
input file cannot be opened; opening the output is assumed to succeed. -/
def runCli (pick : Tree → Finset Nat → Option Nat) (c : Cli) (input : Option Source) : List Written × End :=
  if c.allowed then
    match InFormat.parse c.inName with
    | none => ([], .exited (.parse 50))
    | some f =>
      match input with
      | none => ([], .exited (.parse 51))
      | some src =>
        match OutFormat.parse c.outName with
        | none => ([], .exited (.parse 52))
        | some out =>
          match c.options out with
          | .ok o => runPos f c.multiline pick o src c.pos
          | .panic => ([], .panicked)
          | .diverge => ([], .diverged)
  else
    ([], .exited (.parse 54))

end Convert
end Lumberjack
