import Verif.Model.Conllx
import Verif.Model.Negra

/-!
# Model of `lumberjack-utils/src/bin/lumberjack-conversion.rs` and of `LabelSet`
(`lumberjack/src/util.rs:58-78`)
-/

namespace Lumberjack

/-- util.rs:60-65 `enum LabelSet`; the hash set is a list used for membership only. -/
inductive LabelSet where
  | positive (s : List Str)
  | negative (s : List Str)

/-- util.rs:72-77 `LabelSet::matches`. -/
def LabelSet.matches : LabelSet → Str → Bool
  | .positive s, q => s.contains q
  | .negative s, q => !s.contains q

namespace Convert

/-- lumberjack-conversion.rs:158-165 `enum InFormat`. -/
inductive InFormat where
  | absolute | relative | negra | ptb | simple | tueba
deriving DecidableEq

/-- lumberjack-conversion.rs:185-193 `enum OutFormat`. -/
inductive OutFormat where
  | absolute | conllx | negra | ptb | relative | simple | tueba
deriving DecidableEq

/-- The options of the conversion tool (lumberjack-conversion.rs:38-53). -/
structure Options where
  parentFeature : Option Str
  reattachLabel : Option Str
  removeDummies : Bool
  projectivize : Bool
  secEdges : Bool
  filterSet : Option LabelSet
  idSet : Option LabelSet
  idFeatureName : Str
  insertionSet : Option LabelSet
  insertionLabel : Str
  out : OutFormat

/-- lumberjack-conversion.rs:147-155 `get_set_from_file` on the file's text. -/
def setFromText (s : Str) : LabelSet := .positive (Negra.splitWs s)

/-- lumberjack-conversion.rs:69-73: label of the secondary edge recording a move. -/
def npLabel (e : Edge) : Str :=
  match e.label with
  | some l => "np_".toList ++ l
  | none => "np".toList

/-- lumberjack-conversion.rs:68-75: record the moves as secondary edges. -/
def addMoves : List Tree.Move → Tree → Res Tree
  | [], t => .ok t
  | (p, e, c) :: rest, t => do
    let (t', _) ← t.addSecondaryEdge p c (some (npLabel e))
    addMoves rest t'

/-- `.or_exit(..)`: the tool stops on `Err`. -/
def orExit {α : Type} (x : Tree × Except Err α) : Except Err Tree :=
  match x.2 with
  | .ok _ => .ok x.1
  | .error e => .error e

/-- One optional step of the tool: skipped when the switch is off, not run after an exit. -/
def stepIf (b : Bool) (f : Tree → Res (Except Err Tree)) (r : Except Err Tree) : Res (Except Err Tree) :=
  match r with
  | .error e => .ok (.error e)
  | .ok t => if b then f t else .ok (.ok t)

/-- lumberjack-conversion.rs:60-63. -/
def stepDummies (o : Options) : Except Err Tree → Res (Except Err Tree) :=
  stepIf o.removeDummies fun t => do
    let r ← t.removeDummyNodes
    return orExit r

/-- lumberjack-conversion.rs:65-78. -/
def stepProjectivize (pick : Tree → Finset Nat → Option Nat) (o : Options) :
    Except Err Tree → Res (Except Err Tree) :=
  stepIf o.projectivize fun t => do
    let (t', log) ← t.projectivize pick
    match log with
    | some moves =>
      if o.secEdges then
        let t'' ← addMoves moves t'
        return .ok t''
      else
        return .ok t'
    | none => return .ok t'

/-- What the POS file holds for one tree: the tags of the next sentence, or an error if there is no
next sentence, it cannot be read, or one of its tokens has no part of speech (whichever token that
is, the tool exits: the tokens are either all drawn by `annotate_pos` or it reports too many). -/
abbrev PosItem := Except Err (List Str)

/-- lumberjack-conversion.rs:80-95; `none` without a POS file. -/
def stepPos (tags : Option PosItem) : Except Err Tree → Res (Except Err Tree) :=
  stepIf tags.isSome fun t =>
    match tags.getD (.ok []) with
    | .error e => .ok (.error e)
    | .ok l => do
      let r ← t.annotatePos l
      return orExit r

/-- lumberjack-conversion.rs:97-100. -/
def stepReattach (o : Options) : Except Err Tree → Res (Except Err Tree) :=
  stepIf o.reattachLabel.isSome fun t => do
    let t' ← t.reattachTerminals t.root fun t n =>
      (t.graph.node? n).any fun nd => Negra.startsWith (o.reattachLabel.getD []) nd.label
    return .ok t'

/-- lumberjack-conversion.rs:102-106. -/
def stepIds (o : Options) : Except Err Tree → Res (Except Err Tree) :=
  stepIf o.idSet.isSome fun t => do
    let t' ← t.projectIds o.idFeatureName fun t n =>
      decide (t.root = n) ||
        (t.graph.node? n).any fun nd => (o.idSet.getD (.positive [])).matches nd.label
    return .ok t'

/-- lumberjack-conversion.rs:108-111. -/
def stepFilter (o : Options) : Except Err Tree → Res (Except Err Tree) :=
  stepIf o.filterSet.isSome fun t => do
    let r ← t.filterNonterminals fun t n =>
      (t.graph.node? n).any fun nd => (o.filterSet.getD (.positive [])).matches nd.label
    return orExit r

/-- lumberjack-conversion.rs:113-122. -/
def stepInsert (o : Options) : Except Err Tree → Res (Except Err Tree) :=
  stepIf o.insertionSet.isSome fun t => do
    let r ← t.insertIntermediate fun t n =>
      if (t.graph.node? n).any fun nd => !(o.insertionSet.getD (.positive [])).matches nd.label
      then some o.insertionLabel else none
    return orExit r

/-- lumberjack-conversion.rs:124-127. -/
def stepParent (o : Options) : Except Err Tree → Res (Except Err Tree) :=
  stepIf o.parentFeature.isSome fun t => do
    let r ← t.annotateParentTag (o.parentFeature.getD [])
    return orExit r

/-- lumberjack-conversion.rs:129-139. -/
def stepEncode (o : Options) : Except Err Tree → Res (Except Err Tree) :=
  stepIf (o.out = .absolute || o.out = .relative) fun t => do
    let t' ← t.collapseUnaryChains ['_']
    let r ← if o.out = .absolute then t'.annotateAbsolute else t'.annotateRelative
    return orExit r

/-- lumberjack-conversion.rs:58-139: the processing of one tree before it is written. -/
def process (pick : Tree → Finset Nat → Option Nat) (o : Options) (tags : Option PosItem) (t : Tree) :
    Res (Except Err Tree) := do
  let r ← stepDummies o (.ok t)
  let r ← stepProjectivize pick o r
  let r ← stepPos tags r
  let r ← stepReattach o r
  let r ← stepIds o r
  let r ← stepFilter o r
  let r ← stepInsert o r
  let r ← stepParent o r
  stepEncode o r

/-- What one `write_tree` call writes: a text, or a CONLLX sentence (whose text form is produced by
the crate `conllx`). -/
inductive Written where
  | text (s : Str)
  | sentence (s : List Conllx.Token)
deriving DecidableEq

/-- ptb.rs:33-37 `write_tree`. -/
def writePtb (f : Ptb.Format) (t : Tree) : Res (Except Err Str) := do
  let r ← Ptb.treeToString f t
  match r with
  | .ok s => return .ok (s ++ ['\n'])
  | .error e => return .error e

/-- lumberjack-conversion.rs:248-260 `get_writer` and the writers' `write_tree`; `counter` is the
state of the `NegraWriter`. -/
def write (out : OutFormat) (counter : Nat) (t : Tree) : Res (Except Err (Written × Nat)) :=
  let viaPtb (f : Ptb.Format) : Res (Except Err (Written × Nat)) := do
    let r ← writePtb f t
    match r with
    | .ok s => return .ok (.text s, counter)
    | .error e => return .error e
  match out with
  | .absolute | .conllx | .relative => do
    let s ← Conllx.toConllx t
    return .ok (.sentence s, counter)
  | .negra => do
    let (s, c) ← Negra.writeTree counter t
    return .ok (.text s, c)
  | .ptb => viaPtb .ptb
  | .simple => viaPtb .simple
  | .tueba => viaPtb .tueba

/-- Rust `str::to_lowercase`, restricted to ASCII letters. Of the other letters only the Kelvin sign and
the dotted capital `I` have ASCII letters in their lower case, `k` and `i` followed by a combining dot,
which occur in no format name. -/
def lower (s : Str) : Str := s.map Char.toLower

/-- lumberjack-conversion.rs:170-181 `TryFrom<&str> for InFormat`. -/
def InFormat.parse (s : Str) : Option InFormat :=
  let s := lower s
  if s = "absolute".toList then some .absolute
  else if s = "relative".toList then some .relative
  else if s = "negra".toList then some .negra
  else if s = "ptb".toList then some .ptb
  else if s = "simple".toList then some .simple
  else if s = "tueba".toList then some .tueba
  else none

/-- lumberjack-conversion.rs:198-210 `TryFrom<&str> for OutFormat`. -/
def OutFormat.parse (s : Str) : Option OutFormat :=
  let s := lower s
  if s = "absolute".toList then some .absolute
  else if s = "conllx".toList then some .conllx
  else if s = "negra".toList then some .negra
  else if s = "ptb".toList then some .ptb
  else if s = "relative".toList then some .relative
  else if s = "simple".toList then some .simple
  else if s = "tueba".toList then some .tueba
  else none

/-- The input of the tool: the lines of a text, or the sentences the crate `conllx` reads from it
(`none` for a sentence it reports an error for). Only the component of the input format is used. -/
structure Source where
  lines : List Str
  sentences : List (Option (List Conllx.Token))

/-- An item of the PTB or NEGRA readers. -/
def fromLines (src : Source) (r : Res (Option (Except Err Tree) × List Str)) :
    Res (Option (Except Err Tree) × Source) := do
  let (item, ls) ← r
  return (item, { src with lines := ls })

/-- lumberjack-conversion.rs:228-239: the next item read from CONLLX. -/
def fromSentences (dec : List Conllx.Token → Res (Except Err Tree)) (src : Source) :
    Res (Option (Except Err Tree) × Source) :=
  match src.sentences with
  | [] => .ok (none, src)
  | none :: rest => .ok (some (.error (.parse 41)), { src with sentences := rest })
  | some s :: rest => do
    let r ← dec s
    return (some r, { src with sentences := rest })

/-- lumberjack-conversion.rs:213-246 `get_reader`: one call of `next`. -/
def next (f : InFormat) (multiline : Bool) (src : Source) : Res (Option (Except Err Tree) × Source) :=
  let lf : Ptb.LineFormat := if multiline then .multi else .single
  match f with
  | .absolute => fromSentences Conllx.tryFromAbsolute src
  | .relative => fromSentences Conllx.tryFromRelative src
  | .negra => fromLines src (Negra.readerNext src.lines)
  | .simple => fromLines src (Ptb.readerNext .simple lf src.lines)
  | .ptb => fromLines src (Ptb.readerNext .ptb lf src.lines)
  | .tueba => fromLines src (Ptb.readerNext .tueba lf src.lines)

/-- How a run of the tool ends: normally, with an error message and exit code 1, or abnormally. -/
inductive End where
  | finished
  | exited (e : Err)
  | panicked
  | diverged
deriving DecidableEq

/-- lumberjack-conversion.rs:82-87: the next POS sentence. -/
def nextPos : Option (List PosItem) → Option PosItem × Option (List PosItem)
  | none => (none, none)
  | some [] => (some (.error (.parse 40)), some [])
  | some (p :: ps) => (some p, some ps)

/-- lumberjack-conversion.rs:58-142, the body of the loop for one tree: what is written and the
state of the writer. -/
def convertTree (pick : Tree → Finset Nat → Option Nat) (o : Options) (tags : Option PosItem) (counter : Nat)
    (t : Tree) : Res (Except Err (Written × Nat)) := do
  let r ← process pick o tags t
  match r with
  | .error e => return .error e
  | .ok t' => write o.out counter t'

/-- lumberjack-conversion.rs:57-143, the loop: everything written before the end, and the end.
`fuel` bounds the number of trees; `main` provides enough. -/
def loop (f : InFormat) (multiline : Bool) (pick : Tree → Finset Nat → Option Nat) (o : Options) :
    Nat → Source → Option (List PosItem) → Nat → List Written × End
  | 0, _, _, _ => ([], .diverged)
  | fuel + 1, src, pos, counter =>
    match next f multiline src with
    | .panic => ([], .panicked)
    | .diverge => ([], .diverged)
    | .ok (none, _) => ([], .finished)
    | .ok (some (.error e), _) => ([], .exited e)
    | .ok (some (.ok t), src') =>
      match convertTree pick o (nextPos pos).1 counter t with
      | .panic => ([], .panicked)
      | .diverge => ([], .diverged)
      | .ok (.error e) => ([], .exited e)
      | .ok (.ok (w, c)) =>
        let r := loop f multiline pick o fuel src' (nextPos pos).2 c
        (w :: r.1, r.2)

/-- lumberjack-conversion.rs:20-144 `main` after the arguments are read. -/
def main (f : InFormat) (multiline : Bool) (pick : Tree → Finset Nat → Option Nat) (o : Options)
    (src : Source) (pos : Option (List PosItem)) : List Written × End :=
  loop f multiline pick o (src.lines.length + src.sentences.length + 1) src pos 0

end Convert
end Lumberjack
