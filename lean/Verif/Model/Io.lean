import Verif.Model.Convert

/-!
# Input and output that can fail

The other files model readers on lines that have been read and writers that write to memory. Here the lines come from
bytes, each line can be an error, and the output can be full.
-/

namespace Lumberjack

abbrev Bytes := List UInt8

namespace Io

/-- The bytes of a Rust `str`. -/
def encode (s : Str) : Bytes := s.flatMap String.utf8EncodeChar

/-- Rust `String::from_utf8`. -/
def decode (b : Bytes) : Except Err Str :=
  match b.toByteArray.utf8Decode? with
  | some s => .ok s.toList
  | none => .error (.parse 42)

/-- Rust `BufRead::lines` (negra.rs:32, ptb.rs:333) on bytes that are all read without an error of the device; `cur` are
the bytes of the current line. A line that is not UTF-8 is an error, and reading goes on after it. The line feed is
taken off before decoding, not after: its byte occurs in no other character. -/
def byteLinesFrom (cur : Bytes) : Bytes → List (Except Err Str)
  | [] => if cur = [] then [] else [decode cur]
  | b :: bs =>
    if b = 10 then (decode cur).map Negra.stripCr :: byteLinesFrom [] bs
    else byteLinesFrom (cur ++ [b]) bs

def byteLines (b : Bytes) : List (Except Err Str) := byteLinesFrom [] b

/-- The texts given to `write!` and `writeln!` before a function ends, and how it ends. -/
structure Calls (α : Type) where
  texts : List Str
  res : Res α

namespace Calls

def ret {α : Type} (a : α) : Calls α := ⟨[], .ok a⟩

/-- Work that writes nothing. -/
def lift {α : Type} (r : Res α) : Calls α := ⟨[], r⟩

/-- `write!` -/
def put (s : Str) : Calls Unit := ⟨[s], .ok ()⟩

def andThen {α β : Type} (x : Calls α) (f : α → Calls β) : Calls β :=
  match x.res with
  | .ok a => ⟨x.texts ++ (f a).texts, (f a).res⟩
  | .panic => ⟨x.texts, .panic⟩
  | .diverge => ⟨x.texts, .diverge⟩

instance : Monad Calls where
  pure := ret
  bind := andThen

end Calls

end Io

namespace Negra

open Io

/-- negra.rs:43-75 `NegraReader::next` on lines that can be errors; arguments as for `nextFrom`. -/
def nextFromIo : List (Except Err Str) → Option Builder → Res (Option (Except Err Tree) × List (Except Err Str))
  | [], _ => .ok (none, [])
  | .error e :: rest, _ => .ok (some (.error e), rest)
  | .ok raw :: rest, cur =>
    let line := trim raw
    if startsWith bos line then
      match cur with
      | some _ => .ok (some (.error (.parse 27)), rest)
      | none => do
        let r ← fromHeader line
        match r with
        | .ok b => nextFromIo rest (some b)
        | .error e => return (some (.error e), rest)
    else if startsWith eos line then
      match cur with
      | some b => do
        let r ← tryIntoTree b line
        return (some r, rest)
      | none => .ok (some (.error (.parse 28)), rest)
    else
      match cur with
      | some b => do
        let r ← processLine b line
        match r with
        | .ok b' => nextFromIo rest (some b')
        | .error e => return (some (.error e), rest)
      | none => nextFromIo rest none

def readerNextIo (ls : List (Except Err Str)) : Res (Option (Except Err Tree) × List (Except Err Str)) :=
  nextFromIo ls none

/-- negra.rs:468-476: the lines of the terminals. -/
def terminalCalls (t : Tree) (ids : List (Nat × Str)) : List Nat → Calls Unit
  | [] => pure ()
  | n :: ns => do
    let nd ← .lift (t.node n)
    let tm ← .lift (Res.ofOption nd.terminal)
    .put (terminalRep tm)
    let e ← .lift (parentEdgeRep t ids n)
    .put (e ++ ['\n'])
    terminalCalls t ids ns

/-- negra.rs:478-491: the lines of the nonterminals. -/
def nonterminalCalls (t : Tree) (ids : List (Nat × Str)) : List Nat → Calls Unit
  | [] => pure ()
  | n :: ns => do
    let id ← .lift (Res.ofOption (lookupId ids n))
    let nd ← .lift (t.node n)
    let nt ← .lift (Res.ofOption nd.nonterminal)
    .put (nonterminalRep id nt)
    let e ← .lift (parentEdgeRep t ids n)
    .put (e ++ ['\n'])
    nonterminalCalls t ids ns

/-- negra.rs:414-496 `write_tree`: what is written, also if there is a panic, and the new counter. -/
def writeCalls (counter : Nat) (t : Tree) : Calls Nat := do
  let (id, counter') ← .lift (sentenceId t counter)
  let rn ← .lift (t.node t.root)
  match rn.featVal metadataKey with
  | some m => .put (bos ++ [' '] ++ id ++ [' ', ' '] ++ m ++ ['\n'])
  | none => .put (bos ++ [' '] ++ id ++ ['\n'])
  let terminals := t.sortIndices t.terminals
  let s ← .lift (number t terminals)
  terminalCalls t s.ids terminals
  nonterminalCalls t s.ids s.nts
  .put (eos ++ [' '] ++ id ++ ['\n', '\n'])
  return counter'

end Negra

namespace Ptb

/-- ptb.rs:291-302, `PTBReader::next` for `SingleLine`, on lines that can be errors. -/
def nextSingleIo (f : Format) : List (Except Err Str) → Res (Option (Except Err Tree) × List (Except Err Str))
  | [] => .ok (none, [])
  | .error e :: rest => .ok (some (.error e), rest)
  | .ok line :: rest =>
    if line.head? = some '%' then nextSingleIo f rest
    else do
      let r ← stringToTree f line
      return (some r, rest)

/-- ptb.rs:303-321, `PTBReader::next` for `MultiLine`, on lines that can be errors. -/
def nextMultiIo (f : Format) : List (Except Err Str) → Str → Nat → Res (Option (Except Err Tree) × List (Except Err Str))
  | [], _, _ => .ok (none, [])
  | .error e :: rest, _, _ => .ok (some (.error e), rest)
  | .ok line :: rest, buffer, opened =>
    if (line.head? = some '%' ∧ buffer = []) ∨ line = [] then nextMultiIo f rest buffer opened
    else do
      let (lo, lc) := countPars line
      let opened ← Res.sub (opened + lo) lc
      let buffer := buffer ++ line
      if opened = 0 then do
        let r ← stringToTree f buffer
        return (some r, rest)
      else
        nextMultiIo f rest buffer opened

/-- ptb.rs:289-323 `PTBReader::next` on lines that can be errors. -/
def readerNextIo (f : Format) (lf : LineFormat) (ls : List (Except Err Str)) :
    Res (Option (Except Err Tree) × List (Except Err Str)) :=
  match lf with
  | .single => nextSingleIo f ls
  | .multi => nextMultiIo f ls [] 0

end Ptb

namespace Convert

open Io

/-- The input of the tool, in which each line can be an error. -/
structure Input where
  lines : List (Except Err Str)
  sentences : List (Option (List Conllx.Token))

/-- An item of the PTB or NEGRA readers. -/
def fromLinesIo (inp : Input) (r : Res (Option (Except Err Tree) × List (Except Err Str))) :
    Res (Option (Except Err Tree) × Input) := do
  let (item, ls) ← r
  return (item, { inp with lines := ls })

/-- lumberjack-conversion.rs:228-239: the next item read from CONLLX; errors of the device are errors of the crate
`conllx`. -/
def fromSentencesIo (dec : List Conllx.Token → Res (Except Err Tree)) (inp : Input) :
    Res (Option (Except Err Tree) × Input) :=
  match inp.sentences with
  | [] => .ok (none, inp)
  | none :: rest => .ok (some (.error (.parse 41)), { inp with sentences := rest })
  | some s :: rest => do
    let r ← dec s
    return (some r, { inp with sentences := rest })

/-- lumberjack-conversion.rs:213-246 `get_reader`: one call of `next`. -/
def nextIo (f : InFormat) (multiline : Bool) (inp : Input) : Res (Option (Except Err Tree) × Input) :=
  let lf : Ptb.LineFormat := if multiline then .multi else .single
  match f with
  | .absolute => fromSentencesIo Conllx.tryFromAbsolute inp
  | .relative => fromSentencesIo Conllx.tryFromRelative inp
  | .negra => fromLinesIo inp (Negra.readerNextIo inp.lines)
  | .simple => fromLinesIo inp (Ptb.readerNextIo .simple lf inp.lines)
  | .ptb => fromLinesIo inp (Ptb.readerNextIo .ptb lf inp.lines)
  | .tueba => fromLinesIo inp (Ptb.readerNextIo .tueba lf inp.lines)

/-- lumberjack-conversion.rs:248-260 `get_writer` and the writers' `write_tree`: the texts written. `render` is what the
crate `conllx` writes for a sentence. -/
def writeIo (render : List Conllx.Token → Str) (out : OutFormat) (counter : Nat) (t : Tree) : Calls (Except Err Nat) :=
  let viaPtb (f : Ptb.Format) : Calls (Except Err Nat) := do
    let r ← .lift (Ptb.treeToString f t)
    match r with
    | .ok s => .put (s ++ ['\n']); return .ok counter
    | .error e => return .error e
  match out with
  | .absolute | .conllx | .relative => do
    let s ← .lift (Conllx.toConllx t)
    .put (render s)
    return .ok counter
  | .negra => do
    let c ← Negra.writeCalls counter t
    return .ok c
  | .ptb => viaPtb .ptb
  | .simple => viaPtb .simple
  | .tueba => viaPtb .tueba

/-- Writing texts to an output that takes `room` more bytes (`none`: any number): the bytes that get there, and the room
left, or `none` if there was an error. Rust `write_all` writes what it can before it returns an error. No buffer
is modelled: `main` uses none. -/
def put (room : Option Nat) : List Str → Bytes × Option (Option Nat)
  | [] => ([], some room)
  | s :: ss =>
    match room with
    | none =>
      let r := put none ss
      (encode s ++ r.1, r.2)
    | some n =>
      if (encode s).length ≤ n then
        let r := put (some (n - (encode s).length)) ss
        (encode s ++ r.1, r.2)
      else ((encode s).take n, none)

/-- lumberjack-conversion.rs:57-143, the loop: the bytes that get to the output before the end, and the end. -/
def loopIo (render : List Conllx.Token → Str) (f : InFormat) (multiline : Bool)
    (pick : Tree → Finset Nat → Option Nat) (o : Options) :
    Nat → Input → Option (List PosItem) → Nat → Option Nat → Bytes × End
  | 0, _, _, _, _ => ([], .diverged)
  | fuel + 1, inp, pos, counter, room =>
    match nextIo f multiline inp with
    | .panic => ([], .panicked)
    | .diverge => ([], .diverged)
    | .ok (none, _) => ([], .finished)
    | .ok (some (.error e), _) => ([], .exited e)
    | .ok (some (.ok t), inp') =>
      match process pick o (nextPos pos).1 t with
      | .panic => ([], .panicked)
      | .diverge => ([], .diverged)
      | .ok (.error e) => ([], .exited e)
      | .ok (.ok t') =>
        let w := writeIo render o.out counter t'
        match put room w.texts with
        | (b, none) => (b, .exited (.parse 43))
        | (b, some room') =>
          match w.res with
          | .panic => (b, .panicked)
          | .diverge => (b, .diverged)
          | .ok (.error e) => (b, .exited e)
          | .ok (.ok c) =>
            let r := loopIo render f multiline pick o fuel inp' (nextPos pos).2 c room'
            (b ++ r.1, r.2)

/-- lumberjack-conversion.rs:20-144 `main` after the arguments are read, with an output that takes `room` bytes. -/
def mainIo (render : List Conllx.Token → Str) (f : InFormat) (multiline : Bool)
    (pick : Tree → Finset Nat → Option Nat) (o : Options) (inp : Input) (pos : Option (List PosItem))
    (room : Option Nat) : Bytes × End :=
  loopIo render f multiline pick o (inp.lines.length + inp.sentences.length + 1) inp pos 0 room

end Convert
end Lumberjack
