import Verif.Model.Conllx
import Verif.Model.Ptb

/-!
# Machine integers in `lumberjack/src/io/encode.rs` and `lumberjack/src/io/ptb.rs`

`Model/Encode` computes offsets and counts with unbounded integers. Here the same functions are
modelled with `isize` of a 64-bit target, where a sum or difference can leave the range: a debug
build panics (overflow checks), a release build wraps around. The same for the two places where a
difference of type `usize` can be negative: the number of open brackets in `ptb.rs` and the count in
`decode`.
-/

namespace Lumberjack

/-- Whether the program was built with overflow checks. -/
inductive Build where
  | checked
  | wrapping
deriving DecidableEq

namespace Machine

/-- The value in the range of `isize` with the same 64 bits. Also `as isize` of a `usize`. -/
def wrap (i : Int) : Int := if i % 2 ^ 64 < 2 ^ 63 then i % 2 ^ 64 else i % 2 ^ 64 - 2 ^ 64

/-- The result of an operation of `isize` whose exact result is `i`. -/
def isize (b : Build) (i : Int) : Res Int :=
  if -(2 ^ 63) ≤ i ∧ i < 2 ^ 63 then .ok i
  else match b with
    | .checked => .panic
    | .wrapping => .ok (wrap i)

/-- encode.rs:466-490, the loop of `try_from_relative`. `n_common as usize` of a positive number is
the number itself. -/
def tryFromRelLoop (b : Build) : RelEncoding → Int → AbsEncoding → Res ConversionResult
  | [], _, acc => .ok (.success acc)
  | (some (.regular offset label), leaf) :: rest, prevN, acc => do
    let n ← isize b (offset + prevN)
    if n < 1 then return .error ⟨rest, prevN, leaf, label, acc⟩
    else tryFromRelLoop b rest n (acc ++ [(some ⟨n.toNat, label⟩, leaf)])
  | (some (.root label), leaf) :: rest, _, acc =>
    tryFromRelLoop b rest 1 (acc ++ [(some ⟨1, label⟩, leaf)])
  | (none, leaf) :: rest, prevN, acc => tryFromRelLoop b rest prevN (acc ++ [(none, leaf)])

/-- encode.rs:462-492 `AbsoluteEncoding::try_from_relative`. -/
def tryFromRelative (b : Build) (e : RelEncoding) : Res ConversionResult := tryFromRelLoop b e 0 []

/-- encode.rs:559-577, the loop of `fix`. -/
def fixLoop (b : Build) : RelEncoding → Int → AbsEncoding → Res AbsEncoding
  | [], _, acc => .ok acc
  | (some (.regular offset label), leaf) :: rest, prevN, acc => do
    let s ← isize b (offset + prevN)
    let n := if s < 1 then 2 else s
    fixLoop b rest n (acc ++ [(some ⟨n.toNat, label⟩, leaf)])
  | (some (.root label), leaf) :: rest, _, acc =>
    fixLoop b rest 1 (acc ++ [(some ⟨1, label⟩, leaf)])
  | (none, leaf) :: rest, prevN, acc => fixLoop b rest prevN (acc ++ [(none, leaf)])

/-- encode.rs:520-525 `ConversionResult::unwrap_or_fix` with encode.rs:555-580 `fix`. -/
def unwrapOrFix (b : Build) : ConversionResult → Res AbsEncoding
  | .success e => .ok e
  | .error e => fixLoop b e.rest 2 (e.abs ++ [(some ⟨2, e.label⟩, e.leafUnary)])

/-- encode.rs:587-600, the loop of `From<AbsoluteEncoding> for RelativeEncoding`. -/
def relFromAbsLoop (b : Build) : AbsEncoding → Int → RelEncoding → Res RelEncoding
  | [], _, acc => .ok acc
  | (some a, leaf) :: rest, prevN, acc => do
    let offset ← isize b (wrap a.common - prevN)
    relFromAbsLoop b rest (wrap a.common)
      (acc ++ [(some (if a.common = 1 then .root a.label else .regular offset a.label), leaf)])
  | (none, leaf) :: rest, prevN, acc => relFromAbsLoop b rest prevN (acc ++ [(none, leaf)])

/-- encode.rs:583-603 `From<AbsoluteEncoding> for RelativeEncoding`. -/
def relFromAbs (b : Build) (e : AbsEncoding) : Res RelEncoding := relFromAbsLoop b e 0 []

/-- conllx.rs:85-123 `try_from_conllx_with_relative_encoding`. -/
def readRelative (b : Build) (s : List Conllx.Token) : Res (Except Err Tree) :=
  match Conllx.readTokens "rel_ancestor".toList RelAncestor.parse s 0 with
  | .error e => .ok (.error e)
  | .ok (enc, tms) => do
    let r ← tryFromRelative b enc
    let abs ← unwrapOrFix b r
    Conllx.finishDecode abs tms

/-- The result of an operation of `usize` whose exact result is `i`. -/
def usize (b : Build) (i : Int) : Res Nat :=
  if 0 ≤ i ∧ i < 2 ^ 64 then .ok i.toNat
  else match b with
    | .checked => .panic
    | .wrapping => .ok (i % 2 ^ 64).toNat

/-- ptb.rs:303-321, `PTBReader::next` for `MultiLine`. -/
def nextMulti (b : Build) (f : Ptb.Format) :
    List Str → Str → Nat → Res (Option (Except Err Tree) × List Str)
  | [], _, _ => .ok (none, [])
  | line :: rest, buffer, opened =>
    if (line.head? = some '%' ∧ buffer = []) ∨ line = [] then nextMulti b f rest buffer opened
    else do
      let (lo, lc) := Ptb.countPars line
      let more ← usize b (opened + lo)
      let opened ← usize b (more - lc)
      let buffer := buffer ++ line
      if opened = 0 then do
        let r ← Ptb.stringToTree f buffer
        return (some r, rest)
      else
        nextMulti b f rest buffer opened

/-- Iterating a multi-line `PTBReader` to exhaustion, as `Ptb.readAll`. -/
def readMulti (b : Build) (f : Ptb.Format) : Nat → List Str → Res (List (Except Err Tree))
  | 0, _ => .diverge
  | fuel + 1, lines => do
    let (item, rest) ← nextMulti b f lines [] 0
    match item with
    | none => return []
    | some r => do
      let rs ← readMulti b f fuel rest
      return r :: rs

/-- encode.rs:234-309, the loop of `decode`. -/
def decodeLoop (b : Build) (nTerminals : Nat) :
    List (((Option AbsAncestor × Option Str) × Terminal) × Nat) → Tree.DecState → Res Tree.DecState
  | [], s => .ok s
  | (((ancestor, chain), terminal), idx) :: rest, s => do
    let term := match chain with
      | some c => (Node.term terminal).setFeatures
          (some ((Node.term terminal).featuresMut.insert Tree.unaryKey (some c)).1)
      | none => Node.term terminal
    let (g1, ti) := s.graph.addNode term
    match ancestor with
    | none =>
      if nTerminals = 1 then
        match g1.removeNode s.root with
        | some (g2, _) => return { s with graph := g2, root := ti }
        | none => return { s with graph := g1, root := ti }
      else do
        let cur := Tree.descend g1 s.prevN s.root
        let (g2, _) ← g1.addEdge cur ti (.primary none)
        decodeLoop b nTerminals rest { s with graph := g2 }
    | some a => do
      -- `1..n_common` is empty for a count of zero
      let (g2, cur) ← Tree.descendOrInsert idx s.prevN (a.common - 1) 1 g1 s.root
      let g3 ← Tree.setCommonLabel g2 cur a.label
      let target := match s.prev with
        | none => cur
        | some p => if a.common > s.prevN then cur else p
      let (g4, _) ← g3.addEdge target ti (.primary none)
      let k ← usize b ((a.common : Int) - 1)
      decodeLoop b nTerminals rest { s with graph := g4, prev := some cur, prevN := k }

/-- encode.rs:226-314 `Decode::decode`. -/
def decode (b : Build) (encoding : AbsEncoding) (terminals : List Terminal) : Res Tree := do
  let (g, root) := Graph.empty.addNode (.nt (NonTerminal.new Tree.dummy (Span.ofIdx 0)))
  let s ← decodeLoop b terminals.length (encoding.zip terminals).zipIdx ⟨g, root, none, 0⟩
  (⟨s.graph, terminals.length, s.root, 0⟩ : Tree).resetNtSpans

/-- conllx.rs:49-83 `try_from_conllx_with_absolute_encoding`. -/
def readAbsolute (b : Build) (s : List Conllx.Token) : Res (Except Err Tree) :=
  match Conllx.readTokens "abs_ancestor".toList AbsAncestor.parse s 0 with
  | .error e => .ok (.error e)
  | .ok (enc, tms) => do
    let t ← decode b enc tms
    let (t', r) ← t.restoreUnaryChains ['_']
    match r with
    | .ok () => return .ok t'
    | .error e => return .error e

end Machine
end Lumberjack
