import Verif.Model.Negra
import Verif.Spec.Forest

/-!
# Specification vocabulary for the NEGRA export format

A sentence of an export file is a list of rows, one per terminal and one per nonterminal other than
the root.  Every row ends in the attachment of its node: edge label, number of the parent, and
possibly label and number of a secondary parent.
-/

namespace Lumberjack
namespace Negra

/-- The attachment of a node. -/
structure Attach where
  edge : Option Str
  parent : Nat
  sec : Option (Str × Nat)
deriving DecidableEq

/-- The row of a terminal. -/
structure TermRow where
  form : Str
  lem : Option Str
  pos : Str
  morph : Option Str
  att : Attach
deriving DecidableEq

/-- The row of a nonterminal. -/
structure NtRow where
  id : Nat
  label : Str
  ann : Option Str
  att : Attach
deriving DecidableEq

/-! ## Rows as columns of text -/

/-- The columns of an attachment. -/
def Attach.columns (a : Attach) : List Str :=
  [a.edge.getD "--".toList, Tree.natToStr a.parent] ++
    match a.sec with
    | some (l, p) => [l, Tree.natToStr p]
    | none => []

/-- The columns of a terminal: form, lemma, part of speech, morphology, attachment. -/
def TermRow.columns (r : TermRow) : List Str :=
  [r.form, r.lem.getD "--".toList, r.pos, r.morph.getD "--".toList] ++ r.att.columns

/-- The columns of a nonterminal: number, no lemma, label with annotation, no morphology,
attachment. -/
def NtRow.columns (r : NtRow) : List Str :=
  ['#' :: Tree.natToStr r.id, "--".toList,
    r.label ++ (match r.ann with | some a => '=' :: a | none => []), "--".toList] ++ r.att.columns

/-- The line consists of the columns, separated by one or more spaces. -/
def Columns : Str → List Str → Prop
  | l, [] => l = []
  | l, [c] => l = c
  | l, c :: cs => ∃ k rest, l = c ++ List.replicate (k + 1) ' ' ++ rest ∧ Columns rest cs

/-- The length of a text in bytes of UTF-8. -/
def bytes (s : Str) : Nat := (s.flatMap String.utf8EncodeChar).length

/-- The columns one after the other, each but the last filled up with spaces to its width in bytes, and
followed by one space if it is too long for that. -/
def aligned : List Nat → List Str → Str
  | _, [] => []
  | _, [c] => c
  | ws, c :: cs => c ++ List.replicate (max 1 (ws.headD 0 - bytes c)) ' ' ++ aligned ws.tail cs

/-- The widths of form, lemma, part of speech, morphology, label of the edge, parent, and label of the
secondary edge. -/
def widths : List Nat := [32, 32, 16, 24, 16, 16, 16]

/-- The line that opens a sentence, with optional metadata. -/
def header (id : Str) (info : Option Str) : Str :=
  "#BOS ".toList ++ id ++ match info with
    | some m => "  ".toList ++ m
    | none => []

/-- The line that closes a sentence. -/
def footer (id : Str) : Str := "#EOS ".toList ++ id

/-! ## Rows of a tree -/

/-- The nonterminals other than the root, each once, children before parents. -/
structure BottomUp (t : Tree) (nts : List Nat) : Prop where
  nodup : nts.Nodup
  mem : ∀ n, n ∈ nts ↔ t.IsNt n ∧ n ≠ t.root
  order : ∀ i j a b : Nat, nts[i]? = some a → nts[j]? = some b → t.IsChild a b → j < i

/-- The number of a nonterminal: 0 for the root, 500 and upwards for the others. -/
def num (t : Tree) (nts : List Nat) (n : Nat) : Nat := if n = t.root then 0 else 500 + nts.idxOf n

/-- `a` is the attachment of node `n`: the label of its edge, its parent, and the secondary parent that
`secondary_parent` gives if there is any. -/
def IsAttach (t : Tree) (num : Nat → Nat) (n : Nat) (a : Attach) : Prop :=
  (∃ p, t.IsChild p n ∧ a.parent = num p) ∧ a.edge = t.inLabel n ∧
    ((a.sec = none ∧ ∀ r ∈ t.graph.edges, r.tgt = n → r.w.isPrimary = true) ∨
      ∃ r ∈ t.graph.edges, r.tgt = n ∧ r.w.isPrimary = false ∧ t.secondaryParent n = some (r.src, r.id) ∧
        a.sec = some (r.w.label.getD "--".toList, num r.src))

/-- The value stored under a key, if there is one. -/
def featOf (f : Option Features) (k : Str) : Option Str := (f.bind fun f => f.getVal k).bind id

/-- `r` is the row of terminal `n`. -/
def IsTermRow (t : Tree) (num : Nat → Nat) (n : Nat) (r : TermRow) : Prop :=
  ∃ x, t.graph.node? n = some (.term x) ∧ r.form = x.form ∧ r.lem = x.lem ∧ r.pos = x.pos ∧
    r.morph = featOf x.features "morph".toList ∧ IsAttach t num n r.att

/-- `r` is the row of nonterminal `n`. -/
def IsNtRow (t : Tree) (num : Nat → Nat) (n : Nat) (r : NtRow) : Prop :=
  ∃ x, t.graph.node? n = some (.nt x) ∧ r.id = num n ∧ r.label = x.label ∧
    r.ann = featOf x.features "node_annotation".toList ∧ IsAttach t num n r.att

/-- The terminals of the tree from left to right. -/
def Leaves (t : Tree) (ns : List Nat) : Prop :=
  ns.length = t.nTerminals ∧ ∀ i n, ns[i]? = some n → t.TermAt n i

/-- The features of the root. -/
def rootFeatures (t : Tree) : Option Features := (t.graph.node? t.root).bind Node.features

/-! ## Reading rows -/

/-- `--` stands for a missing value. -/
def undash (s : Str) : Option Str := if s = "--".toList then none else some s

/-- The optional secondary edge after the attachment: nothing, a comment starting with `%`, or a label
followed by a number. -/
def readSec : List Str → Option (Option (Str × Nat))
  | [] => some none
  | [l] => if ['%'].isPrefixOf l then some none else none
  | l :: p :: _ => if ['%'].isPrefixOf l then some none else (parseUsize p).map fun k => some (l, k)

/-- An attachment from its columns. -/
def Attach.read : List Str → Option Attach
  | e :: p :: more => do
    let p ← parseUsize p
    let s ← readSec more
    some ⟨undash e, p, s⟩
  | _ => none

/-- A terminal from the columns of its line. -/
def TermRow.read : List Str → Option TermRow
  | form :: lem :: pos :: morph :: more =>
    (Attach.read more).map fun a => ⟨form, undash lem, pos, undash morph, a⟩
  | _ => none

/-- A nonterminal from the columns of its line. The label extends to the first `=`, the annotation from
there to the second. -/
def NtRow.read : List Str → Option NtRow
  | first :: _ :: label :: _ :: more => do
    let id ← parseUsize (first.drop 1)
    let a ← Attach.read more
    some ⟨id, (splitOn '=' label).headD [], (splitOn '=' label)[1]?, a⟩
  | _ => none

/-- The terminal described by a row. -/
def TermRow.terminal (r : TermRow) (i : Nat) : Terminal where
  form := r.form
  pos := r.pos
  lem := r.lem
  features := r.morph.map fun m => ⟨[("morph".toList, some m)]⟩
  span := Span.ofIdx i

/-- The nonterminal described by a row. -/
def NtRow.nonterminal (r : NtRow) (s : Span) : NonTerminal where
  label := r.label
  features := r.ann.map fun a => ⟨[("node_annotation".toList, some a)]⟩
  span := s

/-- A line that opens or closes a sentence. -/
def IsFrame (raw : Str) : Prop := startsWith bos (trim raw) = true ∨ startsWith eos (trim raw) = true

/-- `raw` opens a sentence with the given number and metadata. -/
def Opens (raw : Str) (id : Nat) (info : Option Str) : Prop :=
  startsWith bos (trim raw) = true ∧ ∃ w n m, splitn3 (trim raw) = w :: n :: m ∧ parseUsize n = some id ∧
    info = m.head?.map trim

/-- `raw` closes sentence `id`. -/
def Closes (raw : Str) (id : Nat) : Prop :=
  startsWith eos (trim raw) = true ∧ (splitWs (trim raw))[1]? = some (Tree.natToStr id)

/-- `raw` is the line of a terminal. -/
def IsTermLine (raw : Str) (r : TermRow) : Prop :=
  ['#'].isPrefixOf (trim raw) = false ∧ TermRow.read (splitWs (trim raw)) = some r

/-- `raw` is the line of a nonterminal. -/
def IsNtLine (raw : Str) (r : NtRow) : Prop :=
  ¬ IsFrame raw ∧ ['#'].isPrefixOf (trim raw) = true ∧ NtRow.read (splitWs (trim raw)) = some r

/-- The features of the root of a tree that has been read. -/
def headFeatures (id : Nat) (info : Option Str) : Features :=
  ⟨(match info with | some m => [("metadata".toList, some m)] | none => []) ++
    [("sentence_id".toList, some (Tree.natToStr id))]⟩

/-- The lines are those of terminals followed by those of nonterminals. -/
def Rows (ls : List Str) (T : List TermRow) (N : List NtRow) : Prop :=
  ∃ tl nl, ls = tl ++ nl ∧ List.Forall₂ IsTermLine tl T ∧ List.Forall₂ IsNtLine nl N

/-- The numbers named as parents. -/
def parents (T : List TermRow) (N : List NtRow) : List Nat := T.map (·.att.parent) ++ N.map (·.att.parent)

/-- The numbers named as secondary parents. -/
def secParents (T : List TermRow) (N : List NtRow) : List Nat :=
  (T.filterMap fun r => r.att.sec.map (·.2)) ++ N.filterMap fun r => r.att.sec.map (·.2)

/-- The rows can be processed one after the other: there is a terminal before the first nonterminal, and
every nonterminal has been named as a parent before (the root may also name itself). -/
def Processable (T : List TermRow) (N : List NtRow) : Prop :=
  (T = [] → N = []) ∧ ∀ pre r post, N = pre ++ r :: post →
    r.id ∈ parents T pre ∨ (r.id = 0 ∧ r.att.parent = 0)

/-- There are as many nonterminals as numbers named as parents, not counting 0. -/
def Complete (T : List TermRow) (N : List NtRow) : Prop :=
  N.length + 1 = (insert 0 (parents T N).toFinset).card

/-- Every secondary parent is 0 or named as a parent. -/
def SecKnown (T : List TermRow) (N : List NtRow) : Prop :=
  ∀ k ∈ secParents T N, k = 0 ∨ k ∈ parents T N

/-- No line comes after that of the parent, and no node is its own parent. -/
def ChildrenFirst (N : List NtRow) : Prop :=
  ∀ pre r post, N = pre ++ r :: post → r.att.parent ∉ (pre ++ [r]).map (·.id)

/-- Every nonterminal has one line, the root has none. -/
def OwnNumbers (N : List NtRow) : Prop := (N.map (·.id)).Nodup ∧ 0 ∉ N.map (·.id)

/-- The edges of node `n` according to its row; `ν k` is the node of number `k`. -/
def Attach.edges (a : Attach) (ν : Nat → Nat) (n : Nat) : List (Nat × Nat × Edge) :=
  (ν a.parent, n, .primary a.edge) ::
    match a.sec with
    | some (l, k) => [(ν k, n, .secondary (some l))]
    | none => []

/-- The edges of all nodes according to the rows; `τ i` is the terminal at position `i`. -/
def rowEdges (T : List TermRow) (N : List NtRow) (τ ν : Nat → Nat) : List (Nat × Nat × Edge) :=
  (T.zipIdx.flatMap fun p => p.1.att.edges ν (τ p.2)) ++ N.flatMap fun r => r.att.edges ν (ν r.id)

/-- `t` is what the rows say: it has the terminals, the nonterminals (whatever their spans) and the edges of
the rows and a root, and nothing else. -/
structure Described (id : Nat) (info : Option Str) (T : List TermRow) (N : List NtRow) (t : Tree)
    (τ ν : Nat → Nat) : Prop where
  root : t.root = ν 0
  root_node : t.graph.node? (ν 0) = some (.nt ⟨vroot, some (headFeatures id info), ⟨0, T.length, none⟩⟩)
  terms : ∀ (i : Nat) r, T[i]? = some r → t.graph.node? (τ i) = some (.term (r.terminal i))
  nts : ∀ r ∈ N, ∃ s, t.graph.node? (ν r.id) = some (.nt (r.nonterminal s))
  distinct : ∀ j ∈ 0 :: N.map (·.id), ∀ k ∈ 0 :: N.map (·.id), ν j = ν k → j = k
  all : ∀ n, t.Live n → (∃ i < T.length, n = τ i) ∨ ∃ k ∈ 0 :: N.map (·.id), n = ν k
  edges : (t.graph.edges.map fun e => (e.src, e.tgt, e.w)).Perm (rowEdges T N τ ν)
  nTerminals : t.nTerminals = T.length
  order : ∀ i j, i < j → j < T.length → τ i < τ j

end Negra
end Lumberjack
