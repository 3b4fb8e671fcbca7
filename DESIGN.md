# A machine-checked model of lumberjack

## 1. Trusted base

* Lean 4.33.0's kernel. Theorems depend on at most `propext`, `Classical.choice` and `Quot.sound`
  (Section 7 lists the axioms of each theorem). No axioms are added; there is no `sorry`, no
  `native_decide`, no `bv_decide`. Counterexamples and examples on concrete values are closed by
  `decide +kernel`, which the kernel evaluates itself.
* The reading of the Rust source that the model (`lean/Verif/Model/`) embodies. Every definition
  cites the file and lines it models and states its simplifications. The model was written by hand
  and nothing proves that it agrees with the Rust code, which could not be built here. It is tested:
  the repository's own tests hold of the model (`lean/Verif/Validation/`, Section 4).
* The assumed behaviour of code outside /repo (Section 3).
* The specification vocabulary in `lean/Verif/Spec/` and the theorem statements in
  `lean/Verif/Props/`: whether they say what `properties.jsonl` says is for a reader to judge.

## 2. What is modelled

| model module | code |
|---|---|
| `Model/Base` | outcomes: normal return, panic, divergence; `for`, `while` and `?` |
| `Model/Span` | `lumberjack/src/span.rs`, all of it |
| `Model/Features` | `lumberjack/src/features.rs`, `str::split`, `join` |
| `Model/Node` | `lumberjack/src/node.rs`, `lumberjack/src/edge.rs` |
| `Model/Graph` | `petgraph::StableGraph`, `Dfs`, `DfsPostOrder` (assumed behaviour), `GraphWrap` |
| `Model/Tree` | `lumberjack/src/tree.rs`, `Climber` of `lumberjack/src/util.rs` |
| `Model/TreeMod` | `lumberjack/src/tree_modification.rs` |
| `Model/Encode` | `lumberjack/src/io/encode.rs` |
| `Model/Ptb`, `Model/Pest` | `lumberjack/src/io/ptb.rs`, `ptb.pest` |
| `Model/Negra` | `lumberjack/src/io/negra.rs`, the text functions of `std` it uses |
| `Model/Conllx` | `lumberjack/src/io/conllx.rs` |
| `Model/Machine` | the conversions between encodings and `decode` of `encode.rs` and the multi-line reader of `ptb.rs` again, with 64-bit integers, in debug and release builds |
| `Model/MachineSpan` | `span.rs` again, with 64-bit integers, in debug and release builds |
| `Model/Io` | the readers, writers and `main` again, with lines that cannot be read, the bytes written before a panic, and an output that is full |
| `Model/Convert`, `Model/Cli` | `lumberjack-utils/src/bin/lumberjack-conversion.rs`, all of it (the command line as the options that occur on it), `LabelSet` |

Conventions:

* A call returns `Res α`: `ok a`, `panic` or `diverge`. `usize` underflow is `panic` (debug build
  semantics; in a release build the subtraction would wrap, see C72 and C78; elsewhere the theorems show that
  no subtraction underflows on well-formed trees). Loops run on an iteration budget;
  running out of it is `diverge`. Where a theorem says a call returns `ok`, it in particular
  terminates without panicking. Where a theorem says a call diverges (C25, C57) it says so for every
  budget.
* `fn f(&mut self) -> Result<T, Error>` is `Tree → Res (Tree × Except Err T)`, so that the tree left
  behind by a failing call is visible.
* `String` is `List Char`; `HashSet<usize>` is `Finset Nat`; `BTreeMap` is its sorted entry list
  (C07 proves that the order of characters used there is the order of bytes that Rust uses).
* The only place where hash iteration order reaches the result is `projectivize`
  (`skips.iter().next()`); the model takes an arbitrary choice function as a parameter, which may
  even answer differently for equal sets (it is also given the current tree).
* `Vec::sort_by` is a stable sort; modelled by insertion sort.
* Closures given to the library are functions of the current tree and a node. Theorems say what
  they may look at (`NodeLocal`, `TermLocal`, `NodeFn`, `IgnoresTermFeatures`).

Not modelled: `Debug` formatting, error message texts, memory and stack
exhaustion, integer overflow except where numbers are parsed, in the conversions between the two
kinds of encodings, in decoding and in counting brackets and in spans (`Model/Machine`, `Model/MachineSpan`, C72, C78, C94; everything else about encodings is about unbounded integers), the text form of CONLLX (crate `conllx`: the model of
the tool starts and ends at sentences), splitting the command line into options and help texts (crate `clap`), the benches.
I/O errors are modelled in `Model/Io` only (C70, C71, part of C68); everything else is about lines that could be
read and output that could be written, and C70 and C71 relate the two.

## 3. Assumptions about code outside /repo

* petgraph 0.4.13: see the header of `Model/Graph`. Node and edge slots are reused last freed first;
  adjacency lists are newest first. Its limit of 2^32 - 1 nodes and edges is not modelled.
* pest 2: the semantics of parsing expressions (ordered choice, greedy repetition, lookahead, implicit
  white space, atomic and silent rules), written down in `Model/Pest` with the rules of `ptb.pest`.
  The parser used everywhere else is a tokenizer and a recursive descent (`Model/Ptb`); C63 proves that
  it agrees with the grammar file on every text, and C45 relates it to a declarative grammar
  (`Bracketed.Reads`).
* conllx: see the header of `Model/Conllx`. A `Sentence` is a list of tokens; a feature string is
  split at `|` and `:`, the last entry for a key winning.
* stdinout: the writer it gives to `main` keeps nothing back, i.e. bytes handed to `write!` are in the
  output when the tool exits (`process::exit` runs no destructors).
* Rust's standard library: UTF-8 (that of core Lean), `split`, `splitn`, `split_whitespace`, `trim`, `parse`, `lines`, `sort_by`.

## 4. Layers

* `Spec/` holds the vocabulary in which properties are stated, independent of the helper functions
  of the model. Its anchors: the index set of a span (`Span.indices`), the child relation and
  dominance (`IsChild`, `Dom`: reflexive-transitive closure), `WF` (well-formed tree), `Forest` (the
  ordered labelled tree a graph stands for, `Tree.Is`), `Brackets`/`Reads` (the grammar of bracketed
  text), `TermRow`/`NtRow` (the rows of the export format), `Run`/`Stream` (a run of the tool).
* `Proofs/` holds lemmas. `Props/` holds the property theorems and, beside each, an example meeting
  its hypotheses, and where a documented property is false of the code, a theorem exhibiting that.

| spec module | vocabulary | used by |
|---|---|---|
| `Span`, `Features` | index set, validity, gaps; sortedness, buildable values | C01–C08 |
| `Tree` | dominance, well-formedness, contents, edge labels | all tree properties |
| `History` | public operations as data, sound calls, histories | C09, C53, C58 |
| `Remove`, `Annotate`, `Projectivize`, `Gather`, `Runs`, `Undo` | effects of the modification traits | C24–C30, C22, C23, C40, C83, C84 |
| `Forest`, `Chains` | ordered trees, collapsing and restoring chains | C21, C26, C27, C32 ff. |
| `Ancestor`, `Encoding`, `Decode` | lowest common ancestors, running counts, decoding with a stack | C31–C38 |
| `Bracket`, `Grown` | grammar, escaping, groups of lines, PTB text read and written again | C41–C47 |
| `Negra`, `NegraTrip` | rows, frames, copies | C48–C51 |
| `Conllx`, `ConllxRead` | tokens, tags | C39, C52, C59 |
| `Convert`, `ConvertRun` | steps and runs of the tool | C57 |
| `Rewrite` | the editing steps as functions on ordered trees | C90 |
| `TextWords` | the words of a text | C89 |
| `Sort` | sort key of nodes | C55 |
| `Examples` | concrete trees | non-vacuity |

* `Validation/` holds tests of the model, not proofs, and no theorem uses it. `UnitTests` and
  `FormatTests` are the `#[test]` functions of /repo with their assertions, evaluated by the kernel
  on the model when the project is built. `Corpus` is a program that runs the tests of /repo over its
  data files (500 sentences in both formats, six round trips) on the model:
  `lake env lean --run Verif/Validation/Corpus.lean /repo/lumberjack/testdata` in `lean/`. It reports
  no departures from what the tests expect.

## 5. Plan per property

* C01 (Iterating a span yields exactly its indices): `Span` with its iterator; the collected list is
  characterised through `contains` by induction on the remaining interval.
* C02 (covers_span is set inclusion): `covers_span` against inclusion of index sets, for valid
  spans.
* C03 (from_vec builds the span of a set of indices): `from_vec` (sort, dedup, gap scan): loop
  invariant of the gap scan; independence of order from the sorted, duplicate-free list.
* C04 (merge_spans is set union): `merge_spans` against union of index sets; algebraic laws follow
  from the set characterisation.
* C05 (remove_indices is set difference): `remove_indices` with its three shrinking loops; exact
  panic condition and set difference.
* C06 (The order on spans): `Ord` of spans as a lexicographic comparison; laws by case analysis.
* C07 (Features behave as a finite map): `BTreeMap` as sorted entry list; finite-map laws by
  induction on it.
* C08 (Features print/parse round trip): printing and splitting at `|` and `:`; split/join lemmas by
  induction on the text.
* C09 (Well-formedness of trees is an invariant of every operation history): all public tree
  operations as data (`Spec/History.Op`); one preservation lemma per operation with an exact
  soundness condition, then induction on the history.
* C10 (is_projective means no gap): the counter of discontinuous nodes against the dominated
  positions, from `WF`.
* C11 (Removing a nonterminal): `remove_node` on nonterminals: re-adding children edge by edge;
  effect stated on contents, spans, dominance.
* C12 (Removing a terminal): `remove_node` on terminals as the code does it, including the misplaced
  renumbering.
* C13 (Err means unchanged): all four operations returning `Err`, by following each early exit.
* C14 (Reattaching a node): `reattach_node`: detaching and attaching spans along two climbing loops;
  exact condition for well-formedness.
* C15 (Moving a terminal): `move_terminal`: the shifting loop and `reset_nt_spans` (depth-first
  post-order recomputation).
* C16 (Inserting a terminal): `insert_terminal`, `push_terminal`; same method.
* C17 (Inserting unary nodes): `insert_unary_above/below`; exact condition for well-formedness.
* C18 (Siblings): `siblings`, `are_siblings` against the child relation.
* C19 (descendent_terminals): depth-first iterator over primary edges; invariant on stack and
  visited set.
* C20 (Climber): `Climber` as a loop along parents; terminates since dominance is well founded on
  well-formed trees.
* C21 (Tree equality): `subtree_eq` recursion against equality of `Forest`s read off the graphs.
* C22 (projectivize terminates and removes every gap): loop invariant over a depth-first traversal
  of a graph under mutation; measure: positions not covered by the attachment point. Any choice
  function for the hash set.
* C23 (projectivize changes only attachments): the log of moves as a sequence of `Lowered` steps
  (`Moves`), by the same induction.
* C24 (filter_nonterminals): loop over the nonterminals, each a `remove_node`; accumulated effect
  `Removed`.
* C25 (reattach_terminals): the outer loop with the detaching `while` loop; between turns the stored
  spans may contain too much (`Loose`), the final `reset_nt_spans` puts them right; effect
  `Gathered`; divergence for every budget by showing the loop state recurs.
* C26 (collapse_unary_chains): the climbing loops; the resulting `Forest` is `collapse` of the
  original one.
* C27 (restore_unary_chains inverts collapse_unary_chains): `restore` on forests inverts `collapse`;
  both loops refined to the forest functions.
* C28 (insert_intermediate): runs of adjacent terminal children (`Run`); loop invariant over
  terminals and the inner loop.
* C29 (annotate_pos): loop over terminals in index order.
* C30 (Projection of ancestors onto terminals): loops over terminals with a climber; `Closest`
  matching ancestor.
* C31 (The absolute encoding is the lowest common ancestor encoding): `get_common` against
  `LowestCommon`; loop over sorted terminals.
* C32 (Decoding inverts encoding): the encoding of a forest, decoding as a stack machine on forests,
  and the refinement of the graph-building loop to it (right spine invariant).
* C33 (Decoding is total on positive encodings): same refinement, for arbitrary positive encodings;
  spans by the post-order recomputation.
* C34 (Absolute to relative and back): induction over the entries.
* C35 (Relative to absolute conversion and its repair): running sums by induction; `fix` with
  restarted sum.
* C36 (encode_relative agrees with encode_absolute): the two encoding loops side by side.
* C37 (Ancestor labels as text): decimal printing and parsing; splitting at `+`.
* C38 (Annotated labels equal the encoding): annotation loops against the encoding computed
  beforehand (features do not influence ancestors).
* C39 (CONLLX round trip through tag sequences): composition of C26, C38, C52, C59 and C32 with the
  text form of tags.
* C40 (remove_dummy_nodes): `filter_nonterminals` plus the root case.
* C41 (Bracketed round trip, simple format): printing a forest as `Brackets`, the grammar, and
  building the graph from them.
* C42 (Bracketed round trip, TueBa format): as C41 with edge labels and annotations.
* C43 (Bracketed round trip, PTB format): as C41; the general statement says what is read back for
  every format.
* C44 (Bracketed writing is total): recursion of the printer on well-formed trees.
* C45 (Bracketed parsing): the parser against the declarative grammar, both directions; the built
  graph by induction on the bracketing.
* C46 (Re-printing is stable): C45 and C43 composed; for the PTB format the effect of one round is a
  function on bracketings (`Spec/Grown`), and text with an empty tag has an opening bracket, a word
  and a closing bracket in a row, which no bracketing has.
* C47 (PTBReader): the reader's loops against groups of lines.
* C48 (NEGRA round trip): written lines are the rows of the tree (C51), rows read back describe a
  copy (C50).
* C49 (NegraReader framing): the reader as a fold over lines; each fault in turn.
* C50 (NegraReader spans): rows against the graph built (`Described`); spans by induction on the
  order of rows.
* C51 (NegraWriter numbering): work-list invariant for the numbering; columns of the lines.
* C52 (Conversion to CONLLX): both conversions over sorted terminals.
* C53 (Stable indices): node table of each operation.
* C54 (Secondary edges do not affect the tree): primary child relation under changes of secondary
  edges.
* C55 (Sentence order): the comparison function as a lexicographic key; stable insertion sort.
* C56 (LabelSet): membership.
* C57 (The conversion tool): `main`'s loop as a relation `Run` over the items of a `Stream`; each
  step by the theorem of its operation; totality and uniqueness of both.
* C58 (The words of a sentence survive structural editing): contents of terminals under each
  operation; histories by induction.
* C59 (Reading tagged sentences): reading of tags, then C33 and C27 on the result.
* C60 (Projectivization does not depend on hash order): the moves made for one node are determined
  by the tree: every branch moved by one order is moved by the other (induction on one run, absence
  of gaps after the other); both traversals run in step because undiscovered nodes keep their edges.
* C61 (Runs of the conversion tool do not depend on hash order): congruence of every step and writer
  for trees that agree up to edge indices and the order of edges (`Twin`), on top of C60; then
  induction over the items of a run.
* C62 (Output is stable under conversion): trees read from NEGRA rows are exportable (fields of a
  line, metadata of a header); a `Copy` is written as the same text (numbering and columns are
  preserved by the identification of nodes); for brackets C46 and the fact that every written line
  is a balanced group; for PTB what a round does to a bracketing (C46).
* C63 (The parser follows the grammar file): a big-step semantics of parsing expressions with the
  rules of ptb.pest; determinism by induction on derivations; the tokenizer and the recursive
  descent of the model simulate it (induction on the recursion bound).
* C64 (The command line): options as a record of what is on the command line, with the defaults and
  checks declared in `build`; the words of a file by induction on the text.
* C65 (Histories of all calls): for each operation the result for an arbitrary closure (loop
  invariants: well formed, words and tags kept), then induction over the history.
* C66 (Trees survive as tags): the encoding depends only on the skeleton (induction on the forest),
  so decoding gives the skeleton (C32-C39); the file level by induction over the items read.
* C67 (Tag files are interchangeable and stable): the tags depend only on the skeleton and the
  words; an invariant of the decoding stack bounds the characters and features of what is read from
  tags.
* C68 (Input in parts and files that were cut): each call of `next` depends only on the lines it
  takes (induction on the lines); a cut line is a beginning of a line, so it is skipped, an error,
  or the line itself; balanced brackets (induction on the bracketing) show that the beginning of a
  bracketing is none.
* C69 (Line endings): induction on the lines of the text.
* C70 (Unreadable input): readers on lines that can be errors agree with the readers on lines up to
  the first error (induction on the lines); the UTF-8 encoding of core Lean; a line feed byte occurs
  in no other character.
* C71 (Output that cannot be written): writers as lists of `write!` calls (Model/Io); induction over
  the items of a run; then C68 for the bytes that were written.
* C72 (Relative offsets near the limits of the machine): the conversions again with 64-bit
  arithmetic (`Model/Machine`), both builds; induction on the encoding with the count so far in
  0..2^63-1, so that a sum can only overflow upwards.
* C73 (Going through the NEGRA format): the tool twice (`main`), with a loop for the growing
  sentence number of the NEGRA writer; the copies of C48 have the same bracket structure below the
  root (induction on the forest), and gaps at the same places.
* C74 (What is written depends on the tree alone): a renumbering relates two trees with the same
  forest (nodes at the same path); every writer has a contract (C40-C52) that does not mention
  indices, or only through the order of the words and of the numbers given to nodes, which the
  renumbering keeps. Each option's contract (C57) determines the resulting tree up to a renumbering,
  since spans follow from the words below a node.
* C75 (Single nodes and edges): methods that change a node as functions to the pair of the changed
  node and the returned value (`Model/NodeApi`); case analysis on the kind of node; spans by
  C01-C05.
* C76 (Doing something twice is doing it once): the contracts of the operations (C22, C24-C30, C40)
  say that nothing is left to do; with nothing to do each loop is followed to the end. Removals
  compose, so two filters are one.
* C77 (Looking at a tree and changing single attributes): the list of edges filtered by kind and
  end; edges have different indices in a well-formed graph; changes of contents keep well-formedness
  (C53).
* C78 (Release builds do not turn surplus brackets into trees): the reader's loop and `decode` again
  with 64-bit `usize` (`Model/Machine`); the wrapped counter is the difference modulo 2^64, so zero
  means even; balanced brackets (as in C68) show that a text with a surplus bracket is no tree. For
  counts of zero, an invariant of the decoding loop without a stack: a graph that grows below the
  root; a nonterminal left without children makes the computation of spans panic.
* C79 (The lines of an export file): texts as inductive relations (`Spec/Text`) that mention no
  function of the model; each function of the model that cuts a text gives the one result the
  relation allows (induction on the text).
* C80 (Going through a bracketed format): the trees read back are those written up to the numbering
  (C43, C74), and runs on such trees are the same (C74).
* C81 (Normalising an export file first): trees read from an orderly export file have no empty
  feature sets and at most one secondary edge to a node, so their copies in the written file (C48)
  differ in the numbering only; then C74.
* C82 (Editing while climbing): outcomes of the visits as an inductive relation (`Spec/Climb`), in
  which the path of a visit is the one in the tree when it begins; the loop follows this path
  because the nodes still to come keep their parents (induction on the path); for `climb_map`
  (`Model/Climb`) the tree after some terminals is the first tree without the nodes removed on their
  paths.
* C83 (Projectivization can be taken back): the caller's loop (`Spec/Undo`) written with `parent`,
  `reattach_node` and index assignment; by induction on the sequence of logged moves (C23) each step
  back succeeds since the former parent dominates the present one, and well-formed trees with the
  same edges, contents and positions have the same spans.
* C84 (Edits that take each other back): the effects of the single edits (C11, C14, C15, C17, C54)
  are composed; the edges agree as multisets since the primary ones are determined by parent and
  content of each node and the secondary ones are the same; counterexamples by evaluation in the
  kernel.
* C85 (Recorded moves keep the original tree): the first entry for a node in the list of moves names
  its original edge (C23), and the recorded edges are the entries of the list (C57); with one entry
  per node they determine it; the copy read back (C48) keeps a single secondary edge per node, and
  two trees recalled by one file are related by a bijection under which spans agree, so that their
  rows agree.
* C86 (Secondary edges show in NEGRA output only): trees with the same primary edges in the same
  order go through the steps of the tool in parallel (a relation kept by every step; outside NEGRA
  the writers look at primary edges only); for files, the two readers' states are equal but for the
  list of pending secondary edges, line by line.
* C87 (What each output format holds): if: the specification's text of a tree depends on what is
  listed only (induction over the tree; for NEGRA the writer on corresponding nodes). Only if: by
  the round trips C43, C48 and C80 the text determines the tree read from it, and that tree
  determines what is listed.
* C88 (Projectivization only attaches nodes further down): by induction on the logged moves (C23): a
  move replaces one edge by a longer path, and the node moved lies below every gapless node above
  the place it is moved to, since it covers a position in the gap.
* C89 (The words of the output file are those of the input file): the words of a bracketed text are
  told by a scan for closing brackets; by induction over a bracketing these are its words, and by
  induction over the tree those of the text written. Every step of the tool keeps the words (C57)
  and adds no text but the label of inserted nodes; NEGRA rows give the words of the tree by C50,
  tokens by C59.
* C90 (Editing a tree without gaps is a rewriting of an ordered tree): the result of each step (C24,
  C28, C29, C30, C40) is shown to stand for the rewritten forest by induction over the forest; for
  insertion the induction carries the sequence of words collected so far. For the numbers the
  induction carries which numbers are in use and which belongs to the closest chosen node. The steps
  compose; text is added by C44, C45 and C57, the encodings by C31 and C35. Decoded trees are known
  up to missing and empty features of inner nodes (C59), which no step and no output distinguishes.
  Moving words to the root (C25) is an induction over the forest for what stays, and one insertion
  per word moved.
* C91 (Projectivization, described exactly): filling the gaps of one node is defined by the smallest
  closed range of positions; the moves recorded for the node reach exactly that range, by induction
  on the moves. For the order, the traversal of the unchanged tree emits the post-order, and
  projectivize never changes edges out of nodes the traversal has not discovered yet
* C92 (The phrases of a converted tree): step by step from the contracts of C57: each step keeps the
  phrases it does not remove; removal keeps the rest by content, projectivization only moves edges,
  reattaching removes exactly the nodes left without words. For the counts the phrases of the forest
  are shown to be those of the nodes, each once, by induction over the forest. Inserted nodes have
  words as children, and a word has one parent, so there are at most as many as words.
* C93 (Doing the steps of a conversion in two runs): the steps of `process` are sequenced in `Res`,
  so cutting the sequence is associativity, for each k; for whole runs induction over the trees: the
  first run writes trees that are read back isomorphic (C80), and isomorphic trees give the same
  output under the remaining steps (C77). That the format holds the trees in between follows from
  what the steps keep (C92). With NEGRA between, a tree that is written and read again is isomorphic
  if the root is VROOT with the header features (C48, C81).
* C94 (Spans do not overflow): `span.rs` again with `usize` of 64 bits in builds with and without
  overflow checks (`Model/MachineSpan`); each function equals the unbounded one on spans below the
  bound, by a bound on the number of skips; induction over how a span is made.
* C95 (Editing a tree with gaps is a rewriting of an ordered tree): as C90, but the forests are
  first tracked up to the order of siblings (`Shuffled`), and sorted at the end: sorting by first
  words gives the one order in which the tree stands for a forest. Runs are cut where positions are
  not consecutive; numbers are ranks of the first words of the closest chosen nodes; spans after
  moving words are those of the sorted words left, as a valid span is determined by the positions it
  contains.

## 6. Disagreements between documentation and code

Each is a theorem (or part of one) in `Props/`; the English statements in `properties.jsonl` say
what is true of the code.

* `are_siblings` compares edges too, so it is false for two different siblings (C18).
* Removing a terminal does not renumber the remaining ones: the renumbering runs before the removal,
  so a hole stays in positions and spans (C12).
* `reattach_node` leaves the old parent's ancestors stale unless old and new parent are on one path,
  and accepts a target below the moved node, creating a cycle (C14).
* Inserting a unary node at a discontinuous node does not update the counter behind `is_projective`
  (C17).
* `annotate_pos` assigns tags by node index, not by sentence position, and has already changed tags
  when it returns `Err` (C29).
* `collapse_unary_chains` is documented to put the labels into the node's label; the code stores
  them in the feature `unary_chain` (C26). Edge labels around unary nodes are lost (C27).
* `reattach_terminals` never returns for a matching terminal that is the only one of its tree (C25).
* `insert_intermediate` drops the edge labels of all terminals of a run but the first (C28), and can
  insert two nodes above a run if the inserted label itself is matched (C28).
* `sort_indices` is documented to put inner nodes before terminals with the same span; the code does
  the opposite (C55).
* Tree equality ignores word forms, and everything about a root that is a terminal (C21).
* PTB format: the annotation read includes its dash, so it grows by a dash with every round of
  writing and reading; a tag starting with a dash gives an unreadable text (C43, C46).
* PTBReader (multi-line) panics on a surplus closing bracket and drops an unfinished last tree
  without an error (C47).
* NegraReader: an empty sentence and an unknown secondary parent panic; an unclosed last sentence is
  dropped silently; a `#BOS` inside a sentence loses both; `#BOS 007` cannot be closed by
  `#EOS 007`; two blanks after `#BOS` are refused; cyclic, late and doubled nonterminal lines are
  accepted and give ill-formed trees (C49, C50).
* NegraWriter panics on a tree that is a single terminal, and on secondary edges from terminals
  (C51); only one secondary parent per node is written (C48).
* Decoding: a count of zero, an empty encoding and an empty sentence panic (C33, C59); a tag sequence
  shorter than the sentence gives an ill-formed tree (C33).
* Labels containing the reserved characters `_ + ~ | :` break the tag round trips (C32, C37, C39).
* The tool: `--projectivize` with `--reattach` can give trees with gaps; `--reattach` hangs on
  one-word trees; a one-word CONLLX sentence tagged NONE decodes to a single terminal, whose NEGRA
  output panics (C57).

## 7. Axioms of the theorems

Output of `#print axioms`, grouped.

* Classical.choice, Quot.sound, propext: `C01_iterate`, `C01_bounds`, `C02_covers`, `C03_fromVec`,
  `C03_fromVec_order`, `C03_fromVec_toVec`, `C03_new`, `C03_new_with_skips`, `C04_merge`,
  `C04_merge_comm`, `C04_merge_assoc`, `C04_merge_idem`, `C05_remove_panic`, `C05_remove`,
  `C06_order_symm`, `C06_order_trans`, `C06_order_total`, `C06_order_position`,
  `C06_order_eq_not_eq`, `C06_order_continuous_eq`, `C07_byte_order`, `C07_sorted_bytes`,
  `C07_remove`, `C07_sorted`, `C08_parse_print`, `C08_normal_form`, `C08_separator_needed`,
  `C08_reads`, `C09_new`, `C09_step`, `C09_history`, `C09_unsound_calls`, `C10_is_projective`,
  `C11_remove_nonterminal`, `C11_remove_root`, `C11_remove_root_multiple`, `C11_remove_total`,
  `C12_remove_terminal`, `C12_remove_terminal_not_wf`, `C12_stale_position`, `C12_last_terminal`,
  `C13_err_unchanged`, `C14_reattach`, `C14_reattach_below`, `C14_reattach_err`,
  `C14_reattach_panics`, `C14_cousin_refuted`, `C14_below_refuted`, `C15_move_terminal`,
  `C15_move_shift`, `C15_move_panics`, `C16_insert_terminal`, `C16_insert_panics`,
  `C16_push_terminal`, `C17_insert_unary_above`, `C17_insert_unary_below`, `C17_counter_refuted`,
  `C18_siblings`, `C18_are_siblings`, `C18_are_siblings_refuted`, `C19_descendent_terminals`,
  `C20_climber`, `C21_meaning`, `C21_equality`, `C21_equivalence`, `C21_ignores_forms`,
  `C21_ignores_terminal_root`, `C22_projectivize`, `C22_projective_unchanged`, `C23_moves`,
  `C23_kept`, `C23_unlisted`, `C23_listed`, `C24_filter_nonterminals`, `C24_terminals`, `C24_any`,
  `C24_current`, `C25_reattach_terminals`, `C25_any`, `C25_parents`, `C25_to_root`, `C25_no_match`,
  `C25_diverges`, `C25_bad_attachment`, `C25_current`, `C26_collapse`, `C26_collapsed_tree`,
  `C26_chain_terminal`, `C26_chain_nonterminal`, `C27_roundtrip`, `C27_restore`,
  `C27_delimiter_in_label`, `C27_edge_label_lost`, `C27_delimiter_overlap`, `C27_missing_value`,
  `C27_err_changes`, `C27_chain_labels`, `C27_empty_delimiter`, `C28_insert_intermediate`,
  `C28_one_node_per_run`, `C28_root_terminal`, `C28_duplicate`, `C29_annotate_pos`,
  `C29_by_position`, `C29_order_refuted`, `C29_err_mutates`, `C30_parent_tag`,
  `C30_project_tag_set`, `C30_project_ids`, `C30_project_nt_indices`, `C30_map_climber_path`,
  `C31_encode_absolute`, `C31_encode_nonprojective`, `C32_roundtrip`, `C32_unary_lost`,
  `C32_delimiter_in_label`, `C33_decode`, `C33_surplus`, `C33_zero_count`, `C33_empty`, `C33_short`,
  `C33_label`, `C34_zero_count`, `C35_decodable`, `C35_try_from_relative_iff`,
  `C35_try_from_relative_value`, `C35_unwrap_or_fix`, `C35_unwrap_or_fix_value`,
  `C36_encode_relative`, `C37_absolute_text`, `C37_relative_text`, `C37_plus_needed`,
  `C37_relative_injective`, `C37_relative_accepts`, `C38_annotate_absolute`,
  `C38_annotate_relative`, `C38_annotate_nonprojective`, `C39_absolute`, `C39_relative`,
  `C39_reserved`, `C39_dropped`, `C39_unannotated`, `C40_remove_dummy_nodes`,
  `C41_round_trip_simple`, `C42_round_trip_tueba`, `C43_round_trip_ptb`, `C43_written`,
  `C43_annotation_changes`, `C44_writing_total`, `C44_text`, `C45_parsing_total`, `C45_parsed_tree`,
  `C46_reprint`, `C46_ptb_grows`, `C46_ptb_unreadable`, `C46_ptb`, `C46_ptb_rounds`,
  `C47_single_line`, `C47_multi_line`, `C47_multi_line_panic`, `C48_file`, `C48_copy_equal`,
  `C48_round_trip`, `C49_progress`, `C49_iteration_ends`, `C49_outside`, `C49_unmatched_footer`,
  `C49_bad_header`, `C49_nested`, `C49_malformed`, `C49_differing_ids`, `C49_sentence`, `C49_tree`,
  `C49_panic`, `C49_end`, `C50_read`, `C50_sentence`, `C50_cycle_accepted`, `C50_late_child`,
  `C50_double_line_accepted`, `C50_signs`, `C51_text`, `C51_text_same`, `C51_order`,
  `C51_order_unique`, `C51_written`, `C51_layout`, `C51_numbers`, `C51_sequence`,
  `C51_terminal_root`, `C51_secondary_terminal`, `C52_tokens`, `C52_terminals`,
  `C53_stable_indices`, `C54_add`, `C54_remove`, `C54_reattach`, `C55_sorted`, `C55_sentence_order`,
  `C55_children_order`, `C57_items`, `C57_single_line`, `C57_multi_line`, `C57_negra`, `C57_tagged`,
  `C57_run`, `C57_ends`, `C57_written`, `C57_words`, `C57_complete`, `C57_plain`, `C57_single_word`,
  `C57_hangs`, `C57_reattach_gap`, `C58_words_survive`, `C58_words_survive_history`, `C59_absolute`,
  `C59_relative`, `C59_error`, `C59_empty`, `C59_zero`, `C59_cases`, `C59_tag_text`,
  `C60_same_tree`, `C60_same_forest`, `C60_same_text`, `C61_same_run`, `C61_same_conversion`,
  `C61_same_texts`, `C62_negra_file`, `C62_read_exportable`, `C62_negra`, `C62_bracketed`,
  `C62_ptb_grows`, `C62_ptb`, `C62_ptb_stable`, `C63_one_outcome`, `C63_matches`,
  `C63_string_to_tree`, `C64_format_names`, `C64_set_file`, `C64_run`, `C64_rejected`, `C65_step`,
  `C65_history`, `C65_sentence`, `C65_total`, `C65_unsound`, `C66_absolute`, `C66_relative`,
  `C66_tool`, `C66_labels`, `C66_reserved`, `C67_read`, `C67_between`, `C67_negra`, `C67_stable`,
  `C67_not_stable`, `C68_negra_bytes`, `C68_single_line_bytes`, `C68_multi_line_bytes`,
  `C68_interrupted_negra_bytes`, `C68_interrupted_brackets_bytes`, `C68_more_input`,
  `C68_more_output`, `C68_whole_lines`, `C68_negra`, `C68_single_line`, `C68_multi_line`,
  `C68_unfinished`, `C68_bracketing`, `C68_interrupted_negra`, `C68_interrupted_brackets`,
  `C69_every_text`, `C69_same_output`, `C70_items`, `C70_readable`, `C70_separates`, `C70_panic`,
  `C70_output`, `C70_byte_lines`, `C70_decode`, `C70_text`, `C71_bytes`, `C71_incomplete`,
  `C71_room`, `C71_recovered`, `C72_release`, `C72_release_counts`, `C72_abs_rel_abs`, `C72_read`,
  `C72_read_panic`, `C72_trees`, `C72_differ`, `C72_counts_needed`, `C72_read_differ`,
  `C73_any_root`, `C73_through_negra`, `C73_numbered`, `C73_root_lost`, `C74_same_tree`,
  `C74_same_queries`, `C74_written`, `C74_runs`, `C74_two_secondary`, `C74_options`, `C74_steps`,
  `C74_option_runs`, `C74_projectivize`, `C75_set_span`, `C75_extend_span`, `C75_continuity`,
  `C75_spans`, `C75_eq`, `C75_equivalence`, `C75_display`, `C75_edge`, `C76_filter`, `C76_filters`,
  `C76_filters_commute`, `C76_dummies`, `C76_reattach`, `C76_insert`, `C76_projectivize`,
  `C76_collapse`, `C76_restore`, `C76_annotate_pos`, `C76_parent_tag`, `C76_tag_set`, `C76_ids`,
  `C76_insert_again`, `C76_restore_again`, `C77_parent`, `C77_children`, `C77_secondary_children`,
  `C77_added`, `C77_nodes`, `C77_set_attribute`, `C77_set_edge_label`, `C78_checked`, `C78_release`,
  `C78_same`, `C78_trees`, `C78_surplus`, `C78_decode`, `C78_read_tags`, `C78_decode_release`,
  `C78_read_release`, `C78_drops`, `C78_shifts`, `C78_zero`, `C78_gap`, `C78_miscounted`,
  `C79_opens`, `C79_frame`, `C79_closes`, `C79_terminal`, `C79_nonterminal`, `C79_rows`,
  `C80_through`, `C80_normalise`, `C80_to_tueba`, `C80_bracketed`, `C80_colon_lost`,
  `C81_normalise`, `C81_same`, `C81_gaps`, `C82_path`, `C82_edits`, `C82_move`, `C82_climb_map`,
  `C82_climb_map_root_refuted`, `C83_undo`, `C83_undo_equal`, `C83_undo_written`,
  `C83_order_matters`, `C84_move_back`, `C84_reattach_back`, `C84_above_back`, `C84_below_back`,
  `C84_secondary_back`, `C84_labels_lost`, `C84_disc_refuted`, `C85_recorded`, `C85_read_back`,
  `C85_injective`, `C85_moved_twice`, `C86_tree`, `C86_numbering`, `C86_runs`, `C86_columns`,
  `C86_stripped`, `C86_unused`, `C86_negra`, `C87_brackets`, `C87_files`, `C87_order`, `C87_negra`,
  `C87_conllx`, `C87_negra_files`, `C87_conllx_files`, `C87_unnumbered`, `C88_below`, `C88_gapless`,
  `C88_within`, `C88_filled`, `C88_parent`, `C88_once`, `C88_moves`, `C88_beyond`, `C89_items`,
  `C89_brackets`, `C89_negra`, `C89_tagged`, `C89_label_bracket`, `C90_filter`, `C90_dummies`,
  `C90_insert`, `C90_pos`, `C90_parent`, `C90_project`, `C90_ids`, `C90_pipeline`, `C90_text`,
  `C90_trees`, `C90_file`, `C90_absolute`, `C90_relative`, `C90_lowered`, `C90_gaps`, `C90_gather`,
  `C90_reattach`, `C90_moved`, `C90_lowered_reattach`, `C90_moved_text`, `C91_exact`, `C91_order`,
  `C91_unique`, `C91_determined`, `C91_parents`, `C91_order_matters`, `C92_phrases`, `C92_count`,
  `C92_run`, `C92_added`, `C92_same`, `C92_run_count`, `C92_reattach_drops`, `C93_tree`, `C93_run`,
  `C93_input`, `C93_held`, `C93_features_lost`, `C93_file`, `C93_file_tueba`, `C93_negra`,
  `C93_negra_file`, `C93_negra_held`, `C94_from`, `C94_from_max`, `C94_from_vec`, `C94_agree`,
  `C94_extend_max`, `C94_made`, `C94_makes`, `C94_tree`, `C94_skips`, `C95_exported`,
  `C95_export_file`, `C95_export_text`, `C95_export_lowered`, `C95_absolute`, `C95_relative`,
  `C95_export_absolute`, `C95_export_relative`, `C95_filter`, `C95_dummies`, `C95_insert`,
  `C95_ids`, `C95_gather`, `C95_pipeline`, `C95_lowered`, `C95_written`, `C95_trees`
* Quot.sound, propext: `C08_prints`, `C16_push_terminal_root`, `C17_insert_unary_below_terminal`,
  `C34_abs_rel_abs`, `C37_absolute_accepts`, `C45_unambiguous`, `C50_numbers`, `C54_remove_absent`,
  `C59_tag`, `C69_lines`, `C72_in_range`, `C72_checked`, `C75_attributes`, `C75_set_label`,
  `C75_set_features`, `C75_features_mut`, `C75_terminal_mut`, `C75_inner`, `C77_secondary_parent`,
  `C89_text`
* propext: `C07_insert`, `C35_fix_extends`, `C56_positive`, `C56_negative`
