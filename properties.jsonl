{"id": "C01", "title": "Iterating a span yields exactly its indices", "statement": "Collecting a span yields, in strictly increasing order and without repetition, exactly the indices i for which contains(i) is true, and the number of items equals n_indices(). bounds() is the first contained index and one more than the last, and skips() the set of the indices between them that are not contained, or None if there are none.", "quantifier": "every span that the constructors, from_vec, merge_spans and remove_indices can produce", "why_tests_cant": "spans range over unbounded index sets and all possible gap patterns", "anchors": ["lumberjack/src/span.rs: Span::contains, Span::n_indices, Span::bounds, Span::skips, SpanIter::next, IntoIterator for &Span"]}
{"id": "C02", "title": "covers_span is set inclusion", "statement": "a.covers_span(b) is true if and only if every index contained in b is contained in a.", "quantifier": "every pair of well-formed spans", "why_tests_cant": "all pairs of gap patterns", "anchors": ["lumberjack/src/span.rs: Span::covers_span"]}
{"id": "C03", "title": "from_vec builds the span of a set of indices", "statement": "from_vec(v) is Err exactly if v is empty; otherwise it returns without panicking a span containing exactly the indices occurring in v, with skips recorded exactly if there is a gap, and the result does not depend on order or repetition in v. The other constructors panic exactly if the bounds are not increasing or, for a span with skips, if there are no skips or as many as there are indices between the bounds; otherwise the span contains exactly the indices between the bounds that are not skipped.", "quantifier": "every vector of indices; all bounds and sets of skips", "why_tests_cant": "all vectors, including repeated and unsorted ones", "anchors": ["lumberjack/src/span.rs: Span::from_vec, Span::new, Span::new_with_skips"]}
{"id": "C04", "title": "merge_spans is set union", "statement": "Merging two spans never panics and the result contains exactly the indices contained in at least one of them; it is marked discontinuous exactly if that union has a gap. Merging is commutative, associative and idempotent.", "quantifier": "every pair (triple) of well-formed spans", "why_tests_cant": "all pairs of gap patterns", "anchors": ["lumberjack/src/span.rs: Span::merge_spans", "lumberjack/src/node.rs: NonTerminal::merge_spans"]}
{"id": "C05", "title": "remove_indices is set difference", "statement": "remove_indices(v) panics exactly if v has an index outside the bounds of the span or nothing would be left; otherwise the span afterwards contains exactly the indices it contained before and that are not in v, its bounds are tight, and the returned continuity says whether a gap remains.", "quantifier": "every well-formed span and every vector of indices", "why_tests_cant": "all gap patterns times all removal sets; boundary shrinking loops", "anchors": ["lumberjack/src/span.rs: Span::remove_indices", "lumberjack/src/node.rs: NonTerminal::remove_indices"]}
{"id": "C06", "title": "The order on spans", "statement": "cmp on spans is a total preorder (reflexive, antisymmetric up to Equal, transitive, total) and orders disjoint continuous spans by sentence position. (Equal does not imply ==; the model exhibits a pair.)", "quantifier": "every pair and triple of spans", "why_tests_cant": "ordering laws quantify over all triples", "anchors": ["lumberjack/src/span.rs: Ord for Span"]}
{"id": "C07", "title": "Features behave as a finite map", "statement": "After insert(k, v), get_val(k) is v and every other key is unchanged; insert and remove return the previous value; remove(k) makes k absent and leaves every other key unchanged; entries are kept in strictly increasing order of their keys, which by the bytes of their UTF-8 encodings is the same as by characters.", "quantifier": "every reachable feature set, all keys and values", "why_tests_cant": "histories of insertions and removals are unbounded", "anchors": ["lumberjack/src/features.rs: Features::insert, get_val, remove"]}
{"id": "C08", "title": "Features print/parse round trip", "statement": "Parsing the printed form of a non-empty feature set whose keys and values avoid '|' and ':' and whose keys are not empty gives the feature set back; parsing is total, and print(parse(s)) is a normal form: parsing and printing it again changes nothing. Parsing cuts the text at each '|' and takes, for each key, what stands between the first ':' and the next in the last non-empty piece with this key; printing writes key or key:value for each entry with '|' between any two.", "quantifier": "every feature set / every string", "why_tests_cant": "all strings and all feature sets", "anchors": ["lumberjack/src/features.rs: From<&str> for Features, ToString for Features"]}
{"id": "C09", "title": "Well-formedness of trees is an invariant of every operation history", "statement": "Call a tree well formed if it has a single root dominating every node, each other node has exactly one primary parent, terminals are leaves, nonterminals have children, terminal positions are 0..n-1 without repetition, every nonterminal's span is exactly the set of positions of the terminals it dominates, and the discontinuity counter is the number of nonterminals with a gap. Tree::new gives a well-formed tree. A public operation (insert_terminal, push_terminal, move_terminal, insert_unary_above/below, remove_node, reattach_node, add/remove_secondary_edge, setting a label, form, lemma, features or edge label) that returns on a well-formed tree, with Ok or Err, leaves it well formed if and only if it is none of: unary insertion at a discontinuous node, removal of a terminal that has a sibling, reattaching a node below itself or to a node that neither dominates nor is dominated by its old parent. Hence every tree reached by a finite history without those calls is well formed. (The excluded calls are defects of the code; each is exhibited. What readers and decoders produce is C33, C45, C50.)", "quantifier": "every well-formed tree and every applicable operation with arbitrary arguments, hence all finite histories", "why_tests_cant": "histories of operations are unbounded and trees are arbitrary", "anchors": ["lumberjack/src/tree.rs: Tree::new, insert_terminal, push_terminal, move_terminal, insert_unary_above, insert_unary_below, remove_node, reattach_node, add_secondary_edge, remove_secondary_edge"]}
{"id": "C10", "title": "is_projective means no gap", "statement": "On every well-formed tree is_projective() is true if and only if every node dominates a contiguous block of sentence positions.", "quantifier": "every well-formed tree", "why_tests_cant": "the counter is maintained incrementally over arbitrary histories", "anchors": ["lumberjack/src/tree.rs: Tree::is_projective, projectivity_change"]}
{"id": "C11", "title": "Removing a nonterminal", "statement": "remove_node(n) for a nonterminal n that is not the root attaches exactly the children of n to the parent of n, removes n, leaves every other node's content, span, index and dominated terminals unchanged, and returns the removed node; for the root it succeeds exactly if the root has one child, which becomes the root. It never panics on a live node.", "quantifier": "every well-formed tree and node", "why_tests_cant": "all tree shapes and nodes", "anchors": ["lumberjack/src/tree.rs: Tree::remove_node, remove_nonterminal"]}
{"id": "C12", "title": "Removing a terminal", "statement": "remove_node(n) for a terminal n with at least one sibling removes n and its edge, keeps every other node, edge and index, and changes no position and no span: a hole is left at the position of n and the spans of its ancestors still contain it, so the result is never well formed (the recomputation of positions runs before the node is removed; the documented renumbering does not happen). For a terminal that is the only child of its parent, or the root, it is Err and the tree is unchanged.", "quantifier": "every well-formed tree and terminal", "why_tests_cant": "all tree shapes and positions", "anchors": ["lumberjack/src/tree.rs: Tree::remove_terminal, compact_terminal_spans, reset_nt_spans"]}
{"id": "C13", "title": "Err means unchanged", "statement": "If remove_node, reattach_node, insert_unary_below or push_terminal returns Err, the tree is left exactly as it was.", "quantifier": "every well-formed tree and all arguments", "why_tests_cant": "all failing calls on all trees", "anchors": ["lumberjack/src/tree.rs: Tree::remove_node, reattach_node, insert_unary_below, push_terminal"]}
{"id": "C14", "title": "Reattaching a node", "statement": "reattach_node(p, e) for a primary edge e to a child of a nonterminal that keeps another child, p a nonterminal other than that child, replaces e by an unlabelled primary edge from p to the same child, returns the old label, and leaves all terminals and their positions, all other edges and all node contents other than spans untouched; the result is well formed if and only if p is not below the child and p dominates or is dominated by the old parent. It is Err, with nothing changed, if p is the child itself or a terminal, or the old parent would be left without children, and panics if p or e is not in the tree. (For other p the old parent's span is left stale, and a p below the child creates a cycle: both exhibited.)", "quantifier": "every well-formed tree, edge and new parent", "why_tests_cant": "all trees, edges and attachment points", "anchors": ["lumberjack/src/tree.rs: Tree::reattach_node, reattach_primary, reattach_secondary"]}
{"id": "C15", "title": "Moving a terminal", "statement": "move_terminal(n, i) puts terminal n at position i and keeps the relative order of all other terminals; dominance, labels, forms and edges are unchanged and all spans are consistent afterwards. It panics exactly for nonterminals and out-of-range positions (unless already there).", "quantifier": "every well-formed tree, terminal and position", "why_tests_cant": "all trees and positions", "anchors": ["lumberjack/src/tree.rs: Tree::move_terminal"]}
{"id": "C16", "title": "Inserting a terminal", "statement": "insert_terminal(p, t) adds a leaf below p at the position stored in t, shifting the terminals at or after it by one and keeping everything else; push_terminal appends a leaf below the root at the end of the sentence. The result is well formed.", "quantifier": "every well-formed tree, parent and terminal", "why_tests_cant": "all trees, parents and positions", "anchors": ["lumberjack/src/tree.rs: Tree::insert_terminal, push_terminal"]}
{"id": "C17", "title": "Inserting unary nodes", "statement": "insert_unary_above(n, l) inserts a node labelled l with n as its only child between n and its parent (or as new root), the incoming edge keeping its label; insert_unary_below(n, l) inserts a node between n and all its children, dropping the labels of their edges, and is Err for a terminal. All other dominance relations, contents and spans are unchanged and the new node has the span of n. The result is well formed if and only if n has no gap: for discontinuous n the counter of discontinuous nodes misses the new node (exhibited).", "quantifier": "every well-formed tree, node and label", "why_tests_cant": "all trees and nodes", "anchors": ["lumberjack/src/tree.rs: Tree::insert_unary_above, insert_unary_below"]}
{"id": "C18", "title": "Siblings", "statement": "siblings(n) lists exactly the other nodes with the same parent, in a well-formed tree, each once. are_siblings(a, b), documented to say whether a and b have the same parent, is true if and only if a = b and a has a parent, since it compares the edges too; two siblings for which it is false are exhibited.", "quantifier": "every well-formed tree and pair of nodes", "why_tests_cant": "all pairs of nodes of all trees", "anchors": ["lumberjack/src/tree.rs: Tree::siblings, are_siblings"]}
{"id": "C19", "title": "descendent_terminals", "statement": "descendent_terminals(n) yields every terminal dominated by n exactly once and nothing else.", "quantifier": "every well-formed tree and node", "why_tests_cant": "all tree shapes; depth-first traversal with a visited set", "anchors": ["lumberjack/src/tree.rs: Tree::descendent_terminals, TerminalDescendents"]}
{"id": "C20", "title": "Climber", "statement": "A climber started at n on an unchanging tree terminates and returns exactly the proper ancestors of n, from parent to root.", "quantifier": "every well-formed tree and node", "why_tests_cant": "all depths", "anchors": ["lumberjack/src/util.rs: Climber::new, next, next_with_edge"]}
{"id": "C21", "title": "Tree equality", "statement": "Tree == always terminates on well-formed trees and is true if and only if both roots are terminals, or both trees read as ordered trees agree in shape, nonterminal labels and features, edge labels, and the tags, lemmas, features and positions of terminals; it is an equivalence relation on well-formed trees. (It ignores word forms and everything about a terminal root: exhibited.)", "quantifier": "every pair of well-formed trees", "why_tests_cant": "all pairs of trees", "anchors": ["lumberjack/src/tree.rs: PartialEq for Tree, subtree_eq", "lumberjack/src/node.rs: PartialEq for Terminal, NonTerminal"]}
{"id": "C22", "title": "projectivize terminates and removes every gap", "statement": "projectivize() terminates without panicking on every well-formed tree, whatever element order the hash sets of skipped indices have, and the tree is projective and well formed afterwards. A projective tree is returned unchanged with None.", "quantifier": "every well-formed tree and every hash iteration order", "why_tests_cant": "hash order is nondeterministic; the traversal runs over a graph being mutated", "anchors": ["lumberjack/src/tree_modification.rs: Projectivize::projectivize"]}
{"id": "C23", "title": "projectivize changes only attachments", "statement": "projectivize() keeps every node (index, label, features), every terminal's position and the label of every reattached edge; a node not named in the returned list keeps its parent, and the returned list names for each moved node its former parent and edge.", "quantifier": "every well-formed tree and every hash iteration order", "why_tests_cant": "as C22", "anchors": ["lumberjack/src/tree_modification.rs: Projectivize::projectivize"]}
{"id": "C24", "title": "filter_nonterminals", "statement": "filter_nonterminals(f), for f depending on the node's own label and features only, never fails and removes exactly the nonterminals other than the root on which f is false: terminals, their positions, all other nodes with their spans, and the dominance relation among the remaining nodes are unchanged. A predicate may also look at the rest of the tree: it is then asked about each node in the tree from which the nodes removed before, which have smaller indices, have gone.", "quantifier": "every well-formed tree and predicate", "why_tests_cant": "all trees and predicates; removal during iteration", "anchors": ["lumberjack/src/tree_modification.rs: TreeOps::filter_nonterminals"]}
{"id": "C25", "title": "reattach_terminals", "statement": "reattach_terminals(a, f), with a nonterminal a of the tree and f depending on the terminal itself only, terminates, attaches exactly the terminals matched by f to a by an unlabelled edge, removes exactly the inner nodes left without terminals (a and the nodes above it stay), leaves every other node where it was with its label, features and edge label, keeps the sentence and ends with consistent spans. The one exception: if the first terminal matched, in node order, is the only one below a or the only one of the sentence, the call never returns. If a is a terminal or not in the tree, some terminal is matched and there are at least two, the call panics. If no terminal is matched nothing changes, for any attachment point. For an f that looks at the rest of the tree the same holds of the terminals on which f is true when asked; it is asked about each terminal, in node order, in the tree in which those matched before have been moved already (and in which spans may still count the positions of moved terminals). If f looks at the terminal and its parent only, like the one in the documentation, these are the terminals matched in the tree before the call.", "quantifier": "every well-formed tree and predicate", "why_tests_cant": "all trees and predicates; potential non-termination", "anchors": ["lumberjack/src/tree_modification.rs: TreeOps::reattach_terminals"]}
{"id": "C26", "title": "collapse_unary_chains", "statement": "After collapse_unary_chains the tree has no nonterminal with a single child: exactly those nodes are gone, everything else keeps its label, form, tag, lemma, span and dominance relation, the sentence is unchanged, and each remaining node's unary_chain feature lists, bottom-up and separated by the delimiter, the labels of the nodes removed directly above it.", "quantifier": "every well-formed tree", "why_tests_cant": "chains of unbounded length, mutation while climbing", "anchors": ["lumberjack/src/tree_modification.rs: UnaryChains::collapse_unary_chains"]}
{"id": "C27", "title": "restore_unary_chains inverts collapse_unary_chains", "statement": "Collapsing and then restoring with the same non-empty delimiter gives a tree equal to the original, provided no label of a unary node contains a character of the delimiter, unary nodes carry no features, the edges above and below them no labels, and no node has a unary_chain feature beforehand. (The provisos are needed: a label with the delimiter and an edge label are shown to break the equality.) The labels restored from a chain are its pieces between the occurrences of the delimiter, found from left to right. restore_unary_chains by itself fails exactly if a unary_chain feature has no value; nodes with smaller index than the first such node have been restored then (so Err does not mean unchanged), those with greater index have not been looked at.", "quantifier": "every well-formed tree meeting the provisos", "why_tests_cant": "unbounded chains and trees", "anchors": ["lumberjack/src/tree_modification.rs: UnaryChains::collapse_unary_chains, restore_unary_chains"]}
{"id": "C28", "title": "insert_intermediate", "statement": "insert_intermediate(f), with f depending on the node itself only, on a tree whose root is not a terminal succeeds and inserts, for each node p to which f gives a label, exactly one node with that label above each maximal run of adjacent terminal children of p; all other nodes, attachments, spans and secondary edges are unchanged, and so are edge labels except that the terminals of a run other than its first lose theirs. Proviso: f gives no label to a fresh node with the label it returned, or the terminal child of p first in the sentence is the one with the least node index; otherwise a run can get two nodes. A tree that is a single terminal gives Err and is unchanged.", "quantifier": "every well-formed tree and closure", "why_tests_cant": "all trees and closures; mutation while iterating", "anchors": ["lumberjack/src/tree_modification.rs: TreeOps::insert_intermediate"]}
{"id": "C29", "title": "annotate_pos", "statement": "annotate_pos(tags) returns Ok exactly if there are as many tags as terminals, and otherwise the Err saying whether there are too many or too few. The terminal with the k-th smallest node index gets the k-th tag, if there is one, and nothing else changes; so if node indices of terminals increase with sentence position, the i-th word gets the i-th tag. (Both restrictions are needed: exhibited are a tree with another index order, where tags end up on the wrong words, and an Err that has already overwritten tags.)", "quantifier": "every well-formed tree and tag sequence", "why_tests_cant": "all lengths and trees", "anchors": ["lumberjack/src/tree_modification.rs: AnnotatePOS::annotate_pos"]}
{"id": "C30", "title": "Projection of ancestors onto terminals", "statement": "annotate_parent_tag, project_tag_set, project_ids and project_nt_indices give each terminal its parent's label, the label of, an identifier of, or the index of its closest matching ancestor (no feature, respectively the root, if there is none), for every predicate that does not look at features of terminals; identifiers are consecutive numbers from 0 in the order in which the ancestors come first when the terminals are visited by index, and two terminals get the same identifier exactly if they have the same closest matching ancestor; nothing but the named feature of terminals changes. annotate_parent_tag is Err, with nothing changed, exactly if the root is a terminal. map_climber_path calls its closure (which may change contents and keep state, but leaves the edges alone) for each terminal, by index, with the nodes above it from the parent up to the root, until it returns true.", "quantifier": "every well-formed tree and predicate on nodes", "why_tests_cant": "all trees and predicates", "anchors": ["lumberjack/src/tree_modification.rs: TreeOps::annotate_parent_tag", "lumberjack/src/tree.rs: Tree::project_tag_set, project_ids, project_nt_indices, map_climber_path"]}
{"id": "C31", "title": "The absolute encoding is the lowest common ancestor encoding", "statement": "encode_absolute() on a well-formed projective tree succeeds with one entry per terminal in sentence order: for every terminal but the last the label (with its unary chain) of the lowest common ancestor with the next terminal and the number of their common ancestors, none for the last; on a non-projective tree it is Err.", "quantifier": "every well-formed tree", "why_tests_cant": "all trees", "anchors": ["lumberjack/src/io/encode.rs: Encode::encode_absolute, get_common"]}
{"id": "C32", "title": "Decoding inverts encoding", "statement": "Decoding the absolute encoding of a projective tree without unary branches (as produced by collapse_unary_chains) together with its terminals gives a well-formed projective tree equal to it with the same terminals, provided edges are unlabelled, nonterminals have no features other than unary_chain, and labels avoid the chain delimiter '_'. (Unary nodes and labels with '_' are shown to break the equality.)", "quantifier": "every such tree", "why_tests_cant": "all trees of all sizes; the decoder rebuilds the tree incrementally", "anchors": ["lumberjack/src/io/encode.rs: Decode::decode, Encode::encode_absolute"]}
{"id": "C33", "title": "Decoding is total on positive encodings", "statement": "For every encoding of the same length as the (non-empty) terminal list whose ancestor counts are at least 1, and terminals at the positions 0, 1, ..., decode never panics and yields a well-formed projective tree over the given terminals in order, each with the chain of its entry. Surplus entries are ignored; a count of 0, an empty encoding and an empty terminal list always panic; an encoding that is too short can give an ill-formed tree (exhibited). A label is cut at its last underscore, if it has one: what stands before becomes the chain.", "quantifier": "every sequence of labels, including those a tagger would predict", "why_tests_cant": "arbitrary label sequences", "anchors": ["lumberjack/src/io/encode.rs: Decode::decode"]}
{"id": "C34", "title": "Absolute to relative and back", "statement": "Converting an absolute encoding with positive counts to the relative scale and back succeeds and gives the original encoding (for counts below 2^63; C72 is about larger ones).", "quantifier": "every absolute encoding", "why_tests_cant": "all sequences", "anchors": ["lumberjack/src/io/encode.rs: From<AbsoluteEncoding> for RelativeEncoding, AbsoluteEncoding::try_from_relative"]}
{"id": "C35", "title": "Relative to absolute conversion and its repair", "statement": "As long as no sum reaches 2^63 (C72 says what happens otherwise), try_from_relative succeeds exactly if every running count stays at least 1 and then gives the running counts; unwrap_or_fix always yields an encoding of the same length, labels and chains with all counts at least 1 (a count that would fall below 1 restarts the sum at 2), which decode turns into a well-formed projective tree over the given terminals.", "quantifier": "every relative encoding", "why_tests_cant": "all sequences of offsets", "anchors": ["lumberjack/src/io/encode.rs: AbsoluteEncoding::try_from_relative, RelativeToAbsoluteError::fix, ConversionResult::unwrap_or_fix"]}
{"id": "C36", "title": "encode_relative agrees with encode_absolute", "statement": "encode_relative() is the relative conversion of encode_absolute() on every tree, including the Err and panic cases.", "quantifier": "every tree", "why_tests_cant": "all trees", "anchors": ["lumberjack/src/io/encode.rs: Encode::encode_relative, encode_absolute"]}
{"id": "C37", "title": "Ancestor labels as text", "statement": "Printing an absolute or relative ancestor and parsing the text gives the ancestor back if its label avoids '+' (and is not empty for the relative scale) and the number fits the machine word. A text is read as an absolute ancestor exactly if it is a label without '+', a '+', and a decimal number of at most 64 bits, after which another '+' and anything may follow; as a relative ancestor, if the number is signed and the label not empty; as a root ancestor, if it is not empty and has no '+'. Parsing never panics.", "quantifier": "every ancestor / string", "why_tests_cant": "all strings and numbers", "anchors": ["lumberjack/src/io/encode.rs: ToString and TryFrom<&str> for AbsoluteAncestor, RelativeAncestor"]}
{"id": "C38", "title": "Annotated labels equal the encoding", "statement": "annotate_absolute / annotate_relative write on each terminal the text of exactly the entry that encode_absolute / encode_relative computes for it, and change nothing else.", "quantifier": "every well-formed projective tree", "why_tests_cant": "all trees; annotation interleaves with computation", "anchors": ["lumberjack/src/io/encode.rs: Encode::annotate_absolute, annotate_relative"]}
{"id": "C39", "title": "CONLLX round trip through tag sequences", "statement": "Collapsing with delimiter '_', annotating (absolute or relative), converting to CONLLX and reading back with the corresponding try_from_conllx method succeeds and gives a well-formed tree equal to the original (word forms included), provided the tree is projective, labels of nonterminals are not empty and avoid '_', '+', '~', '|', ':' (and, for the relative encoding, none is NONE), edges are unlabelled, no node carries features and no terminal a lemma. The provisos are needed: each reserved character breaks the round trip, and the reader drops lemmas and features of terminals. A sentence with a token lacking the annotation is rejected.", "quantifier": "every such tree", "why_tests_cant": "all trees", "anchors": ["lumberjack/src/io/conllx.rs: TryFromConllx, ToConllx", "lumberjack/src/io/encode.rs: Encode, Decode", "lumberjack/src/tree_modification.rs: UnaryChains"]}
{"id": "C40", "title": "remove_dummy_nodes", "statement": "remove_dummy_nodes() never fails on a well-formed tree, removes only nonterminals labelled DUMMY and leaves no such node except possibly a root with at least two children; all other nodes, their spans and dominance among them are unchanged.", "quantifier": "every well-formed tree", "why_tests_cant": "all trees", "anchors": ["lumberjack/src/io/encode.rs: Decode::remove_dummy_nodes"]}
{"id": "C41", "title": "Bracketed round trip, simple format", "statement": "Writing a well-formed projective tree in the simple format and parsing the text gives a tree equal to it, word forms included, provided labels, tags and forms are non-empty and avoid whitespace and brackets, edges are unlabelled and nodes have no features and no lemma.", "quantifier": "every such tree", "why_tests_cant": "all trees and strings", "anchors": ["lumberjack/src/io/ptb.rs: PTBFormat::tree_to_string, string_to_tree", "lumberjack/src/io/ptb.pest"]}
{"id": "C42", "title": "Bracketed round trip, TueBa format", "statement": "Writing a well-formed projective tree in the TueBa format and parsing the text gives a tree equal to it, word forms included, provided forms, labels, tags, annotations and edge labels are non-empty and avoid whitespace and brackets, labels, tags and annotations also avoid ':' and '=', edge labels avoid ':' and are not '--', terminals have no lemma or features, and inner nodes have no features but the node annotation.", "quantifier": "every such tree", "why_tests_cant": "all trees and strings", "anchors": ["lumberjack/src/io/ptb.rs: PTBFormat::tree_to_string, string_to_tree, fmt_inner, process_label"]}
{"id": "C43", "title": "Bracketed round trip, PTB format", "statement": "Writing a well-formed projective tree in the PTB format and parsing the text gives a tree equal to it under the conditions of the simple format if labels and tags avoid '-'. If an inner node has an annotation, the tree read back is never equal to the original, because the annotation has grown by a dash. In every format and for every tree whose strings can be represented, what is read back is the original with brackets in words replaced, lemmas and features other than the annotation lost and edge labels kept in the TueBa format only.", "quantifier": "every such tree", "why_tests_cant": "all trees and strings", "anchors": ["lumberjack/src/io/ptb.rs: PTBFormat::tree_to_string, string_to_tree, process_label"]}
{"id": "C44", "title": "Bracketed writing is total", "statement": "tree_to_string never panics or diverges on a well-formed tree; it is Err exactly if the tree is not projective and otherwise gives the bracketing of the tree.", "quantifier": "every well-formed tree and format", "why_tests_cant": "all trees", "anchors": ["lumberjack/src/io/ptb.rs: PTBFormat::tree_to_string, format_sub_tree"]}
{"id": "C45", "title": "Bracketed parsing", "statement": "string_to_tree never panics on any string; if it succeeds the tree is well formed and projective, and its terminals in sentence order are the words of the text in order; it succeeds exactly on the strings of the bracketing grammar.", "quantifier": "every string and format", "why_tests_cant": "all strings", "anchors": ["lumberjack/src/io/ptb.rs: PTBFormat::string_to_tree, parse_value", "lumberjack/src/io/ptb.pest"]}
{"id": "C46", "title": "Re-printing is stable", "statement": "If a string parses in the simple or TueBa format, printing the tree and parsing again gives the same tree, and printing that gives the same text. In the PTB format this fails: printing a parsed tree cuts the tags of words at their first dash and doubles the first dash of all other tags, with every round, and the text is accepted again exactly if no tag of a word started with a dash.", "quantifier": "every string", "why_tests_cant": "all strings", "anchors": ["lumberjack/src/io/ptb.rs: PTBFormat::tree_to_string, string_to_tree"]}
{"id": "C47", "title": "PTBReader", "statement": "Reading a file with one tree per line yields exactly the results of parsing the lines not starting with '%', in order. In multi-line mode the items are exactly the results of parsing the concatenated lines of each complete group, in order, where a group starts at a line that is neither empty nor a comment and ends where all brackets are closed; an unfinished last group is silently dropped; the reader panics exactly if some group closes more brackets than it opens.", "quantifier": "every input file", "why_tests_cant": "all files", "anchors": ["lumberjack/src/io/ptb.rs: PTBReader::next, count_pars"]}
{"id": "C48", "title": "NEGRA round trip", "statement": "Writing a list of well-formed trees, including non-projective ones, with one NegraWriter and reading the text with NegraReader gives as many trees, each a copy of the one written: same terminals, nonterminals, features, spans and labelled edges, and one secondary edge for every node other than the root that has any. If the root is labelled VROOT and has no features but a numeric sentence id and metadata, the copy is equal to the original. Provided: the root is a nonterminal; forms, tags, lemmas and edge labels are non-empty and without whitespace; forms do not start with #; lemmas, edge labels and morph values are not --; nonterminal labels and annotations contain no =; the only features are morph on terminals and node_annotation on nonterminals; secondary edges start at nonterminals and have labels not starting with %; ids are numbers in canonical form; metadata is trimmed and on one line.", "quantifier": "every such tree", "why_tests_cant": "all trees; ids are assigned by a work-list traversal", "anchors": ["lumberjack/src/io/negra.rs: NegraWriter::write_tree, NegraReader::next, Builder"]}
{"id": "C49", "title": "NegraReader framing", "statement": "Each call of next consumes at least one line or ends the iteration, so iterating ends. Lines outside of sentences are ignored. An #EOS outside of a sentence, a #BOS without number, a #BOS inside a sentence, a line that is not that of a terminal or nonterminal, a terminal after a nonterminal, a nonterminal not named as a parent before, a differing closing number and missing nonterminal lines each give one Err item, and reading goes on with the next line. A tree is returned exactly for a sentence without these faults that has a terminal and whose secondary parents are known; a sentence without terminals or with an unknown secondary parent panics, and nothing else does. A last sentence that is not closed is dropped without an item.", "quantifier": "every input file", "why_tests_cant": "all files", "anchors": ["lumberjack/src/io/negra.rs: NegraReader::next, Builder::from_header, try_into_tree, process_line"]}
{"id": "C50", "title": "NegraReader spans", "statement": "Every tree NegraReader returns comes from a sentence of the file. Numbers in lines are decimal, at most 64 bits, possibly with one plus before them. If every nonterminal other than the root has exactly one line, the tree has exactly the nodes, labels, features and primary and secondary edges its lines say; if moreover no line comes after the line of its parent, the tree is well formed (spans included). Without these conditions it may not be: two nonterminals naming each other as parent, a child whose line follows its parent's, and two lines for one nonterminal in place of a missing one are accepted and give graphs that are not well-formed trees.", "quantifier": "every input file", "why_tests_cant": "all files", "anchors": ["lumberjack/src/io/negra.rs: Builder::process_nonterminal_line, process_edges"]}
{"id": "C51", "title": "NegraWriter numbering", "statement": "For a well-formed tree with a nonterminal root whose secondary edges start at nonterminals, NegraWriter writes a header, one line per terminal in sentence order, one line per nonterminal other than the root with children before parents, a footer and an empty line, each node exactly once. Nonterminals are numbered distinctly from 500 upwards, every number being smaller than the parent's except that the root has 0; each line holds the node's fields and names its parent, and one secondary parent if there is any, by number. The order of the nonterminal lines is fixed by the tree: a nonterminal is numbered as soon as all nonterminals below it are, and those that have only terminals as children are taken in the order of their first words. So without secondary edges the text is a function of the nested constituents alone, which is given as a short recursive definition, and trees that differ in the indices of nodes and edges only have the same text. The entries of a line are padded with spaces to 32, 32, 16, 24, 16, 16 and 16 bytes, the last one not at all, and one that is too long is followed by one space. A missing sentence id is replaced by the number of trees without id written before. Writing a tree that is a single terminal panics, and a secondary edge starting at a terminal can make the writer panic.", "quantifier": "every well-formed tree with a nonterminal root and every sequence of trees", "why_tests_cant": "all trees; work-list algorithm", "anchors": ["lumberjack/src/io/negra.rs: NegraWriter::write_tree"]}
{"id": "C52", "title": "Conversion to CONLLX", "statement": "to_conllx yields one token per terminal in sentence order with its form, lemma, tag and features; the consuming conversion gives the same sentence.", "quantifier": "every well-formed tree", "why_tests_cant": "all trees and node index orders", "anchors": ["lumberjack/src/io/conllx.rs: From<&Tree> for Sentence, From<Tree> for Sentence, From<&Terminal> for Token"]}
{"id": "C53", "title": "Stable indices", "statement": "Node indices of surviving nodes are unchanged by every structural operation, and indices of nodes added are not in use.", "quantifier": "every well-formed tree and operation", "why_tests_cant": "all histories with removals and index reuse", "anchors": ["lumberjack/src/tree.rs: all mutating methods"]}
{"id": "C54", "title": "Secondary edges do not affect the tree", "statement": "Adding, removing or reattaching secondary edges changes no parent, child, span or projectivity observation, and removing through remove_secondary_edge never removes a primary edge.", "quantifier": "every well-formed tree and edge", "why_tests_cant": "all trees", "anchors": ["lumberjack/src/tree.rs: Tree::add_secondary_edge, remove_secondary_edge, reattach_node"]}
{"id": "C55", "title": "Sentence order", "statement": "sort_indices sorts any list of nodes by first position, last position, number of positions, terminals before nonterminals, number of children and form or label, keeping the order of nodes that agree in all of this. So applied to the terminals of a well-formed tree it lists them by sentence position, and applied to siblings by first word, whatever the order of node indices.", "quantifier": "every well-formed tree", "why_tests_cant": "all permutations of node indices", "anchors": ["lumberjack/src/tree.rs: Tree::sort_indices, terminals"]}
{"id": "C56", "title": "LabelSet", "statement": "A positive label set matches exactly its members, a negative one exactly the non-members.", "quantifier": "every label set and query", "why_tests_cant": "all sets and strings", "anchors": ["lumberjack/src/util.rs: LabelSet::matches"]}
{"id": "C57", "title": "The conversion tool", "statement": "Every input gives exactly one sequence of items (trees and errors), after which the reader stops or panics. The tool takes the items in order and writes for each tree the result of those steps that are switched on, in this order: DUMMY nodes removed; nodes lowered until there are no gaps, on demand recording each move as a secondary edge; part-of-speech tags replaced by those of the next POS sentence; words with a tag prefix moved to the root; phrase numbers, counting from 0 along the sentence, added to words; nonterminals outside a label set removed; nodes inserted above runs of words; parent labels added to words; and, for the two tag formats, unary chains collapsed and ancestor tags added. It stops at the first item that is an error, at a missing, unreadable, too short or too long POS sentence, and at a result with gaps if the output format is neither NEGRA nor CONLLX; everything before has been written. Otherwise it writes one output per item. The words written are those read. Without options the tree is written as it is. With --projectivize and without --reattach there are no gaps; with both there can be. The tool neither hangs nor panics (unless the reader does) if every NEGRA sentence has one line per nonterminal, children before parents, and every tree has two words, or a nonterminal as root and neither --remove_dummies nor --reattach is given. It hangs on a tree with one word that is to be moved to the root, and panics when writing a tree that is a single word as NEGRA.", "quantifier": "every input file, POS file, input and output format, option set and iteration order of hash sets", "why_tests_cant": "all inputs and combinations of options", "anchors": ["lumberjack-utils/src/bin/lumberjack-conversion.rs: main, get_writer, get_reader"]}
{"id": "C58", "title": "The words of a sentence survive structural editing", "statement": "No structural operation other than inserting or removing that terminal changes the form, lemma or tag of a terminal.", "quantifier": "every well-formed tree and operation", "why_tests_cant": "all histories", "anchors": ["lumberjack/src/tree.rs: mutating methods", "lumberjack/src/tree_modification.rs: TreeOps, UnaryChains, Projectivize"]}
{"id": "C59", "title": "Reading tagged sentences", "statement": "A CONLLX sentence with at least one token, each with a readable ancestor tag (absolute with a count of at least one, or relative with any offset), is read as a well-formed projective tree over exactly these tokens in order (form and tag kept, a missing tag read as _, lemma and features dropped), stored in order and without secondary edges: the tree the tags stand for, with the unary chains put back. If some token has no readable tag, reading gives an error. A sentence without tokens and an absolute count of zero panic, and nothing else does. Readable is a feature abs_ancestor or rel_ancestor whose value is NONE or label+number (for relative tags also a lone label), optionally followed by ~ and the labels of a chain (what follows a second ~ does not count); if the feature occurs more than once, the last counts.", "quantifier": "every token sequence", "why_tests_cant": "all sentences and all tags a tagger can predict", "anchors": ["lumberjack/src/io/conllx.rs: try_from_conllx_with_absolute_encoding, try_from_conllx_with_relative_encoding"]}
{"id": "C60", "title": "Projectivization does not depend on hash order", "statement": "Whatever order the hash sets have, projectivize turns one and the same tree into trees with the same nodes at the same indices (labels, features, spans) and the same labelled edges, primary and secondary; they compare equal and are written as the same bracketed text. Only edge indices and the order in which edges were added can differ. The returned lists of moves have the same entries, and those for one node are in the same order.", "quantifier": "every well-formed non-projective tree and every two iteration orders", "why_tests_cant": "iteration orders are random per process", "anchors": ["lumberjack/src/tree_modification.rs: Projectivize::projectivize"]}
{"id": "C61", "title": "Runs of the conversion tool do not depend on hash order", "statement": "Two runs of the conversion tool on the same input with the same options write the same texts and sentences and end in the same way, whatever order hash sets have in each of them, if every NEGRA sentence has one line per nonterminal, children before parents, and every tree has two words, or a nonterminal as root and neither --remove_dummies nor --reattach is given. More generally, trees that agree in all but edge indices and the order in which edges to different nodes were added have the same NEGRA text, the same CONLLX tokens and the same text in every bracketed format.", "quantifier": "every input file, POS file, format, option set and every two iteration orders", "why_tests_cant": "iteration orders are random per process", "anchors": ["lumberjack-utils/src/bin/lumberjack-conversion.rs: main", "lumberjack/src/tree_modification.rs: Projectivize::projectivize"]}
{"id": "C62", "title": "Output is stable under conversion", "statement": "Converting a NEGRA file to NEGRA, or a file in the simple or TueBa format to the same format, without options normalises it: if the run finishes, running the tool on its output gives exactly this output again, with one tree per line expected or not. For NEGRA every sentence must have one line per nonterminal, none for the root, and no line after that of the parent. Every tree read from such a file meets the conditions under which NEGRA writing and reading is lossless, and a file written from any trees meeting them is written again from the trees read back, whatever the writer wrote before. In the PTB format the output is stable exactly if no tag of an inner node has a dash and no tag of a word starts with one: every run cuts the tags of words at the first dash and doubles the first dash of other tags, and a run on output with a word that lost its tag writes the trees before it and then exits with an error.", "quantifier": "every input file and every list of exportable trees", "why_tests_cant": "all layouts, labels, numberings and gaps of the input", "anchors": ["lumberjack-utils/src/bin/lumberjack-conversion.rs: main", "lumberjack/src/io/negra.rs: NegraReader, NegraWriter", "lumberjack/src/io/ptb.rs: PTBFormat::string_to_tree, tree_to_string"]}
{"id": "C63", "title": "The parser follows the grammar file", "statement": "Under the semantics of pest (ordered choice, greedy repetition, lookahead, implicit white space outside of atomic rules) the grammar file has exactly one outcome for every text. It matches exactly the texts that are one bracketing, with white space allowed around brackets, tags and words, and then gives the pairs of this bracketing followed by that of the end of the input. string_to_tree gives an error exactly on the texts the grammar does not match, and otherwise the tree the pairs stand for.", "quantifier": "every text", "why_tests_cant": "all texts", "anchors": ["lumberjack/src/io/ptb.rs: PTBFormat::string_to_tree", "lumberjack/src/io/ptb.pest: tree, node, nonterminal, preterminal, terminal, node_label, char, WHITESPACE"]}
{"id": "C64", "title": "The command line", "statement": "Format names are matched up to case and each names one format; the tool accepts exactly the listed names. A set file stands for the set of its words (maximal runs without white space). A command line with known format names (tueba and simple if not given), --sec_edges only together with --projectivize, and readable files runs the conversion with exactly the options it asks for (inserted label UNK and phrase number feature id if not given). Every other command line writes nothing and ends with an error message, or with a panic if a set file cannot be read.", "quantifier": "every command line, set file and input", "why_tests_cant": "all combinations of options and file contents", "anchors": ["lumberjack-utils/src/bin/lumberjack-conversion.rs: main, build, get_set_from_file, InFormat::try_from, OutFormat::try_from"]}
{"id": "C65", "title": "Histories of all calls", "statement": "Every public operation that changes a tree, elementary (C09) or working on the whole tree (annotate_pos, annotate_parent_tag, insert_intermediate, filter_nonterminals, reattach_terminals, collapse_unary_chains, restore_unary_chains, projectivize, project_tag_set, project_ids, annotate_absolute, annotate_relative, remove_dummy_nodes), leaves a well-formed tree well formed, whatever closures it is given and whether it reports success or an error; so does every finite sequence of them. The exceptions are those of C09 and restore_unary_chains on a tree in which a discontinuous node has a unary_chain feature with a value. No sequence of the operations on the whole tree changes the number, order, forms or lemmas of the words, and only annotate_pos changes tags. All of them but reattach_terminals always return.", "quantifier": "every well-formed tree, every finite sequence of calls and all closures passed to them", "why_tests_cant": "all histories and all closures", "anchors": ["lumberjack/src/tree.rs: mutating methods", "lumberjack/src/tree_modification.rs: TreeOps, UnaryChains, Projectivize, AnnotatePOS", "lumberjack/src/io/encode.rs: Encode"]}
{"id": "C66", "title": "Trees survive as tags", "statement": "A well-formed projective tree, with whatever edge labels, lemmas, annotations and features, that is collapsed with delimiter '_', annotated (absolute or relative), converted to CONLLX and read back gives a well-formed projective tree with the same words, part-of-speech tags, inner nodes and labels; edge labels, lemmas and features are gone. So if the tool can convert a file to the simple format, converting it to tags and these to the simple format gives the same text. Provided: labels of nonterminals are not empty and avoid '_', '+', '~', '|', ':' (and, for relative tags, none is NONE), no node has a feature unary_chain, no feature of a word reads as the tag, and no word is below 2^63 nodes. For formats other than NEGRA the provisos on features always hold. Those on labels are needed.", "quantifier": "every such tree and input file, every iteration order", "why_tests_cant": "all trees, labels and feature sets", "anchors": ["lumberjack/src/io/conllx.rs: TryFromConllx, ToConllx", "lumberjack/src/io/encode.rs: Encode, Decode", "lumberjack/src/tree_modification.rs: UnaryChains", "lumberjack-utils/src/bin/lumberjack-conversion.rs: main"]}
{"id": "C67", "title": "Tag files are interchangeable and stable", "statement": "Under the provisos of C66 on labels, converting a file in a format other than NEGRA to one kind of tags and these to the other (or the same) kind gives exactly what converting the file directly gives; for NEGRA this holds if the trees are projective and words have neither lemma nor features. Trees read from tags are projective, have no lemmas and features, and no label has '_', '~', '|' or ':', whatever the tags are. So converting any file of readable tags to tags of the same kind normalises it: converting the output once more gives the same output, if no label is empty, contains '+' or (for relative tags) is NONE, and no word is below 2^63 nodes. An empty label and NONE are lost in the second conversion.", "quantifier": "every input file, both kinds of tags, every iteration order", "why_tests_cant": "all files, all tags a tagger can predict", "anchors": ["lumberjack-utils/src/bin/lumberjack-conversion.rs: main", "lumberjack/src/io/conllx.rs: TryFromConllx, ToConllx", "lumberjack/src/io/encode.rs: Encode, Decode"]}
{"id": "C68", "title": "Input in parts and files that were cut", "statement": "Readers look at one sentence at a time: more input after what was read never changes the items already read, nor what the conversion tool has written for them, and once reader or tool stopped with a panic or an error more input makes no difference. If a NEGRA file, or a bracketed file, is read without errors, then from every beginning of it, cut at any byte, also within a character, the first of its trees are read and after them at most one error; never another tree and no panic. For bracketed files with trees on several lines the brackets must be closed at the end of the file; without this a beginning can give a tree the file does not have, or a panic. If writing a file of trees the format can hold is interrupted at any byte, all trees written completely are read back, and the incomplete one never is: it is complete if only line feeds are missing.", "quantifier": "every input, format and continuation; every file and every cut; every list of writable trees and every point of interruption", "why_tests_cant": "all files and all cuts", "anchors": ["lumberjack/src/io/negra.rs: NegraReader, NegraWriter", "lumberjack/src/io/ptb.rs: PTBReader, PTBWriter", "lumberjack-utils/src/bin/lumberjack-conversion.rs: main"]}
{"id": "C69", "title": "Line endings", "statement": "The lines of a text are what stands before its line endings, which can be line feeds or carriage returns with line feeds, in any mixture; what follows the last one is a line if there is any text. So two files that differ only in their line endings, or in whether there is one at the end, are converted to the same output.", "quantifier": "every text, format and option set", "why_tests_cant": "all texts", "anchors": ["lumberjack/src/io/negra.rs: NegraReader", "lumberjack/src/io/ptb.rs: PTBReader", "lumberjack-utils/src/bin/lumberjack-conversion.rs: get_reader"]}
{"id": "C70", "title": "Unreadable input", "statement": "A line that cannot be read (a device error, or bytes that are not UTF-8) is exactly one error among the items of the NEGRA and bracket readers. What stands before it is read as if the input ended there, so an unfinished sentence is dropped; what stands after it is read as if the input began there. The conversion tool writes exactly what it writes for the lines before and exits with that error, unless it stopped earlier. Each line of a file is decoded by itself: it is read as a text exactly if it is this text in UTF-8, so one bad byte affects one line, and a file in UTF-8 has the lines of its text.", "quantifier": "every input, every position and kind of unreadable line, every format and option set", "why_tests_cant": "all files of bytes and all points of failure", "anchors": ["lumberjack/src/io/negra.rs: NegraReader", "lumberjack/src/io/ptb.rs: PTBReader", "lumberjack-utils/src/bin/lumberjack-conversion.rs: main, get_reader"]}
{"id": "C71", "title": "Output that cannot be written", "statement": "The bytes the conversion tool writes are those of its outputs in order, in UTF-8; only a panic of the NEGRA writer leaves an incomplete record behind them. If the output takes only n bytes, it gets exactly the first n bytes of the whole output, and the tool exits with an error exactly if this is not all of it. So if the whole output is a NEGRA file or a bracketed file with one tree per line that is read without errors, the output cut short has the first of its trees and after them at most one error.", "quantifier": "every input, format, option set and number of bytes", "why_tests_cant": "all points at which writing can fail", "anchors": ["lumberjack-utils/src/bin/lumberjack-conversion.rs: main, get_writer", "lumberjack/src/io/negra.rs: NegraWriter::write_tree", "lumberjack/src/io/ptb.rs: PTBWriter::write_tree"]}
{"id": "C72", "title": "Relative offsets near the limits of the machine", "statement": "Let a sum be a count so far (repaired where it fell below 1) plus the next offset. As long as no sum reaches 2^63, a debug build and a release build both convert a relative encoding to an absolute one, and read relative tags, as with unbounded integers. If some sum does, a debug build panics: already a sentence with the tags S and A+9223372036854775807 makes the reader panic. A release build never panics there: it replaces such a sum by 2, as it does with a count below 1, so that all counts are at least 1 and below 2^63. Absolute encodings with counts from 1 to 2^63 - 1 survive as relative ones in both builds, and so do trees stored as relative tags (C66); larger counts do not.", "quantifier": "every encoding and sentence, both builds", "why_tests_cant": "the offsets of a predicted tag are arbitrary", "anchors": ["lumberjack/src/io/encode.rs: AbsoluteEncoding::try_from_relative, ConversionResult::unwrap_or_fix, RelativeToAbsoluteError::fix, From<AbsoluteEncoding> for RelativeEncoding", "lumberjack/src/io/conllx.rs: try_from_conllx_with_relative_encoding"]}
{"id": "C73", "title": "Going through the NEGRA format", "statement": "Converting an input in any format to NEGRA and the result to a bracketed format (PTB, simple or TueBa) writes, for each tree, the tree as it was read but with a root that is labelled VROOT and has no annotation; if the roots are like this already, it writes exactly what converting the input directly to the bracketed format writes. This holds for inputs whose trees have no gaps and can be held by the NEGRA format (no white space in words, tags, labels and annotations, no '=' in labels, no word starting with '#', no column equal to '--', at most the features the format has, fewer than 2^64 nodes and sentences).", "quantifier": "every input in every format that is read as such trees, all bracketed output formats, both line modes, any number of trees", "why_tests_cant": "all inputs and trees; repository tests try the files of testdata", "anchors": ["lumberjack/src/io/negra.rs: NegraWriter::write_tree, NegraReader", "lumberjack/src/io/ptb.rs: PTBFormat::tree_to_string, string_to_tree", "lumberjack-utils/src/bin/lumberjack-conversion.rs: main"]}
{"id": "C74", "title": "What is written depends on the tree alone", "statement": "Two trees that differ only in the numbering of nodes and edges, and in what is left over from earlier changes (unused slots), compare equal, have the same words and constituents, and are written the same in all seven output formats, including whether writing is refused. Trees without secondary edges that stand for the same nested constituents (contents, edge labels, order) always differ in nothing else. So it does not matter by which sequence of calls, from which format, or in which layout a tree was made: two runs of the tool without further options that read the same trees write the same. With options (and POS sentences) this holds as well for the trees the tool handles (words stored in their order, a nonterminal as root, two words for --remove_dummies and --reattach), unless a tree with gaps is projectivized: two NEGRA files that differ only in the order of the lines of two crossing constituents are projectivized to different trees. For NEGRA output the root must be a nonterminal, secondary edges must start at nonterminals, and no node may have two secondary parents; with two, the one that was added last is written.", "quantifier": "all pairs of well-formed trees that differ in the numbering, all options and output formats, any number of trees", "why_tests_cant": "all histories a tree can have", "anchors": ["lumberjack/src/tree.rs: Tree, PartialEq", "lumberjack/src/io/negra.rs: NegraWriter::write_tree", "lumberjack/src/io/ptb.rs: PTBFormat::tree_to_string", "lumberjack/src/io/conllx.rs: ToConllx", "lumberjack-utils/src/bin/lumberjack-conversion.rs: main"]}
{"id": "C75", "title": "Single nodes and edges", "statement": "The read-only methods of a node (is_terminal, form, label, lemma, features, span) make up the node. Each setter (set_label, set_features, set_form, set_lemma) changes its attribute and no other, and returns the old value; features_mut gives the features that are there or new empty ones. terminal_mut and nonterminal_mut are there exactly for their kind, and the methods behind them are those of the node. A nonterminal takes any span (behind nonterminal_mut the old one is returned), a terminal exactly those that cover one position; only nonterminals can be extended, by the position after the last. continuity tells whether the span has a gap, also as result of merging and removing. Nodes are equal exactly if kind, label, lemma, span and features agree (absent and empty features count as equal, forms are not compared); this is an equivalence relation. A terminal is displayed as part of speech, a space and form, a nonterminal as its label, an edge as its label or --. An edge is its kind and its label, and set_label keeps the kind.", "quantifier": "all nodes, edges, labels, features and spans", "why_tests_cant": "all contents", "anchors": ["lumberjack/src/node.rs: Node, NonTerminal, Terminal", "lumberjack/src/edge.rs: Edge"]}
{"id": "C76", "title": "Doing something twice is doing it once", "statement": "Called a second time with the same arguments, filter_nonterminals, remove_dummy_nodes, insert_intermediate (if the nodes inserted get no label themselves), projectivize, collapse_unary_chains, annotate_pos, annotate_parent_tag, project_tag_set and project_ids succeed (or give the same error) and leave the tree exactly as it is; for projectivize the order of the hash set and for collapse_unary_chains the delimiter may be different. reattach_terminals leaves it as it is but for the order in which edges were added. restore_unary_chains only gives an empty set of features to nodes without features. Two filters, one after the other in either order, do what filtering with both at once does. If the nodes inserted get a label, insert_intermediate inserts more at each call.", "quantifier": "all well-formed trees (with a nonterminal as root for insert_intermediate and annotate_parent_tag, with another word below the target for reattach_terminals, and without a chain feature that has no value for restore_unary_chains), all predicates that look at the node (word) only, all labels, tags, delimiters and orders of the hash set", "why_tests_cant": "all trees and predicates", "anchors": ["lumberjack/src/tree_modification.rs: filter_nonterminals, reattach_terminals, insert_intermediate, projectivize, collapse_unary_chains, restore_unary_chains, annotate_pos, annotate_parent_tag", "lumberjack/src/io/encode.rs: remove_dummy_nodes", "lumberjack/src/tree.rs: project_tag_set, project_ids"]}
{"id": "C77", "title": "Looking at a tree and changing single attributes", "statement": "parent(n) is the other end of the primary edge to n, with this edge; only the root has none. children(n) and secondary_children(n) yield each primary and each secondary edge from n exactly once. secondary_parent(n) is the other end of a secondary edge to n, if there is one; right after add_secondary_edge it is that one. terminals and nonterminals yield every terminal and nonterminal once, ordered by index, and there are n_terminals terminals. Changing an attribute of a node through the tree (label, features, form, lemma) changes this attribute of this node only, changing the label of an edge changes this label only (a secondary edge stays secondary): all other nodes, edges, the root, the number of words and is_projective are as before, and the tree is still well formed. Both panic exactly for nodes and edges that do not exist.", "quantifier": "all well-formed trees, nodes, edges, attributes and labels", "why_tests_cant": "all trees", "anchors": ["lumberjack/src/tree.rs: Tree::parent, children, secondary_parent, secondary_children, add_secondary_edge, terminals, nonterminals, IndexMut"]}
{"id": "C78", "title": "Release builds do not turn surplus brackets into trees", "statement": "Built with overflow checks, reading multi-line bracketed files and decoding absolute encodings do what C47 and C33 say. Built without (a release build), reading a multi-line file never panics: its items are what is parsed from the lines up to the first point at which as many brackets were closed as opened, whatever their order, and there is one way to divide a file like this. Where the build with overflow checks does not panic, both return the same items. Where it panics, because a bracket is closed that was not opened, that call of the release build returns an error or drops the rest of the file silently. Every tree a release build returns stands in the file as a group of lines in which no bracket is closed that was not opened, but after a surplus bracket it may be a part of a larger tree. Decoding counts of at least one gives the same in both builds, also from tags; with a count of zero a build with overflow checks panics, and a release build panics, too, or decodes to a well-formed tree over the given words in order, which may have gaps. The same holds for tags, except that the tree read may have recorded a wrong number of discontinuous nodes if a node with a gap has a chain (exhibited).", "quantifier": "all files with fewer than 2^64 brackets of each kind, formats, builds, absolute encodings and tag sequences", "why_tests_cant": "tests run in one build, and the files that tell the builds apart are those no test contains", "anchors": ["lumberjack/src/io/ptb.rs:PTBReader::next", "lumberjack/src/io/ptb.rs:count_pars", "lumberjack/src/io/encode.rs:Decode::decode", "lumberjack/src/io/conllx.rs:TryFromConllx"]}
{"id": "C79", "title": "The lines of an export file", "statement": "A line whose first word starts with #BOS opens a sentence if, without the white space at its ends, one white space character stands before a number; after another one the rest, without the white space at its ends, is the metadata. A line whose first word starts with #EOS closes the sentence if its second word is the number, with neither sign nor leading zeros. The line of a terminal has at least six words, the first of which does not start with #: form, lemma, tag, morphology, edge label (-- for a missing lemma, morphology or edge label) and the number of the parent; then nothing, a word starting with %, or label and number of a secondary parent. The line of a nonterminal has # and its number as first word, and as third its label, which ends at the first =, and annotation, which ends at the next. Words are the maximal runs of characters that are not Unicode white space; numbers are decimal, below 2^64, possibly with a plus. What C49 and C50 say about lines holds of lines in this sense.", "quantifier": "all lines, numbers and rows", "why_tests_cant": "all texts, all Unicode characters", "anchors": ["lumberjack/src/io/negra.rs: NegraReader::next, Builder::from_header, try_into_tree, process_nonterminal_line, process_terminal_line, process_edges, parse_optional_fields, read_required_string_field, read_required_numerical_field"]}
{"id": "C80", "title": "Going through a bracketed format", "statement": "If a bracketed format (PTB, simple, TueBa) can hold all trees of an input, converting the input to this format and running the tool on the result writes and ends exactly like running it on the input, with whatever options, output format and POS sentences, one tree per line expected or not. A format can hold trees without gaps and secondary edges, whose words have neither lemma nor features, whose strings have no white space and brackets (nor ':' and '=' for TueBa, '-' for PTB), with edge labels and annotations for TueBa only. In particular every file in the simple or TueBa format can be normalised first, and every bracketed file can be converted to TueBa first if no label, tag or annotation has a colon or equals sign; with a colon in a label something is lost. For trees without gaps with whatever lemmas and features, from whatever input, going through a format that can represent the strings to the simple format, or through TueBa to any bracketed format, gives what the direct conversion gives. With options (and POS sentences) the trees are those the tool handles (C57); for NEGRA output roots are nonterminals.", "quantifier": "every input of such trees, all formats, options, line modes and orders of hash sets, any number of trees", "why_tests_cant": "relates two runs of the tool for all inputs and option sets", "anchors": ["lumberjack-utils/src/bin/lumberjack-conversion.rs: main", "lumberjack/src/io/ptb.rs: PTBFormat::tree_to_string, string_to_tree"]}
{"id": "C81", "title": "Normalising an export file first", "statement": "Every NEGRA file that can be read, with one line per nonterminal and children before parents, can be converted to NEGRA without options, and running the tool on the result writes and ends exactly like running it on the file, with whatever options, output format and POS sentences. So files that are converted to the same NEGRA text (which may differ in numbering, order of lines, white space, comments and surroundings of the sentences) are converted to the same in any other way. The only exception is projectivizing trees with gaps: in the normalised file the constituents come in another order, in which they are projectivized. With --remove_dummies and --reattach every tree must have two words.", "quantifier": "every such file with fewer than 2^64 - 500 lines, all options, output formats, POS sentences and orders of hash sets, any number of trees", "why_tests_cant": "relates two runs of the tool for all files and option sets", "anchors": ["lumberjack-utils/src/bin/lumberjack-conversion.rs: main", "lumberjack/src/io/negra.rs: NegraReader, NegraWriter::write_tree"]}
{"id": "C82", "title": "Editing while climbing", "statement": "The closure passed to map_climber_path may change the tree. If a call with node p leaves alone the parents of the nodes above p (it may remove p, insert nodes directly above or below p, move p elsewhere, and change anything below or beside it), the method returns, and it visits exactly the terminals the tree had at the start, in the order of their indices: a terminal that has been removed meanwhile is skipped, any other is visited with the nodes that are above it when its turn comes, from its parent to the root, until the closure returns true. So edits made at the current node do not change the path of the current visit, but show in those of later terminals. The documented example climb_map (remove the ancestors whose label starts with A, stop at the first ancestor starting with B and note its label on the terminal) therefore, on a tree whose root is not to be removed, removes exactly the A-nodes having a terminal below them with no B-node in between, keeps all other nodes, their dominance relations and edges, gives every terminal the label of its closest B-ancestor, and never panics; if the root is an A-node it can panic.", "quantifier": "every well-formed tree, every closure and closure state meeting the condition; for climb_map every pair of label predicates and every feature name", "why_tests_cant": "The closure is arbitrary code that interferes with the data structure being traversed; tests run a few closures on a few trees and cannot show that no order of edits makes the climber skip, repeat or miss nodes.", "anchors": ["lumberjack/src/tree.rs: Tree::map_climber_path, remove_node, insert_unary_above, insert_unary_below, reattach_node", "lumberjack/src/util.rs: Climber::next"]}
{"id": "C83", "title": "Projectivization can be taken back", "statement": "If projectivize() returns a list, then going through it from the last entry (parent, edge, node) to the first and, for each, reattaching the node to the parent named and giving the new edge the content named never fails, and ends with the tree as it was before: the same nodes, spans, attachments, edge labels and secondary edges, up to the indices and the order of edges. So it compares equal to the original, has its gaps again, and is written the same in every format (for NEGRA output provided the root is a nonterminal, secondary edges start at nonterminals and no node has two). The order matters: a node can be named more than once, and a tree is exhibited where going through the list from first to last leaves a node at a wrong parent.", "quantifier": "every well-formed tree with a gap and every hash iteration order", "why_tests_cant": "the list has to fit the tree after any number of interacting reattachments, for every tree and every hash order", "anchors": ["lumberjack/src/tree_modification.rs: Projectivize::projectivize", "lumberjack/src/tree.rs: Tree::reattach_node, parent"]}
{"id": "C84", "title": "Edits that take each other back", "statement": "On a well-formed tree the following pairs of edits end with the tree as it was: the same nodes with the same indices, contents and spans, the same attachments, edge labels, secondary edges, root, number of terminals and number of discontinuous nodes, up to indices and order of edges. Moving a terminal and moving it back (edge indices are kept too). Adding a secondary edge and removing it by the index returned (edge indices are kept too). Reattaching a node to a nonterminal above or below its parent and not below itself, and then to its old parent, giving the new edge the content returned by the first call. Inserting a unary node above a node that is not discontinuous and whose edge to its parent is unlabelled, and removing it. Inserting a unary node below a nonterminal that is not discontinuous and whose edges to its children are unlabelled, and removing it. The provisos are needed: removing a node loses the labels of the edges to its children, and inserting a node above a discontinuous node and removing it leaves the number of discontinuous nodes one too low, so that a tree with a gap counts as projective and is written in a bracketed format with its words in another order.", "quantifier": "every well-formed tree, all nodes, positions, labels and edges meeting the provisos", "why_tests_cant": "the whole tree has to be the same afterwards, whatever its shape and gaps", "anchors": ["lumberjack/src/tree.rs: Tree::move_terminal, add_secondary_edge, remove_secondary_edge, reattach_node, insert_unary_above, insert_unary_below, remove_node, projective", "lumberjack/src/io/ptb.rs: PTBFormat::tree_to_string"]}
{"id": "C85", "title": "Recorded moves keep the original tree", "statement": "With --projectivize --sec_edges nothing is lost of a tree that has no secondary edges and in which no node is moved twice: the tree obtained has no gaps, the same nodes and the same words in the same order, and the original parent and edge label of every node can be told from it. If a secondary edge leads to the node, it starts at the original parent, and its label is np_ and the original label, or np if there was none; if not, the node still has its original parent and label. This also holds of the tree read back from the NEGRA file written (if the format can hold the original tree), so two such trees with the same output under --projectivize --sec_edges have the same output without. A node that is moved twice has two secondary edges, and NEGRA holds one of them, so something is lost: two trees are exhibited that differ in the attachment of such a node and are written as the same text.", "quantifier": "every well-formed tree without secondary edges (for the file: every tree NEGRA can hold, every sentence number and metadata), every hash iteration order under which no node is moved twice", "why_tests_cant": "whether information is lost is a statement about all pairs of trees with the same output", "anchors": ["lumberjack-utils/src/bin/lumberjack-conversion.rs: main (projectivize, sec_edges)", "lumberjack/src/tree_modification.rs: Projectivize::projectivize", "lumberjack/src/io/negra.rs: NegraWriter::write_tree, NegraReader"]}
{"id": "C86", "title": "Secondary edges show in NEGRA output only", "statement": "What the tool writes in a format other than NEGRA does not depend on the secondary edges of the trees, whatever the options (projectivization of trees with gaps included), nor on --sec_edges. So two runs that read trees which differ only in secondary edges write the same and end the same. For NEGRA input this can be told from the text: two files that agree in the first six columns of the lines and in the lines around the sentences, and can both be read without error, hold the same trees with possibly other secondary edges; and if what follows the sixth column (secondary edges and comments) is removed from a file that can be read, the result can be read, holds the same trees without secondary edges, and is converted to the same in all formats but NEGRA. In NEGRA output secondary edges do show, and so does --sec_edges with --projectivize; without --projectivize the option --sec_edges has no effect.", "quantifier": "every pair of trees the tool can handle (or of NEGRA files holding such trees), all options, output formats, POS sentences and hash iteration orders", "why_tests_cant": "relates the runs on two inputs through every step of the tool; a test compares a few pairs of files for a few options", "anchors": ["lumberjack-utils/src/bin/lumberjack-conversion.rs: main (projectivize, sec_edges)", "lumberjack/src/io/negra.rs: NegraReader, Builder::process_edges, parse_optional_fields, try_into_tree", "lumberjack/src/tree_modification.rs: Projectivize::projectivize", "lumberjack/src/io/ptb.rs: PTBFormat::tree_to_string", "lumberjack/src/io/conllx.rs: ToConllx"]}
{"id": "C87", "title": "What each output format holds", "statement": "What is written determines exactly the following of a tree, and nothing else: two trees are written the same if and only if they agree in it. In the bracketed formats: the shape, the words and tags in order with round brackets replaced by LBR and RBR, and the labels of inner nodes; in the PTB and TueBa formats also the annotations of inner nodes; in the TueBa format also the edge labels. (The trees have no gaps. Equal texts tell this much only if the strings can be represented, e.g. contain no white space.) So files that give the same TueBa output give the same PTB output, and files that give the same PTB output give the same output in the simple format. This also holds for whole runs of the tool: two runs without steps write the same bracketed text, NEGRA text or CoNLL-X sentences if and only if they read the same number of trees and these agree pairwise. In NEGRA: the number and the metadata of the sentence; up to the identity of nodes the words with position, form, lemma, tag and features, the label and features of inner nodes but the root, the parents and edge labels, and for every node but the root the secondary parent reported first and the label of its edge (for trees the format can hold). In CoNLL-X: form, lemma, tag and the text of the features of the words in order.", "quantifier": "every pair of well-formed trees (for bracketed output without gaps; for NEGRA that the format can hold), all pairs of input files and formats with such trees", "why_tests_cant": "that nothing is lost, and that nothing else matters, are both statements about all pairs of trees", "anchors": ["lumberjack/src/io/ptb.rs: PTBFormat::tree_to_string, PTBWriter", "lumberjack/src/io/negra.rs: NegraWriter::write_tree", "lumberjack/src/io/conllx.rs: ToConllx", "lumberjack-utils/src/bin/lumberjack-conversion.rs: main"]}
{"id": "C88", "title": "Projectivization only attaches nodes further down", "statement": "projectivize keeps every dominance relation and adds some: what is below a node stays below it. In particular the node a node is attached to afterwards is its old parent or below its old parent. A node without a gap has exactly the same nodes and words below it as before. A node with a gap covers all positions from its first to its last word afterwards, and everything it gains comes from below the nodes without gap above it. It may gain words outside its first and last word, though: a tree is exhibited in which it does. No node leaves the same parent twice, and there are at most as many reattachments as pairs of nodes of which one is below the other afterwards and was not before.", "quantifier": "every well-formed tree with gaps, every hash iteration order, all nodes and positions", "why_tests_cant": "a statement about the outcome of any number of reattachments that interact, for every tree and every hash order", "anchors": ["lumberjack/src/tree_modification.rs: Projectivize::projectivize"]}
{"id": "C89", "title": "The words of the output file are those of the input file", "statement": "Whatever the options and formats, the i-th text the tool writes has exactly the words of the i-th text it reads, in the same order. In bracketed text the words are the runs of characters directly before closing brackets (white space aside), in NEGRA the first columns of the lines of terminals, in CONLLX the forms. The i-th text is, for bracketed input, the i-th line that does not start with %, or with --multiline the i-th group of lines after which all brackets are closed; for NEGRA the i-th sentence; for tagged CONLLX the i-th sentence. Round brackets in words appear as LBR and RBR in bracketed output. Provisos: for bracketed output there is no closing bracket in labels, annotations, edge labels (which is so if the input is bracketed) and the label of inserted nodes, and tokens have no white space; the file is one the tool neither hangs nor panics on (see C57). A closing bracket in a NEGRA label is written as it is and breaks the bracketing.", "quantifier": "every input file and POS file, all input and output formats, option sets and hash iteration orders", "why_tests_cant": "text goes in and text comes out; what is in between (reader, every transformation, writer) has to keep every word for every file and every combination of options", "anchors": ["lumberjack-utils/src/bin/lumberjack-conversion.rs: main, get_reader, get_writer", "lumberjack/src/io/ptb.rs: PTBReader, PTBFormat::tree_to_string", "lumberjack/src/io/negra.rs: NegraReader, NegraWriter::write_tree", "lumberjack/src/io/conllx.rs: ToConllx, TryFromConllx"]}
{"id": "C90", "title": "Editing a tree without gaps is a rewriting of an ordered tree", "statement": "On a tree without gaps each editing step is a simple function of the ordered labelled tree, spans and edge labels included. filter_nonterminals replaces each removed node by its children, which lose their edge labels, at its place among its siblings. remove_dummy_nodes does this for the nodes labelled DUMMY, and drops the root too if it is labelled DUMMY and one tree is left below it. insert_intermediate replaces, among the children of each chosen node, every longest sequence of adjacent words by one node above them without edge label; of the words only the first keeps its edge label (with the proviso on labels given above for insert_intermediate). annotate_pos puts the i-th tag on the i-th word; annotate_parent_tag and project_tag_set give each word the label of its parent, or of the closest chosen node above it; project_ids, for a function that chooses the root and words whose nodes are numbered along the sentence, numbers the words such that those with the same closest chosen node share a number, counting up from 0 along the sentence. reattach_terminals to the root, for a predicate that looks at the word only and with at least two words, takes the matched words out, with all nodes that have nothing left below them, shrinks the spans of the nodes above to the words left, and puts each word without edge label among the children of the root, before the first child that starts after it. The conversion tool applies these functions in its fixed order, and projectivization changes nothing; the steps after --reattach as far as it leaves no gaps. So for a file of bracketings, a file of tagged sentences, and any other file that is read as trees without gaps the whole output in every format but NEGRA is given by the bracketings, tags or trees and the POS sentences: one text or sentence for each, that of the rewritten tree (for the two encodings: with unary chains collapsed and the encoding as feature of the words), and the run finishes if there is a POS sentence of the right length for each tree and the words moved leave no gaps. With --projectivize the same holds of every file, with gaps or not: the rewriting then starts from the tree whose dummies are removed (on demand) and whose gaps are filled node by node, as described for projectivize.", "quantifier": "every well-formed tree without gaps, all predicates, labels and tag lists; for the tool every bracketed or tagged file and NEGRA file, with gaps if --projectivize is given, every POS file, option set, output format but NEGRA (see C95) and hash iteration order", "why_tests_cant": "a test compares the results of a few edits; the claim gives the complete result for every tree and every file", "anchors": ["lumberjack/src/tree_modification.rs: TreeOps::{filter_nonterminals, remove_dummy_nodes, insert_intermediate, annotate_pos, annotate_parent_tag, project_tag_set, project_ids, reattach_terminals}", "lumberjack-utils/src/bin/lumberjack-conversion.rs: main", "lumberjack/src/io/ptb.rs: PTBFormat::{string_to_tree, tree_to_string}"]}
{"id": "C91", "title": "Projectivization, described exactly", "statement": "projectivize treats the nodes one after the other, each after all its children (children in the order in which they were attached), and on each it does exactly this: take the smallest range of positions that includes all positions of the node and, of every branch that leaves the path from the root to the node above it, all positions or none; attach the branches in that range to the node, by the edges they had; leave everything else alone. The order and the result are thus determined by the tree, up to the indices and order of edges, whatever the hash order. The order in which nodes were attached does matter: two trees that compare equal and differ only in it are exhibited that no longer compare equal after projectivize.", "quantifier": "every well-formed tree, every hash iteration order", "why_tests_cant": "gives the complete result for every tree; the single steps interact, because a node moved for one gap can be moved again for another", "anchors": ["lumberjack/src/tree_modification.rs: Projectivize::projectivize", "lumberjack/src/tree.rs: Tree::parent, children", "lumberjack/src/span.rs: Span"]}
{"id": "C92", "title": "The phrases of a converted tree", "statement": "Whatever editing options are given, the conversion tool neither renames a phrase nor changes its annotation: each phrase of the edited tree is one of the tree read, with its label and features, or, with --insert, a node with the label of inserted nodes and words only below it. With --filter only the root, the inserted nodes and phrases with labels in the set are left. Conversely a phrase of the tree read stays unless it is a DUMMY node and dummies are removed, or it is not the root and its label is filtered out, or it is not the root and all words below it (by the tags of the POS file if given) are moved by --reattach; so without these options and --insert the phrases stay the same. The root stays the root unless it is such a dummy. Counted by label and annotation: no phrase occurs more often than before but for inserted ones, and without --reattach one that is neither removed as dummy nor filtered out occurs no less often; at most one phrase is added per word. The words keep form, lemma and position and have the tag of the POS file if given, else their own; only the features for numbers and parent labels can change; edge labels are kept or dropped, never changed; and there are no further secondary edges unless projectivization records its moves. (For the two encodings this is the tree before it is encoded.)", "quantifier": "every option set, input format and file, POS file, output format, hash iteration order, every well-formed tree", "why_tests_cant": "the steps interact: a phrase could be lost by projectivization, by the removal of emptied nodes, or by reuse of the index of a removed node, for some shape and some combination of options no test has", "anchors": ["lumberjack-utils/src/bin/lumberjack-conversion.rs: main", "lumberjack/src/tree_modification.rs: TreeOps::{filter_nonterminals, remove_dummy_nodes, insert_intermediate, reattach_terminals}, Projectivize::projectivize"]}
{"id": "C93", "title": "Doing the steps of a conversion in two runs", "statement": "The steps of the conversion tool come in a fixed order: removing dummies, projectivizing, tags of the POS file, moving words to the root, numbers, filtering, inserting, parent labels, output. Doing the first k of them and then the others gives on every tree exactly what doing all at once gives, failures included. So a treebank can be prepared in a first run that writes a bracketed format (PTB, simple, TueBa) and finished in a second run on what was written: both together write and end like one run with all options, if the format can hold the trees in between. It can if the trees of the input have no gaps or are projectivized without recording the moves in the first run, have otherwise nothing the format does not hold, tags and inserted label can be represented, and the first run neither adds word features nor moves words to the root; for files in the simple or TueBa format with the same format between the runs, and for all bracketed files without colons and equals signs in labels, tags and annotations with TueBa between, this needs conditions on the options and tags only. Word features added in the first run are lost. With NEGRA between the runs the same holds for export files with one line per nonterminal and children before parents (also with gaps, secondary edges, lemmas and morphology, and with words moved to the root in either run), if the first run adds no word features and does not record moves, tags and inserted label can be columns, the file has at most 2^64 - 500 lines, and trees with gaps are not projectivized in the second run.", "quantifier": "every k, option set, input format and file of trees the tool handles, POS file with a sentence per tree, bracketed format or NEGRA between, line mode, hash iteration order, number of trees", "why_tests_cant": "a pipeline of two runs goes through the writer, the file and the reader in between; that nothing is lost for any combination of options at any cut is beyond examples", "anchors": ["lumberjack-utils/src/bin/lumberjack-conversion.rs: main", "lumberjack/src/io/ptb.rs: PTBFormat::{tree_to_string, string_to_tree}, PTBIter, PTBLineIter", "lumberjack/src/io/negra.rs: NegraWriter::write_tree, NegraReader"]}
{"id": "C94", "title": "Spans do not overflow", "statement": "With usize of a 64-bit machine, with or without overflow checks, a span made from indices other than the greatest usize, and every span got from such spans by merging, removing indices and extending, is the span that unbounded numbers give: counting, comparing, merging, removing (panics included) and extending agree as long as the upper bound stays below 2^64. Every span in a well-formed tree is such a span and ends at most at the number of words. Only the greatest usize is different: Span::from panics with overflow checks and without them makes a span that contains nothing; building from a list of indices panics in both builds; extending a span that ends there panics with overflow checks and otherwise leaves a span that contains nothing. The assertion that not all indices are skipped rests on overflow checks: without them only exactly as many skips as indices are rejected.", "quantifier": "every span, every list of indices, every history of merging, removing and extending, every well-formed tree, both kinds of build", "why_tests_cant": "the greatest usize is one of 2^64 indices, and a release build does not panic but goes on with an empty span", "anchors": ["lumberjack/src/span.rs: Span::from", "lumberjack/src/span.rs: Span::new_with_skips", "lumberjack/src/span.rs: Span::n_indices", "lumberjack/src/span.rs: Span::merge_spans", "lumberjack/src/span.rs: Span::remove_indices", "lumberjack/src/span.rs: Span::from_vec", "lumberjack/src/span.rs: Span::extend", "lumberjack/src/span.rs: Span::cmp"]}
{"id": "C95", "title": "Editing a tree with gaps is a rewriting of an ordered tree", "statement": "For any tree, with gaps or not, each editing step is a function of the ordered labelled tree with its spans and edge labels, where siblings stand in the order of their first words. filter_nonterminals and remove_dummy_nodes replace the removed nodes by their children, which lose their edge labels, and sort the siblings again: a child may now stand after a sibling of the node it was below. insert_intermediate puts a node above each longest run of words that are children of the same chosen node, follow each other among its children and stand next to each other in the sentence, so a gap ends a run; of the words only the first of each run keeps its edge label (with the proviso on labels given above for insert_intermediate). project_ids, for a function that chooses the root and words whose nodes are numbered along the sentence, numbers the closest chosen nodes of the words in the order in which they first have a word, from 0, and gives each word the number of its node, also if words of other nodes stand between. reattach_terminals to the root, for a predicate that looks at the word only and with at least two words, takes the matched words out, with all nodes that have nothing left below them, gives the other nodes the span of their remaining words, which may have more or fewer gaps than before, attaches the words without edge label to the root and sorts the siblings. The conversion tool applies these in its fixed order, if --projectivize is not given or the tree has no gaps; with --projectivize it does so after the gaps of the tree are filled, also if moving words leaves gaps again. What it writes for each tree in all formats but NEGRA is the text or sentence of the rewritten tree (in CoNLL-X the words from left to right), and the whole file is written if the format is CoNLL-X or the rewritten trees have no gaps. For tagged sentences the trees that are rewritten are those the tags stand for, with any options. In NEGRA, if the trees read have no secondary edges, what it writes are the texts of the rewritten trees as given in C51, and trees without sentence id are numbered from 0; the whole file is written. Here --projectivize may be given if no tree has gaps; if trees have gaps and --sec_edges is not given, it is the trees with their gaps filled that are rewritten and written. So for bracketed input, tagged sentences and every choice of options the NEGRA file is a function of the brackets or ancestor tags and of the POS sentences.", "quantifier": "every well-formed tree, all predicates, labels and tag lists; for the tool every input file whose trees can be read, every POS file with tags for each word, option set, output format (for NEGRA: trees without secondary edges) and hash iteration order", "why_tests_cant": "a test compares the results of a few edits of a few trees with gaps; the claim gives the complete result for every tree", "anchors": ["lumberjack/src/tree_modification.rsTreeOps::{filter_nonterminals, remove_dummy_nodes, insert_intermediate, project_ids, reattach_terminals}", "lumberjack-utils/src/bin/lumberjack-conversion.rsmain"]}
