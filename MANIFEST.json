{
 "claims": [
  {
   "property": "C01",
   "status": "proved",
   "theorems": [
    "Lumberjack.Props.C01_iterate",
    "Lumberjack.Props.C01_bounds"
   ],
   "note": "Span with its iterator; the collected list is characterised through contains by induction on the remaining interval."
  },
  {
   "property": "C02",
   "status": "proved",
   "theorems": [
    "Lumberjack.Props.C02_covers"
   ],
   "note": "covers_span against inclusion of index sets, for valid spans."
  },
  {
   "property": "C03",
   "status": "proved",
   "theorems": [
    "Lumberjack.Props.C03_fromVec",
    "Lumberjack.Props.C03_fromVec_order",
    "Lumberjack.Props.C03_fromVec_toVec",
    "Lumberjack.Props.C03_new",
    "Lumberjack.Props.C03_new_with_skips"
   ],
   "note": "from_vec (sort, dedup, gap scan): loop invariant of the gap scan; independence of order from the sorted, duplicate-free list."
  },
  {
   "property": "C04",
   "status": "proved",
   "theorems": [
    "Lumberjack.Props.C04_merge",
    "Lumberjack.Props.C04_merge_comm",
    "Lumberjack.Props.C04_merge_assoc",
    "Lumberjack.Props.C04_merge_idem"
   ],
   "note": "merge_spans against union of index sets; algebraic laws follow from the set characterisation."
  },
  {
   "property": "C05",
   "status": "proved",
   "theorems": [
    "Lumberjack.Props.C05_remove_panic",
    "Lumberjack.Props.C05_remove"
   ],
   "note": "remove_indices with its three shrinking loops; exact panic condition and set difference."
  },
  {
   "property": "C06",
   "status": "proved",
   "theorems": [
    "Lumberjack.Props.C06_order_symm",
    "Lumberjack.Props.C06_order_trans",
    "Lumberjack.Props.C06_order_total",
    "Lumberjack.Props.C06_order_position",
    "Lumberjack.Props.C06_order_eq_not_eq",
    "Lumberjack.Props.C06_order_continuous_eq"
   ],
   "note": "Ord of spans as a lexicographic comparison; laws by case analysis."
  },
  {
   "property": "C07",
   "status": "proved",
   "theorems": [
    "Lumberjack.Props.C07_byte_order",
    "Lumberjack.Props.C07_sorted_bytes",
    "Lumberjack.Props.C07_insert",
    "Lumberjack.Props.C07_remove",
    "Lumberjack.Props.C07_sorted"
   ],
   "note": "BTreeMap as sorted entry list; finite-map laws by induction on it."
  },
  {
   "property": "C08",
   "status": "proved",
   "theorems": [
    "Lumberjack.Props.C08_parse_print",
    "Lumberjack.Props.C08_normal_form",
    "Lumberjack.Props.C08_separator_needed",
    "Lumberjack.Props.C08_reads",
    "Lumberjack.Props.C08_prints"
   ],
   "note": "printing and splitting at | and :; split/join lemmas by induction on the text."
  },
  {
   "property": "C09",
   "status": "proved",
   "theorems": [
    "Lumberjack.Props.C09_new",
    "Lumberjack.Props.C09_step",
    "Lumberjack.Props.C09_history",
    "Lumberjack.Props.C09_unsound_calls"
   ],
   "note": "all public tree operations as data (Spec/History.Op); one preservation lemma per operation with an exact soundness condition, then induction on the history."
  },
  {
   "property": "C10",
   "status": "proved",
   "theorems": [
    "Lumberjack.Props.C10_is_projective"
   ],
   "note": "the counter of discontinuous nodes against the dominated positions, from WF."
  },
  {
   "property": "C11",
   "status": "proved",
   "theorems": [
    "Lumberjack.Props.C11_remove_nonterminal",
    "Lumberjack.Props.C11_remove_root",
    "Lumberjack.Props.C11_remove_root_multiple",
    "Lumberjack.Props.C11_remove_total"
   ],
   "note": "remove_node on nonterminals: re-adding children edge by edge; effect stated on contents, spans, dominance."
  },
  {
   "property": "C12",
   "status": "proved",
   "theorems": [
    "Lumberjack.Props.C12_remove_terminal",
    "Lumberjack.Props.C12_remove_terminal_not_wf",
    "Lumberjack.Props.C12_stale_position",
    "Lumberjack.Props.C12_last_terminal"
   ],
   "note": "remove_node on terminals as the code does it, including the misplaced renumbering."
  },
  {
   "property": "C13",
   "status": "proved",
   "theorems": [
    "Lumberjack.Props.C13_err_unchanged"
   ],
   "note": "all four operations returning Err, by following each early exit."
  },
  {
   "property": "C14",
   "status": "proved",
   "theorems": [
    "Lumberjack.Props.C14_reattach",
    "Lumberjack.Props.C14_reattach_below",
    "Lumberjack.Props.C14_reattach_err",
    "Lumberjack.Props.C14_reattach_panics",
    "Lumberjack.Props.C14_cousin_refuted",
    "Lumberjack.Props.C14_below_refuted"
   ],
   "note": "reattach_node: detaching and attaching spans along two climbing loops; exact condition for well-formedness."
  },
  {
   "property": "C15",
   "status": "proved",
   "theorems": [
    "Lumberjack.Props.C15_move_terminal",
    "Lumberjack.Props.C15_move_shift",
    "Lumberjack.Props.C15_move_panics"
   ],
   "note": "move_terminal: the shifting loop and reset_nt_spans (depth-first post-order recomputation)."
  },
  {
   "property": "C16",
   "status": "proved",
   "theorems": [
    "Lumberjack.Props.C16_insert_terminal",
    "Lumberjack.Props.C16_insert_panics",
    "Lumberjack.Props.C16_push_terminal",
    "Lumberjack.Props.C16_push_terminal_root"
   ],
   "note": "insert_terminal, push_terminal; same method."
  },
  {
   "property": "C17",
   "status": "proved",
   "theorems": [
    "Lumberjack.Props.C17_insert_unary_above",
    "Lumberjack.Props.C17_insert_unary_below",
    "Lumberjack.Props.C17_insert_unary_below_terminal",
    "Lumberjack.Props.C17_counter_refuted"
   ],
   "note": "insert_unary_above/below; exact condition for well-formedness."
  },
  {
   "property": "C18",
   "status": "proved",
   "theorems": [
    "Lumberjack.Props.C18_siblings",
    "Lumberjack.Props.C18_are_siblings",
    "Lumberjack.Props.C18_are_siblings_refuted"
   ],
   "note": "siblings, are_siblings against the child relation."
  },
  {
   "property": "C19",
   "status": "proved",
   "theorems": [
    "Lumberjack.Props.C19_descendent_terminals"
   ],
   "note": "depth-first iterator over primary edges; invariant on stack and visited set."
  },
  {
   "property": "C20",
   "status": "proved",
   "theorems": [
    "Lumberjack.Props.C20_climber"
   ],
   "note": "Climber as a loop along parents; terminates since dominance is well founded on well-formed trees."
  },
  {
   "property": "C21",
   "status": "proved",
   "theorems": [
    "Lumberjack.Props.C21_meaning",
    "Lumberjack.Props.C21_equality",
    "Lumberjack.Props.C21_equivalence",
    "Lumberjack.Props.C21_ignores_forms",
    "Lumberjack.Props.C21_ignores_terminal_root"
   ],
   "note": "subtree_eq recursion against equality of Forests read off the graphs."
  },
  {
   "property": "C22",
   "status": "proved",
   "theorems": [
    "Lumberjack.Props.C22_projectivize",
    "Lumberjack.Props.C22_projective_unchanged"
   ],
   "note": "loop invariant over a depth-first traversal of a graph under mutation; measure: positions not covered by the attachment point. Any choice function for the hash set."
  },
  {
   "property": "C23",
   "status": "proved",
   "theorems": [
    "Lumberjack.Props.C23_moves",
    "Lumberjack.Props.C23_kept",
    "Lumberjack.Props.C23_unlisted",
    "Lumberjack.Props.C23_listed"
   ],
   "note": "the log of moves as a sequence of Lowered steps (Moves), by the same induction."
  },
  {
   "property": "C24",
   "status": "proved",
   "theorems": [
    "Lumberjack.Props.C24_filter_nonterminals",
    "Lumberjack.Props.C24_terminals",
    "Lumberjack.Props.C24_any",
    "Lumberjack.Props.C24_current"
   ],
   "note": "loop over the nonterminals, each a remove_node; accumulated effect Removed."
  },
  {
   "property": "C25",
   "status": "proved",
   "theorems": [
    "Lumberjack.Props.C25_reattach_terminals",
    "Lumberjack.Props.C25_any",
    "Lumberjack.Props.C25_parents",
    "Lumberjack.Props.C25_to_root",
    "Lumberjack.Props.C25_no_match",
    "Lumberjack.Props.C25_diverges",
    "Lumberjack.Props.C25_bad_attachment",
    "Lumberjack.Props.C25_current"
   ],
   "note": "the outer loop with the detaching while loop; between turns the stored spans may contain too much (Loose), the final reset_nt_spans puts them right; effect Gathered; divergence for every budget by showing the loop state recurs."
  },
  {
   "property": "C26",
   "status": "proved",
   "theorems": [
    "Lumberjack.Props.C26_collapse",
    "Lumberjack.Props.C26_collapsed_tree",
    "Lumberjack.Props.C26_chain_terminal",
    "Lumberjack.Props.C26_chain_nonterminal"
   ],
   "note": "the climbing loops; the resulting Forest is collapse of the original one."
  },
  {
   "property": "C27",
   "status": "proved",
   "theorems": [
    "Lumberjack.Props.C27_roundtrip",
    "Lumberjack.Props.C27_restore",
    "Lumberjack.Props.C27_delimiter_in_label",
    "Lumberjack.Props.C27_edge_label_lost",
    "Lumberjack.Props.C27_delimiter_overlap",
    "Lumberjack.Props.C27_missing_value",
    "Lumberjack.Props.C27_err_changes",
    "Lumberjack.Props.C27_chain_labels",
    "Lumberjack.Props.C27_empty_delimiter"
   ],
   "note": "restore on forests inverts collapse; both loops refined to the forest functions."
  },
  {
   "property": "C28",
   "status": "proved",
   "theorems": [
    "Lumberjack.Props.C28_insert_intermediate",
    "Lumberjack.Props.C28_one_node_per_run",
    "Lumberjack.Props.C28_root_terminal",
    "Lumberjack.Props.C28_duplicate"
   ],
   "note": "runs of adjacent terminal children (Run); loop invariant over terminals and the inner loop."
  },
  {
   "property": "C29",
   "status": "proved",
   "theorems": [
    "Lumberjack.Props.C29_annotate_pos",
    "Lumberjack.Props.C29_by_position",
    "Lumberjack.Props.C29_order_refuted",
    "Lumberjack.Props.C29_err_mutates"
   ],
   "note": "loop over terminals in index order."
  },
  {
   "property": "C30",
   "status": "proved",
   "theorems": [
    "Lumberjack.Props.C30_parent_tag",
    "Lumberjack.Props.C30_project_tag_set",
    "Lumberjack.Props.C30_project_ids",
    "Lumberjack.Props.C30_project_nt_indices",
    "Lumberjack.Props.C30_map_climber_path"
   ],
   "note": "loops over terminals with a climber; Closest matching ancestor."
  },
  {
   "property": "C31",
   "status": "proved",
   "theorems": [
    "Lumberjack.Props.C31_encode_absolute",
    "Lumberjack.Props.C31_encode_nonprojective"
   ],
   "note": "get_common against LowestCommon; loop over sorted terminals."
  },
  {
   "property": "C32",
   "status": "proved",
   "theorems": [
    "Lumberjack.Props.C32_roundtrip",
    "Lumberjack.Props.C32_unary_lost",
    "Lumberjack.Props.C32_delimiter_in_label"
   ],
   "note": "the encoding of a forest, decoding as a stack machine on forests, and the refinement of the graph-building loop to it (right spine invariant)."
  },
  {
   "property": "C33",
   "status": "proved",
   "theorems": [
    "Lumberjack.Props.C33_decode",
    "Lumberjack.Props.C33_surplus",
    "Lumberjack.Props.C33_zero_count",
    "Lumberjack.Props.C33_empty",
    "Lumberjack.Props.C33_short",
    "Lumberjack.Props.C33_label"
   ],
   "note": "same refinement, for arbitrary positive encodings; spans by the post-order recomputation."
  },
  {
   "property": "C34",
   "status": "proved",
   "theorems": [
    "Lumberjack.Props.C34_abs_rel_abs",
    "Lumberjack.Props.C34_zero_count"
   ],
   "note": "induction over the entries."
  },
  {
   "property": "C35",
   "status": "proved",
   "theorems": [
    "Lumberjack.Props.C35_decodable",
    "Lumberjack.Props.C35_try_from_relative_iff",
    "Lumberjack.Props.C35_try_from_relative_value",
    "Lumberjack.Props.C35_unwrap_or_fix",
    "Lumberjack.Props.C35_unwrap_or_fix_value",
    "Lumberjack.Props.C35_fix_extends"
   ],
   "note": "running sums by induction; fix with restarted sum."
  },
  {
   "property": "C36",
   "status": "proved",
   "theorems": [
    "Lumberjack.Props.C36_encode_relative"
   ],
   "note": "the two encoding loops side by side."
  },
  {
   "property": "C37",
   "status": "proved",
   "theorems": [
    "Lumberjack.Props.C37_absolute_text",
    "Lumberjack.Props.C37_relative_text",
    "Lumberjack.Props.C37_plus_needed",
    "Lumberjack.Props.C37_relative_injective",
    "Lumberjack.Props.C37_absolute_accepts",
    "Lumberjack.Props.C37_relative_accepts"
   ],
   "note": "decimal printing and parsing; splitting at +."
  },
  {
   "property": "C38",
   "status": "proved",
   "theorems": [
    "Lumberjack.Props.C38_annotate_absolute",
    "Lumberjack.Props.C38_annotate_relative",
    "Lumberjack.Props.C38_annotate_nonprojective"
   ],
   "note": "annotation loops against the encoding computed beforehand (features do not influence ancestors)."
  },
  {
   "property": "C39",
   "status": "proved",
   "theorems": [
    "Lumberjack.Props.C39_absolute",
    "Lumberjack.Props.C39_relative",
    "Lumberjack.Props.C39_reserved",
    "Lumberjack.Props.C39_dropped",
    "Lumberjack.Props.C39_unannotated"
   ],
   "note": "composition of C26, C38, C52, C59 and C32 with the text form of tags."
  },
  {
   "property": "C40",
   "status": "proved",
   "theorems": [
    "Lumberjack.Props.C40_remove_dummy_nodes"
   ],
   "note": "filter_nonterminals plus the root case."
  },
  {
   "property": "C41",
   "status": "proved",
   "theorems": [
    "Lumberjack.Props.C41_round_trip_simple"
   ],
   "note": "printing a forest as Brackets, the grammar, and building the graph from them."
  },
  {
   "property": "C42",
   "status": "proved",
   "theorems": [
    "Lumberjack.Props.C42_round_trip_tueba"
   ],
   "note": "as C41 with edge labels and annotations."
  },
  {
   "property": "C43",
   "status": "proved",
   "theorems": [
    "Lumberjack.Props.C43_round_trip_ptb",
    "Lumberjack.Props.C43_written",
    "Lumberjack.Props.C43_annotation_changes"
   ],
   "note": "as C41; the general statement says what is read back for every format."
  },
  {
   "property": "C44",
   "status": "proved",
   "theorems": [
    "Lumberjack.Props.C44_writing_total",
    "Lumberjack.Props.C44_text"
   ],
   "note": "recursion of the printer on well-formed trees."
  },
  {
   "property": "C45",
   "status": "proved",
   "theorems": [
    "Lumberjack.Props.C45_parsing_total",
    "Lumberjack.Props.C45_parsed_tree",
    "Lumberjack.Props.C45_unambiguous"
   ],
   "note": "the parser against the declarative grammar, both directions; the built graph by induction on the bracketing."
  },
  {
   "property": "C46",
   "status": "proved",
   "theorems": [
    "Lumberjack.Props.C46_reprint",
    "Lumberjack.Props.C46_ptb_grows",
    "Lumberjack.Props.C46_ptb_unreadable",
    "Lumberjack.Props.C46_ptb",
    "Lumberjack.Props.C46_ptb_rounds"
   ],
   "note": "C45 and C43 composed; for the PTB format the effect of one round is a function on bracketings (Spec/Grown), and text with an empty tag has an opening bracket, a word and a closing bracket in a row, which no bracketing has."
  },
  {
   "property": "C47",
   "status": "proved",
   "theorems": [
    "Lumberjack.Props.C47_single_line",
    "Lumberjack.Props.C47_multi_line",
    "Lumberjack.Props.C47_multi_line_panic"
   ],
   "note": "the reader's loops against groups of lines."
  },
  {
   "property": "C48",
   "status": "proved",
   "theorems": [
    "Lumberjack.Props.C48_file",
    "Lumberjack.Props.C48_copy_equal",
    "Lumberjack.Props.C48_round_trip"
   ],
   "note": "written lines are the rows of the tree (C51), rows read back describe a copy (C50)."
  },
  {
   "property": "C49",
   "status": "proved",
   "theorems": [
    "Lumberjack.Props.C49_progress",
    "Lumberjack.Props.C49_iteration_ends",
    "Lumberjack.Props.C49_outside",
    "Lumberjack.Props.C49_unmatched_footer",
    "Lumberjack.Props.C49_bad_header",
    "Lumberjack.Props.C49_nested",
    "Lumberjack.Props.C49_malformed",
    "Lumberjack.Props.C49_differing_ids",
    "Lumberjack.Props.C49_sentence",
    "Lumberjack.Props.C49_tree",
    "Lumberjack.Props.C49_panic",
    "Lumberjack.Props.C49_end"
   ],
   "note": "the reader as a fold over lines; each fault in turn."
  },
  {
   "property": "C50",
   "status": "proved",
   "theorems": [
    "Lumberjack.Props.C50_read",
    "Lumberjack.Props.C50_sentence",
    "Lumberjack.Props.C50_cycle_accepted",
    "Lumberjack.Props.C50_late_child",
    "Lumberjack.Props.C50_double_line_accepted",
    "Lumberjack.Props.C50_numbers",
    "Lumberjack.Props.C50_signs"
   ],
   "note": "rows against the graph built (Described); spans by induction on the order of rows."
  },
  {
   "property": "C51",
   "status": "proved",
   "theorems": [
    "Lumberjack.Props.C51_text",
    "Lumberjack.Props.C51_text_same",
    "Lumberjack.Props.C51_order",
    "Lumberjack.Props.C51_order_unique",
    "Lumberjack.Props.C51_written",
    "Lumberjack.Props.C51_layout",
    "Lumberjack.Props.C51_numbers",
    "Lumberjack.Props.C51_sequence",
    "Lumberjack.Props.C51_terminal_root",
    "Lumberjack.Props.C51_secondary_terminal"
   ],
   "note": "work-list invariant for the numbering; columns of the lines."
  },
  {
   "property": "C52",
   "status": "proved",
   "theorems": [
    "Lumberjack.Props.C52_tokens",
    "Lumberjack.Props.C52_terminals"
   ],
   "note": "both conversions over sorted terminals."
  },
  {
   "property": "C53",
   "status": "proved",
   "theorems": [
    "Lumberjack.Props.C53_stable_indices"
   ],
   "note": "node table of each operation."
  },
  {
   "property": "C54",
   "status": "proved",
   "theorems": [
    "Lumberjack.Props.C54_add",
    "Lumberjack.Props.C54_remove",
    "Lumberjack.Props.C54_remove_absent",
    "Lumberjack.Props.C54_reattach"
   ],
   "note": "primary child relation under changes of secondary edges."
  },
  {
   "property": "C55",
   "status": "proved",
   "theorems": [
    "Lumberjack.Props.C55_sorted",
    "Lumberjack.Props.C55_sentence_order",
    "Lumberjack.Props.C55_children_order"
   ],
   "note": "the comparison function as a lexicographic key; stable insertion sort."
  },
  {
   "property": "C56",
   "status": "proved",
   "theorems": [
    "Lumberjack.Props.C56_positive",
    "Lumberjack.Props.C56_negative"
   ],
   "note": "membership."
  },
  {
   "property": "C57",
   "status": "proved",
   "theorems": [
    "Lumberjack.Props.C57_items",
    "Lumberjack.Props.C57_single_line",
    "Lumberjack.Props.C57_multi_line",
    "Lumberjack.Props.C57_negra",
    "Lumberjack.Props.C57_tagged",
    "Lumberjack.Props.C57_run",
    "Lumberjack.Props.C57_ends",
    "Lumberjack.Props.C57_written",
    "Lumberjack.Props.C57_words",
    "Lumberjack.Props.C57_complete",
    "Lumberjack.Props.C57_plain",
    "Lumberjack.Props.C57_single_word",
    "Lumberjack.Props.C57_hangs",
    "Lumberjack.Props.C57_reattach_gap"
   ],
   "note": "main's loop as a relation Run over the items of a Stream; each step by the theorem of its operation; totality and uniqueness of both."
  },
  {
   "property": "C58",
   "status": "proved",
   "theorems": [
    "Lumberjack.Props.C58_words_survive",
    "Lumberjack.Props.C58_words_survive_history"
   ],
   "note": "contents of terminals under each operation; histories by induction."
  },
  {
   "property": "C59",
   "status": "proved",
   "theorems": [
    "Lumberjack.Props.C59_absolute",
    "Lumberjack.Props.C59_relative",
    "Lumberjack.Props.C59_error",
    "Lumberjack.Props.C59_empty",
    "Lumberjack.Props.C59_zero",
    "Lumberjack.Props.C59_cases",
    "Lumberjack.Props.C59_tag",
    "Lumberjack.Props.C59_tag_text"
   ],
   "note": "reading of tags, then C33 and C27 on the result."
  },
  {
   "property": "C60",
   "status": "proved",
   "theorems": [
    "Lumberjack.Props.C60_same_tree",
    "Lumberjack.Props.C60_same_forest",
    "Lumberjack.Props.C60_same_text"
   ],
   "note": "the moves made for one node are determined by the tree: every branch moved by one order is moved by the other (induction on one run, absence of gaps after the other); both traversals run in step because undiscovered nodes keep their edges."
  },
  {
   "property": "C61",
   "status": "proved",
   "theorems": [
    "Lumberjack.Props.C61_same_run",
    "Lumberjack.Props.C61_same_conversion",
    "Lumberjack.Props.C61_same_texts"
   ],
   "note": "congruence of every step and writer for trees that agree up to edge indices and the order of edges (Twin), on top of C60; then induction over the items of a run."
  },
  {
   "property": "C62",
   "status": "proved",
   "theorems": [
    "Lumberjack.Props.C62_negra_file",
    "Lumberjack.Props.C62_read_exportable",
    "Lumberjack.Props.C62_negra",
    "Lumberjack.Props.C62_bracketed",
    "Lumberjack.Props.C62_ptb_grows",
    "Lumberjack.Props.C62_ptb",
    "Lumberjack.Props.C62_ptb_stable"
   ],
   "note": "trees read from NEGRA rows are exportable (fields of a line, metadata of a header); a Copy is written as the same text (numbering and columns are preserved by the identification of nodes); for brackets C46 and the fact that every written line is a balanced group; for PTB what a round does to a bracketing (C46)."
  },
  {
   "property": "C63",
   "status": "proved",
   "theorems": [
    "Lumberjack.Props.C63_one_outcome",
    "Lumberjack.Props.C63_matches",
    "Lumberjack.Props.C63_string_to_tree"
   ],
   "note": "a big-step semantics of parsing expressions with the rules of ptb.pest; determinism by induction on derivations; the tokenizer and the recursive descent of the model simulate it (induction on the recursion bound)."
  },
  {
   "property": "C64",
   "status": "proved",
   "theorems": [
    "Lumberjack.Props.C64_format_names",
    "Lumberjack.Props.C64_set_file",
    "Lumberjack.Props.C64_run",
    "Lumberjack.Props.C64_rejected"
   ],
   "note": "options as a record of what is on the command line, with the defaults and checks declared in build; the words of a file by induction on the text."
  },
  {
   "property": "C65",
   "status": "proved",
   "theorems": [
    "Lumberjack.Props.C65_step",
    "Lumberjack.Props.C65_history",
    "Lumberjack.Props.C65_sentence",
    "Lumberjack.Props.C65_total",
    "Lumberjack.Props.C65_unsound"
   ],
   "note": "for each operation the result for an arbitrary closure (loop invariants: well formed, words and tags kept), then induction over the history."
  },
  {
   "property": "C66",
   "status": "proved",
   "theorems": [
    "Lumberjack.Props.C66_absolute",
    "Lumberjack.Props.C66_relative",
    "Lumberjack.Props.C66_tool",
    "Lumberjack.Props.C66_labels",
    "Lumberjack.Props.C66_reserved"
   ],
   "note": "the encoding depends only on the skeleton (induction on the forest), so decoding gives the skeleton (C32-C39); the file level by induction over the items read."
  },
  {
   "property": "C67",
   "status": "proved",
   "theorems": [
    "Lumberjack.Props.C67_read",
    "Lumberjack.Props.C67_between",
    "Lumberjack.Props.C67_negra",
    "Lumberjack.Props.C67_stable",
    "Lumberjack.Props.C67_not_stable"
   ],
   "note": "the tags depend only on the skeleton and the words; an invariant of the decoding stack bounds the characters and features of what is read from tags."
  },
  {
   "property": "C68",
   "status": "proved",
   "theorems": [
    "Lumberjack.Props.C68_negra_bytes",
    "Lumberjack.Props.C68_single_line_bytes",
    "Lumberjack.Props.C68_multi_line_bytes",
    "Lumberjack.Props.C68_interrupted_negra_bytes",
    "Lumberjack.Props.C68_interrupted_brackets_bytes",
    "Lumberjack.Props.C68_more_input",
    "Lumberjack.Props.C68_more_output",
    "Lumberjack.Props.C68_whole_lines",
    "Lumberjack.Props.C68_negra",
    "Lumberjack.Props.C68_single_line",
    "Lumberjack.Props.C68_multi_line",
    "Lumberjack.Props.C68_unfinished",
    "Lumberjack.Props.C68_bracketing",
    "Lumberjack.Props.C68_interrupted_negra",
    "Lumberjack.Props.C68_interrupted_brackets"
   ],
   "note": "each call of next depends only on the lines it takes (induction on the lines); a cut line is a beginning of a line, so it is skipped, an error, or the line itself; balanced brackets (induction on the bracketing) show that the beginning of a bracketing is none."
  },
  {
   "property": "C69",
   "status": "proved",
   "theorems": [
    "Lumberjack.Props.C69_lines",
    "Lumberjack.Props.C69_every_text",
    "Lumberjack.Props.C69_same_output"
   ],
   "note": "induction on the lines of the text."
  },
  {
   "property": "C70",
   "status": "proved",
   "theorems": [
    "Lumberjack.Props.C70_items",
    "Lumberjack.Props.C70_readable",
    "Lumberjack.Props.C70_separates",
    "Lumberjack.Props.C70_panic",
    "Lumberjack.Props.C70_output",
    "Lumberjack.Props.C70_byte_lines",
    "Lumberjack.Props.C70_decode",
    "Lumberjack.Props.C70_text"
   ],
   "note": "readers on lines that can be errors agree with the readers on lines up to the first error (induction on the lines); the UTF-8 encoding of core Lean; a line feed byte occurs in no other character."
  },
  {
   "property": "C71",
   "status": "proved",
   "theorems": [
    "Lumberjack.Props.C71_bytes",
    "Lumberjack.Props.C71_incomplete",
    "Lumberjack.Props.C71_room",
    "Lumberjack.Props.C71_recovered"
   ],
   "note": "writers as lists of write! calls (Model/Io); induction over the items of a run; then C68 for the bytes that were written."
  },
  {
   "property": "C72",
   "status": "proved",
   "theorems": [
    "Lumberjack.Props.C72_in_range",
    "Lumberjack.Props.C72_checked",
    "Lumberjack.Props.C72_release",
    "Lumberjack.Props.C72_release_counts",
    "Lumberjack.Props.C72_abs_rel_abs",
    "Lumberjack.Props.C72_read",
    "Lumberjack.Props.C72_read_panic",
    "Lumberjack.Props.C72_trees",
    "Lumberjack.Props.C72_differ",
    "Lumberjack.Props.C72_counts_needed",
    "Lumberjack.Props.C72_read_differ"
   ],
   "note": "the conversions again with 64-bit arithmetic (Model/Machine), both builds; induction on the encoding with the count so far in 0..2^63-1, so that a sum can only overflow upwards."
  },
  {
   "property": "C73",
   "status": "proved",
   "theorems": [
    "Lumberjack.Props.C73_any_root",
    "Lumberjack.Props.C73_through_negra",
    "Lumberjack.Props.C73_numbered",
    "Lumberjack.Props.C73_root_lost"
   ],
   "note": "the tool twice (main), with a loop for the growing sentence number of the NEGRA writer; the copies of C48 have the same bracket structure below the root (induction on the forest), and gaps at the same places."
  },
  {
   "property": "C74",
   "status": "proved",
   "theorems": [
    "Lumberjack.Props.C74_same_tree",
    "Lumberjack.Props.C74_same_queries",
    "Lumberjack.Props.C74_written",
    "Lumberjack.Props.C74_runs",
    "Lumberjack.Props.C74_two_secondary",
    "Lumberjack.Props.C74_options",
    "Lumberjack.Props.C74_steps",
    "Lumberjack.Props.C74_option_runs",
    "Lumberjack.Props.C74_projectivize"
   ],
   "note": "a renumbering relates two trees with the same forest (nodes at the same path); every writer has a contract (C40-C52) that does not mention indices, or only through the order of the words and of the numbers given to nodes, which the renumbering keeps. Each option's contract (C57) determines the resulting tree up to a renumbering, since spans follow from the words below a node."
  },
  {
   "property": "C75",
   "status": "proved",
   "theorems": [
    "Lumberjack.Props.C75_attributes",
    "Lumberjack.Props.C75_set_label",
    "Lumberjack.Props.C75_set_features",
    "Lumberjack.Props.C75_features_mut",
    "Lumberjack.Props.C75_terminal_mut",
    "Lumberjack.Props.C75_inner",
    "Lumberjack.Props.C75_set_span",
    "Lumberjack.Props.C75_extend_span",
    "Lumberjack.Props.C75_continuity",
    "Lumberjack.Props.C75_spans",
    "Lumberjack.Props.C75_eq",
    "Lumberjack.Props.C75_equivalence",
    "Lumberjack.Props.C75_display",
    "Lumberjack.Props.C75_edge"
   ],
   "note": "methods that change a node as functions to the pair of the changed node and the returned value (Model/NodeApi); case analysis on the kind of node; spans by C01-C05."
  },
  {
   "property": "C76",
   "status": "proved",
   "theorems": [
    "Lumberjack.Props.C76_filter",
    "Lumberjack.Props.C76_filters",
    "Lumberjack.Props.C76_filters_commute",
    "Lumberjack.Props.C76_dummies",
    "Lumberjack.Props.C76_reattach",
    "Lumberjack.Props.C76_insert",
    "Lumberjack.Props.C76_projectivize",
    "Lumberjack.Props.C76_collapse",
    "Lumberjack.Props.C76_restore",
    "Lumberjack.Props.C76_annotate_pos",
    "Lumberjack.Props.C76_parent_tag",
    "Lumberjack.Props.C76_tag_set",
    "Lumberjack.Props.C76_ids",
    "Lumberjack.Props.C76_insert_again",
    "Lumberjack.Props.C76_restore_again"
   ],
   "note": "the contracts of the operations (C22, C24-C30, C40) say that nothing is left to do; with nothing to do each loop is followed to the end. Removals compose, so two filters are one."
  },
  {
   "property": "C77",
   "status": "proved",
   "theorems": [
    "Lumberjack.Props.C77_parent",
    "Lumberjack.Props.C77_children",
    "Lumberjack.Props.C77_secondary_children",
    "Lumberjack.Props.C77_secondary_parent",
    "Lumberjack.Props.C77_added",
    "Lumberjack.Props.C77_nodes",
    "Lumberjack.Props.C77_set_attribute",
    "Lumberjack.Props.C77_set_edge_label"
   ],
   "note": "the list of edges filtered by kind and end; edges have different indices in a well-formed graph; changes of contents keep well-formedness (C53)."
  },
  {
   "property": "C78",
   "status": "proved",
   "theorems": [
    "Lumberjack.Props.C78_checked",
    "Lumberjack.Props.C78_release",
    "Lumberjack.Props.C78_same",
    "Lumberjack.Props.C78_trees",
    "Lumberjack.Props.C78_surplus",
    "Lumberjack.Props.C78_decode",
    "Lumberjack.Props.C78_read_tags",
    "Lumberjack.Props.C78_decode_release",
    "Lumberjack.Props.C78_read_release",
    "Lumberjack.Props.C78_drops",
    "Lumberjack.Props.C78_shifts",
    "Lumberjack.Props.C78_zero",
    "Lumberjack.Props.C78_gap",
    "Lumberjack.Props.C78_miscounted"
   ],
   "note": "the reader's loop and decode again with 64-bit usize (Model/Machine); the wrapped counter is the difference modulo 2^64, so zero means even; balanced brackets (as in C68) show that a text with a surplus bracket is no tree. For counts of zero, an invariant of the decoding loop without a stack: a graph that grows below the root; a nonterminal left without children makes the computation of spans panic."
  },
  {
   "property": "C79",
   "status": "proved",
   "theorems": [
    "Lumberjack.Props.C79_opens",
    "Lumberjack.Props.C79_frame",
    "Lumberjack.Props.C79_closes",
    "Lumberjack.Props.C79_terminal",
    "Lumberjack.Props.C79_nonterminal",
    "Lumberjack.Props.C79_rows"
   ],
   "note": "texts as inductive relations (Spec/Text) that mention no function of the model; each function of the model that cuts a text gives the one result the relation allows (induction on the text)."
  },
  {
   "property": "C80",
   "status": "proved",
   "theorems": [
    "Lumberjack.Props.C80_through",
    "Lumberjack.Props.C80_normalise",
    "Lumberjack.Props.C80_to_tueba",
    "Lumberjack.Props.C80_bracketed",
    "Lumberjack.Props.C80_colon_lost"
   ],
   "note": "the trees read back are those written up to the numbering (C43, C74), and runs on such trees are the same (C74)."
  },
  {
   "property": "C81",
   "status": "proved",
   "theorems": [
    "Lumberjack.Props.C81_normalise",
    "Lumberjack.Props.C81_same",
    "Lumberjack.Props.C81_gaps"
   ],
   "note": "trees read from an orderly export file have no empty feature sets and at most one secondary edge to a node, so their copies in the written file (C48) differ in the numbering only; then C74."
  },
  {
   "property": "C82",
   "status": "proved",
   "theorems": [
    "Lumberjack.Props.C82_path",
    "Lumberjack.Props.C82_edits",
    "Lumberjack.Props.C82_move",
    "Lumberjack.Props.C82_climb_map",
    "Lumberjack.Props.C82_climb_map_root_refuted"
   ],
   "note": "outcomes of the visits as an inductive relation (Spec/Climb), in which the path of a visit is the one in the tree when it begins; the loop follows this path because the nodes still to come keep their parents (induction on the path); for climb_map (Model/Climb) the tree after some terminals is the first tree without the nodes removed on their paths."
  },
  {
   "property": "C83",
   "status": "proved",
   "theorems": [
    "Lumberjack.Props.C83_undo",
    "Lumberjack.Props.C83_undo_equal",
    "Lumberjack.Props.C83_undo_written",
    "Lumberjack.Props.C83_order_matters"
   ],
   "note": "the caller's loop (Spec/Undo) written with parent, reattach_node and index assignment; by induction on the sequence of logged moves (C23) each step back succeeds since the former parent dominates the present one, and well-formed trees with the same edges, contents and positions have the same spans."
  },
  {
   "property": "C84",
   "status": "proved",
   "theorems": [
    "Lumberjack.Props.C84_move_back",
    "Lumberjack.Props.C84_reattach_back",
    "Lumberjack.Props.C84_above_back",
    "Lumberjack.Props.C84_below_back",
    "Lumberjack.Props.C84_secondary_back",
    "Lumberjack.Props.C84_labels_lost",
    "Lumberjack.Props.C84_disc_refuted"
   ],
   "note": "the effects of the single edits (C11, C14, C15, C17, C54) are composed; the edges agree as multisets since the primary ones are determined by parent and content of each node and the secondary ones are the same; counterexamples by evaluation in the kernel."
  },
  {
   "property": "C85",
   "status": "proved",
   "theorems": [
    "Lumberjack.Props.C85_recorded",
    "Lumberjack.Props.C85_read_back",
    "Lumberjack.Props.C85_injective",
    "Lumberjack.Props.C85_moved_twice"
   ],
   "note": "the first entry for a node in the list of moves names its original edge (C23), and the recorded edges are the entries of the list (C57); with one entry per node they determine it; the copy read back (C48) keeps a single secondary edge per node, and two trees recalled by one file are related by a bijection under which spans agree, so that their rows agree."
  },
  {
   "property": "C86",
   "status": "proved",
   "theorems": [
    "Lumberjack.Props.C86_tree",
    "Lumberjack.Props.C86_numbering",
    "Lumberjack.Props.C86_runs",
    "Lumberjack.Props.C86_columns",
    "Lumberjack.Props.C86_stripped",
    "Lumberjack.Props.C86_unused",
    "Lumberjack.Props.C86_negra"
   ],
   "note": "trees with the same primary edges in the same order go through the steps of the tool in parallel (a relation kept by every step; outside NEGRA the writers look at primary edges only); for files, the two readers' states are equal but for the list of pending secondary edges, line by line."
  },
  {
   "property": "C87",
   "status": "proved",
   "theorems": [
    "Lumberjack.Props.C87_brackets",
    "Lumberjack.Props.C87_files",
    "Lumberjack.Props.C87_order",
    "Lumberjack.Props.C87_negra",
    "Lumberjack.Props.C87_conllx",
    "Lumberjack.Props.C87_negra_files",
    "Lumberjack.Props.C87_conllx_files",
    "Lumberjack.Props.C87_unnumbered"
   ],
   "note": "if: the specification's text of a tree depends on what is listed only (induction over the tree; for NEGRA the writer on corresponding nodes). Only if: by the round trips C43, C48 and C80 the text determines the tree read from it, and that tree determines what is listed."
  },
  {
   "property": "C88",
   "status": "proved",
   "theorems": [
    "Lumberjack.Props.C88_below",
    "Lumberjack.Props.C88_gapless",
    "Lumberjack.Props.C88_within",
    "Lumberjack.Props.C88_filled",
    "Lumberjack.Props.C88_parent",
    "Lumberjack.Props.C88_once",
    "Lumberjack.Props.C88_moves",
    "Lumberjack.Props.C88_beyond"
   ],
   "note": "by induction on the logged moves (C23): a move replaces one edge by a longer path, and the node moved lies below every gapless node above the place it is moved to, since it covers a position in the gap."
  },
  {
   "property": "C89",
   "status": "proved",
   "theorems": [
    "Lumberjack.Props.C89_text",
    "Lumberjack.Props.C89_items",
    "Lumberjack.Props.C89_brackets",
    "Lumberjack.Props.C89_negra",
    "Lumberjack.Props.C89_tagged",
    "Lumberjack.Props.C89_label_bracket"
   ],
   "note": "the words of a bracketed text are told by a scan for closing brackets; by induction over a bracketing these are its words, and by induction over the tree those of the text written. Every step of the tool keeps the words (C57) and adds no text but the label of inserted nodes; NEGRA rows give the words of the tree by C50, tokens by C59."
  },
  {
   "property": "C90",
   "status": "proved",
   "theorems": [
    "Lumberjack.Props.C90_filter",
    "Lumberjack.Props.C90_dummies",
    "Lumberjack.Props.C90_insert",
    "Lumberjack.Props.C90_pos",
    "Lumberjack.Props.C90_parent",
    "Lumberjack.Props.C90_project",
    "Lumberjack.Props.C90_ids",
    "Lumberjack.Props.C90_pipeline",
    "Lumberjack.Props.C90_text",
    "Lumberjack.Props.C90_trees",
    "Lumberjack.Props.C90_file",
    "Lumberjack.Props.C90_absolute",
    "Lumberjack.Props.C90_relative",
    "Lumberjack.Props.C90_lowered",
    "Lumberjack.Props.C90_gaps",
    "Lumberjack.Props.C90_gather",
    "Lumberjack.Props.C90_reattach",
    "Lumberjack.Props.C90_moved",
    "Lumberjack.Props.C90_lowered_reattach",
    "Lumberjack.Props.C90_moved_text"
   ],
   "note": "the result of each step (C24, C28, C29, C30, C40) is shown to stand for the rewritten forest by induction over the forest; for insertion the induction carries the sequence of words collected so far. For the numbers the induction carries which numbers are in use and which belongs to the closest chosen node. The steps compose; text is added by C44, C45 and C57, the encodings by C31 and C35. Decoded trees are known up to missing and empty features of inner nodes (C59), which no step and no output distinguishes. Moving words to the root (C25) is an induction over the forest for what stays, and one insertion per word moved."
  },
  {
   "property": "C91",
   "status": "proved",
   "theorems": [
    "Lumberjack.Props.C91_exact",
    "Lumberjack.Props.C91_order",
    "Lumberjack.Props.C91_unique",
    "Lumberjack.Props.C91_determined",
    "Lumberjack.Props.C91_parents",
    "Lumberjack.Props.C91_order_matters"
   ],
   "note": "filling the gaps of one node is defined by the smallest closed range of positions; the moves recorded for the node reach exactly that range, by induction on the moves. For the order, the traversal of the unchanged tree emits the post-order, and projectivize never changes edges out of nodes the traversal has not discovered yet"
  },
  {
   "property": "C92",
   "status": "proved",
   "theorems": [
    "Lumberjack.Props.C92_phrases",
    "Lumberjack.Props.C92_count",
    "Lumberjack.Props.C92_run",
    "Lumberjack.Props.C92_added",
    "Lumberjack.Props.C92_same",
    "Lumberjack.Props.C92_run_count",
    "Lumberjack.Props.C92_reattach_drops"
   ],
   "note": "step by step from the contracts of C57: each step keeps the phrases it does not remove; removal keeps the rest by content, projectivization only moves edges, reattaching removes exactly the nodes left without words. For the counts the phrases of the forest are shown to be those of the nodes, each once, by induction over the forest. Inserted nodes have words as children, and a word has one parent, so there are at most as many as words."
  },
  {
   "property": "C93",
   "status": "proved",
   "theorems": [
    "Lumberjack.Props.C93_tree",
    "Lumberjack.Props.C93_run",
    "Lumberjack.Props.C93_input",
    "Lumberjack.Props.C93_held",
    "Lumberjack.Props.C93_features_lost",
    "Lumberjack.Props.C93_file",
    "Lumberjack.Props.C93_file_tueba",
    "Lumberjack.Props.C93_negra",
    "Lumberjack.Props.C93_negra_file",
    "Lumberjack.Props.C93_negra_held"
   ],
   "note": "the steps of process are sequenced in Res, so cutting the sequence is associativity, for each k; for whole runs induction over the trees: the first run writes trees that are read back isomorphic (C80), and isomorphic trees give the same output under the remaining steps (C77). That the format holds the trees in between follows from what the steps keep (C92). With NEGRA between, a tree that is written and read again is isomorphic if the root is VROOT with the header features (C48, C81)."
  },
  {
   "property": "C94",
   "status": "proved",
   "theorems": [
    "Lumberjack.Props.C94_from",
    "Lumberjack.Props.C94_from_max",
    "Lumberjack.Props.C94_from_vec",
    "Lumberjack.Props.C94_agree",
    "Lumberjack.Props.C94_extend_max",
    "Lumberjack.Props.C94_made",
    "Lumberjack.Props.C94_makes",
    "Lumberjack.Props.C94_tree",
    "Lumberjack.Props.C94_skips"
   ],
   "note": "span.rs again with usize of 64 bits in builds with and without overflow checks (Model/MachineSpan); each function equals the unbounded one on spans below the bound, by a bound on the number of skips; induction over how a span is made."
  },
  {
   "property": "C95",
   "status": "proved",
   "theorems": [
    "Lumberjack.Props.C95_exported",
    "Lumberjack.Props.C95_export_file",
    "Lumberjack.Props.C95_export_text",
    "Lumberjack.Props.C95_export_lowered",
    "Lumberjack.Props.C95_absolute",
    "Lumberjack.Props.C95_relative",
    "Lumberjack.Props.C95_export_absolute",
    "Lumberjack.Props.C95_export_relative",
    "Lumberjack.Props.C95_filter",
    "Lumberjack.Props.C95_dummies",
    "Lumberjack.Props.C95_insert",
    "Lumberjack.Props.C95_ids",
    "Lumberjack.Props.C95_gather",
    "Lumberjack.Props.C95_pipeline",
    "Lumberjack.Props.C95_lowered",
    "Lumberjack.Props.C95_written",
    "Lumberjack.Props.C95_trees"
   ],
   "note": "as C90, but the forests are first tracked up to the order of siblings (Shuffled), and sorted at the end: sorting by first words gives the one order in which the tree stands for a forest. Runs are cut where positions are not consecutive; numbers are ranks of the first words of the closest chosen nodes; spans after moving words are those of the sorted words left, as a valid span is determined by the positions it contains."
  }
 ]
}