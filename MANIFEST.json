{
 "claims": [
  {
   "property": "C01",
   "status": "proved",
   "theorems": [
    "C01_equal_chains_hash_equal"
   ],
   "note": ""
  },
  {
   "property": "C02",
   "status": "proved",
   "theorems": [
    "C02_eq_refl",
    "C02_eq_symm",
    "C02_eq_concrete",
    "C02_wildcard_lookup",
    "C02_eq_not_transitive"
   ],
   "note": ""
  },
  {
   "property": "C03",
   "status": "partial",
   "theorems": [
    "C03_flatname_injective_partial",
    "C03_flatname_collision",
    "C03_flatname_collision_generate"
   ],
   "note": "False of the code in general (collision witnesses proved); proved for underscore-free printed scopes."
  },
  {
   "property": "C04",
   "status": "proved",
   "theorems": [
    "C04_based_literal",
    "C04_plain_decimal",
    "C04_question_mark_raises"
   ],
   "note": "Digits 0-9a-fA-F and underscores; '?' digits raise (C04_question_mark_raises)."
  },
  {
   "property": "C05",
   "status": "partial",
   "theorems": [
    "C05_literal_width_partial",
    "C05_plain_width",
    "C05_signed_width_lost",
    "C05_signed_width_always_32"
   ],
   "note": "False for signed literals (proved: always 32); proved for unsigned ones."
  },
  {
   "property": "C06",
   "status": "partial",
   "theorems": [
    "C06_fold_operator_partial",
    "C06_bitwise",
    "C06_unot_bits",
    "C06_xnor_negative",
    "C06_sla_unfolded",
    "C06_mod_negative",
    "C06_srl_negative",
    "C06_divide_inexact"
   ],
   "note": "False of the code for <<<, % and >> of negatives, ~^, big divisions (witnesses proved); proved for everything else."
  },
  {
   "property": "C07",
   "status": "partial",
   "theorems": [
    "C07_optimizeConstant_value_partial",
    "C07_optimizeConstant_value_and_width_partial",
    "C07_comparison_width",
    "C07_concat_overflow",
    "C07_negative_partselect",
    "C07_bit_select_raises"
   ],
   "note": "False in general (four witnesses); proved on the fragment Frag."
  },
  {
   "property": "C08",
   "status": "proved",
   "theorems": [
    "C08_optimizeConstant_idempotent"
   ],
   "note": ""
  },
  {
   "property": "C09",
   "status": "partial",
   "theorems": [
    "C09_condition_truth_partial",
    "C09_value_partial",
    "C09_unot_land_false",
    "C09_land_value_false",
    "C09_divide_false"
   ],
   "note": "False in general (three witnesses); proved on the fragment CFrag."
  },
  {
   "property": "C10",
   "status": "proved",
   "theorems": [
    "C10_optimizeConstant_terms",
    "C10_optimizeHierarchy_terms",
    "C10_optimize_terms"
   ],
   "note": ""
  },
  {
   "property": "C12",
   "status": "proved",
   "theorems": [
    "C12_mergeConcat_bits",
    "C12_overflow_false"
   ],
   "note": "Constants within their widths, as the property says; C12_overflow_false shows the proviso is needed."
  },
  {
   "property": "C11",
   "status": "partial",
   "theorems": [
    "C11_takePart_bits_partial",
    "C11_inner_cut_false",
    "C11_straddling_cut_false"
   ],
   "note": "False for cuts inside a non-lowest operand or straddling a boundary with a lower offset (two witnesses); proved for the cuts GoodCut."
  },
  {
   "property": "C13",
   "status": "partial",
   "theorems": [
    "C13_resolved_definition_partial",
    "C13_resolved_value_partial",
    "C13_in_order_resolved_partial",
    "C13_closed_resolved",
    "C13_chain_unresolved",
    "C13_stale_value"
   ],
   "note": "False in general (two witnesses: two passes do not resolve reverse chains; ranges mentioning parameters give stale values). Proved: soundness for closed ranges, completeness for in-order and closed definitions."
  },
  {
   "property": "C14",
   "status": "proved",
   "theorems": [
    "C14_reorder_value",
    "C14_reorder_value_iff",
    "C14_reorder_total"
   ],
   "note": "Refinement for trees whose array selections are well-formed, equality for trees without arrays."
  },
  {
   "property": "C15",
   "status": "proved",
   "theorems": [
    "C15_conditionals_on_top",
    "C15_idempotent"
   ],
   "note": ""
  },
  {
   "property": "C16",
   "status": "proved",
   "theorems": [
    "C16_reorder_terminates"
   ],
   "note": ""
  },
  {
   "property": "C17",
   "status": "proved",
   "theorems": [
    "C17_replace_complete",
    "C17_replace_terms",
    "C17_replace_value",
    "C17_replace_keeps_value",
    "C17_replace_total"
   ],
   "note": ""
  },
  {
   "property": "C18",
   "status": "proved",
   "theorems": [
    "C18_split_selects",
    "C18_split_exclusive",
    "C18_split_total",
    "C18_hollow_false"
   ],
   "note": "For trees whose conditionals have a leaf (C18_hollow_false: a leafless conditional is reported as a leaf)."
  },
  {
   "property": "C19",
   "status": "proved",
   "theorems": [
    "C19_filter_exact",
    "C19_filter_total",
    "C19_modify_complement",
    "C19_constant_exact",
    "C19_filtered_split"
   ],
   "note": ""
  },
  {
   "property": "C20",
   "status": "proved",
   "theorems": [
    "C20_complement",
    "C20_negation_exact"
   ],
   "note": ""
  },
  {
   "property": "C21",
   "status": "proved",
   "theorems": [
    "C21_conjunction_exact",
    "C21_conjunction_total"
   ],
   "note": ""
  },
  {
   "property": "C22",
   "status": "partial",
   "theorems": [
    "C22_infer_partial",
    "C22_infer_total",
    "C22_lessEq_raises",
    "C22_lessThan_zero_false"
   ],
   "note": "False for <= (rejected) and for < 0 (everything inferred): witnesses proved; proved for everything else."
  },
  {
   "property": "C46",
   "status": "proved",
   "theorems": [
    "C46_reset_removal",
    "C46_unconditional_entry",
    "C46_no_reset_left",
    "C46_semantics"
   ],
   "note": "C46_semantics: out of reset, the lists that hold select the same functions before and after. The reset test itself (a name test on the printed condition) is a parameter."
  },
  {
   "property": "C23",
   "status": "partial",
   "theorems": [
    "C23_states_overapproximated_partial",
    "C23_states_exact_partial",
    "C23_walk_total",
    "C23_double_negation_false",
    "C23_bitwise_not_false",
    "C23_reduction_false",
    "C23_swapped_ge_raises",
    "C23_bare_state_raises"
   ],
   "note": "False in general (three witnesses); proved for Readable conditions (logical use of ~ and reductions, satisfiable double negations), in both directions; totality for Walkable conditions."
  },
  {
   "property": "C24",
   "status": "partial",
   "theorems": [
    "C24_loops_are_cycles",
    "C24_visits_consecutive",
    "C24_simple_partial",
    "C24_not_simple"
   ],
   "note": "Every reported loop is a cycle; simplicity is false with self loops (witness), proved for machines without them."
  },
  {
   "property": "C25",
   "status": "proved",
   "theorems": [
    "C25_starts_with_smallest",
    "C25_no_rotations"
   ],
   "note": ""
  },
  {
   "property": "C26",
   "status": "partial",
   "theorems": [
    "C26_search_complete",
    "C26_complete_partial",
    "C26_pruned_false",
    "C26_long_false",
    "C26_any_false"
   ],
   "note": "False in general (three witnesses: nodes pruned by visit counts, depth 51, transitions valid in any state); proved within those limits."
  },
  {
   "property": "C27",
   "status": "proved",
   "theorems": [
    "C27_construct",
    "C27_construct_any",
    "C27_resolve",
    "C27_resolve_total"
   ],
   "note": "resolve: for a truth-preserving simplification, defined conditions and deterministic machines."
  },
  {
   "property": "C47",
   "status": "proved",
   "theorems": [
    "C47_label_range",
    "C47_size"
   ],
   "note": ""
  },
  {
   "property": "C48",
   "status": "partial",
   "theorems": [
    "C48_machine_follows_tree_partial",
    "C48_fsm_follows_tree_partial"
   ],
   "note": "C48_machine_follows_tree_partial is about the machine after remove_reset_condition and resolve, out of reset. For Readable condition lists (see C23), trees whose conditionals have a leaf, and a truth-preserving simplification."
  },
  {
   "property": "C28",
   "status": "proved",
   "theorems": [
    "C28_sources_exact",
    "C28_sources_total",
    "C28_bind_sources"
   ],
   "note": ""
  },
  {
   "property": "C29",
   "status": "partial",
   "theorems": [
    "C29_later_wins_partial",
    "C29_plain_over_conditional",
    "C29_one_of_the_two",
    "C29_merge_total",
    "C29_last_assignment_lost_false"
   ],
   "note": "False when the first tree is conditional and the second is not (witness); proved for the other shapes."
  },
  {
   "property": "C30",
   "status": "partial",
   "theorems": [
    "C30_pieces_tile",
    "C30_split_total",
    "C30_lower_piece",
    "C30_pieces_content_partial",
    "C30_offset_false",
    "C30_two_positions_false"
   ],
   "note": "Tiling proved in full; the content is false for assignments not starting at bit 0 or split twice (witnesses)."
  },
  {
   "property": "C31",
   "status": "partial",
   "theorems": [
    "C31_positions_total",
    "C31_nested_separated_partial",
    "C31_two_separated_partial",
    "C31_containing_false",
    "C31_outside_part_false",
    "C31_element_overlap_raises"
   ],
   "note": "False in general (three witnesses); proved for the overlaps the code handles."
  },
  {
   "property": "C32",
   "status": "partial",
   "theorems": [
    "C32_pieces_placed_partial",
    "C32_pieces_stacked",
    "C32_merged_total",
    "C32_gap_false",
    "C32_element_false"
   ],
   "note": "False for every gap and for every array element (universal counter-theorems); proved for pieces without gaps."
  },
  {
   "property": "C49",
   "status": "proved",
   "theorems": [
    "C49_one_per_range"
   ],
   "note": ""
  },
  {
   "property": "C50",
   "status": "partial",
   "theorems": [
    "C50_constant_index",
    "C50_variable_index_partial",
    "C50_hole_false"
   ],
   "note": "False for a variable index as soon as the assigned indices have a hole (KeyError, proved for all such arrays); proved otherwise."
  },
  {
   "property": "C33",
   "status": "partial",
   "theorems": [
    "C33_walk_terminates",
    "C33_walk_terminates_any",
    "C51_self_bound_diverges"
   ],
   "note": "Proved for every design unless the declared range of a parameter depends on that parameter (then the optimizer recurses forever: witness)."
  },
  {
   "property": "C34",
   "status": "proved",
   "theorems": [
    "C34_leaves",
    "C34_complete",
    "C53_tree_signals"
   ],
   "note": "Every leaf is classified; C34_leaves holds for any simplifier that introduces no signals, and noNewTerms_real shows this of the modelled one."
  },
  {
   "property": "C51",
   "status": "proved",
   "theorems": [
    "C51_optimize_terminates",
    "C51_optimizeConstant_terminates",
    "C51_self_bound_diverges"
   ],
   "note": "The hypothesis of the property is shown necessary by a witness."
  },
  {
   "property": "C52",
   "status": "partial",
   "theorems": [
    "C52_no_new_signals",
    "C52_same_signals_partial",
    "C52_missing_side_loses_signal"
   ],
   "note": "No new signals: proved for all trees. No lost signals: proved for trees in which no side of a condition under a part-select or pointer is missing; otherwise false (witness)."
  },
  {
   "property": "C53",
   "status": "proved",
   "theorems": [
    "C53_tree_signals"
   ],
   "note": ""
  },
  {
   "property": "C54",
   "status": "partial",
   "theorems": [
    "C54_step_limit_partial",
    "C54_index_false"
   ],
   "note": "False for arrays: the index is walked twice (witness); proved for all designs without arrays."
  },
  {
   "property": "C55",
   "status": "partial",
   "theorems": [
    "C55_walk_value_partial",
    "C55_width_false",
    "C55_declared_range_false",
    "C55_undriven_false"
   ],
   "note": "Proved for valuations in which driven signals have exactly the value (and width) of their trees and all declared ranges start at bit 0; three witnesses show that each restriction is needed."
  },
  {
   "property": "C36",
   "status": "proved",
   "theorems": [
    "C36_bind_store",
    "C36_no_name"
   ],
   "note": "Over every history of addBind calls on an empty data flow."
  },
  {
   "property": "C37",
   "status": "proved",
   "theorems": [
    "C37_term_store"
   ],
   "note": "Over every history of addTerm calls on an empty data flow."
  },
  {
   "property": "C38",
   "status": "proved",
   "theorems": [
    "C38_labels_unique",
    "C38_digit_end_false"
   ],
   "note": "The proviso on digits is shown necessary by a witness."
  },
  {
   "property": "C39",
   "status": "proved",
   "theorems": [
    "C39_add_definition",
    "C39_current",
    "C39_history",
    "C39_variables",
    "C39_description",
    "C39_redefined",
    "C39_outside"
   ],
   "note": ""
  },
  {
   "property": "C40",
   "status": "partial",
   "theorems": [
    "C40_frame_partial",
    "C40_range_false"
   ],
   "note": "False of the code: Frame compares msb twice and never lsb (witness); proved for ranges that differ in msb or ptr."
  },
  {
   "property": "C56",
   "status": "partial",
   "theorems": [
    "C56_assign_under_conditions_partial",
    "C56_assign_last",
    "C56_lost",
    "C56_total",
    "C56_false"
   ],
   "note": "False when the tree leaves the path two or more conditions before its end at a place with an earlier assignment (C56_lost says exactly what happens; witness C56_false); proved otherwise."
  },
  {
   "property": "C57",
   "status": "partial",
   "theorems": [
    "C57_expression_value",
    "C57_substitution_value",
    "C57_nested_condition_raises"
   ],
   "note": "Expressions without hierarchical names, function calls and unary plus; a conditional operator as the condition of another raises (proved). Substitution: array elements are not reassigned."
  },
  {
   "property": "C58",
   "status": "partial",
   "theorems": [
    "C58_nonblocking_partial",
    "C58_nonblocking_noassign",
    "C58_other_block_partial",
    "C58_module_partial",
    "C58_false",
    "C58_stale_false",
    "C58_default_lost_false",
    "C58_nested_lost_false",
    "C58_default_order_false",
    "C58_casez_false",
    "C58_empty_if_raises",
    "C58_concat_twice"
   ],
   "note": "False in general (witnesses for five kinds of statements). Proved for nonblocking assignments to the whole signal, for if, case, casex, begin-end and every order of assignments accepted by Stmt.chk, any number of other always blocks, signals declared in the module. Missing: blocking assignments in the same block, loops, part assignments of the signal."
  },
  {
   "property": "C59",
   "status": "proved",
   "theorems": [
    "C59_clock_and_reset",
    "C59_edge_false"
   ],
   "note": "C59_edge_false: an edge of a signal named otherwise makes no clock."
  },
  {
   "property": "C60",
   "status": "proved",
   "theorems": [
    "C60_nearest_declaration",
    "C60_module_boundary"
   ],
   "note": ""
  },
  {
   "property": "C35",
   "status": "partial",
   "theorems": [
    "C35_subset_exact",
    "C35_terminates",
    "C35_clock_cycle_never_returns",
    "C35_clock_not_returned_false"
   ],
   "note": "Exact whenever it returns, for any order of iteration over sets. It never returns when clocks are circular (proved for all such netlists) and always returns otherwise on closed netlists; a foreign clock is followed but not itself among the names (witness)."
  },
  {
   "property": "C43",
   "status": "partial",
   "theorems": [
    "C43_identifiers",
    "C43_statement_identifiers",
    "C43_shape_partial",
    "C43_unaffected",
    "C43_hierarchical_false"
   ],
   "note": "Names: proved for all expressions and statements. The scope of a renamed hierarchical name is lost (proved for all of them); otherwise nothing but the names changes. For trees no node object of which occurs twice."
  },
  {
   "property": "C44",
   "status": "proved",
   "theorems": [
    "C44_dictlistmerge",
    "C44_first_argument_changed"
   ],
   "note": "The second theorem states the side effect on the first argument."
  },
  {
   "property": "C61",
   "status": "partial",
   "theorems": [
    "C61_classification_partial",
    "C61_nonwire_raises"
   ],
   "note": "False: any assignment to a signal not of type Wire raises AttributeError (signaltype.isWireArray does not exist; proved for all designs). Proved for designs of wires."
  },
  {
   "property": "C62",
   "status": "partial",
   "theorems": [
    "C62_refl",
    "C62_same_arity_partial",
    "C62_prefix_equal",
    "C62_then_equals_else"
   ],
   "note": "False when the numbers of children differ (universal counter-theorem); proved otherwise."
  },
  {
   "property": "C41",
   "status": "partial",
   "theorems": [
    "C41_roundtrip_partial",
    "C41_injective_partial",
    "ParsesTo.unique",
    "C41_char_classes",
    "C41_fails_sla",
    "C41_fails_partselect",
    "C41_fails_escaped",
    "C41_fails_string"
   ],
   "note": "False in full: <<< is printed without operator, and spaces are removed inside part select bounds. Proved for every other Verilog expression (Ex.WF): lexer, LALR expression parser and generator are modelled, and the printed text is read back as the same tree (unary plus is dropped by design)."
  },
  {
   "property": "C42",
   "status": "partial",
   "theorems": [
    "C42_balanced_partial",
    "C42_fails_sla"
   ],
   "note": "False in full for <<<; proved on the domain of C41."
  },
  {
   "property": "C45",
   "status": "proved",
   "theorems": [
    "C45_tables",
    "C45_grouping"
   ],
   "note": "Tables and grouping of a o b o' c for all binary operators and all operand expressions."
  },
  {
   "property": "C63",
   "status": "partial",
   "theorems": [
    "C63_tocode_partial",
    "C63_injective",
    "C63_means_unique",
    "C63_fails_string",
    "C63_fails_select",
    "C63_fails_concat",
    "C63_fails_branch"
   ],
   "note": "Proved for trees that stand for a Verilog expression with plain names (Means, Ex.Plain). False for string constants (printed without quotes), selections from expressions, empty concatenations and branches without a condition (witnesses)."
  },
  {
   "property": "C64",
   "status": "partial",
   "theorems": [
    "C64_indexed_false",
    "indexed_reads"
   ],
   "note": "False for all expressions: the part select is one bit wider than written (universal counter-theorem); proved how the text is read. Status partial because the property itself fails."
  },
  {
   "property": "C65",
   "status": "partial",
   "theorems": [
    "C65_stmt_roundtrip_partial",
    "C65_injective_partial",
    "StmtParsesTo.unique",
    "C65_fails_dangling",
    "C65_fails_casez",
    "C65_fails_for",
    "C65_fails_separator",
    "C65_fails_loop"
   ],
   "note": "False in full: no begin/end is printed around a branch (dangling else), casez and unique case have no method, the spaces in the head of a for loop are removed, form feeds in strings are indented, an if whose last branch is a for or while without begin/end is not read (the parser raises AttributeError; witnesses). Proved for all other statements (Stmt.WF), with the generator's layout, the lexer and the statement parser. Delays, event/wait/forever/fork statements and null statements are not modelled."
  },
  {
   "property": "C66",
   "status": "partial",
   "theorems": [
    "C66_reindent",
    "C66_indent",
    "C66_fails_formfeed"
   ],
   "note": "Insertion of blanks after newlines never changes the tokens (all texts); the generator's indentation is such an insertion if the text has no other line separators, otherwise false (witness)."
  },
  {
   "property": "C67",
   "status": "proved",
   "theorems": [
    "C67_assign",
    "C67_nonblocking",
    "C67_shares"
   ],
   "note": "C67_assign: the end-to-end statement for `assign` in a module body (flat scopes, no genvars); C67_nonblocking: the records kept in a branch of an always block. The values of index expressions are a hypothesis (IndexSound), discharged for literals by index_literals; for other indices it is C57 with C07/C09. Two targets of one statement must differ in signal, element or bits (for nonblocking: in the most significant bit, because the frame does not compare the least significant one, C40). C67_shares shows that the slices of the specification partition the right side. Later assignments to a concatenation under a second condition lose this (C58_concat_twice)."
  },
  {
   "property": "C68",
   "status": "partial",
   "theorems": [
    "C68_active_partial",
    "C68_sound_partial",
    "C68_complete_partial",
    "C68_unbound",
    "C68_unconditional_raises",
    "C68_fsm_total",
    "C68_reported"
   ],
   "note": "C68_active_partial composes split, filter, remove_reset_condition and getActiveConditions_fsm. Partial: conditions must be Readable (see C23), satisfiable, and the simplification truth-preserving (C09); completeness needs the lists to compare the state register (the code skips nodes valid in any state). A signal that is active unconditionally raises TypeError (C68_unconditional_raises)."
  },
  {
   "property": "C69",
   "status": "proved",
   "theorems": [
    "C69_delay",
    "C69_delay_found",
    "C69_circle_raises"
   ],
   "note": "Chains of any length; circles (including a register that keeps its own value) end in RecursionError: C69_circle_raises."
  },
  {
   "property": "C70",
   "status": "partial",
   "theorems": [
    "C70_source_roundtrip_partial",
    "C70_split_partial",
    "C70_stable_partial",
    "C70_injective_partial",
    "SourceParsesTo.unique",
    "C70_fails_always_ff",
    "C70_fails_header_params",
    "C70_fails_integer",
    "C70_fails_supply",
    "C70_fails_string_width",
    "C70_fails_semicolon",
    "C70_fails_real",
    "C70_fails_generate",
    "C70_fails_task_output"
   ],
   "note": "False in full (nine witnesses). Proved for all modules in ModuleDef.OK, whose always bodies are not bare loops (AttributeError in the parser), including functions, tasks and generate constructs (nested if/for/blocks), with the generator's templates and layout, the lexer and the parser of modules, statements and expressions. Not modelled: pragmas, delays."
  },
  {
   "property": "C71",
   "status": "partial",
   "theorems": [
    "C71_abbrev_partial",
    "C71_fails_signed",
    "C71_fails_wire",
    "C71_fails_direction"
   ],
   "note": "False in full: signedness and dimensions are not handed on, and a port that is also declared as a wire is skipped (the name becomes None or takes the direction of an earlier port). Proved for all other headers."
  },
  {
   "property": "C72",
   "status": "partial",
   "theorems": [
    "C72_group_partial",
    "C72_fails_logic",
    "C70_fails_real"
   ],
   "note": "Proved for signals, integers, genvars, parameters, localparams, and wire/reg with a value. False for logic (nothing is declared) and real (the names are lost)."
  },
  {
   "property": "C73",
   "status": "partial",
   "theorems": [
    "C73_connections_partial",
    "C73_fails_omitted"
   ],
   "note": "Proved for written connections (also inside any module: C70). False for an omitted first connection: the others move up."
  },
  {
   "property": "C74",
   "status": "partial",
   "theorems": [
    "C74_fails_default",
    "C74_fails_case",
    "C74_fails_condition",
    "C74_fails_part",
    "C74_fails_parts",
    "C74_read_full",
    "C74_read_parts",
    "C74_blocking_partial"
   ],
   "note": "False in full: counterexamples; C74_fails_parts: a part assigned after the whole is ignored when the signal is read, for all trees and bounds; C74_read_full and C74_read_parts say what a read gives when parts are assigned. Positive theorem for always blocks whose statements are blocking assignments to whole scalars under if, case, casex and begin-end, whose conditions read no signal the block assigns and contain no conditional operator, for the orders of assignments accepted by Stmt.baChk (no assignment two or more conditions away from an earlier one, the cause of the counterexamples). Missing: parts and arrays as destinations, mixes with nonblocking assignments, loops, casez."
  },
  {
   "property": "C75",
   "status": "partial",
   "theorems": [
    "C75_flatten_partial",
    "C75_fails_concat",
    "C75_fails_always_ff"
   ],
   "note": "Proved for ModuleDef.covered: whole signals with one driver each, no arrays, instance arrays, functions, generate blocks, hierarchical names; always blocks as in C58. The hierarchy, parameters, connections, gates and expressions are arbitrary. False for outputs connected to a concatenation and for always_ff."
  },
  {
   "property": "C76",
   "status": "partial",
   "theorems": [
    "C76_parameters_partial",
    "C76_fails_localparam"
   ],
   "note": "The recorded equations of parameters and localparams are right in every instance; the constants computed during the analysis are not: a localparam keeps the value it has with the default of the parameter, visible in replication counts (C76_fails_localparam)."
  },
  {
   "property": "C77",
   "status": "partial",
   "theorems": [
    "C77_gates_partial",
    "C77_fails_outputs"
   ],
   "note": "Proved for gates with one output, on the least significant bits of the inputs (IEEE: scalars). False for not and buf with several outputs."
  },
  {
   "property": "C78",
   "status": "partial",
   "theorems": [
    "C78_reads_partial",
    "C78_value_partial",
    "C78_bits_lost",
    "C78_no_value"
   ],
   "note": "Proved for trees that stand for Verilog expressions with plain names (as C63); values for whole signals. False in full: the bit of the clock or reset is not printed (universal theorem), an assignment without value raises."
  },
  {
   "property": "C79",
   "status": "proved",
   "theorems": [
    "C79_total",
    "C79_tokens",
    "C79_positions",
    "C79_error",
    "C79_parser_tokens",
    "C79_nettype"
   ],
   "note": "For all texts and all earlier states of the lexer."
  },
  {
   "property": "C80",
   "status": "partial",
   "theorems": [
    "C80_column",
    "C80_second_text"
   ],
   "note": "False. C80_column: the reported column is one too large on every line but the first, and right on the first. C80_second_text: for every pair of texts, lines and directives go on from the first text."
  },
  {
   "property": "C81",
   "status": "partial",
   "theorems": [
    "C81_reads_the_grammar",
    "C81_reads_texts",
    "C81_one_tree",
    "C81_two_operators",
    "C81_stray_comma"
   ],
   "note": "Both directions for all token sequences, against a separate layered grammar. The grammar of arguments has to admit a comma before the first argument (C81_stray_comma: accepted and dropped), which Verilog does not. Outside the model: scope labels with an index (a[1].b) and calls of functions with a hierarchical name."
  },
  {
   "property": "C82",
   "status": "partial",
   "theorems": [
    "C82_graph_shows_tree",
    "C82_graph_covers_tree",
    "C82_undefined",
    "C82_default_merges"
   ],
   "note": "identical=True: proved in full (labels, colours, order, one line per operand, fresh names, nothing else changed). Default mode: proved that the lines lead to the operands and to nothing else and that every signal has a node; order and number of lines, and the TRUE label of c ? a : a, are lost, and two signals with the same joined name share a node (C82_default_merges). graphviz itself (layout, drawing) is outside the model."
  },
  {
   "property": "C83",
   "status": "partial",
   "theorems": [
    "C83_reads_the_grammar",
    "C83_reads_texts",
    "C83_one_statement",
    "C83_else_of_the_inner_if",
    "C83_fails_loop"
   ],
   "note": "Both directions for all token sequences, against a separate grammar. False in full: C83_fails_loop, a universal counter-theorem: every statement of the grammar in which a for or while is the last branch of an if (without begin/end) is refused, because the action reads end_lineno of a node that has none. Everything else is read exactly. Outside the model: delays, event, wait, forever, fork-join, task calls and null statements, declarations in named blocks, empty parts of a for head."
  },
  {
   "property": "C84",
   "status": "partial",
   "theorems": [
    "C84_reads_partial",
    "C84_entire_partial",
    "C84_subset_partial",
    "C84_no_ports",
    "C84_nonwire",
    "C84_flat_no_dots",
    "C84_fails_float",
    "C84_fails_genvar"
   ],
   "note": "Proved for dataflows in which only signals of type Wire are assigned, with another port in the top module, every signal a port, wire, register, integer or function, trees as in C78 and no dot in a constant. False otherwise, with universal counter-theorems: no text for a design that assigns a register, output or instance input (C84_nonwire, merge.py asks for a function that does not exist), an unreadable text for a top module without other ports (C84_no_ports); and with witnesses: constants with a dot (C84_fails_float), genvars (C84_fails_genvar). Values for assignments to whole signals; two signals with the same flat name are not excluded (each is declared)."
  },
  {
   "property": "C85",
   "status": "partial",
   "theorems": [
    "C85_scopes_partial",
    "C85_negative_false",
    "C85_negative_condition",
    "C85_ranged_parameter",
    "C85_unsupported"
   ],
   "note": "Proved for all designs of the specification Opens whose conditions are not negative. False otherwise: a condition with a negative value counts as false (C85_negative_false, the full statement refuted; C85_negative_condition for every conditional). Two universal counter-theorems about analyses that fail: an instance of a module with a ranged parameter raises FormatError (C85_ranged_parameter), and so do hierarchical names and $signed in constants, with other errors (C85_unsupported). Outside Opens: functions, tasks, always_ff/comb/latch, loops in always blocks, constant expressions with widths."
  },
  {
   "property": "C86",
   "status": "partial",
   "theorems": [
    "C86_resolves_partial",
    "C86_found",
    "C86_missing",
    "C86_index_false",
    "signalPass_tree"
   ],
   "note": "Proved for every table of scopes that is a tree (signalPass_tree: the table of every analysed design is one): a path finds the scope it names if no other scope has the name when loop indices are left out; what is found is declared and belongs to such a scope. False in full: a path without the index of a loop is accepted and means the first turn (C86_index_false), and a path that names nothing raises NameError because scope.py does not import verror (C86_missing, for all paths)."
  },
  {
   "property": "C87",
   "status": "partial",
   "theorems": [
    "C87_tree_partial",
    "C87_bind_partial",
    "C87_signal_partial",
    "C87_bind_kind_false",
    "C87_string_false",
    "C87_string_value_false",
    "C87_scope_type_false"
   ],
   "note": "Proved for names without the characters that structure a dump, constants without a closing bracket and integer values, up to the types of scopes. False otherwise: the kind of an assignment is not shown (for all assignments), string constants are shown without quotes and string values as they are (for all trees), an instance and a function call of the same name look the same. Floats are outside the model."
  },
  {
   "property": "C88",
   "status": "partial",
   "theorems": [
    "C88_exact",
    "C88_removed_false",
    "C88_first_false"
   ],
   "note": "False: C88_exact says for all conditions which ones are removed (some name on the path of some signal, or some text, contains rst or reset); C88_removed_false: so every condition on a signal called first, or of an instance called burst, is removed; C88_first_false: a register that loses its functions that way. Conditions with a float value are outside the model."
  },
  {
   "property": "C89",
   "status": "partial",
   "theorems": [
    "C89_longest",
    "C89_error",
    "C89_unique",
    "C89_words",
    "C89_signedX_false",
    "C89_last_comment_false"
   ],
   "note": "Both directions for all texts, with the pieces of Verilog as LexSpec and Gap define them. Two kinds of pieces of Verilog are not among them, with universal counter-theorems: signed binary literals beginning with X (a lexical error), and a line comment at the end of a text without newline (read as divisions)."
  },
  {
   "property": "C90",
   "status": "partial",
   "theorems": [
    "C90_show_determines",
    "C90_expressions",
    "C90_statements_partial",
    "C90_parsed_partial",
    "C90_branches_false",
    "C90_block_name_false",
    "C90_line_break_false"
   ],
   "note": "Proved for all nodes whose values contain no line break, and no comma except in the last value of a node. Statements: under the condition that only else branches are missing and no block is called None (what the parser builds from texts without that name). False otherwise, with universal counter-theorems: an if with only one branch does not show which (trees built by hand; the parser always sets the then branch), a block called None looks like one without a name, a constant with a line break looks like two nodes. Declarations and modules are covered by C90_show_determines as nodes, not as statements of the language."
  },
  {
   "property": "C91",
   "status": "partial",
   "theorems": [
    "C91_call_partial",
    "C91_arguments",
    "C91_fails_overwritten",
    "C91_fails_circular",
    "C91_fails_message"
   ],
   "note": "Proved for modules of scalar signals whose functions have bodies that are sequences (nested blocks) of assignments to whole variables, and in which a variable is read only after its last assignment; the right sides of the bodies contain no calls. In the other order the property is false: the blocking assignments of a function called from a continuous assignment are not resolved, so a reading before a later assignment gets the later value (C91_fails_overwritten), and a variable that is read in its own assignment gives a circular equation (C91_fails_circular). The error for a wrong number of arguments is an AttributeError (C91_fails_message)."
  },
  {
   "property": "C92",
   "status": "partial",
   "theorems": [
    "C92_not_partial",
    "C92_not_total",
    "C92_not_empty_false",
    "C92_and_partial",
    "C92_and_open_false",
    "C92_satisfy_partial",
    "C92_satisfy_total",
    "C92_satisfy_open_false",
    "C92_tree_partial",
    "C92_tree_closed_false",
    "C92_cond_satisfy_partial",
    "C92_split",
    "C92_tree_exact",
    "C92_tree_open_partial",
    "C92_cond_tree_partial",
    "C92_cond_tree_empty_false"
   ],
   "note": "Proved for negation of terms with ranges, conjunction and membership of closed ranges, and the trees of open ranges and of conditions on them; C92_tree_exact says what the tree of any term with ranges means. False, with proofs: the negation of a term without values has no values; conjunction and membership raise TypeError for the open ranges that `>` gives; the tree of a closed range tests `x >= hi` instead of `x <= hi`."
  },
  {
   "property": "C93",
   "status": "partial",
   "theorems": [
    "C93_active_covers_partial",
    "C93_active_exact_partial",
    "C93_unbound",
    "C93_unconditional_false",
    "C93_active_exact_false",
    "C93_notEq_false",
    "C93_lessEq_raises",
    "C93_signals_raise",
    "C93_not_or_false",
    "C93_shared_false",
    "C93_or_unknown_false",
    "C93_wide_and_false",
    "C93_contradiction_false",
    "C93_between_raises",
    "C93_assignments_partial"
   ],
   "note": "Proved for conditions built from comparisons of signals with constants (other than !=, <= and trivial ones), `!` (not of disjunctions), `&&`, `||`, `|`, `&` of conditions with the values 0 and 1, and `== 0`, `== 1`, `!= 0`, `!= 1` of conditions: no active valuation is missed; nothing else is said if no signal is read twice on a way. False beyond that, with proofs: `!=` is read as `==`, `<=` and comparisons of signals raise FormatError, negated disjunctions are lost, operands not understood are dropped from `||`, `&` of wide signals is read as `&&`, a term shared by two conditions loses its values, contradictions are left out, `n > 2 && n < 9` raises TypeError."
  },
  {
   "property": "C94",
   "status": "partial",
   "theorems": [
    "C94_found",
    "C94_reported",
    "C94_complete",
    "C94_follows_partial",
    "C94_loops",
    "C94_width",
    "C94_width_default",
    "C94_path",
    "C94_any_not_reported",
    "C94_any_witness"
   ],
   "note": "C94_found, C94_reported, C94_complete and C94_loops cover every run that does not fail. Missing: regular expressions in fsm_vars; what the machines do is proved under the conditions of C48 (readable conditions, no hollow branches), the widths for bounds of the fragment of C07. The width, which signals are clocked and the trees are parameters of the search (the trees are the subject of C57, C58 and C78)."
  },
  {
   "property": "C95",
   "status": "partial",
   "theorems": [
    "C95_nodes",
    "C95_edges",
    "C95_labels",
    "C95_labels_resolved_partial",
    "C95_own_label_lost",
    "C95_label_operator",
    "C95_label_signal",
    "C95_nolabel",
    "C95_same_picture",
    "C95_same_picture_witness"
   ],
   "note": "Nodes and lines are proved for all machines. Labels: each label is that of a transition along the line; each condition is drawn if the machine is resolved and has no transitions possible in every state. False otherwise (C95_own_label_lost), and what is drawn of a condition does not tell which condition it is (C95_same_picture). Layout and files are not modelled."
  },
  {
   "property": "C96",
   "status": "partial",
   "theorems": [
    "C96_scopes_partial",
    "C96_turns",
    "C96_stuck",
    "C96_negative_false"
   ],
   "note": "Proved for conditions with values that are not negative; a negative condition, which is true, ends the loop (C96_negative_false). Headers have constant values under ConstVal (names with values, literals, operators for which folding is exact, C06). StmtOpens describes the code as it is in that the body of a while loop opens no scope in this pass."
  },
  {
   "property": "C97",
   "status": "partial",
   "theorems": [
    "C97_for_partial",
    "C97_while_partial",
    "C97_variable_partial",
    "C97_variable_block_partial",
    "C97_count_partial",
    "C97_count_block_partial",
    "C97_range_partial",
    "C97_while_count_partial",
    "C97_nested_partial",
    "C97_place",
    "C97_fails_negative"
   ],
   "note": "Proved for conditions that are not negative; a negative condition, which is true, ends the loop (C97_fails_negative). That the loop variable reads as the value that names the turn, in front of the condition and at the beginning of the body, is proved for for loops that are the always block or stand in its block, with bodies of assignments to whole scalars in ifs, blocks and loops. Where nothing else assigns the variable and condition and step are made of it, constants and literals, the turns are those of the loop over integers (C97_count_partial, C97_count_block_partial; for `i = a; i < n; i = i + k`, also with other comparisons and `i - k`: a, a + k, ..., C97_range_partial; for while loops behind `i = a;` that end with the step, C97_while_count_partial; for all for loops in loops and blocks, outside of conditions, C97_nested_partial). Missing: the same inside of conditions and behind case statements, and for parts of signals."
  },
  {
   "property": "C98",
   "status": "partial",
   "theorems": [
    "C98_declares_partial",
    "C98_none",
    "C98_declared",
    "C98_fails_tri",
    "C98_fails_always"
   ],
   "note": "Proved for wire (the default), none, and names that are declared. False for tri, wand, wor, tri0, tri1, triand, trior, which are refused (C98_fails_tri), and in always blocks, where a wire is declared in the always block (C98_fails_always). Missing: parts and concatenations on the left."
  },
  {
   "property": "C99",
   "status": "partial",
   "theorems": [
    "C99_lines",
    "C99_line_tells",
    "C99_text_tells",
    "C99_same_partial",
    "C99_prints",
    "C99_fails_string"
   ],
   "note": "Lines, sources, destinations and the texts of conditions: all machines (the split into lines: if no condition's text has a line break). That the text tells the condition is proved for conditions that stand for Verilog expressions with plain names (as C63); false for string constants, which are printed without quotes (C99_fails_string)."
  },
  {
   "property": "C100",
   "status": "partial",
   "theorems": [
    "C100_same_partial",
    "C100_symm",
    "C100_hash",
    "C100_lookup_partial",
    "C100_fails_delay",
    "C100_fails_transitive"
   ],
   "note": "Proved for trees without DFDelay whose names are those of declared signals. False otherwise: comparing two DFDelay nodes, or hashing one, always raises AttributeError (universal counter-theorem), and names made by toTermname make equality intransitive (witness). Symmetry and the agreement of hashes: all nodes. Operands are tuples, as everywhere in the code."
  }
 ]
}