# Formal model of PyHDI/Pyverilog in Lean 4 — design

## 1. Trusted base

* Lean 4.33.0's kernel. Every theorem named in MANIFEST.json depends at most on the standard axioms
  `propext`, `Classical.choice`, `Quot.sound` (checked with `#print axioms` and by `vcheck`). No own axioms,
  no compiled-code evaluation (`decide +kernel` is the kernel's own evaluation).
* The reading of the Python source: the model is hand written from `/repo`; the code is never run here. Every
  definition of the model cites the file and lines it models and states its simplifications.
* CPython semantics taken for granted: unbounded integers with floor `%` and `>>`; `tuple`/`list`/`dict` in
  insertion order; `sorted` is a stable sort; `isinstance` dispatch order; exceptions abort the call.
* For C41/C42/C45 and the other properties about the parser: PLY's documented algorithms (order of the token
  rules, precedence based resolution of shift/reduce conflicts). The LALR tables themselves are not built; the
  expression grammar is modelled as a shift/reduce machine (`Verif/ExprParser.lean`).

### Conventions

* Exceptions are values: `Py α := Except PyErr α`, one constructor per Python exception class that occurs.
  E.g. `raise FormatError(..)` in `optimizer.py`, where the name is not imported, is a `NameError`.
* Python `None` in a tree position is the constructor `DF.none` (or `Option`).
* Functions which in Python recurse through tables (term widths, netlists) take a `fuel` argument: the Python
  recursion depth; running out is `PyErr.recursion` (Python's `RecursionError`). Theorems quantify over all
  fuels, and separate termination theorems say when some fuel suffices.
* Integer values are `Int`; DFEvalValue values are `PyVal` (int / float text / string / None). Arithmetic on
  floats and strings is `PyErr.unmodelled`: no theorem speaks about it.
* `math.log` (used by `_isPowerOf2`) is a parameter (`OptCtx.log2`), since it is libm floating point. Theorems
  that need it state the assumption on it explicitly.
* Python's true division followed by `int()` is modelled exactly (53-bit round-half-even).
* Python sets are lists without repetition; where their iteration order matters it is a parameter and the
  theorems quantify over it (`SubsetEnv.order`).
* Objects: `Stores.lean` treats stored terms and assignments as values (the callers pass fresh objects);
  `Binder.lean` has a heap of assignment objects, because frames and the global table share them;
  `dictlistmerge` states its effect on the caller's lists separately.
* A property that is false of the code is kept at full strength in `properties.jsonl`; the theorems are (a) a
  proof of its negation (a concrete witness, or a theorem for all inputs of the bad class) and (b) a theorem
  with suffix `_partial` for the largest fragment I could prove. The fragment is a named predicate whose
  definition is in a specification file or next to the theorem.

### What is modelled

| part of /repo/pyverilog | Lean module | not modelled there |
|---|---|---|
| utils/scope.py, util.py, signaltype.py (names, term types) | Scope, Util, DF | `getScope` helpers used only for printing |
| dataflow/dataflow.py nodes, `DFIntConst.eval/width`, `__eq__`, `__hash__` of nodes | DF, IntConst, NodeEq | `DFDelay`/`DFUndefined` arithmetic |
| dataflow/optimizer.py | Optimizer (semantics: Sem, BitSem, Bits) | float and string arithmetic; `DFSyscall` |
| dataflow/reorder.py, replace.py | Reorder | – |
| controlflow/splitter.py | Splitter | – |
| utils/inference.py, controlflow/transition.py | Transition | range objects with non integer bounds |
| controlflow/controlflow_analyzer.py (getFuncdict, FSM, loops, search for state machines, drawing) | Fsm, Controlflow, FsmGraph | layout and files of drawings, regular expressions in fsm_vars; what `view` prints before an exception |
| controlflow/active_analyzer.py | Active | – |
| controlflow/active_range.py | ActiveRange (spec: Props/ARangeSpec) | printing; the order of the pairs in a set |
| dataflow/merge.py | Merge | printing |
| dataflow/walker.py | Walker | – |
| dataflow/graphgen.py | Graphgen | graphviz (layout, drawing), attribute syntax |
| dataflow/subset.py, utils/util.py `dictlistmerge` | Subset | – |
| dataflow/dataflow.py stores, visit.py tables and frames | Stores | – |
| dataflow/dataflow.py `tostr`; controlflow/splitter.py `_remove_reset_cond` | Dump | dumps of float values |
| dataflow/dataflow.py `Bind.tocode`, `Term.tocode` | BindCode | the sensitivity list of a combinational block (printed as `@*`) |
| dataflow/bindvisitor.py statements, assignments, expressions | Binder (syntax: Ast) | function calls (see Calls), task calls, generate |
| dataflow/bindvisitor.py function calls | Calls (spec: Props/CallSpec) | calls inside bodies of functions, always blocks and conditions; constants of the module; task calls |
| dataflow/bindvisitor.py declarations, parameters, instances; modulevisitor.py; signalvisitor.py; dataflow_analyzer.py `generate` | Elab (spec: Props/ElabSpec) | functions, tasks, generate; instance arrays in signalvisitor |
| utils/identifierreplace.py, identifiervisitor.py, vparser/ast.py equality | Ident | declarations |
| vparser/ast.py `Node.show`, `attr_names`, `children()` | Show | `children()` of declarations and modules |
| utils/op2mark.py, ast_code_generator/codegen.py expressions | Codegen (domain: CodegenSpec) | modules |
| dataflow/signalvisitor.py (frames, constants, generate) | SignalVisitor (spec: Props/GenSpec) | declarations in begin-end blocks, ports and parameters declared in generate constructs, ports of functions and tasks, pragmas |
| dataflow/visit.py, bindvisitor.py (hierarchical names) | HierName | indices that are constants but no integers; the conversion of the index is a parameter |
| dataflow/dataflow_codegen.py, Term.tocode | DataflowCodegen | options changed after construction |
| ast_code_generator/codegen.py procedural statements, templates | StmtCodegen (domain: StmtSpec) | delays, event/wait/forever/fork, null statements |
| ast_code_generator/codegen.py modules, functions, tasks, generate, templates | Module (domain: ModuleSpec) | pragmas, delays, function calls |
| vparser/lexer.py | Lexer (spec: LexSpec, Props/LexLongest), LexPos (lines, positions, directives, `default_nettype`, errors) | the debug entry points |
| vparser/parser.py expressions | ExprParser (spec: GrammarSpec) | indexed scope labels, calls with a hierarchical name |
| vparser/parser.py procedural statements | StmtParser (spec: StmtGrammar) | delays, event/wait/forever/fork, null statements |
| vparser/parser.py modules, ports, declarations, always/initial, instances, functions, tasks, generate | ModuleParser | pragmas, delays, instances of `or` |

Not modelled at all: vparser/preprocessor.py (runs Icarus),
the command line scripts, file handling.

## 2. Per property: what is modelled and how it is proved

### C01 Equal scope chains hash equally — proved

Model: ScopeLabel/ScopeChain equality and the tuple that is hashed. Structural induction.

* `Verif/Props/ScopeProps.lean`: `C01_equal_chains_hash_equal`

### C02 Scope chain equality and wildcard lookup — proved

Model: equality with the wildcard type 'any', toTermname. Induction on the chains.

* `Verif/Props/ScopeProps.lean`: `C02_eq_refl`, `C02_eq_symm`, `C02_eq_concrete`, `C02_wildcard_lookup`, `C02_eq_not_transitive`

### C03 Distinct signals get distinct flat names — partial

Model: ScopeChain.tocode. Injectivity by decoding the underscore separated text.

Verdict: False of the code in general (collision witnesses proved); proved for underscore-free printed scopes.

* `Verif/Props/ScopeProps.lean`: `C03_flatname_injective_partial`, `C03_flatname_collision`, `C03_flatname_collision_generate`

### C04 Integer literals evaluate to the number they denote — proved

Model: DFIntConst.eval, the regex searches as first-match functions. Induction over digit strings against a positional value specification.

Verdict: Digits 0-9a-fA-F and underscores; '?' digits raise (C04_question_mark_raises).

* `Verif/Props/IntConstProps.lean`: `C04_based_literal`, `C04_plain_decimal`, `C04_question_mark_raises`

### C05 Sized literals have their declared width — partial

Model: DFIntConst.width. Case analysis of the literal grammar.

Verdict: False for signed literals (proved: always 32); proved for unsigned ones.

* `Verif/Props/IntConstProps.lean`: `C05_literal_width_partial`, `C05_plain_width`, `C05_signed_width_lost`, `C05_signed_width_always_32`

### C06 Operator folding computes the operator — partial

Model: _evalOperator. One lemma per operator against Lean's integer/bit operations; loops by induction on the width.

Verdict: False of the code for <<<, % and >> of negatives, ~^, big divisions (witnesses proved); proved for everything else.

* `Verif/Props/OperatorProps.lean`: `C06_fold_operator_partial`, `C06_bitwise`, `C06_unot_bits`, `C06_xnor_negative`, `C06_sla_unfolded`, `C06_mod_negative`, `C06_srl_negative`, `C06_divide_inexact`

### C07 Constant folding preserves meaning — partial

Model: optimizeConstant. Induction on fuel with a refinement relation between the trees' values under any valuation.

Verdict: False in general (four witnesses); proved on the fragment Frag.

* `Verif/Props/ConstFoldSound.lean`: `C07_optimizeConstant_value_partial`, `C07_optimizeConstant_value_and_width_partial`, `C07_comparison_width`, `C07_concat_overflow`, `C07_negative_partselect`, `C07_bit_select_raises`

### C08 Constant folding is idempotent — proved

Model: optimizeConstant. Normal form predicate, induction on fuel.

* `Verif/Props/ConstFoldProps.lean`: `C08_optimizeConstant_idempotent`

### C09 Hierarchical simplification preserves the truth of conditions — partial

Model: optimizeHierarchy and its helpers. Truth-value semantics, induction on fuel; the fragment excludes the rewritings with witnesses.

Verdict: False in general (three witnesses); proved on the fragment CFrag.

* `Verif/Props/CondSound.lean`: `C09_condition_truth_partial`, `C09_value_partial`, `C09_unot_land_false`, `C09_land_value_false`, `C09_divide_false`

### C10 Optimization introduces no signals — proved

Free variable inclusion, induction on fuel.

* `Verif/Props/ConstFoldProps.lean`: `C10_optimizeConstant_terms`
* `Verif/Props/OptTermsProps.lean`: `C10_optimizeHierarchy_terms`, `C10_optimize_terms`

### C11 Part-selecting a concatenation keeps the selected bits — partial

Model: takePart. Bit semantics of concatenations.

Verdict: False for cuts inside a non-lowest operand or straddling a boundary with a lower offset (two witnesses); proved for the cuts GoodCut.

* `Verif/Props/TakePartProps.lean`: `C11_takePart_bits_partial`, `C11_inner_cut_false`, `C11_straddling_cut_false`

### C12 Merging adjacent constants in a concatenation keeps the value — proved

Model: the mergeConcat loops. Loop invariants on the bit semantics.

Verdict: Constants within their widths, as the property says; C12_overflow_false shows the proviso is needed.

* `Verif/Props/ConcatProps.lean`: `C12_mergeConcat_bits`, `C12_overflow_false`

### C13 Resolved parameters have the value of their definition — partial

Model: resolveConstant with its two passes over the table. Invariant of the table of constants.

Verdict: False in general (two witnesses: two passes do not resolve reverse chains; ranges mentioning parameters give stale values). Proved: soundness for closed ranges, completeness for in-order and closed definitions.

* `Verif/Props/ResolveProps.lean`: `C13_resolved_definition_partial`, `C13_resolved_value_partial`, `C13_in_order_resolved_partial`, `C13_closed_resolved`, `C13_chain_unresolved`, `C13_stale_value`

### C14 Reordering preserves meaning — proved

Model: reorder. Induction over the tree with the ideal semantics.

Verdict: Refinement for trees whose array selections are well-formed, equality for trees without arrays.

* `Verif/Props/ReorderProps.lean`: `C14_reorder_value`, `C14_reorder_value_iff`
* `Verif/Props/ReorderTotal.lean`: `C14_reorder_total`

### C15 Reordering puts conditionals on top — proved

Normal form predicate of reorder's results.

* `Verif/Props/ReorderProps.lean`: `C15_conditionals_on_top`, `C15_idempotent`

### C16 Reordering terminates — proved

A measure that decreases with every recursive call.

* `Verif/Props/ReorderProps.lean`: `C16_reorder_terminates`

### C17 Undefined replacement is complete and minimal — proved

Model: replaceUndefined. Structural induction.

* `Verif/Props/ReplaceProps.lean`: `C17_replace_complete`, `C17_replace_terms`, `C17_replace_value`, `C17_replace_keeps_value`
* `Verif/Props/ReorderTotal.lean`: `C17_replace_total`

### C18 Splitting a tree partitions the input space — proved

Model: splitter.split. Path semantics of condition lists.

Verdict: For trees whose conditionals have a leaf (C18_hollow_false: a leafless conditional is reported as a leaf).

* `Verif/Props/SplitterProps.lean`: `C18_split_selects`, `C18_split_exclusive`, `C18_split_total`, `C18_hollow_false`

### C19 Filtering condition lists keeps exactly the matching leaves — proved

Model: splitter.filter and the reset filter helpers.

* `Verif/Props/SplitterProps.lean`: `C19_filter_exact`, `C19_filter_total`, `C19_modify_complement`, `C19_constant_exact`, `C19_filtered_split`

### C20 Range complement is exact — proved

Model: transition's complement of a set of ranges; interval arithmetic, loop invariant of the sweep.

* `Verif/Props/RangeProps.lean`: `C20_complement`, `C20_negation_exact`

### C21 Range intersection is exact — proved

Model: intersection of sets of ranges.

* `Verif/Props/RangeProps.lean`: `C21_conjunction_exact`, `C21_conjunction_total`

### C22 Value inference matches the comparison — partial

Model: utils/inference.py. Case analysis per comparison.

Verdict: False for <= (rejected) and for < 0 (everything inferred): witnesses proved; proved for everything else.

* `Verif/Props/RangeProps.lean`: `C22_infer_partial`, `C22_infer_total`, `C22_lessEq_raises`, `C22_lessThan_zero_false`

### C23 State inference over-approximates the condition — partial

Model: walkCond of transition.py. Induction over the condition; both inclusions.

Verdict: False in general (three witnesses); proved for Readable conditions (logical use of ~ and reductions, satisfiable double negations), in both directions; totality for Walkable conditions.

* `Verif/Props/TransitionProps.lean`: `C23_states_overapproximated_partial`, `C23_states_exact_partial`, `C23_walk_total`, `C23_double_negation_false`, `C23_bitwise_not_false`, `C23_reduction_false`, `C23_swapped_ge_raises`, `C23_bare_state_raises`

### C24 Reported state machine loops are real cycles — partial

Model: get_loop's search. Induction on the depth with the path as invariant.

Verdict: Every reported loop is a cycle; simplicity is false with self loops (witness), proved for machines without them.

* `Verif/Props/FsmLoops.lean`: `C24_loops_are_cycles`, `C24_visits_consecutive`, `C24_simple_partial`, `C24_not_simple`

### C25 Reported loops are canonical — proved

Model: the rotation to the smallest state and the set of loops.

* `Verif/Props/FsmLoops.lean`: `C25_starts_with_smallest`, `C25_no_rotations`

### C26 Loop search is complete — partial

Induction on the depth: every simple cycle within the limits is found.

Verdict: False in general (three witnesses: nodes pruned by visit counts, depth 51, transitions valid in any state); proved within those limits.

* `Verif/Props/FsmLoops.lean`: `C26_search_complete`, `C26_complete_partial`, `C26_pruned_false`, `C26_long_false`, `C26_any_false`

### C27 State machine construction records exactly the given transitions — proved

Model: FiniteStateMachine construction and resolve. Histories of construct calls.

Verdict: resolve: for a truth-preserving simplification, defined conditions and deterministic machines.

* `Verif/Props/FsmBuild.lean`: `C27_construct`, `C27_construct_any`, `C27_resolve`, `C27_resolve_total`

### C28 Source collection is exact — proved

Model: getSources. Structural induction.

* `Verif/Props/MergeSources.lean`: `C28_sources_exact`, `C28_sources_total`, `C28_bind_sources`

### C29 Merging two assignments: the later one wins where it assigns — partial

Model: mergeTree. Semantics 'value or not assigned'.

Verdict: False when the first tree is conditional and the second is not (witness); proved for the other shapes.

* `Verif/Props/MergeTree.lean`: `C29_later_wins_partial`, `C29_plain_over_conditional`, `C29_one_of_the_two`, `C29_merge_total`, `C29_last_assignment_lost_false`

### C30 Splitting a bind tiles its range — partial

Model: splitBind. Arithmetic on the pieces; bit semantics for the contents.

Verdict: Tiling proved in full; the content is false for assignments not starting at bit 0 or split twice (witnesses).

* `Verif/Props/MergeSplit.lean`: `C30_pieces_tile`, `C30_split_total`, `C30_lower_piece`, `C30_pieces_content_partial`, `C30_offset_false`, `C30_two_positions_false`

### C31 Split positions separate all overlaps — partial

Model: the positions computed for overlapping ranges.

Verdict: False in general (three witnesses); proved for the overlaps the code handles.

* `Verif/Props/MergePositions.lean`: `C31_positions_total`, `C31_nested_separated_partial`, `C31_two_separated_partial`, `C31_containing_false`, `C31_outside_part_false`, `C31_element_overlap_raises`

### C32 Merged tree of partial assignments places every piece at its position — partial

Model: getMergedTree. Bit semantics of the concatenation of pieces.

Verdict: False for every gap and for every array element (universal counter-theorems); proved for pieces without gaps.

* `Verif/Props/MergedTree.lean`: `C32_pieces_placed_partial`, `C32_pieces_stacked`, `C32_merged_total`, `C32_gap_false`, `C32_element_false`

### C33 Dataflow walking terminates on cyclic designs — partial

Model: walkTree with its visited set and step counter. The set of unvisited names decreases.

Verdict: Proved for every design unless the declared range of a parameter depends on that parameter (then the optimizer recurses forever: witness).

* `Verif/Props/MergeTotal.lean`: `C33_walk_terminates`
* `Verif/Props/WalkTotal.lean`: `C33_walk_terminates_any`
* `Verif/Props/OptTotal.lean`: `C51_self_bound_diverges`

### C34 Walked trees end in legitimate leaves — proved

Leaf invariant over the walk.

Verdict: Every leaf is classified; C34_leaves holds for any simplifier that introduces no signals, and noNewTerms_real shows this of the modelled one.

* `Verif/Props/WalkLeaves.lean`: `C34_leaves`, `C34_complete`
* `Verif/Props/TreeTerms.lean`: `C53_tree_signals`

### C35 Subset extraction is closed under dependencies — partial

Model: getBindSubset, with the iteration order of Python sets as a parameter. Reachability closure, invariant of the two loops, termination by unvisited names and acyclic clocks.

Verdict: Exact whenever it returns, for any order of iteration over sets. It never returns when clocks are circular (proved for all such netlists) and always returns otherwise on closed netlists; a foreign clock is followed but not itself among the names (witness).

* `Verif/Props/SubsetProps.lean`: `C35_subset_exact`, `C35_terminates`, `C35_clock_cycle_never_returns`, `C35_clock_not_returned_false`

### C36 Bind store: last assignment per bit range wins — proved

Model: DataFlow.addBind. Refinement of every history to an abstract map.

Verdict: Over every history of addBind calls on an empty data flow.

* `Verif/Props/StoresProps.lean`: `C36_bind_store`, `C36_no_name`

### C37 Term store: declarations accumulate — proved

Model: DataFlow.addTerm. Refinement of every history to an abstract map.

Verdict: Over every history of addTerm calls on an empty data flow.

* `Verif/Props/StoresProps.lean`: `C37_term_store`

### C38 Generated labels are unique — proved

Model: Label/Labels. Histories of get calls; decimal representation is injective.

Verdict: The proviso on digits is shown necessary by a witness.

* `Verif/Props/StoresProps.lean`: `C38_labels_unique`, `C38_digit_end_false`

### C39 Definition tables reject duplicates and keep definitions — proved

Model: DefinitionInfoTable. Histories of calls.

* `Verif/Props/StoresProps.lean`: `C39_add_definition`, `C39_current`
* `Verif/Props/DeclProps.lean`: `C39_history`, `C39_variables`, `C39_description`, `C39_redefined`, `C39_outside`

### C40 Frame assignments are keyed by the full bit range — partial

Model: Frame.setBlockingAssign / addNonblockingAssign.

Verdict: False of the code: Frame compares msb twice and never lsb (witness); proved for ranges that differ in msb or ptr.

* `Verif/Props/StoresProps.lean`: `C40_frame_partial`, `C40_range_false`

### C41 Generated expression code parses back to the same expression — partial

Model: codegen.visit on expressions with the templates, lexer.py, the expression grammar of parser.py as a shift/reduce machine. (1) the printed text is cut into the expected tokens (induction, with the characters that may follow each token); (2) the machine reduces these tokens to the tree (induction, with the level of the waiting operator).

Verdict: False in full: <<< is printed without operator, and spaces are removed inside part select bounds. Proved for every other Verilog expression (Ex.WF): lexer, LALR expression parser and generator are modelled, and the printed text is read back as the same tree (unary plus is dropped by design).

* `Verif/Props/CodegenProps.lean`: `C41_roundtrip_partial`, `C41_injective_partial`, `C41_fails_sla`, `C41_fails_partselect`, `C41_fails_escaped`, `C41_fails_string`
* `Verif/Props/ParseProps.lean`: `ParsesTo.unique`
* `Verif/Props/IndexedSelect.lean`: `C41_char_classes`

### C42 Generated expression code has balanced brackets — partial

Same model; the grammar of balanced brackets on tokens.

Verdict: False in full for <<<; proved on the domain of C41.

* `Verif/Props/CodegenProps.lean`: `C42_balanced_partial`, `C42_fails_sla`

### C43 Identifier replacement — partial

Model: identifierreplace.py, identifiervisitor.py. Structural induction over expressions and statements.

Verdict: Names: proved for all expressions and statements. The scope of a renamed hierarchical name is lost (proved for all of them); otherwise nothing but the names changes. For trees no node object of which occurs twice.

* `Verif/Props/IdentProps.lean`: `C43_identifiers`, `C43_statement_identifiers`, `C43_shape_partial`, `C43_unaffected`, `C43_hierarchical_false`

### C44 Dictionary merge keeps everything — proved

Model: util.dictlistmerge with the effect on its arguments. Induction over the second dictionary.

Verdict: The second theorem states the side effect on the first argument.

* `Verif/Props/SubsetProps.lean`: `C44_dictlistmerge`, `C44_first_argument_changed`

### C45 Operator tables agree with the parser's precedence — proved

Exhaustive over the operator tables (finite), and the grouping of `a o b o' c` by the parser for all operand expressions.

Verdict: Tables and grouping of a o b o' c for all binary operators and all operand expressions.

* `Verif/Props/CodegenProps.lean`: `C45_tables`, `C45_grouping`

### C46 Removing reset conditions keeps the non-reset behaviour — proved

Model: remove_reset_condition. Meaning out of reset: C46_semantics.

Verdict: C46_semantics: out of reset, the lists that hold select the same functions before and after. The reset test itself (a name test on the printed condition) is a parameter.

* `Verif/Props/SplitterProps.lean`: `C46_reset_removal`, `C46_unconditional_entry`, `C46_no_reset_left`
* `Verif/Props/FsmReset.lean`: `C46_semantics`

### C47 Label range and size of a state machine are exact — proved

Model: label range and size of FiniteStateMachine. Fold invariants.

* `Verif/Props/FsmBuild.lean`: `C47_label_range`, `C47_size`

### C48 The extracted state machine follows the conditional tree — partial

Composition of C18, C23, C27. The machine after remove_reset_condition and resolve: machineOf (FsmReset.lean).

Verdict: C48_machine_follows_tree_partial is about the machine after remove_reset_condition and resolve, out of reset. For Readable condition lists (see C23), trees whose conditionals have a leaf, and a truth-preserving simplification.

* `Verif/Props/FsmReset.lean`: `C48_machine_follows_tree_partial`
* `Verif/Props/FsmBuild.lean`: `C48_fsm_follows_tree_partial`

### C49 Assignments of one range are merged into one — proved

Model: merge of the assignments of one range. Invariant of the loop.

* `Verif/Props/MergedTree.lean`: `C49_one_per_range`

### C50 Reading an array selects the element with that index — partial

Model: Merge's getTree on arrays.

Verdict: False for a variable index as soon as the assigned indices have a hole (KeyError, proved for all such arrays); proved otherwise.

* `Verif/Props/ElementTree.lean`: `C50_constant_index`, `C50_variable_index_partial`, `C50_hole_false`

### C51 Optimization terminates — proved

Model: optimizer. Rank function on the terms of ranges.

Verdict: The hypothesis of the property is shown necessary by a witness.

* `Verif/Props/OptTotal.lean`: `C51_optimize_terminates`, `C51_optimizeConstant_terminates`, `C51_self_bound_diverges`

### C52 Reordering neither introduces nor loses signals — partial

Free variables of reorder.

Verdict: No new signals: proved for all trees. No lost signals: proved for trees in which no side of a condition under a part-select or pointer is missing; otherwise false (witness).

* `Verif/Props/ReorderTerms.lean`: `C52_no_new_signals`, `C52_same_signals_partial`, `C52_missing_side_loses_signal`

### C53 The tree of a signal mentions only signals of its assignments — proved

Free variables of walkTree's and getTree's results.

* `Verif/Props/TreeTerms.lean`: `C53_tree_signals`

### C54 The step count bounds the number of registers crossed — partial

Step counter invariant of walkTree.

Verdict: False for arrays: the index is walked twice (witness); proved for all designs without arrays.

* `Verif/Props/WalkLeaves.lean`: `C54_step_limit_partial`, `C54_index_false`

### C55 Walking keeps the value — partial

Value of the walked tree under valuations that solve the netlist.

Verdict: Proved for valuations in which driven signals have exactly the value (and width) of their trees and all declared ranges start at bit 0; three witnesses show that each restriction is needed.

* `Verif/Props/WalkValue.lean`: `C55_walk_value_partial`, `C55_width_false`, `C55_declared_range_false`, `C55_undriven_false`

### C56 An assignment under conditions changes the tree only there — partial

Model: diffBranchTree, makeBranchTree, appendBranchTree. Induction over the path.

Verdict: False when the tree leaves the path two or more conditions before its end at a place with an earlier assignment (C56_lost says exactly what happens; witness C56_false); proved otherwise.

* `Verif/Props/BindTreeProps.lean`: `C56_assign_under_conditions_partial`, `C56_assign_last`, `C56_lost`, `C56_total`, `C56_false`

### C57 Expressions keep their value in the dataflow — partial

Model: makeDFTree and resolveBlockingAssign. Induction over expressions with a value semantics of Verilog expressions (ideal integers).

Verdict: Expressions without hierarchical names, function calls and unary plus; a conditional operator as the condition of another raises (proved). Substitution: array elements are not reassigned.

* `Verif/Props/ExprProps.lean`: `C57_expression_value`, `C57_substitution_value`
* `Verif/Props/NbModule.lean`: `C57_nested_condition_raises`

### C58 The tree of a register is what its always block assigns — partial

Model: the whole visit of always blocks (frames, heap of assignments, labels). Simulation: operational semantics of the statements against the tree of the register; frames invariant, other blocks untouched.

Verdict: False in general (witnesses for five kinds of statements). Proved for nonblocking assignments to the whole signal, for if, case, casex, begin-end and every order of assignments accepted by Stmt.chk, any number of other always blocks, signals declared in the module. Missing: blocking assignments in the same block, loops, part assignments of the signal.

* `Verif/Props/NbTop.lean`: `C58_nonblocking_partial`, `C58_nonblocking_noassign`, `C58_other_block_partial`
* `Verif/Props/NbModule.lean`: `C58_module_partial`, `C58_false`, `C58_stale_false`, `C58_default_lost_false`, `C58_nested_lost_false`, `C58_default_order_false`, `C58_casez_false`, `C58_empty_if_raises`, `C58_concat_twice`

### C59 Clock and reset of an always block — proved

Model: _createAlwaysinfo. Fold invariant over the sensitivity list.

Verdict: C59_edge_false: an edge of a signal named otherwise makes no clock.

* `Verif/Props/BinderLookup.lean`: `C59_clock_and_reset`, `C59_edge_false`

### C60 Names refer to the innermost declaration — proved

Model: searchTerminal. Induction over the scope.

* `Verif/Props/BinderLookup.lean`: `C60_nearest_declaration`, `C60_module_boundary`

### C61 Assignments are classified by kind — partial

Model: getAssignType and _discretion. Fold invariants.

Verdict: False: any assignment to a signal not of type Wire raises AttributeError (signaltype.isWireArray does not exist; proved for all designs). Proved for designs of wires.

* `Verif/Props/SubsetProps.lean`: `C61_classification_partial`, `C61_nonwire_raises`

### C62 Equality of syntax trees — partial

Model: Node.__eq__ and __hash__. Mutual induction.

Verdict: False when the numbers of children differ (universal counter-theorem); proved otherwise.

* `Verif/Props/IdentProps.lean`: `C62_refl`, `C62_same_arity_partial`, `C62_prefix_equal`, `C62_then_equals_else`

### C63 The text of a dataflow tree reads back as the tree — partial

Model: DF.tocode, lexer and expression parser. Every construct's text is lexed and reduced on any stack where an expression may begin (induction over the expression); the text is a function of the expression the tree stands for.

Verdict: Proved for trees that stand for a Verilog expression with plain names (Means, Ex.Plain). False for string constants (printed without quotes), selections from expressions, empty concatenations and branches without a condition (witnesses).

* `Verif/Props/DFCode.lean`: `C63_tocode_partial`, `C63_injective`, `C63_means_unique`, `C63_fails_string`, `C63_fails_select`, `C63_fails_concat`, `C63_fails_branch`

### C64 Indexed part selects have the width written — partial

Model: stepBracket. The parser is run symbolically on the text for arbitrary operands.

Verdict: False for all expressions: the part select is one bit wider than written (universal counter-theorem); proved how the text is read. Status partial because the property itself fails.

* `Verif/Props/IndexedSelect.lean`: `C64_indexed_false`, `indexed_reads`

### C65 Printed statements read back as the same statement — partial

Model: Stmt.code (generator with its templates and textwrap.indent), lex, sstep (statement parser on top of the expression parser). The printed text is a re-indentation of a flat text, which is lexed token by token; the tokens are read by induction over the statement on any stack where a statement may begin; the expression parser's runs are embedded because an expression below a terminator can never be reduced again (step_shape).

Verdict: False in full: no begin/end is printed around a branch (dangling else), casez and unique case have no method, the spaces in the head of a for loop are removed, form feeds in strings are indented, an if whose last branch is a for or while without begin/end is not read (the parser raises AttributeError; witnesses). Proved for all other statements (Stmt.WF), with the generator's layout, the lexer and the statement parser. Delays, event/wait/forever/fork statements and null statements are not modelled.

* `Verif/Props/StmtProps.lean`: `C65_stmt_roundtrip_partial`, `C65_injective_partial`, `StmtParsesTo.unique`, `C65_fails_dangling`, `C65_fails_casez`, `C65_fails_for`, `C65_fails_separator`
* `Verif/Props/StmtGrammarSound.lean`: `C65_fails_loop`

### C66 Layout does not change the meaning — partial

Model: lex, indentN, indentAssign. Induction over the text: the lexer's state at a line end does not depend on the blanks that follow.

Verdict: Insertion of blanks after newlines never changes the tokens (all texts); the generator's indentation is such an insertion if the text has no other line separators, otherwise false (witness).

* `Verif/Props/StmtProps.lean`: `C66_reindent`, `C66_indent`, `C66_fails_formfeed`

### C67 An assignment is recorded for exactly the bits its left side designates — proved

Model: BV.getDst, getDsts, parts, getDestinations, makeBind, setDataflow, setNonblocking, addBindObj (Binder.lean). Specification: targets, slices, shares (DstSpec.lean), written from the Verilog rules. Structural induction over the left side, induction over the destinations with C14 for the offsets, an invariant of the store of assignments.

Verdict: C67_assign: the end-to-end statement for `assign` in a module body (flat scopes, no genvars); C67_nonblocking: the records kept in a branch of an always block. The values of index expressions are a hypothesis (IndexSound), discharged for literals by index_literals; for other indices it is C57 with C07/C09. Two targets of one statement must differ in signal, element or bits (for nonblocking: in the most significant bit, because the frame does not compare the least significant one, C40). C67_shares shows that the slices of the specification partition the right side. Later assignments to a concatenation under a second condition lose this (C58_concat_twice).

* `Verif/Props/DstAssign.lean`: `C67_assign`, `C67_nonblocking`, `C67_shares`

### C68 Active conditions say when a signal is active — partial

Model: active_analyzer.py (Active.lean) on top of Splitter, Transition, Fsm. Membership lemma for the nested loops; nodes that are not 'any' are preserved by conjunction and negation; composition of C18, C19, C23, C46.

Verdict: C68_active_partial composes split, filter, remove_reset_condition and getActiveConditions_fsm. Partial: conditions must be Readable (see C23), satisfiable, and the simplification truth-preserving (C09); completeness needs the lists to compare the state register (the code skips nodes valid in any state). A signal that is active unconditionally raises TypeError (C68_unconditional_raises).

* `Verif/Props/ActiveProps.lean`: `C68_active_partial`, `C68_sound_partial`, `C68_complete_partial`, `C68_unbound`, `C68_unconditional_raises`, `C68_fsm_total`, `C68_reported`

### C69 Registers that copy a register are traced — proved

Model: getFuncdict with recursion depth. Induction on the depth and on the chain of copies.

Verdict: Chains of any length; circles (including a register that keeps its own value) end in RecursionError: C69_circle_raises.

* `Verif/Props/DelayProps.lean`: `C69_delay`, `C69_delay_found`, `C69_circle_raises`

### C70 Printed source texts read back as the same modules — partial

Model: Module.lean (generator templates), ModuleParser.lean (module part of the LALR parser as a stack machine above the statement and expression parsers). Texts are composed by a printing relation Pr (re-indentation of a text that lexes to given tokens); the tokens are read item by item; runs of the inner parsers are embedded (lift_mex, lift_stmt). Generate constructs: induction over nested items, with the dangling else and the missing separators after `end` as conditions.

Verdict: False in full (nine witnesses). Proved for all modules in ModuleDef.OK, whose always bodies are not bare loops (AttributeError in the parser), including functions, tasks and generate constructs (nested if/for/blocks), with the generator's templates and layout, the lexer and the parser of modules, statements and expressions. Not modelled: pragmas, delays.

* `Verif/Props/ModuleProps.lean`: `C70_source_roundtrip_partial`, `C70_split_partial`, `C70_stable_partial`, `C70_injective_partial`, `SourceParsesTo.unique`, `C70_fails_always_ff`, `C70_fails_header_params`, `C70_fails_integer`, `C70_fails_supply`, `C70_fails_string_width`, `C70_fails_semicolon`, `C70_fails_real`, `C70_fails_generate`, `C70_fails_task_output`

### C71 A port without a type is like the port in front of it — partial

Model: inheritIo, createIo. Induction over the relation Abbrev between abbreviated and full headers.

Verdict: False in full: signedness and dimensions are not handed on, and a port that is also declared as a wire is skipped (the name becomes None or takes the direction of an earlier port). Proved for all other headers.

* `Verif/Props/ModuleProps.lean`: `C71_abbrev_partial`, `C71_fails_signed`, `C71_fails_wire`, `C71_fails_direction`

### C72 A declaration declares each of its names — partial

Model: createDecls, createDeclAssign, stepInts, stepNames, stepPdecl. Specification: Group with its text and its items. Induction over the names.

Verdict: Proved for signals, integers, genvars, parameters, localparams, and wire/reg with a value. False for logic (nothing is declared) and real (the names are lost).

* `Verif/Props/ModuleDecls.lean`: `C72_group_partial`, `C72_fails_logic`
* `Verif/Props/ModuleProps.lean`: `C70_fails_real`

### C73 Connections of an instance keep their positions — partial

Instance of C70; the counterexample is run through lexer and parser.

Verdict: Proved for written connections (also inside any module: C70). False for an omitted first connection: the others move up.

* `Verif/Props/ModuleDecls.lean`: `C73_connections_partial`, `C73_fails_omitted`

### C74 Blocking assignments of an always block give the values after it — partial

Model: addBlocking with renaming, copyBlocking. Specification: baRun (BaSpec.lean), the execution of the statements in order. Counterexamples by evaluation. Positive theorem: invariant over the frames (which assignment object each frame knows), the table of assignments and the objects (BaFrames, BaStep), one step per assignment (BaAssign), the copies at the end of if, case and begin-end (BaSides, BaOpen), values (BaSem), induction over statements (BaGood, BaTop).

Verdict: False in full: counterexamples; C74_fails_parts: a part assigned after the whole is ignored when the signal is read, for all trees and bounds; C74_read_full and C74_read_parts say what a read gives when parts are assigned. Positive theorem for always blocks whose statements are blocking assignments to whole scalars under if, case, casex and begin-end, whose conditions read no signal the block assigns and contain no conditional operator, for the orders of assignments accepted by Stmt.baChk (no assignment two or more conditions away from an earlier one, the cause of the counterexamples). Missing: parts and arrays as destinations, mixes with nonblocking assignments, loops, casez.

* `Verif/Props/BaProps.lean`: `C74_fails_default`, `C74_fails_case`, `C74_fails_condition`
* `Verif/Props/BaParts.lean`: `C74_fails_part`, `C74_fails_parts`, `C74_read_full`, `C74_read_parts`
* `Verif/Props/BaTop.lean`: `C74_blocking_partial`

### C75 The analysis of a hierarchy is the flat system of equations — partial

Model: Elab.lean. Specification: ElabSpec.lean (flatten: the list of equations; Eqn.Holds). Invariant Inv over the traversal (terms declared so far, one whole assignment per signal, module frames); Does: a step records its equations and keeps the others; induction over the depth of the hierarchy, using C57, C58, C59 for expressions and always blocks.

Verdict: Proved for ModuleDef.covered: whole signals with one driver each, no arrays, instance arrays, functions, generate blocks, hierarchical names; always blocks as in C58. The hierarchy, parameters, connections, gates and expressions are arbitrary. False for outputs connected to a concatenation and for always_ff.

* `Verif/Props/ElabDesign.lean`: `C75_flatten_partial`
* `Verif/Props/ElabProps.lean`: `C75_fails_concat`, `C75_fails_always_ff`

### C76 Parameters of an instance — partial

Corollary of C75 for the equations of parameters at every place of the hierarchy (InDesign).

Verdict: The recorded equations of parameters and localparams are right in every instance; the constants computed during the analysis are not: a localparam keeps the value it has with the default of the parameter, visible in replication counts (C76_fails_localparam).

* `Verif/Props/ElabProps.lean`: `C76_parameters_partial`, `C76_fails_localparam`

### C77 Gate primitives compute their gate — partial

Part of C75: reductions of concatenations of bits (concat_bits).

Verdict: Proved for gates with one output, on the least significant bits of the inputs (IEEE: scalars). False for not and buf with several outputs.

* `Verif/Props/ElabProps.lean`: `C77_gates_partial`, `C77_fails_outputs`

### C78 The text of a recorded assignment reads back as that assignment — partial

Model BindCode.lean (Bind.tocode and its helpers). Spec: BindMeans b i says which module item makes the assignment (via Means of C63). Reading back: the token and parser lemmas of C70 for the printed pieces; values: induction over trees with exVal / nbRun / baRun.

Verdict: Proved for trees that stand for Verilog expressions with plain names (as C63); values for whole signals. False in full: the bit of the clock or reset is not printed (universal theorem), an assignment without value raises.

* `Verif/Props/BindText.lean`: `C78_reads_partial`
* `Verif/Props/BindTextValue.lean`: `C78_value_partial`, `C78_bits_lost`, `C78_no_value`

### C79 Every character of a text is accounted for, with its line and position — proved

Model LexPos.lean (the PLY loop with lineno, lexpos, directives, default_nettype and t_error around the scanners of Lexer.lean). Spec: a text is a list of pieces (tokens spelt as in LexSpec, and gaps); tokensAt/directivesAt compute lines and positions from the text in front. Induction over the length of the remaining text; every scanner is shown to cut off a well-formed piece, and to fail only where no well-formed piece begins.

Verdict: For all texts and all earlier states of the lexer.

* `Verif/Props/LexPosProps.lean`: `C79_total`, `C79_tokens`, `C79_positions`, `C79_error`, `C79_parser_tokens`, `C79_nettype`

### C80 Columns of lexical errors, and independence of the texts given to one parser — partial

Same model and induction as C79; columnOf counts the characters since the last newline. Both theorems are exact descriptions for all texts.

Verdict: False. C80_column: the reported column is one too large on every line but the first, and right on the first. C80_second_text: for every pair of texts, lines and directives go on from the first text.

* `Verif/Props/LexPosProps.lean`: `C80_column`, `C80_second_text`

### C81 The parser reads exactly the expression grammar of Verilog — partial

Spec GrammarSpec.lean: an inductive layered grammar (layers from a table like IEEE 1364 table 5-4). Completeness: induction over derivations, for every stack and lookahead that leave room for the layer. Soundness: an invariant of the shift/reduce machine giving each stack symbol a derivation from its tokens, with relations between neighbours (an operator on the stack is stronger than the one waiting below, operands are of the layers required, nothing lies over the operand of a prefix operator).

Verdict: Both directions for all token sequences, against a separate layered grammar. The grammar of arguments has to admit a comma before the first argument (C81_stray_comma: accepted and dropped), which Verilog does not. Outside the model: scope labels with an index (a[1].b) and calls of functions with a hierarchical name.

* `Verif/Props/GrammarSound.lean`: `C81_reads_the_grammar`, `C81_reads_texts`, `C81_one_tree`, `C81_two_operators`, `C81_stray_comma`

### C82 The drawn dataflow graph shows the dataflow tree — partial

Model: Graphgen.lean (strict AGraph as dictionaries of nodes and edges, rename counter, visit). Spec: Shows/ShowsAll (exact ordered out-lines) and Covers (shared signals). Proof: every visit only appends fresh nodes and lines (Grown), and what it appends shows the tree in every graph that contains it (Drawn, compositional); shared mode by intervals of the rename counter (CoversIn).

Verdict: identical=True: proved in full (labels, colours, order, one line per operand, fresh names, nothing else changed). Default mode: proved that the lines lead to the operands and to nothing else and that every signal has a node; order and number of lines, and the TRUE label of c ? a : a, are lost, and two signals with the same joined name share a node (C82_default_merges). graphviz itself (layout, drawing) is outside the model.

* `Verif/Props/GraphProps.lean`: `C82_graph_shows_tree`, `C82_undefined`
* `Verif/Props/GraphShared.lean`: `C82_graph_covers_tree`, `C82_default_merges`

### C83 The parser reads exactly the statement grammar of Verilog — partial

Spec StmtGrammar.lean: an inductive grammar in which a statement carries the flag that it ends with an if without else; the branch in front of an else must not. Completeness: induction over derivations gives a run of the machine from any stack on which a statement may begin, or, if a loop is the last branch of an if, a run to a state without action. Soundness: an invariant giving each symbol of the statement stack a derivation from its tokens, on top of the invariant of the expression stack (C81); the else-conflict is in the invariant (a complete statement with open if is not followed by else).

Verdict: Both directions for all token sequences, against a separate grammar. False in full: C83_fails_loop, a universal counter-theorem: every statement of the grammar in which a for or while is the last branch of an if (without begin/end) is refused, because the action reads end_lineno of a node that has none. Everything else is read exactly. Outside the model: delays, event, wait, forever, fork-join, task calls and null statements, declarations in named blocks, empty parts of a for head.

* `Verif/Props/StmtGrammarSound.lean`: `C83_reads_the_grammar`, `C83_reads_texts`, `C83_one_statement`, `C83_else_of_the_inner_if`, `C83_fails_loop`

### C84 The Verilog text of a dataflow declares its signals and makes its assignments — partial

DataflowCodegen.lean models dataflow_codegen.py on top of the classification (C61), the subset (C35) and Term.tocode/Bind.tocode. Spec: TermMeans (what declaration a signal stands for, via Term.Shows), BindMeans (C78), Printable, Faithful. Proof: the header is lexed for any indentation and list of ports (the cut of two characters is shown to remove the last comma), every piece of the text is an item for the module machine (ItemReads), replacing dots is the identity on texts without dots (proved over all trees); values by C78. C84_no_ports runs the parser to the state with `)` after a comma, from which there is no step.

Verdict: Proved for dataflows in which only signals of type Wire are assigned, with another port in the top module, every signal a port, wire, register, integer or function, trees as in C78 and no dot in a constant. False otherwise, with universal counter-theorems: no text for a design that assigns a register, output or instance input (C84_nonwire, merge.py asks for a function that does not exist), an unreadable text for a top module without other ports (C84_no_ports); and with witnesses: constants with a dot (C84_fails_float), genvars (C84_fails_genvar). Values for assignments to whole signals; two signals with the same flat name are not excluded (each is declared).

* `Verif/Props/GenTextProps.lean`: `C84_reads_partial`
* `Verif/Props/GenTextMore.lean`: `C84_entire_partial`, `C84_subset_partial`, `C84_no_ports`, `C84_nonwire`, `C84_flat_no_dots`, `C84_fails_float`, `C84_fails_genvar`

### C85 The scopes of a design are those of its instances and generate constructs — partial

SignalVisitor.lean models signalvisitor.py with the frame table of visit.py. Spec (Props/GenSpec): Opens, an inductive elaboration relation over items, loops and instances with ideal integer constants (ConstVal over Sem), independent of frames and labels; ShowsScope relates an entry of the frame table to a scope. Proof: EnvAt says that the constants visible in a frame are an environment; Grew describes the effect of a step (frames appended, current frame extended, values outside the environment kept) and composes; induction on Opens over all hierarchies and numbers of turns. The evaluation of constants rests on C06/C07 (GenEval), the module table on C48's model (GenTable).

Verdict: Proved for all designs of the specification Opens whose conditions are not negative. False otherwise: a condition with a negative value counts as false (C85_negative_false, the full statement refuted; C85_negative_condition for every conditional). Two universal counter-theorems about analyses that fail: an instance of a module with a ranged parameter raises FormatError (C85_ranged_parameter), and so do hierarchical names and $signed in constants, with other errors (C85_unsupported). Outside Opens: functions, tasks, always_ff/comb/latch, loops in always blocks, constant expressions with widths.

* `Verif/Props/GenProps.lean`: `C85_scopes_partial`, `C85_negative_false`, `C85_negative_condition`, `C85_ranged_parameter`, `C85_unsupported`

### C86 A hierarchical name stands for the scope it names — partial

HierName.lean models searchMatchedScopeChain, toScopeChain, getModuleScopeChain and searchScopeTerminal over the frame table of SignalVisitor.lean. Spec: NamedBy, when a path of labels is described by steps `name` and `name[index]`. Proof: FrameTree.lean, an invariant of the whole first pass: the frames form a tree and the next lists are the children; soundness, completeness and termination of the search by induction on the depth, which is bounded by the number of frames.

Verdict: Proved for every table of scopes that is a tree (signalPass_tree: the table of every analysed design is one): a path finds the scope it names if no other scope has the name when loop indices are left out; what is found is declared and belongs to such a scope. False in full: a path without the index of a loop is accepted and means the first turn (C86_index_false), and a path that names nothing raises NameError because scope.py does not import verror (C86_missing, for all paths).

* `Verif/Props/HierProps.lean`: `C86_resolves_partial`, `C86_found`, `C86_missing`, `C86_index_false`
* `Verif/Props/FrameTree.lean`: `signalPass_tree`

### C87 The dump of a dataflow determines it — partial

Model: tostr of all node classes, of signals and of assignments (Dump). A reader of dumps is written for the proof; induction on the tree shows that it reads every plain tree back from its dump, whatever follows; injectivity follows. The converse by induction.

Verdict: Proved for names without the characters that structure a dump, constants without a closing bracket and integer values, up to the types of scopes. False otherwise: the kind of an assignment is not shown (for all assignments), string constants are shown without quotes and string values as they are (for all trees), an instance and a function call of the same name look the same. Floats are outside the model.

* `Verif/Props/DumpProps.lean`: `C87_tree_partial`, `C87_bind_partial`, `C87_bind_kind_false`
* `Verif/Props/DumpSignal.lean`: `C87_signal_partial`, `C87_string_false`, `C87_string_value_false`, `C87_scope_type_false`

### C88 Only tests of the reset are removed as reset conditions — partial

Model: isReset(cond.tostr()) on the modelled dump. The dump is cut at brackets, blanks, dots and commas, none of which occurs in the words searched for; induction on the tree shows that an occurrence lies inside a name or a text.

Verdict: False: C88_exact says for all conditions which ones are removed (some name on the path of some signal, or some text, contains rst or reset); C88_removed_false: so every condition on a signal called first, or of an instance called burst, is removed; C88_first_false: a register that loses its functions that way. Conditions with a float value are outside the model.

* `Verif/Props/ResetProps.lean`: `C88_exact`, `C88_removed_false`, `C88_first_false`

### C89 The longest token is read — partial

Specification: Munch (cut off the longest piece), over the grammar of pieces of C79 (Piece.OK, LexSpec). For every piece at the front of a text lexTok cuts off that piece or a longer one (lexTok_longest: the scanners one by one; the rules for operators are sorted so that no proper prefix comes first, rules_sorted); with lexTok_cut (C79) the cuts of lex and of Munch agree.

Verdict: Both directions for all texts, with the pieces of Verilog as LexSpec and Gap define them. Two kinds of pieces of Verilog are not among them, with universal counter-theorems: signed binary literals beginning with X (a lexical error), and a line comment at the end of a text without newline (read as divisions).

* `Verif/Props/LexLongest.lean`: `C89_longest`, `C89_error`, `C89_unique`, `C89_words`, `C89_signedX_false`, `C89_last_comment_false`

### C90 The dump of a syntax tree determines the tree — partial

Model: Node.show with the attr_names of all classes, children() of the classes of expressions and statements (Show). The text determines its lines (no line break in a line), a line determines indentation and head, the head determines class, values and line numbers (read from the end), and the indentations determine the tree: induction on the tree with the lines behind it. For expressions and statements: the map to nodes is injective, by induction; sderives_whole connects it with the grammar of C83.

Verdict: Proved for all nodes whose values contain no line break, and no comma except in the last value of a node. Statements: under the condition that only else branches are missing and no block is called None (what the parser builds from texts without that name). False otherwise, with universal counter-theorems: an if with only one branch does not show which (trees built by hand; the parser always sets the then branch), a block called None looks like one without a name, a constant with a line break looks like two nodes. Declarations and modules are covered by C90_show_determines as nodes, not as statements of the language.

* `Verif/Props/ShowProps.lean`: `C90_show_determines`, `C90_expressions`, `C90_statements_partial`, `C90_parsed_partial`, `C90_branches_false`, `C90_block_name_false`, `C90_line_break_false`

### C91 A function call has the value of the function — partial

Model: Calls.lean (makeDFTree with calls threads the state of the visitor: label and frame of the call, declarations, argument and body assignments through the model of the binder). Specification: CallSpec.lean gives an expression with calls a value directly (bodies are run as assignments to a store). Proof: states of a call are described by frames without conditions and always flag (CallQuiet), one blocking assignment leaves a renamed signal and its equation (CallBody), the body is an induction over statements with equations that later assignments do not touch (CallSteps), expressions an induction over nested calls (CallProps), modules by the list of assignments (CallTop).

Verdict: Proved for modules of scalar signals whose functions have bodies that are sequences (nested blocks) of assignments to whole variables, and in which a variable is read only after its last assignment; the right sides of the bodies contain no calls. In the other order the property is false: the blocking assignments of a function called from a continuous assignment are not resolved, so a reading before a later assignment gets the later value (C91_fails_overwritten), and a variable that is read in its own assignment gives a circular equation (C91_fails_circular). The error for a wrong number of arguments is an AttributeError (C91_fails_message).

* `Verif/Props/CallTop.lean`: `C91_call_partial`
* `Verif/Props/CallEx.lean`: `C91_arguments`, `C91_fails_overwritten`, `C91_fails_circular`, `C91_fails_message`

### C92 The ranges of an active term mean what its operations say — partial

the loops shared with transition.py (C20); sorting keeps membership; values of the trees in the ideal semantics

Verdict: Proved for negation of terms with ranges, conjunction and membership of closed ranges, and the trees of open ranges and of conditions on them; C92_tree_exact says what the tree of any term with ranges means. False, with proofs: the negation of a term without values has no values; conjunction and membership raise TypeError for the open ranges that `>` gives; the tree of a closed range tests `x >= hi` instead of `x <= hi`.

* `Verif/Props/C92.lean`: `C92_not_partial`, `C92_not_total`, `C92_not_empty_false`, `C92_and_partial`, `C92_and_open_false`, `C92_satisfy_partial`, `C92_satisfy_total`, `C92_satisfy_open_false`, `C92_tree_partial`, `C92_tree_closed_false`, `C92_cond_satisfy_partial`, `C92_split`, `C92_tree_exact`, `C92_tree_open_partial`, `C92_cond_tree_partial`, `C92_cond_tree_empty_false`

### C93 Active conditions are true exactly when the signal is active — partial

heap of shared terms; the walk denotes the condition (induction on the condition) with a frame for the terms made before; then lists, reports, and C18 for the split of the tree

Verdict: Proved for conditions built from comparisons of signals with constants (other than !=, <= and trivial ones), `!` (not of disjunctions), `&&`, `||`, `|`, `&` of conditions with the values 0 and 1, and `== 0`, `== 1`, `!= 0`, `!= 1` of conditions: no active valuation is missed; nothing else is said if no signal is read twice on a way. False beyond that, with proofs: `!=` is read as `==`, `<=` and comparisons of signals raise FormatError, negated disjunctions are lost, operands not understood are dropped from `||`, `&` of wide signals is read as `&&`, a term shared by two conditions loses its values, contradictions are left out, `n > 2 && n < 9` raises TypeError.

* `Verif/Props/C93.lean`: `C93_active_covers_partial`, `C93_active_exact_partial`, `C93_unbound`, `C93_unconditional_false`, `C93_active_exact_false`, `C93_notEq_false`, `C93_lessEq_raises`, `C93_signals_raise`, `C93_not_or_false`, `C93_shared_false`, `C93_or_unknown_false`, `C93_wide_and_false`, `C93_contradiction_false`, `C93_between_raises`, `C93_assignments_partial`

### C94 state machines and loops that are reported — partial

The search is modelled as a loop over the assigned signals; the machine of one signal is linked to C69 (chains of copies, in both directions) and C48 (what the machine does), the loops to C24-C26; getWidth is linked to C07.

Verdict: C94_found, C94_reported, C94_complete and C94_loops cover every run that does not fail. Missing: regular expressions in fsm_vars; what the machines do is proved under the conditions of C48 (readable conditions, no hollow branches), the widths for bounds of the fragment of C07. The width, which signals are clocked and the trees are parameters of the search (the trees are the subject of C57, C58 and C78).

* `Verif/Props/C94.lean`: `C94_found`, `C94_reported`, `C94_complete`, `C94_follows_partial`, `C94_loops`, `C94_width`, `C94_width_default`, `C94_path`, `C94_any_not_reported`, `C94_any_witness`

### C95 drawn state machines — partial

The graph is a pair of dictionaries with the overwriting of pygraphviz's strict graphs; the loops of tograph are characterised by what is in the dictionaries in the end.

Verdict: Nodes and lines are proved for all machines. Labels: each label is that of a transition along the line; each condition is drawn if the machine is resolved and has no transitions possible in every state. False otherwise (C95_own_label_lost), and what is drawn of a condition does not tell which condition it is (C95_same_picture). Layout and files are not modelled.

* `Verif/Props/C95.lean`: `C95_nodes`, `C95_edges`, `C95_labels`, `C95_labels_resolved_partial`, `C95_own_label_lost`, `C95_label_operator`, `C95_label_signal`, `C95_nolabel`, `C95_same_picture`, `C95_same_picture_witness`

### C96 A for loop in an always block opens one scope for each turn — partial

SignalVisitor.lean models the first pass. Spec: StmtOpens, the scopes of statements as the language unrolls them, with the values of loop variables. Proof: an invariant of the frame table (frames are only appended; a statement frame declares nothing, so names keep their meaning inside it) and of the constant table, by induction on the derivation. C96_turns derives the scopes of the usual loop header for all bounds.

Verdict: Proved for conditions with values that are not negative; a negative condition, which is true, ends the loop (C96_negative_false). Headers have constant values under ConstVal (names with values, literals, operators for which folding is exact, C06). StmtOpens describes the code as it is in that the body of a while loop opens no scope in this pass.

* `Verif/Props/C96.lean`: `C96_scopes_partial`, `C96_turns`, `C96_stuck`, `C96_negative_false`

### C97 Loops in always blocks are unrolled turn by turn when assignments are collected — partial

Binder.lean models the second pass. Spec: ForTurns, WhileTurns and TurnOf over states of the pass, in terms of the visit of the statements themselves. Proof: every operation of the pass keeps the current scope and the scopes recorded (LoopFrames.lean, induction over statements), so a value can name one turn only, since entering a recorded scope is an error. For the loop variable (LoopVar.lean, C97Var.lean) the spec is ForReads; proof: behind an assignment of a number outside of conditions the tree of the variable is an intermediate signal that the table of constants maps to the number, and the invariants of C74 carry over turns. ReadsAs says it for the variable and all expressions over it, constants (signals that the block does not assign and that the table of constants knows, such as parameters) and literals (CountEx); CountTurns is the loop over integers; proof: makeDF, resolve, reorder keep the tree of such an expression (NumT), and constant folding computes it. While loops (LoopWhile.lean): the assignment inside the turn leaves the same tree in the table of the module, and the copies made at the ends of scopes keep it (Holds). Sub says that a statement is visited in the visit of another one (LoopNest.lean, induction).

Verdict: Proved for conditions that are not negative; a negative condition, which is true, ends the loop (C97_fails_negative). That the loop variable reads as the value that names the turn, in front of the condition and at the beginning of the body, is proved for for loops that are the always block or stand in its block, with bodies of assignments to whole scalars in ifs, blocks and loops. Where nothing else assigns the variable and condition and step are made of it, constants and literals, the turns are those of the loop over integers (C97_count_partial, C97_count_block_partial; for `i = a; i < n; i = i + k`, also with other comparisons and `i - k`: a, a + k, ..., C97_range_partial; for while loops behind `i = a;` that end with the step, C97_while_count_partial; for all for loops in loops and blocks, outside of conditions, C97_nested_partial). Missing: the same inside of conditions and behind case statements, and for parts of signals.

* `Verif/Props/C97.lean`: `C97_for_partial`, `C97_while_partial`, `C97_place`, `C97_fails_negative`
* `Verif/Props/C97Var.lean`: `C97_variable_partial`, `C97_variable_block_partial`, `C97_count_partial`, `C97_count_block_partial`, `C97_range_partial`
* `Verif/Props/LoopWhile.lean`: `C97_while_count_partial`
* `Verif/Props/LoopNest.lean`: `C97_nested_partial`

### C98 Undeclared names on the left of a continuous assignment — partial

Binder.lean models getDst, addTerm and setDataflow. Spec: Declares (both tables of declarations, pointwise). Proof: case analysis of the search and of the default net type; recording an assignment changes no table of declarations.

Verdict: Proved for wire (the default), none, and names that are declared. False for tri, wand, wor, tri0, tri1, triand, trior, which are refused (C98_fails_tri), and in always blocks, where a wire is declared in the always block (C98_fails_always). Missing: parts and concatenations on the left.

* `Verif/Props/C98.lean`: `C98_declares_partial`, `C98_none`, `C98_declared`, `C98_fails_tri`, `C98_fails_always`

### C99 The printed state machine tells the machine's transitions — partial

Model: FsmGraph.lean (`Fsm.view`). Specification: `Fsm.moves` lists the transitions, `Told.line` is the form of a line. C99_lines: the view is exactly these lines. C99_line_tells: the destination stands behind the last space, the source in front of the first one, and no number contains a space, so that lines are injective; C99_text_tells adds the line breaks. C99_same_partial composes this with C63_injective.

Verdict: Lines, sources, destinations and the texts of conditions: all machines (the split into lines: if no condition's text has a line break). That the text tells the condition is proved for conditions that stand for Verilog expressions with plain names (as C63); false for string constants, which are printed without quotes (C99_fails_string).

* `Verif/Props/FsmView.lean`: `C99_lines`, `C99_line_tells`, `C99_text_tells`, `C99_same_partial`, `C99_prints`, `C99_fails_string`

### C100 Equality and hashing of dataflow nodes — partial

Model: NodeEq.lean (`DF.pyEq` with Python's short circuits and exceptions, `DF.hash` over arbitrary hash functions, `nodeGet` for look-up in a dictionary). By induction on the tree, together with C01 and C02 for names. This also justifies the structural equality `DF.beq` and the dictionaries `Dict DF _` used by the rest of the model.

Verdict: Proved for trees without DFDelay whose names are those of declared signals. False otherwise: comparing two DFDelay nodes, or hashing one, always raises AttributeError (universal counter-theorem), and names made by toTermname make equality intransitive (witness). Symmetry and the agreement of hashes: all nodes. Operands are tuples, as everywhere in the code.

* `Verif/Props/NodeEqProps.lean`: `C100_same_partial`, `C100_symm`, `C100_hash`, `C100_lookup_partial`, `C100_fails_delay`, `C100_fails_transitive`

## 3. Defects of the code found while modelling

Each is stated by a theorem (negation, or part of the model that a theorem exercises) unless marked (read).

Optimizer and constants
* `_evalOperator` has no case for `Sla`: `1 <<< 3` folds to `DFEvalValue(None)`; `%`, `>>` and `~^` of negatives and big
  divisions fold to other values than Verilog's.
* `evalPointer` shifts node objects: a bit select of a known constant raises TypeError.
* `takePart` with a single used operand returns absolute bounds: `{a,b}[5:4]` (4 bit a, b) becomes `a[5:4]`.
* `mergeStaticNodes` rewrites `~x && x` to 0 for any width; `Divide` by a power of two becomes `Sra` (floor) while
  folding truncates.
* Signed literals have width 32 whatever their size; `?` digits raise; the lexer's class for signed binary
  literals lacks `X`.
* A parameter whose declared range depends on itself makes the optimizer recurse forever.
* Resolution makes two passes: chains of parameters in reverse order stay unresolved.

Control flow
* every condition on a signal with `rst` or `reset` somewhere in its path (`first`, an instance `burst_ctl`) is dropped as if it
  tested the reset (C88_removed_false), and with it the functions guarded by it (C88_first_false).
* the dump of an assignment does not show whether it is clocked, combinational or a parameter (C87_bind_kind_false).
* `LassEq` typo: `<=` is not recognised by inference; `op_LessThan(0)` yields the unbounded range.
* `andStateNode` returns None for an empty intersection, which is then "no constraint".
* `_walkCond_DFOperator_unary` treats `~`, `&`, `|`, ... as identity or logical not; `c >= s` and a bare state raise.
* get_loop prunes by visit counts, stops at depth 51 and ignores transitions valid in any state; states with self
  loops are repeated in reported loops.
* Splitting reports a conditional without leaves as a leaf.

Merging and walking
* `mergeTree` gives priority to the first tree when it is a branch and the second is not.
* `splitBind`: the left piece uses absolute bounds; split positions miss strictly contained ranges and parts outside;
  overlapping element assignments raise NameError (`search`).
* `getMergedTree`: the width of a gap is computed negative; pieces with constant index are skipped.
* `getTree` raises KeyError when the assigned indices of an array have a hole.
* The walker walks an array index twice, loses widths and declared offsets of aliases; undriven wires keep their name.
* reorder drops the index of missing sides.

Binding
* stale copies of values, lost defaults, bodies of casez and unique case unconditional, a `default` that is not last is
  taken first, an empty then-branch raises TypeError, a conditional as condition raises AttributeError
  (`reorder.insertCond`), a concatenated destination is part-selected twice.
* always_ff/always_comb/always_latch are not treated as always (C75_fails_always_ff); `[a +: w]` is parsed as `[a : a+w]`; system calls become 0;
  edges of signals whose names contain neither clk/clock nor rst/reset make the block combinational.
* Frames compare msb twice and never lsb; labels clash for names ending in digits; setBind keeps the clock of the first
  assignment.

* Blocking assignments: a default in front of nested conditions or of a case is lost; a condition that is assigned in its
  own branch is asked for its later value; after an assignment to a whole signal, assignments to its parts are ignored
  when it is read (C74).
* Undeclared destinations are refused under `default_nettype tri, wand, wor, … (C98_fails_tri) and accepted in always blocks
  (C98_fails_always).
* Instances: a localparam is computed with the default of the parameters and never again (C76_fails_localparam); an output
  connected to a concatenation raises FormatError (C75_fails_concat); `not`/`buf` with several outputs take the second
  terminal as input (C77_fails_outputs). (read): in instance arrays every connection becomes `arg[i]` whatever the width
  of the port, and `[0:3]` yields no instances; a supply without range gets msb 31; `real` names are declared nowhere;
  the message of "No such port" reads a missing attribute.

Subset and utilities
* `signaltype.isWireArray` does not exist: `getAssignType` (getSubset, getEntire) raises AttributeError for any signal
  that is not a wire.
* getBindSubset never returns when clocks are circular; a foreign clock is followed but missing in the names.
* `dictlistmerge` changes the lists of its first argument.
* AST `==` equates nodes whose children are a prefix of the other's, raises IndexError the other way round;
  an if with only a then-branch equals one with only an else-branch.
* identifier replacement drops the hierarchy of a renamed name.
* flat names of different signals can coincide.

Code generation
* no visit_Sla: `a <<< b` is printed `ab`; del_paren removes parentheses that do not match; del_space merges `& &` and
  `| |`, and breaks escaped names and strings in part select bounds.
* an if without else is printed without begin/end in front of an else: the else changes its owner (dangling else);
  casez and unique case statements are printed as their parts; the head of a for loop loses all its spaces (escaped names,
  strings); `textwrap.indent` puts blanks after form feeds and other Unicode line separators inside strings.
* always_ff, always_comb and always_latch are printed without their keyword; `#(parameter A = 1, B = 2)` is printed without
  a comma; the value of an integer is not printed; supplies are printed as a digit; the width of a parameter whose value
  begins and ends with a quote is not printed; semicolons in strings are removed from the header.
* the items of a generate construct are printed without separators (`endassign`, C70_fails_generate).
* `Bind.tocode` does not print which bit of a signal is the clock or the reset (C78_bits_lost).
* `DFDelay.__eq__` refers to a missing attribute (read).

Parser
* the column of a lexical error is one too large on every line but the first (C80_column); the line numbers and directives of a
  second text parsed with the same parser go on from the first (C80_second_text); a directive at the end of a text without newline
  is a lexical error, a `//` comment there is read as divisions (C89_last_comment_false); signed binary literals beginning with `X`
  are lexical errors (C89_signedX_false).
* a comma before the first argument of a call is accepted and dropped (C81_stray_comma);
* an if whose last branch is a for or while without begin/end raises AttributeError (C83_fails_loop), and so does an always
  with such a body: the actions read `end_lineno` of a node that never has one.
* the drawn graph merges equal operands (`{a, a}`, `c ? a : a`) and signals whose names read the same when joined
  by `_` (C82_default_merges).
* the dump of a syntax tree shows a block called `None` like one without a name, and an if that has only an else branch (built by
  hand) like one that has only a then branch (C90_block_name_false, C90_branches_false).
* tasks with outputs are a syntax error (C70_fails_task_output).
* a port without a type takes only direction and range of the port in front of it, not its sign and dimensions; behind
  `output wire a` it takes the type of an earlier port, or becomes None; `logic a;` declares nothing; every `real` variable
  is named `real`; `s u(, a)` connects `a` to the first port; `integer signed` raises ValueError and
  `wire #1 a = #1 b` uses the delay as the name (read).

Elaboration
* a generate condition with a negative value counts as false (C85_negative_false); an instance of a module that has a
  parameter with a range raises FormatError (C85_ranged_parameter); hierarchical names, `$signed` and `$unsigned` in a constant
  raise AttributeError and TypeError (C85_unsupported).
* a hierarchical name without the index of a generate loop is accepted and means the first turn (C86_index_false); one that
  names no scope raises NameError: scope.py:77 uses verror, which it does not import (C86_missing).

Function calls
* in a function called from a continuous assignment earlier assignments are not resolved: `t = p; f = t; t = q;` returns `q`
  (C91_fails_overwritten), and `f = p; f = f & q;` becomes the circular equation `f = f & q` (C91_fails_circular).
* a call with a wrong number of arguments raises AttributeError in making the message (C91_fails_message).

Dataflow to Verilog
* `generateCode` raises AttributeError for every design that assigns a register, an output or the input of an instance
  (C84_nonwire); its text is rejected if the top module has no port besides clock and reset (C84_no_ports); replacing dots
  turns `1.5` into `1_5` (C84_fails_float); genvars are declared without a keyword (C84_fails_genvar); the flat wire of
  the enable input is never declared; a sub-module's `input wire a` is declared `wire wire`, which this parser accepts (read).

Control flow
* every condition on a signal with `rst` or `reset` somewhere in its path (`first`, an instance `burst_ctl`) is dropped as if it
  tested the reset (C88_removed_false), and with it the functions guarded by it (C88_first_false).
* the dump of an assignment does not show whether it is clocked, combinational or a parameter (C87_bind_kind_false).
* `getActiveConditions` raises TypeError for a signal that is active unconditionally (`dict.values()[0]`,
  C68_unconditional_raises); states reached under conditions that do not mention the state register are not reported.
* the range analyzer (active_range.py) reads `n != 3` as `n == 3` (C93_notEq_false), raises FormatError for `<=` and for comparisons of two
  signals, TypeError for `n > 2 && n < 9` (C93_between_raises), loses negated disjunctions, operands of `||` it does not understand, and
  terms that are shared or contradictory (C93_shared_false, C93_contradiction_false); `toTree` prints `x >= hi` for the upper bound
  (C92_tree_closed_false).
* `getFuncdict` recurses without end on registers that copy each other in a circle, or that keep their own value apart
  from the reset (C69_circle_raises).
