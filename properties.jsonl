{"id": "C01", "title": "Equal scope chains hash equally", "statement": "Two ScopeChain objects that compare equal (including the wildcard scope type 'any' produced by toTermname) have the same hash, so looking up a signal by its dotted name in a dictionary keyed by analyzed signal names never misses an equal key.", "quantifier": "all pairs of scope chains, of any length, names, scope types and loop indices", "why_tests_cant": "A hash/equality mismatch shows up only for particular key pairs; tests sample a handful of names.", "anchors": ["pyverilog/utils/scope.py:ScopeLabel.__eq__", "pyverilog/utils/scope.py:ScopeLabel.__hash__", "pyverilog/utils/scope.py:ScopeChain.__eq__", "pyverilog/utils/scope.py:ScopeChain.__hash__"]}
{"id": "C02", "title": "Scope chain equality and wildcard lookup", "statement": "toTermname('a.b.c') equals an analyzed signal name exactly when the dotted components are that signal's scope names in order and no scope of the signal carries a loop index; on names without wildcard scope types, equality is exactly structural equality (an equivalence relation). Equality over all chains is reflexive and symmetric.", "quantifier": "all dotted names and all scope chains", "why_tests_cant": "Name resolution must be right for every hierarchy depth and every naming; tests look at a few names.", "anchors": ["pyverilog/utils/util.py:toTermname_str", "pyverilog/utils/scope.py:ScopeLabel.__eq__", "pyverilog/utils/scope.py:ScopeChain.__eq__"]}
{"id": "C03", "title": "Distinct signals get distinct flat names", "statement": "toFlatname / ScopeChain.tocode, used for every identifier of regenerated Verilog, maps distinct signals of a design to distinct identifiers.", "quantifier": "all pairs of distinct scope chains", "why_tests_cant": "A collision needs two particular hierarchies to meet; no finite set of designs rules it out.", "anchors": ["pyverilog/utils/scope.py:ScopeChain.tocode", "pyverilog/utils/util.py:toFlatname"]}
{"id": "C04", "title": "Integer literals evaluate to the number they denote", "statement": "DFIntConst(text).eval() of a Verilog integer literal in any of the four bases, with or without size, sign marker and underscores, is the number denoted by its digits.", "quantifier": "all digit strings in bases 2, 8, 10, 16, all sizes, all underscore placements, upper and lower case base letters", "why_tests_cant": "Literals form an infinite set and the evaluator uses an order-dependent cascade of regular expression searches.", "anchors": ["pyverilog/dataflow/dataflow.py:DFIntConst.eval"]}
{"id": "C05", "title": "Sized literals have their declared width", "statement": "DFIntConst(text).width() of a sized literal is its declared size, and 32 for an unsized one.", "quantifier": "all literals in all bases, sizes and sign markers", "why_tests_cant": "Infinite set of literals; the regular expressions treat sign markers differently from bases.", "anchors": ["pyverilog/dataflow/dataflow.py:DFIntConst.width"]}
{"id": "C06", "title": "Operator folding computes the operator", "statement": "For every operator, folding constant operands yields the mathematical value of the operator on those operands: bitwise/reduction operators act on exactly `width` bits, arithmetic and comparison act on the integers, division truncates toward zero.", "quantifier": "all operators, all integer operand values, all widths", "why_tests_cant": "Operand values and widths are unbounded; off-by-one bit errors hide at untested widths.", "anchors": ["pyverilog/dataflow/optimizer.py:VerilogOptimizer._evalOperator", "pyverilog/dataflow/optimizer.py:VerilogOptimizer.evalOperator"]}
{"id": "C07", "title": "Constant folding preserves meaning", "statement": "optimizeConstant(tree) has the same value as tree under every assignment of signals that agrees with the known constants, whenever the tree has a defined value.", "quantifier": "all dataflow trees of any depth, all constant tables, all signal valuations", "why_tests_cant": "Both trees and valuations are unbounded.", "anchors": ["pyverilog/dataflow/optimizer.py:VerilogOptimizer.optimizeConstant"]}
{"id": "C08", "title": "Constant folding is idempotent", "statement": "Running optimizeConstant on its own output returns that output unchanged.", "quantifier": "all dataflow trees and constant tables on which folding succeeds", "why_tests_cant": "Requires all tree shapes.", "anchors": ["pyverilog/dataflow/optimizer.py:VerilogOptimizer.optimizeConstant"]}
{"id": "C09", "title": "Hierarchical simplification preserves the truth of conditions", "statement": "optimizeHierarchy(cond) is true under a valuation exactly when cond is, for every condition tree.", "quantifier": "all condition trees built from logical, bitwise, comparison operators and all valuations", "why_tests_cant": "Dozens of pattern-directed rewrite rules over unbounded trees.", "anchors": ["pyverilog/dataflow/optimizer.py:VerilogOptimizer.optimizeHierarchy", "pyverilog/dataflow/optimizer.py:VerilogOptimizer.mergeStaticNodes", "pyverilog/dataflow/optimizer.py:VerilogOptimizer.mergeIdenticalNodes", "pyverilog/dataflow/optimizer.py:VerilogOptimizer.mergeLand", "pyverilog/dataflow/optimizer.py:VerilogOptimizer.mergeLor"]}
{"id": "C10", "title": "Optimization introduces no signals", "statement": "Every signal mentioned by optimize(tree) is mentioned by tree: the optimizer never invents a dependency.", "quantifier": "all dataflow trees, constant tables and term tables on which optimization returns", "why_tests_cant": "Universally quantified over tree shapes and rewrite sequences.", "anchors": ["pyverilog/dataflow/optimizer.py:VerilogOptimizer.optimize", "pyverilog/dataflow/optimizer.py:VerilogOptimizer.takePart"]}
{"id": "C11", "title": "Part-selecting a concatenation keeps the selected bits", "statement": "Simplifying {n_k,...,n_0}[msb:lsb] yields a tree denoting exactly the bits msb..lsb of the concatenation.", "quantifier": "all concatenations, widths and cut positions", "why_tests_cant": "The cut arithmetic depends on every combination of operand widths and offsets.", "anchors": ["pyverilog/dataflow/optimizer.py:VerilogOptimizer.takePart", "pyverilog/dataflow/optimizer.py:VerilogOptimizer.takePoint"]}
{"id": "C12", "title": "Merging adjacent constants in a concatenation keeps the value", "statement": "Simplifying a concatenation by merging neighbouring constants, neighbouring unknowns and neighbouring part-selects of one signal does not change its total width or, for constants within their widths, its value.", "quantifier": "all concatenations", "why_tests_cant": "Unbounded lists of operands and widths.", "anchors": ["pyverilog/dataflow/optimizer.py:VerilogOptimizer.mergeConcat_constant", "pyverilog/dataflow/optimizer.py:VerilogOptimizer.mergeConcat_undefined", "pyverilog/dataflow/optimizer.py:VerilogOptimizer.mergeConcat_partselect", "pyverilog/dataflow/optimizer.py:VerilogOptimizer.evalConcat"]}
{"id": "C13", "title": "Resolved parameters have the value of their definition", "statement": "After resolveConstant, every parameter in the constant list has the value its defining expression has under the final constant list, and every parameter whose definition is a closed constant expression is resolved.", "quantifier": "all parameter sets and dictionary orders", "why_tests_cant": "Depends on the order in which parameters happen to be stored and on arbitrarily long dependency chains.", "anchors": ["pyverilog/dataflow/optimizer.py:VerilogDataflowOptimizer.resolveConstant"]}
{"id": "C14", "title": "Reordering preserves meaning", "statement": "reorder(tree) has the same value as tree under every valuation.", "quantifier": "all dataflow trees and valuations on which reorder returns", "why_tests_cant": "Unbounded trees with conditionals nested under operators, selections and conditions.", "anchors": ["pyverilog/dataflow/reorder.py:reorder", "pyverilog/dataflow/reorder.py:insertBranch", "pyverilog/dataflow/reorder.py:insertOpList", "pyverilog/dataflow/reorder.py:insertConcat", "pyverilog/dataflow/reorder.py:insertPartselect", "pyverilog/dataflow/reorder.py:insertPointer"]}
{"id": "C15", "title": "Reordering puts conditionals on top", "statement": "In reorder(tree) no conditional occurs below an operator, concatenation, part-select, pointer or inside a condition (delay nodes aside).", "quantifier": "all dataflow trees on which reorder returns", "why_tests_cant": "Every nesting pattern must be covered.", "anchors": ["pyverilog/dataflow/reorder.py:reorder"]}
{"id": "C16", "title": "Reordering terminates", "statement": "reorder terminates on every dataflow tree although it re-invokes itself on freshly built pointer nodes.", "quantifier": "all dataflow trees", "why_tests_cant": "Non-termination needs an adversarial tree shape.", "anchors": ["pyverilog/dataflow/reorder.py:reorder"]}
{"id": "C17", "title": "Undefined replacement is complete and minimal", "statement": "replaceUndefined(tree, name) contains no undefined node and no missing subtree, keeps the value of the tree wherever it was defined, reads name where it was not, and mentions no signal other than those of tree and name.", "quantifier": "all dataflow trees on which it returns", "why_tests_cant": "Unbounded trees.", "anchors": ["pyverilog/dataflow/replace.py:replaceUndefined"]}
{"id": "C18", "title": "Splitting a tree partitions the input space", "statement": "split(tree) of a conditional tree yields condition lists such that under every valuation at most one list holds entirely, the function attached to it is the leaf the tree selects, and some list holds exactly when the selected leaf is present.", "quantifier": "all conditional trees with defined conditions in which every conditional has at least one leaf, and all valuations", "why_tests_cant": "Valuations and nesting depth are unbounded.", "anchors": ["pyverilog/controlflow/splitter.py:split"]}
{"id": "C19", "title": "Filtering condition lists keeps exactly the matching leaves", "statement": "filter(split(tree), name, condition) keeps exactly the entries whose function satisfies the condition; active_modify and active_unmodify are complementary.", "quantifier": "all split results and conditions", "why_tests_cant": "Unbounded dictionaries.", "anchors": ["pyverilog/controlflow/splitter.py:filter", "pyverilog/controlflow/splitter.py:active_modify", "pyverilog/controlflow/splitter.py:active_unmodify"]}
{"id": "C20", "title": "Range complement is exact", "statement": "Negating a state node with ranges and no transition condition denotes exactly the states of [min,max] outside the ranges.", "quantifier": "all finite lists of (possibly overlapping, unsorted) ranges that do not start beyond max+1, and all bounds", "why_tests_cant": "Overlaps and orderings are combinatorially many.", "anchors": ["pyverilog/controlflow/transition.py:_not_range_pairs", "pyverilog/controlflow/transition.py:notStateNode"]}
{"id": "C21", "title": "Range intersection is exact", "statement": "The conjunction of two state nodes denotes exactly the states in both.", "quantifier": "all pairs of finite range lists", "why_tests_cant": "A two-pointer sweep whose pointer movement depends on every ordering of endpoints.", "anchors": ["pyverilog/controlflow/transition.py:_and_range_pairs", "pyverilog/controlflow/transition.py:andStateNode"]}
{"id": "C22", "title": "Value inference matches the comparison", "statement": "infer(op, constant) returns a range (or inverted range) containing exactly the non-negative values v for which `v op constant` holds, for every comparison operator.", "quantifier": "all comparison operators, all constants, all values", "why_tests_cant": "Values are unbounded and boundaries differ per operator.", "anchors": ["pyverilog/utils/inference.py:infer"]}
{"id": "C23", "title": "State inference over-approximates the condition", "statement": "If the condition list holds while the state register holds v, then v is among the states inferred by walkCondlist, with a transition condition that holds.", "quantifier": "all condition lists, register widths, state values and valuations of other signals", "why_tests_cant": "Conditions are unbounded boolean combinations.", "anchors": ["pyverilog/controlflow/transition.py:walkCondlist", "pyverilog/controlflow/transition.py:walkCond", "pyverilog/controlflow/transition.py:andStateNodeList", "pyverilog/controlflow/transition.py:notStateNodeList"]}
{"id": "C24", "title": "Reported state machine loops are real cycles", "statement": "Every loop returned by FiniteStateMachine.get_loop is a simple cycle of the transition graph: each state has a transition to the next and the last to the first.", "quantifier": "all transition tables", "why_tests_cant": "All graphs.", "anchors": ["pyverilog/controlflow/controlflow_analyzer.py:FiniteStateMachine.get_loop", "pyverilog/controlflow/controlflow_analyzer.py:FiniteStateMachine._looppath", "pyverilog/controlflow/controlflow_analyzer.py:FiniteStateMachine.rotate"]}
{"id": "C25", "title": "Reported loops are canonical", "statement": "Every reported loop starts with its smallest state, and no two reported loops are rotations of one another.", "quantifier": "all transition tables", "why_tests_cant": "All graphs.", "anchors": ["pyverilog/controlflow/controlflow_analyzer.py:FiniteStateMachine.rotate", "pyverilog/controlflow/controlflow_analyzer.py:FiniteStateMachine.get_loop"]}
{"id": "C26", "title": "Loop search is complete", "statement": "Every simple cycle of the transition graph is reported by get_loop (up to rotation).", "quantifier": "all transition tables and cycles", "why_tests_cant": "Search pruning loses cycles only in particular graphs.", "anchors": ["pyverilog/controlflow/controlflow_analyzer.py:FiniteStateMachine.get_loop", "pyverilog/controlflow/controlflow_analyzer.py:FiniteStateMachine.get_looppath"]}
{"id": "C27", "title": "State machine construction records exactly the given transitions", "statement": "After any sequence of construct calls, state s has a transition under condition c to d exactly when the last recorded edge covering (s,c) leads to d; resolve keeps, for each source, exactly the destinations and joins their conditions by disjunction.", "quantifier": "all sequences of construct operations, all ranges", "why_tests_cant": "Unbounded operation histories.", "anchors": ["pyverilog/controlflow/controlflow_analyzer.py:FiniteStateMachine.construct", "pyverilog/controlflow/controlflow_analyzer.py:FiniteStateMachine.add", "pyverilog/controlflow/controlflow_analyzer.py:FiniteStateMachine.resolve"]}
{"id": "C28", "title": "Source collection is exact", "statement": "getTreeSources(tree) is exactly the set of signals occurring anywhere in tree (conditions, select bounds and pointers included).", "quantifier": "all dataflow trees on which it returns", "why_tests_cant": "Unbounded trees.", "anchors": ["pyverilog/dataflow/merge.py:VerilogDataflowMerge.getTreeSources", "pyverilog/dataflow/merge.py:VerilogDataflowMerge.getSources"]}
{"id": "C29", "title": "Merging two assignments: the later one wins where it assigns", "statement": "mergeTree(first, second) selects, under every valuation, second's leaf where second assigns and first's leaf elsewhere.", "quantifier": "all pairs of assignment trees and all valuations", "why_tests_cant": "Depends on the shape of both trees.", "anchors": ["pyverilog/dataflow/merge.py:VerilogDataflowMerge.mergeTree", "pyverilog/dataflow/merge.py:VerilogDataflowMerge.appendTail"]}
{"id": "C30", "title": "Splitting a bind tiles its range", "statement": "Splitting an assignment at a list of positions produces assignments whose bit ranges tile the original range without gap or overlap, and each piece selects the corresponding bits of the source.", "quantifier": "all ranges, trees and position lists", "why_tests_cant": "Positions and widths are unbounded.", "anchors": ["pyverilog/dataflow/merge.py:VerilogDataflowMerge.splitBind", "pyverilog/dataflow/merge.py:VerilogDataflowMerge.splitBindPositions"]}
{"id": "C31", "title": "Split positions separate all overlaps", "statement": "splitPositions of a bind list contains every boundary at which two overlapping assignments differ, so that after splitting any two pieces are equal or disjoint.", "quantifier": "all bind lists", "why_tests_cant": "Arbitrary overlap patterns.", "anchors": ["pyverilog/dataflow/merge.py:VerilogDataflowMerge.splitPositions", "pyverilog/dataflow/merge.py:VerilogDataflowMerge.matchedRange", "pyverilog/dataflow/merge.py:VerilogDataflowMerge.unmatchedRange"]}
{"id": "C32", "title": "Merged tree of partial assignments places every piece at its position", "statement": "getMergedTree of disjoint partial assignments is a concatenation in which each piece starts at its lsb, gaps being filled by unknown bits of the width of the gap.", "quantifier": "all lists of disjoint partial assignments", "why_tests_cant": "Arbitrary gaps.", "anchors": ["pyverilog/dataflow/merge.py:VerilogDataflowMerge.getMergedTree"]}
{"id": "C33", "title": "Dataflow walking terminates on cyclic designs", "statement": "walkBind terminates on every design, including combinational loops and registers feeding themselves.", "quantifier": "all netlists (any dependency graph)", "why_tests_cant": "Non-termination depends on the graph.", "anchors": ["pyverilog/dataflow/walker.py:VerilogDataflowWalker.walkTree"]}
{"id": "C34", "title": "Walked trees end in legitimate leaves", "statement": "Every signal left in the tree returned by walkBind(x) is x itself, a top-level input, a clocked register at the step limit, a signal being expanded (a feedback), or an array.", "quantifier": "all netlists and step counts", "why_tests_cant": "All graphs.", "anchors": ["pyverilog/dataflow/walker.py:VerilogDataflowWalker.walkTree", "pyverilog/dataflow/walker.py:VerilogDataflowWalker.walkBind"]}
{"id": "C35", "title": "Subset extraction is closed under dependencies", "statement": "getBindSourceSubset(targets) returns every assignment to, and every signal read by, the targets and the signals on which they transitively depend (by reading them or by being clocked by them), and nothing else; it returns for every netlist.", "quantifier": "all netlists and target lists", "why_tests_cant": "All graphs.", "anchors": ["pyverilog/dataflow/subset.py:VerilogSubset.getBindSubset", "pyverilog/dataflow/subset.py:VerilogSubset.getBindSourceSubset", "pyverilog/utils/util.py:dictlistmerge"]}
{"id": "C36", "title": "Bind store: last assignment per bit range wins", "statement": "After any sequence of addBind calls, getBindlist(name) holds exactly one bind per (msb,lsb,ptr) ever added for name, in order of first addition, with the tree last added.", "quantifier": "all operation histories", "why_tests_cant": "Unbounded histories.", "anchors": ["pyverilog/dataflow/dataflow.py:DataFlow.addBind", "pyverilog/dataflow/dataflow.py:DataFlow.setBind", "pyverilog/dataflow/dataflow.py:DataFlow.getBindlist"]}
{"id": "C37", "title": "Term store: declarations accumulate", "statement": "After any sequence of addTerm calls, a term's type is the union of all types declared and its msb/lsb/dims are the first ones given.", "quantifier": "all operation histories", "why_tests_cant": "Unbounded histories.", "anchors": ["pyverilog/dataflow/dataflow.py:DataFlow.addTerm", "pyverilog/dataflow/dataflow.py:DataFlow.setTerm"]}
{"id": "C38", "title": "Generated labels are unique", "statement": "Labels.get never returns the same label twice for names drawn from the analyzer's label prefixes (no digits at the end).", "quantifier": "all sequences of get/inc calls", "why_tests_cant": "Unbounded histories.", "anchors": ["pyverilog/dataflow/visit.py:Labels", "pyverilog/dataflow/visit.py:Label"]}
{"id": "C39", "title": "Definition tables reject duplicates and keep definitions", "statement": "Adding a definition under an existing name raises and leaves the table unchanged; otherwise the definition is retrievable and all others are unchanged.", "quantifier": "all operation histories", "why_tests_cant": "Unbounded histories.", "anchors": ["pyverilog/dataflow/visit.py:DefinitionInfoTable.addDefinition"]}
{"id": "C40", "title": "Frame assignments are keyed by the full bit range", "statement": "Recording a blocking assignment to one bit range of a signal does not disturb an earlier recorded assignment to a different bit range of it.", "quantifier": "all sequences of setBlockingAssign / addNonblockingAssign", "why_tests_cant": "Unbounded histories.", "anchors": ["pyverilog/dataflow/visit.py:Frame.setBlockingAssign", "pyverilog/dataflow/visit.py:Frame.addNonblockingAssign"]}
{"id": "C41", "title": "Generated expression code parses back to the same expression", "statement": "Parsing the code generated for an expression AST yields that AST.", "quantifier": "all expression trees over all operators", "why_tests_cant": "Parenthesis removal depends on every pair of nested operators at every depth.", "anchors": ["pyverilog/ast_code_generator/codegen.py:ASTCodeGenerator.visit_Operator", "pyverilog/ast_code_generator/codegen.py:del_paren", "pyverilog/utils/op2mark.py:op2order", "pyverilog/vparser/parser.py:VerilogParser.precedence"]}
{"id": "C42", "title": "Generated expression code has balanced brackets", "statement": "The code generated for an expression has balanced parentheses, and removing an outer pair never unbalances it.", "quantifier": "all expression trees", "why_tests_cant": "All nestings.", "anchors": ["pyverilog/ast_code_generator/codegen.py:del_paren"]}
{"id": "C43", "title": "Identifier replacement", "statement": "replaceIdentifiers(node, ids) renames exactly the identifiers whose names are in ids; the identifiers of the result are the renamed identifiers of the input, in the same order.", "quantifier": "all AST expressions and renaming dictionaries", "why_tests_cant": "Unbounded ASTs.", "anchors": ["pyverilog/utils/identifierreplace.py:replaceIdentifiers", "pyverilog/utils/identifiervisitor.py:getIdentifiers"]}
{"id": "C44", "title": "Dictionary merge keeps everything", "statement": "dictlistmerge(a,b) contains every key of a and b, each with every element of a's and b's lists and nothing else.", "quantifier": "all dictionaries of lists", "why_tests_cant": "Unbounded dictionaries.", "anchors": ["pyverilog/utils/util.py:dictlistmerge"]}
{"id": "C45", "title": "Operator tables agree with the parser's precedence", "statement": "For every pair of binary operators, the code generator's precedence table orders them as the parser does, and the mark printed for an operator is the token the parser turns back into that operator.", "quantifier": "all pairs of operators", "why_tests_cant": "The tables live in different modules; only an exhaustive check relates them, and it must hold inside arbitrary expressions.", "anchors": ["pyverilog/utils/op2mark.py:operator_order", "pyverilog/utils/op2mark.py:operator_mark", "pyverilog/vparser/parser.py:VerilogParser.precedence"]}
{"id": "C46", "title": "Removing reset conditions keeps the non-reset behaviour", "statement": "remove_reset_condition removes exactly the reset tests from every condition list; entries whose lists become equal are represented by the last of them, the entry left without any condition is dropped unless it is the only one left, and no reset test remains.", "quantifier": "all split results", "why_tests_cant": "Unbounded dictionaries of condition lists.", "anchors": ["pyverilog/controlflow/splitter.py:remove_reset_condition"]}
{"id": "C47", "title": "Label range and size of a state machine are exact", "statement": "label_range() returns the smallest and the largest label among all states and transition targets, (None, None) for an empty machine; size() is the number of stored transitions.", "quantifier": "all state machines", "why_tests_cant": "Unbounded machines.", "anchors": ["pyverilog/controlflow/controlflow_analyzer.py:FiniteStateMachine.label_range", "pyverilog/controlflow/controlflow_analyzer.py:FiniteStateMachine.size"]}
{"id": "C48", "title": "The extracted state machine follows the conditional tree", "statement": "For the conditional tree of a state register, the state machine built from its split allows next state d in state v under a valuation of the signals exactly when the tree selects the constant d under that valuation.", "quantifier": "all conditional trees, states and valuations", "why_tests_cant": "Composition of splitting, condition walking and transition construction over unbounded trees and all valuations.", "anchors": ["pyverilog/controlflow/controlflow_analyzer.py:VerilogControlflowAnalyzer.getFiniteStateMachine", "pyverilog/controlflow/splitter.py:split", "pyverilog/controlflow/transition.py:walkCondlist"]}
{"id": "C49", "title": "Assignments of one range are merged into one", "statement": "Merging a list of assignments whose bit ranges are pairwise equal or disjoint gives exactly one assignment per range, in ascending order, holding the assignments of that range merged in the order they were given.", "quantifier": "all lists of assignments", "why_tests_cant": "Unbounded lists; the loop only compares neighbours of a sorted list.", "anchors": ["pyverilog/dataflow/merge.py:VerilogDataflowMerge.mergeBindlist"]}
{"id": "C50", "title": "Reading an array selects the element with that index", "statement": "getTree(array, index) of an array assigned element by element is the tree assigned to that element for a constant index, and for any other index expression a tree that has, whatever the index evaluates to, the value of the tree assigned to that element (and none for elements never assigned).", "quantifier": "all arrays, element assignments and index expressions", "why_tests_cant": "Unbounded sets of indices and valuations.", "anchors": ["pyverilog/dataflow/merge.py:VerilogDataflowMerge.getTree"]}
{"id": "C51", "title": "Optimization terminates", "statement": "optimize and optimizeConstant terminate on every tree, for every table of signals and parameters in which the declared range of no parameter refers, directly or indirectly, to the parameter itself.", "quantifier": "all trees and tables", "why_tests_cant": "Non-termination depends on the dependency graph of the parameters and the shape of the tree.", "anchors": ["pyverilog/dataflow/optimizer.py:VerilogDataflowOptimizer.optimize", "pyverilog/dataflow/optimizer.py:VerilogDataflowOptimizer.optimizeConstant", "pyverilog/dataflow/optimizer.py:VerilogOptimizer.getWidth"]}
{"id": "C52", "title": "Reordering neither introduces nor loses signals", "statement": "reorder returns a tree that mentions exactly the signals of the tree it is given.", "quantifier": "all trees", "why_tests_cant": "Unbounded trees.", "anchors": ["pyverilog/dataflow/reorder.py:reorder", "pyverilog/dataflow/reorder.py:insertBranch"]}
{"id": "C53", "title": "The tree of a signal mentions only signals of its assignments", "statement": "Every signal in the tree returned by getTree(x, index) is mentioned by one of the assignments to x, except that for an array it may be x itself or a signal of the index.", "quantifier": "all assignment tables, signals and indices", "why_tests_cant": "Unbounded tables; splitting, reordering, simplifying and merging are composed.", "anchors": ["pyverilog/dataflow/merge.py:VerilogDataflowMerge.getTree", "pyverilog/dataflow/merge.py:VerilogDataflowMerge.getOptimizedBindlist"]}
{"id": "C54", "title": "The step count bounds the number of registers crossed", "statement": "Every signal left in the tree returned by walkBind(x, step) is x itself or is reached from x along assignments through at most step clocked registers; if it is neither a top-level input nor part of a feedback, it is a clocked register reached through exactly step clocked registers.", "quantifier": "all netlists and step counts", "why_tests_cant": "All dependency graphs and numbers of steps.", "anchors": ["pyverilog/dataflow/walker.py:VerilogDataflowWalker.walkTree", "pyverilog/dataflow/walker.py:VerilogDataflowWalker.walkBind"]}
{"id": "C55", "title": "Walking keeps the value", "statement": "In every valuation of the signals that satisfies the assignments, the tree returned by walkBind(x) has the same value as the expression assigned to x.", "quantifier": "all netlists, valuations and step counts", "why_tests_cant": "All dependency graphs, expressions and valuations; part selects of part selects are merged and array elements selected on the way.", "anchors": ["pyverilog/dataflow/walker.py:VerilogDataflowWalker.walkTree", "pyverilog/dataflow/walker.py:VerilogDataflowWalker.walkBind"]}
{"id": "C56", "title": "An assignment under conditions changes the tree only there", "statement": "Recording an assignment to a signal under a path of conditions gives a tree that assigns the new value where all the conditions hold and what it assigned before where one of them fails.", "quantifier": "all trees, paths of conditions, assigned trees and valuations", "why_tests_cant": "Unbounded trees and paths; the position where the tree leaves the path varies.", "anchors": ["pyverilog/dataflow/bindvisitor.py:BindVisitor.makeBind", "pyverilog/dataflow/bindvisitor.py:BindVisitor.diffBranchTree", "pyverilog/dataflow/bindvisitor.py:BindVisitor.appendBranchTree"]}
{"id": "C57", "title": "Expressions keep their value in the dataflow", "statement": "The dataflow tree made from an expression has the value and width of the expression, and replacing signals by what blocking assignments gave them yields the value the expression has after these assignments.", "quantifier": "all expressions, declarations and valuations", "why_tests_cant": "Unbounded expressions; conditional operands are moved outwards on the way.", "anchors": ["pyverilog/dataflow/bindvisitor.py:BindVisitor.makeDFTree", "pyverilog/dataflow/bindvisitor.py:BindVisitor.resolveBlockingAssign"]}
{"id": "C58", "title": "The tree of a register is what its always block assigns", "statement": "For a signal assigned in one always block by nonblocking assignments under if, case and begin-end statements, the recorded tree gives, in every valuation, the value the block assigns last, and no value where the block assigns none; there is one tree, carrying the clock and reset of the block, and other always blocks do not change it.", "quantifier": "all modules of always blocks and all valuations", "why_tests_cant": "Unbounded statements: nesting, order and repetition of assignments.", "anchors": ["pyverilog/dataflow/bindvisitor.py:BindVisitor.visit_Always", "pyverilog/dataflow/bindvisitor.py:BindVisitor.visit_IfStatement", "pyverilog/dataflow/bindvisitor.py:BindVisitor.visit_CaseStatement", "pyverilog/dataflow/bindvisitor.py:BindVisitor.visit_NonblockingSubstitution"]}
{"id": "C59", "title": "Clock and reset of an always block", "statement": "The clock of an always block is the last event of its sensitivity list on a signal whose name contains clk or clock, the reset the last event on another signal whose name contains rst or reset, with edge, bit and declaration; a list with a clock or reset and any other signal is refused.", "quantifier": "all sensitivity lists", "why_tests_cant": "Unbounded lists and names.", "anchors": ["pyverilog/dataflow/bindvisitor.py:BindVisitor._createAlwaysinfo", "pyverilog/utils/signaltype.py:isClock", "pyverilog/utils/signaltype.py:isReset"]}
{"id": "C60", "title": "Names refer to the innermost declaration", "statement": "A plain name in a statement or expression refers to the declaration in the innermost enclosing scope that declares it, and never to a declaration outside the module.", "quantifier": "all scopes, nestings and declarations", "why_tests_cant": "Unbounded nesting.", "anchors": ["pyverilog/dataflow/bindvisitor.py:BindVisitor.searchTerminal"]}
{"id": "C61", "title": "Assignments are classified by kind", "statement": "getSubset and getEntire return every collected assignment in exactly one of the classes assign, clocked always, combinational always and parameter, according to the type of the signal assigned, together with the declarations of all signals involved.", "quantifier": "all designs and target lists", "why_tests_cant": "All combinations of signal types and assignments.", "anchors": ["pyverilog/dataflow/subset.py:VerilogSubset._discretion", "pyverilog/dataflow/subset.py:VerilogSubset.getEntire", "pyverilog/dataflow/subset.py:VerilogSubset.getSubset", "pyverilog/dataflow/merge.py:VerilogDataflowMerge.getAssignType"]}
{"id": "C62", "title": "Equality of syntax trees", "statement": "Two AST nodes compare equal exactly when they are the same tree; comparison is symmetric, never raises and agrees with the hash.", "quantifier": "all pairs of syntax trees", "why_tests_cant": "Pairs of unbounded trees.", "anchors": ["pyverilog/vparser/ast.py:Node.__eq__", "pyverilog/vparser/ast.py:Node.__hash__"]}
{"id": "C63", "title": "The text of a dataflow tree reads back as the tree", "statement": "tocode() of a dataflow tree is Verilog text that the parser reads as the expression the tree stands for; branches without a value read as the destination, and two trees with the same text stand for the same expression.", "quantifier": "all dataflow trees and destinations", "why_tests_cant": "Unbounded trees, all names, widths and constants.", "anchors": ["pyverilog/dataflow/dataflow.py:DFOperator.tocode", "pyverilog/dataflow/dataflow.py:DFPartselect.tocode", "pyverilog/dataflow/dataflow.py:DFBranch.tocode", "pyverilog/dataflow/dataflow.py:DFConcat.tocode", "pyverilog/dataflow/dataflow.py:DFEvalValue.tocode", "pyverilog/vparser/parser.py:VerilogParser"]}
{"id": "C64", "title": "Indexed part selects have the width written", "statement": "x[b +: w] and x[b -: w] are parsed as part selects of w bits.", "quantifier": "all expressions x, b and w", "why_tests_cant": "Unbounded expressions, all values.", "anchors": ["pyverilog/vparser/parser.py:VerilogParser.p_partselect_plus", "pyverilog/vparser/parser.py:VerilogParser.p_partselect_minus"]}
{"id": "C65", "title": "Printed statements read back as the same statement", "statement": "The text that the code generator prints for a procedural statement (assignments, if, case, begin-end, for, while) is parsed as that statement, and two different statements are never printed the same.", "quantifier": "all statements, nestings and expressions", "why_tests_cant": "Unbounded nesting; all combinations of expressions, names and layouts.", "anchors": ["pyverilog/ast_code_generator/codegen.py:ASTCodeGenerator.visit_IfStatement", "pyverilog/ast_code_generator/codegen.py:ASTCodeGenerator.visit_CaseStatement", "pyverilog/ast_code_generator/codegen.py:ASTCodeGenerator.visit_ForStatement", "pyverilog/ast_code_generator/codegen.py:ASTCodeGenerator.visit_Block", "pyverilog/vparser/parser.py:VerilogParser.p_if_statement", "pyverilog/vparser/parser.py:VerilogParser.p_case_statement", "pyverilog/vparser/parser.py:VerilogParser.p_block"]}
{"id": "C66", "title": "Layout does not change the meaning", "statement": "Blanks inserted at the beginnings of lines, in particular the indentation the code generator adds, do not change the tokens of a text.", "quantifier": "all texts and all insertions of blanks after line ends", "why_tests_cant": "Unbounded texts: strings, comments, directives and names anywhere in them.", "anchors": ["pyverilog/ast_code_generator/codegen.py:ASTCodeGenerator.indent", "pyverilog/ast_code_generator/codegen.py:indent_multiline_assign", "pyverilog/vparser/lexer.py:VerilogLexer"]}
{"id": "C67", "title": "An assignment is recorded for exactly the bits its left side designates", "statement": "The left side of an assignment may be a name, a bit or part select, an element of an array, a bit or part of such an element, or a (nested) concatenation of these. For a continuous assignment in the body of a module, and for a nonblocking assignment that is the first in its branch for these signals, the analysis records for every target one assignment with the signal, the element and the bounds that are designated (the declared bounds or none for a whole signal), whose tree has as value the slice of the right side that Verilog assigns to this target: the items of a concatenation take their bits from the least significant end on, one after the other. Signals that are not designated keep their recorded assignments. Put together, the slices give back the right side.", "quantifier": "for all left sides of these forms with known indices, all right sides, all declarations and all values of the signals, whatever was recorded before", "why_tests_cant": "nesting of concatenations, number and widths of targets and index values are unbounded", "anchors": ["pyverilog/dataflow/bindvisitor.py:getDestinations", "pyverilog/dataflow/bindvisitor.py:getDsts", "pyverilog/dataflow/bindvisitor.py:getDst", "pyverilog/dataflow/bindvisitor.py:setDataflow", "pyverilog/dataflow/bindvisitor.py:setNonblockingAssign", "pyverilog/dataflow/bindvisitor.py:makeBind", "pyverilog/dataflow/dataflow.py:DataFlow.addBind"]}
{"id": "C68", "title": "Active conditions say when a signal is active", "statement": "For a signal whose simplified value tree is a conditional, and a filter on the functions the tree can select: when getActiveConditions reports, for a state register and its current state, a condition that is true, then out of reset the tree selects a function that satisfies the filter; and when the tree selects such a function, every state register that all the remaining condition lists compare with a constant has a true condition reported for its current state.  A term without definition has no active conditions.", "quantifier": "all trees, filters, state registers, states, valuations out of reset and truth-preserving simplifications", "why_tests_cant": "the statement quantifies over all condition trees and all valuations; a test sees a few trees and no valuation", "anchors": ["pyverilog/controlflow/active_analyzer.py: getActiveConditions, getActiveConditions_fsm", "pyverilog/controlflow/splitter.py: split, filter, remove_reset_condition", "pyverilog/controlflow/transition.py: walkCondlist"]}
{"id": "C69", "title": "Registers that copy a register are traced", "statement": "The functions reported for a register that, apart from its reset, only takes over another register are those of the register at the end of the chain of copies, together with the length of the chain as delay; nothing is reported when the chain ends at a term that is not clocked or renamed.", "quantifier": "all chains of registers, of any length", "why_tests_cant": "chains have unbounded length and circles make the program recurse without end", "anchors": ["pyverilog/controlflow/controlflow_analyzer.py: getFuncdict", "pyverilog/controlflow/splitter.py: remove_reset_condition"]}
{"id": "C70", "title": "Printed source texts read back as the same modules", "statement": "The text that the code generator prints for a list of modules (parameters, ports, declarations, assignments, always and initial constructs, instances, functions, tasks, generate constructs) is parsed as these modules, with every declared item as a declaration of its own; doing it again changes nothing, and different modules are never printed the same.", "quantifier": "all lists of modules, of any size, and all names, ranges, expressions, statements and connections in them", "why_tests_cant": "Unbounded modules; all combinations of names, ranges, expressions and nested statements under the generator's layout.", "anchors": ["pyverilog/ast_code_generator/codegen.py:ASTCodeGenerator.visit_Source", "pyverilog/ast_code_generator/codegen.py:ASTCodeGenerator.visit_ModuleDef", "pyverilog/ast_code_generator/codegen.py:ASTCodeGenerator.visit_Paramlist", "pyverilog/ast_code_generator/codegen.py:ASTCodeGenerator.visit_InstanceList", "pyverilog/vparser/parser.py:VerilogParser.p_moduledef", "pyverilog/vparser/parser.py:VerilogParser.create_ioport", "pyverilog/vparser/parser.py:VerilogParser.create_decl", "pyverilog/vparser/parser.py:VerilogParser.p_instance", "pyverilog/ast_code_generator/codegen.py:ASTCodeGenerator.visit_Function", "pyverilog/ast_code_generator/codegen.py:ASTCodeGenerator.visit_Task", "pyverilog/ast_code_generator/codegen.py:ASTCodeGenerator.visit_GenerateStatement", "pyverilog/vparser/parser.py:VerilogParser.p_function", "pyverilog/vparser/parser.py:VerilogParser.p_task", "pyverilog/vparser/parser.py:VerilogParser.p_generate"]}
{"id": "C71", "title": "A port without a type is like the port in front of it", "statement": "In the header of a module a name without a direction, in a list of declared ports, stands for a port with the direction, type and range of the port in front of it: the abbreviated header is parsed to the header with all types written out.", "quantifier": "all headers, with any number of ports and of names without a type", "why_tests_cant": "Unbounded lists of ports, all ranges and types.", "anchors": ["pyverilog/vparser/parser.py:VerilogParser.p_ioports", "pyverilog/vparser/parser.py:VerilogParser.create_ioport"]}
{"id": "C72", "title": "A declaration declares each of its names", "statement": "A declaration of several signals, integers, genvars or parameters is parsed to one declared item per name, in order, each with the type, range, dimensions and value that are written; a signal declared with a value is declared and the value is assigned to it. The items before and after are not affected.", "quantifier": "all declarations, with any number of names, between any other items", "why_tests_cant": "Unbounded lists of names, ranges, dimensions and values.", "anchors": ["pyverilog/vparser/parser.py:VerilogParser.create_decl", "pyverilog/vparser/parser.py:VerilogParser.create_declassign", "pyverilog/vparser/parser.py:VerilogParser.p_integerdecl", "pyverilog/vparser/parser.py:VerilogParser.p_parameterdecl", "pyverilog/vparser/parser.py:VerilogParser.p_genvardecl"]}
{"id": "C73", "title": "Connections of an instance keep their positions", "statement": "The connections of an instance are parsed in the order in which they are written, with their names and expressions, so that the i-th unnamed connection is the i-th connection of the instance, also when a connection is left out.", "quantifier": "all instances and all lists of connections", "why_tests_cant": "Unbounded lists of connections with arbitrary expressions.", "anchors": ["pyverilog/vparser/parser.py:VerilogParser.p_instance_ports_list", "pyverilog/vparser/parser.py:VerilogParser.p_instance_ports_list_empty", "pyverilog/vparser/parser.py:VerilogParser.p_instance_port_arg"]}
{"id": "C74", "title": "Blocking assignments of an always block give the values after it", "statement": "For an always block with blocking assignments, the recorded tree of an assigned signal, read with the recorded intermediate values, has the value that the signal has after executing the statements of the block in order, or keeps the value from before where nothing is assigned.", "quantifier": "all always blocks, with any number of assignments and any nesting, and all values of the signals", "why_tests_cant": "Unbounded nesting of statements, and the statement is about all valuations.", "anchors": ["pyverilog/dataflow/bindvisitor.py:BindVisitor.visit_BlockingSubstitution", "pyverilog/dataflow/bindvisitor.py:BindVisitor.addDataflow_blocking", "pyverilog/dataflow/bindvisitor.py:BindVisitor.setDataflow_rename", "pyverilog/dataflow/bindvisitor.py:BindVisitor.copyBlockingAssigns"]}
{"id": "C75", "title": "The analysis of a hierarchy is the flat system of equations", "statement": "After the analysis of a design every driven signal of the instantiated hierarchy, under its hierarchical name, has one recorded assignment, whose value is that of its driver with the names resolved in the instance where the driver is written: continuous assignments, parameters, supplies, gates, connections of inputs and outputs, always blocks with their clock and reset. A signal without driver has no assignment.", "quantifier": "all designs: any number of modules, any depth and number of instances, all expressions and statements, all valuations", "why_tests_cant": "Hierarchies of unbounded depth and size; the statement is about all valuations of all signals.", "anchors": ["pyverilog/dataflow/dataflow_analyzer.py:VerilogDataflowAnalyzer.generate", "pyverilog/dataflow/modulevisitor.py:ModuleVisitor", "pyverilog/dataflow/signalvisitor.py:SignalVisitor", "pyverilog/dataflow/bindvisitor.py:BindVisitor.visit_InstanceList", "pyverilog/dataflow/bindvisitor.py:BindVisitor._visit_Instance_body", "pyverilog/dataflow/bindvisitor.py:BindVisitor.addInstancePortBind", "pyverilog/dataflow/bindvisitor.py:BindVisitor.copyFrameInfo"]}
{"id": "C76", "title": "Parameters of an instance", "statement": "In every instance a parameter with an argument has the value of the argument in the instantiating module, and a parameter without argument, or a localparam, the value of its definition in the instance; everything that depends on a parameter in this instance depends on this value.", "quantifier": "all designs, all instances at any depth, all arguments by name or position", "why_tests_cant": "Hierarchies of unbounded depth with arbitrary arguments that depend on the parameters of the surrounding instances.", "anchors": ["pyverilog/dataflow/bindvisitor.py:BindVisitor.visit_Parameter", "pyverilog/dataflow/bindvisitor.py:BindVisitor.visit_Localparam", "pyverilog/dataflow/bindvisitor.py:BindVisitor.addInstanceParameterBind", "pyverilog/dataflow/bindvisitor.py:BindVisitor.copyFrameInfo"]}
{"id": "C77", "title": "Gate primitives compute their gate", "statement": "The outputs of an instance of and, nand, or, nor, xor, xnor, not, buf have the value of the gate on the inputs.", "quantifier": "all instances of gates, with any number of inputs, in every instance of the module, and all valuations", "why_tests_cant": "Any number of inputs and arbitrary expressions as inputs; all valuations.", "anchors": ["pyverilog/dataflow/visit.py:primitives", "pyverilog/dataflow/bindvisitor.py:BindVisitor._visit_Instance_primitive"]}
{"id": "C78", "title": "The text of a recorded assignment reads back as that assignment", "statement": "Bind.tocode prints a recorded assignment as Verilog: a parameter or localparam declaration, a continuous assignment, an always block at the recorded edges with nonblocking assignments, or a combinational always block. Texts of assignments placed in a module are parsed as items that assign to the same target; for a whole signal the item assigns the value of the recorded tree in every state, and keeps the signal where the tree has no value.", "quantifier": "all assignments, in any number, all trees of any depth and all values of the signals", "why_tests_cant": "Unbounded trees and lists of assignments; the value must agree for every valuation.", "anchors": ["pyverilog/dataflow/dataflow.py:Bind.tocode", "pyverilog/dataflow/dataflow.py:Bind.getdest", "pyverilog/dataflow/dataflow.py:DFBranch._tocode_always", "pyverilog/dataflow/dataflow.py:DFBranch.tocode"]}
{"id": "C79", "title": "Every character of a text is accounted for, with its line and position", "statement": "The lexer cuts a text into tokens, blanks, comments and compiler directives; nothing is lost or invented. Every token carries the line and the position at which its text stands; get_directives returns the directives of the text with their lines, get_default_nettype the last default net type given; where no token can begin an error is raised with the line and position of that place, and only there.", "quantifier": "all texts and all earlier uses of the lexer", "why_tests_cant": "Texts of unbounded length with comments, strings and directives in every arrangement; error positions matter for every wrong text.", "anchors": ["pyverilog/vparser/lexer.py:VerilogLexer.token", "pyverilog/vparser/lexer.py:VerilogLexer.t_COMMENTOUT", "pyverilog/vparser/lexer.py:VerilogLexer.t_LINECOMMENT", "pyverilog/vparser/lexer.py:VerilogLexer.t_DIRECTIVE", "pyverilog/vparser/lexer.py:VerilogLexer.t_NEWLINE", "pyverilog/vparser/lexer.py:VerilogLexer._find_tok_column", "pyverilog/vparser/lexer.py:VerilogLexer.get_directives", "pyverilog/vparser/lexer.py:VerilogLexer.get_default_nettype"]}
{"id": "C80", "title": "Columns of lexical errors, and independence of the texts given to one parser", "statement": "A lexical error is reported with the column of the offending character, counted from 1 in its line. Each text is treated on its own: when a parser is used again, lines start at 1 and the directives are those of the new text.", "quantifier": "all texts and all earlier uses of the lexer", "why_tests_cant": "The column must be right for every text and position; the effect of earlier texts is a property of histories.", "anchors": ["pyverilog/vparser/lexer.py:VerilogLexer._find_tok_column", "pyverilog/vparser/lexer.py:VerilogLexer._error", "pyverilog/vparser/lexer.py:VerilogLexer.get_directives", "pyverilog/vparser/parser.py:VerilogParser.parse"]}
{"id": "C81", "title": "The parser reads exactly the expression grammar of Verilog", "statement": "An expression is accepted exactly if the expression grammar of Verilog derives it, and the tree has the shape this grammar gives: operators of a stronger layer are applied first, binary operators group to the left, the conditional operator is weakest and groups to the right, prefix operators bind strongest; calls have comma separated arguments.", "quantifier": "all token sequences (all texts), of any length and nesting depth", "why_tests_cant": "The sequences of tokens are unbounded; both directions must hold for every sequence, in particular that nothing outside the grammar is accepted and that no conflict of the LALR tables is resolved the wrong way.", "anchors": ["pyverilog/vparser/parser.py:VerilogParser.precedence", "pyverilog/vparser/parser.py:VerilogParser.parse", "pyverilog/vparser/parser.py:VerilogParser.p_expression_plus", "pyverilog/vparser/parser.py:VerilogParser.p_expression_cond", "pyverilog/vparser/parser.py:VerilogParser.p_func_args_empty", "pyverilog/vparser/parser.py:VerilogParser.p_partselect"]}
{"id": "C82", "title": "The drawn dataflow graph shows the dataflow tree", "statement": "generate draws a node with the signal's name and below it the tree of the signal: every node of the tree is shown with its label, and its lines lead, with their labels and colours, to its operands in order and to nothing else. With identical=True every occurrence has its own node and exactly one line leads to it. Earlier drawings in the same graph are left alone.", "quantifier": "all trees of any size, all options, and all earlier drawings in the same graph", "why_tests_cant": "Trees are unbounded, and the names of new nodes must differ from all names given out in the whole history of the graph.", "anchors": ["pyverilog/dataflow/graphgen.py:VerilogGraphGenerator.generate", "pyverilog/dataflow/graphgen.py:VerilogGraphGenerator.visit", "pyverilog/dataflow/graphgen.py:VerilogGraphGenerator.add_RenamedDF", "pyverilog/dataflow/graphgen.py:VerilogGraphGenerator.add_DF", "pyverilog/dataflow/graphgen.py:VerilogGraphGenerator.rename"]}
{"id": "C83", "title": "The parser reads exactly the statement grammar of Verilog", "statement": "A text is read as a procedural statement exactly when the Verilog grammar writes that statement with its tokens: blocking and nonblocking assignments to names, elements, parts and (nested) concatenations, begin-end blocks with and without name, if with and without else, for, while, case, casex, casez and unique case with default items. An else belongs to the nearest if that has none, so that a text has one reading.", "quantifier": "all token sequences and texts of any length, all statements of any nesting depth", "why_tests_cant": "There are infinitely many texts and nestings; tests show single texts that are read or refused, not that the accepted language and the trees are those of the grammar.", "anchors": ["pyverilog/vparser/parser.py:VerilogParser.p_basic_statement", "pyverilog/vparser/parser.py:VerilogParser.p_if_statement", "pyverilog/vparser/parser.py:VerilogParser.p_for_statement", "pyverilog/vparser/parser.py:VerilogParser.p_case_statement", "pyverilog/vparser/parser.py:VerilogParser.p_lconcat", "pyverilog/vparser/parser.py:VerilogParser.p_block"]}
{"id": "C84", "title": "The Verilog text of a dataflow declares its signals and makes its assignments", "statement": "generateCode returns the text of one Verilog module for the whole dataflow, or for the part behind some signals: its ports are the clock, the reset, the enable input and the other ports of the top module; it declares every signal of the dataflow (under its flat name) with its kind, range and dimensions, drives the flat clock and reset names, and contains every assignment of the dataflow with the value of its tree, and nothing else. The text is one that the parser reads back as that module.", "quantifier": "all dataflows with any number of signals and assignments, all trees, names, indentations and targets, all orders in which sets are iterated", "why_tests_cant": "Designs and trees are unbounded, and the text must be readable and mean the same for every one of them.", "anchors": ["pyverilog/dataflow/dataflow_codegen.py:VerilogCodeGenerator.generateCode", "pyverilog/dataflow/dataflow_codegen.py:VerilogCodeGenerator._toCode", "pyverilog/dataflow/dataflow_codegen.py:VerilogCodeGenerator._modulehead", "pyverilog/dataflow/dataflow_codegen.py:VerilogCodeGenerator._system_io", "pyverilog/dataflow/dataflow.py:Term.tocode"]}
{"id": "C85", "title": "The scopes of a design are those of its instances and generate constructs", "statement": "When the analysis of a design succeeds, the scopes it works with are exactly those of the elaborated design: one for every instance (an array has one per index), for every generate region, for the alternative of a conditional generate whose condition selects it (any value other than 0 selects the first), for every turn of a generate loop under the value of its variable, for every block; they come in the order of the text, no two have the same name, each has the constants and signals declared in it and no others, and the constants have the values their expressions have there: parameters those given to the instance, by name or position, or else their default.", "quantifier": "all designs with any hierarchy of modules, any nesting of generate loops, conditionals and blocks, all numbers of turns, all parameter arguments and values of constants", "why_tests_cant": "Hierarchies, nestings and numbers of turns are unbounded, and the values of loop variables and parameters feed back into which scopes exist.", "anchors": ["pyverilog/dataflow/signalvisitor.py:SignalVisitor._visit_Instance_body", "pyverilog/dataflow/signalvisitor.py:SignalVisitor.visit_ForStatement", "pyverilog/dataflow/signalvisitor.py:SignalVisitor.visit_IfStatement", "pyverilog/dataflow/signalvisitor.py:SignalVisitor.visit_GenerateStatement", "pyverilog/dataflow/signalvisitor.py:SignalVisitor.setInstanceConstants", "pyverilog/dataflow/visit.py:FrameTable.addFrame"]}
{"id": "C86", "title": "A hierarchical name stands for the scope it names", "statement": "In the analysis of a design a name with a path, a.b[2].x, stands for the signal x of the scope that the path describes, seen from the module in which it is written: every named scope on the way (instance or block) is one step, an index selects the turn of the generate loop around the block, generate regions, alternatives and procedures are passed over. A path that describes no scope is refused with the error of the package for undefined names; the result is always a declared signal.", "quantifier": "all designs and scope trees of any depth and width, all places, all paths of any length, all indices", "why_tests_cant": "The trees of scopes and the paths are unbounded and the search backtracks; tests show single names that are found.", "anchors": ["pyverilog/dataflow/visit.py:FrameTable.searchMatchedScopeChain", "pyverilog/dataflow/bindvisitor.py:BindVisitor.searchScopeTerminal", "pyverilog/dataflow/bindvisitor.py:BindVisitor.toScopeChain", "pyverilog/dataflow/bindvisitor.py:BindVisitor.getModuleScopeChain", "pyverilog/utils/scope.py:ScopeChain.__add__"]}
{"id": "C87", "title": "The dump of a dataflow determines it", "statement": "tostr() of two dataflow trees is the same text exactly if the trees are the same; tostr() of two assignments is the same exactly if they assign the same tree to the same bits of the same signal in the same way; tostr() of two signals is the same only if they have the same name, types, range and dimensions.", "quantifier": "all trees of any size and depth, all names, constants, ranges and dimensions", "why_tests_cant": "Injectivity is about all pairs of trees; tests compare single dumps with single expected texts, and rely on it.", "anchors": ["pyverilog/dataflow/dataflow.py:DFTerminal.tostr", "pyverilog/dataflow/dataflow.py:DFOperator.tostr", "pyverilog/dataflow/dataflow.py:DFBranch.tostr", "pyverilog/dataflow/dataflow.py:DFEvalValue.tostr", "pyverilog/dataflow/dataflow.py:Term.tostr", "pyverilog/dataflow/dataflow.py:Bind.tostr", "pyverilog/utils/scope.py:ScopeLabel.__repr__"]}
{"id": "C88", "title": "Only tests of the reset are removed as reset conditions", "statement": "The control flow analyses remove from the conditions of a register exactly the tests of its reset signal (remove_reset_condition): conditions on other signals are kept.", "quantifier": "all condition lists, conditions of any size, all names of signals, instances and blocks", "why_tests_cant": "The decision depends on a search in the dump of an arbitrary condition with arbitrary names in it.", "anchors": ["pyverilog/controlflow/splitter.py:_remove_reset_cond", "pyverilog/controlflow/splitter.py:remove_reset_condition", "pyverilog/utils/signaltype.py:isReset", "pyverilog/dataflow/dataflow.py:DFTerminal.tostr"]}
{"id": "C89", "title": "The longest token is read", "statement": "The tokens the parser gets from a text are those obtained by cutting off, again and again, the longest piece at the front that is a token of Verilog (name, reserved word, operator, integer, real or string literal), a blank, a newline, a comment or a directive; a text can be cut in one way only, and a lexical error is reported exactly when the cuts lead to a place where no such piece begins.", "quantifier": "all texts", "why_tests_cant": "Which rule of the lexer applies depends on an unbounded text and on the order in which PLY tries the rules, not on the lengths of the matches; tests show single tokens.", "anchors": ["pyverilog/vparser/lexer.py:VerilogLexer.token", "pyverilog/vparser/lexer.py:VerilogLexer.t_FLOATNUMBER", "pyverilog/vparser/lexer.py:VerilogLexer.t_INTNUMBER_DEC", "pyverilog/vparser/lexer.py:VerilogLexer.t_SIGNED_INTNUMBER_BIN", "pyverilog/vparser/lexer.py:VerilogLexer.t_ID", "pyverilog/vparser/lexer.py:VerilogLexer.t_LINECOMMENT", "pyverilog/vparser/lexer.py:VerilogLexer.t_STRING_LITERAL"]}
{"id": "C90", "title": "The dump of a syntax tree determines the tree", "statement": "Two syntax trees have the same dump (show(), written with the same options) only if they are the same tree: the same classes, attribute values and children in the same order at every node, and the same line numbers if they are shown. In particular the dump of a parsed expression or statement belongs to one expression or statement only.", "quantifier": "all trees of any depth and width, all attribute values and line numbers, both values of the options attrnames and showlineno, all offsets", "why_tests_cant": "Injectivity is about all pairs of trees; the tests of the package compare dumps with expected texts and rely on it.", "anchors": ["pyverilog/vparser/ast.py:Node.show", "pyverilog/vparser/ast.py:IfStatement.children", "pyverilog/vparser/ast.py:Block", "pyverilog/vparser/ast.py:Identifier.children"]}
{"id": "C91", "title": "A function call has the value of the function", "statement": "In the dataflow of a module the tree of assign y = e has the value of e, in which a call f(a, ...) has the value that the body of f leaves in the variable f when its inputs hold the values of the arguments; every call has its own copies of the variables of f, so different calls do not disturb each other or the signals of the module. A call with a wrong number of arguments is refused with an error of the analysis.", "quantifier": "all modules with functions and continuous assignments, all expressions with nested calls, all values of the signals", "why_tests_cant": "Calls nest without bound, each call adds signals with equations of its own, and the claim ranges over all bodies, all expressions and all values of the signals.", "anchors": ["pyverilog/dataflow/bindvisitor.py: makeDFTree (FunctionCall), searchFunction, searchFunctionPorts, visit_Function, addTerm, addDataflow, addDataflow_blocking, setRenamedTree", "pyverilog/dataflow/visit.py: FrameTable.addFrame, addFunction, addFunctionPort"]}
{"id": "C92", "title": "The ranges of an active term mean what its operations say", "statement": "The analyzer of active conditions describes the values of a signal by ranges. Negating a term gives exactly the other values between the signal's smallest and largest value, a conjunction of two terms of a signal gives exactly the common values, `satisfy(value)` answers whether the value is in a range, and `toTree()` gives an expression that holds for exactly these values. A condition is satisfied by an assignment of values exactly when each value of a signal it mentions is in the ranges of that signal, and `split(signal)` separates the terms of the signal from the others.", "quantifier": "every term (any list of ranges, overlapping, unsorted or open above), every value", "why_tests_cant": "the ranges are arbitrary lists of integers; tests try a few", "anchors": ["pyverilog/controlflow/active_range.py:ActiveTerm.opNot", "pyverilog/controlflow/active_range.py:ActiveTerm.satisfy", "pyverilog/controlflow/active_range.py:ActiveTerm.toTree", "pyverilog/controlflow/active_range.py:ActiveCondition._and_range_pairs", "pyverilog/controlflow/active_range.py:ActiveCondition.set", "pyverilog/controlflow/active_range.py:ActiveCondition.satisfy", "pyverilog/controlflow/active_range.py:ActiveCondition.split"]}
{"id": "C93", "title": "Active conditions are true exactly when the signal is active", "statement": "getActiveConditions, getChangedConditions and getUnchangedConditions return conditions on the values of signals. Outside reset, some returned condition is true under a valuation exactly when the conditional tree of the signal selects, under this valuation, a value that passes the test of the function (a constant in the given relation, another value than the signal itself, or the signal itself). getChangedConditionsWithAssignments returns such conditions with the value that the tree selects when the condition is true.", "quantifier": "every conditional tree, every condition in it, every valuation within the widths of the signals, every test and every reset predicate", "why_tests_cant": "conditions nest arbitrarily, the terms are shared between conditions and changed in place, and the claim is about all valuations", "anchors": ["pyverilog/controlflow/active_range.py:VerilogActiveAnalyzer.getActiveConditions", "pyverilog/controlflow/active_range.py:VerilogActiveAnalyzer.getChangedConditions", "pyverilog/controlflow/active_range.py:VerilogActiveAnalyzer.getUnchangedConditions", "pyverilog/controlflow/active_range.py:VerilogActiveAnalyzer.inferActiveConditions", "pyverilog/controlflow/active_range.py:VerilogActiveAnalyzer.walkActiveCond", "pyverilog/controlflow/active_range.py:ActiveCondition.resolve", "pyverilog/controlflow/active_range.py:VerilogActiveAnalyzer.getChangedConditionsWithAssignments"]}
{"id": "C94", "title": "state machines and loops that are reported", "statement": "getFiniteStateMachines() returns a machine for exactly the assigned signals whose printed path contains one of fsm_vars (whatever the case) and that have a machine with transitions out of a state; each reported machine belongs to the clocked register at the end of the signal's chain of copies, with the length of the chain as delaycnt, and out of reset it goes from a state exactly to the value the register's data flow tree selects. getLoops() returns exactly the loops of the reported machines, for exactly the machines that have loops. getWidth() is the number of bits of the declared range. As the code is, the whole path counts for the name (every signal below an instance called counter0 is searched), and a machine whose next state never depends on its state is not reported.", "quantifier": "all word lists without the empty word, reset predicates, simplifications preserving conditions, term tables, trees and widths, signals, lengths of copy chains, valuations and states", "why_tests_cant": "Tests look at one design; which signals are found depends on the names and on chains of copies of any length.", "anchors": ["pyverilog/controlflow/controlflow_analyzer.py:VerilogControlflowAnalyzer.getFiniteStateMachines", "pyverilog/controlflow/controlflow_analyzer.py:VerilogControlflowAnalyzer.getLoops", "pyverilog/controlflow/controlflow_analyzer.py:VerilogControlflowAnalyzer.isFsmVar", "pyverilog/controlflow/controlflow_analyzer.py:VerilogControlflowAnalyzer.getWidth"]}
{"id": "C95", "title": "drawn state machines", "statement": "tograph() of a state machine draws exactly one node per state and per target of a transition, labelled with the state; a line from a to b exactly if the machine has a transition from a to b (its own or one possible in every state); and, unless nolabel, labels the line with the condition of that transition. As the code is, a line has one label (the graph is strict), so the condition of a state's own transition is lost where a transition possible in every state has the same target, and of a condition that is an operation only the name of the operator is drawn: machines with quite different conditions have the same picture.", "quantifier": "all machines (any states, transitions, conditions), with and without labels", "why_tests_cant": "Tests compare no pictures; which labels survive depends on all transitions of a machine.", "anchors": ["pyverilog/controlflow/controlflow_analyzer.py:FiniteStateMachine.tograph", "pyverilog/dataflow/dataflow.py:DFOperator.__repr__"]}
{"id": "C96", "title": "A for loop in an always block opens one scope for each turn", "statement": "When the statements of an always block are analysed, scopes are opened for its if sides, case items, begin-end blocks and loop turns, in the order and nesting of the statements and no others. A for loop opens one scope for each turn, named by the value of its variable: for (i = e; i < N; i = i + 1) gives exactly one for each value from e up to, but without, N, with the scopes of the body inside. After the loop its variable has the value with which the condition failed. A loop whose variable does not change is an error, the analysis does not run forever.", "quantifier": "all always blocks with any nesting of statements, all constant loop headers, all numbers of turns, all values of parameters", "why_tests_cant": "The number of turns and the nesting are unbounded and depend on the values of parameters.", "anchors": ["pyverilog/dataflow/signalvisitor.py:SignalVisitor.visit_ForStatement", "pyverilog/dataflow/signalvisitor.py:SignalVisitor.visit_IfStatement", "pyverilog/dataflow/signalvisitor.py:SignalVisitor._case", "pyverilog/dataflow/signalvisitor.py:SignalVisitor.visit_Block", "pyverilog/dataflow/signalvisitor.py:SignalVisitor.visit_Always", "pyverilog/dataflow/signalvisitor.py:SignalVisitor.visit_BlockingSubstitution"]}
{"id": "C97", "title": "Loops in always blocks are unrolled turn by turn when assignments are collected", "statement": "When the assignments of an always block are collected, a for loop makes its first assignment and then analyses its body once for each turn, in a new scope of its own named by the value of the loop variable: first the static value of the first assignment, then the static value of the second one computed after the turn; a while loop analyses its body once for each turn in a scope named by the number of the turn. Turns follow as long as the condition is true. The blocking assignments a turn makes are known behind it. No two turns have the same value (a repetition is an error), scopes are never removed, and every statement ends in the scope in which it started.", "quantifier": "all statements, with any nesting, all loop headers and any number of turns, all states of the pass", "why_tests_cant": "The number of turns and the nesting are unbounded; each turn depends on the tables left by the earlier ones.", "anchors": ["pyverilog/dataflow/bindvisitor.py:BindVisitor.visit_ForStatement", "pyverilog/dataflow/bindvisitor.py:BindVisitor.visit_WhileStatement", "pyverilog/dataflow/bindvisitor.py:BindVisitor.copyBlockingAssigns", "pyverilog/dataflow/bindvisitor.py:BindVisitor.stackNextFrame", "pyverilog/dataflow/visit.py:FrameTable.addFrame"]}
{"id": "C98", "title": "Undeclared names on the left of a continuous assignment", "statement": "A continuous assignment to a name that is declared nowhere around it declares this name as a net of the default type with one bit, in the scope of the assignment; nothing else is declared, the name is found afterwards, and the assignment is recorded for this net. An assignment to a declared name declares nothing. Under `default_nettype none an undeclared name is refused. In an always block an undeclared name is refused.", "quantifier": "all states of the analysis, all names, all right sides, all default net types", "why_tests_cant": "Any state of the tables and any right side; the absence of other declarations is a statement about all names.", "anchors": ["pyverilog/dataflow/bindvisitor.py:BindVisitor.getDst", "pyverilog/dataflow/bindvisitor.py:BindVisitor.addTerm", "pyverilog/dataflow/bindvisitor.py:BindVisitor.searchTerminal", "pyverilog/dataflow/bindvisitor.py:BindVisitor.visit_Assign"]}
{"id": "C99", "title": "The printed state machine tells the machine's transitions", "statement": "FiniteStateMachine.view prints one line for every transition of the machine and nothing else: first the transitions of every state, then those of each state, in the order in which they were recorded, as `any -- CONDITION--> DESTINATION` or `SOURCE --CONDITION--> DESTINATION`. Source, text of the condition and destination can be read back from the line, and the lines from the whole text; machines that are printed alike have the same transitions under the same conditions.", "quantifier": "All state machines: any number of states and transitions, any states (also negative), any conditions.", "why_tests_cant": "The separator `--> ` and the word `None` may be imitated by the text of a condition; tests look at some machines' texts and never ask whether another machine has the same text.", "anchors": ["pyverilog/controlflow/controlflow_analyzer.py:FiniteStateMachine.view", "pyverilog/dataflow/dataflow.py:DFNode.tocode"]}
{"id": "C100", "title": "Equality and hashing of dataflow nodes", "statement": "Two dataflow nodes compare equal exactly when they are the same tree; comparison is symmetric and transitive and never fails; equal nodes have equal hashes. So a dictionary with conditions as keys (as the state machines use them) finds a condition if and only if that very condition was put in, whatever the hash function does.", "quantifier": "All pairs of dataflow trees, of any size; all hash functions of the things trees are made of, including functions with collisions; all dictionaries.", "why_tests_cant": "Collisions of hash values depend on the run and on the interpreter; equality is a recursion over trees of any shape.", "anchors": ["pyverilog/dataflow/dataflow.py:DFNode.__eq__", "pyverilog/dataflow/dataflow.py:DFNode.__hash__", "pyverilog/dataflow/dataflow.py:DFDelay.__eq__", "pyverilog/utils/scope.py:ScopeChain.__eq__"]}
