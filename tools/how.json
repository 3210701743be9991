{
 "C01": "Model: ScopeLabel/ScopeChain equality and the tuple that is hashed. Structural induction.",
 "C02": "Model: equality with the wildcard type 'any', toTermname. Induction on the chains.",
 "C03": "Model: ScopeChain.tocode. Injectivity by decoding the underscore separated text.",
 "C04": "Model: DFIntConst.eval, the regex searches as first-match functions. Induction over digit strings against a positional value specification.",
 "C05": "Model: DFIntConst.width. Case analysis of the literal grammar.",
 "C06": "Model: _evalOperator. One lemma per operator against Lean's integer/bit operations; loops by induction on the width.",
 "C07": "Model: optimizeConstant. Induction on fuel with a refinement relation between the trees' values under any valuation.",
 "C08": "Model: optimizeConstant. Normal form predicate, induction on fuel.",
 "C09": "Model: optimizeHierarchy and its helpers. Truth-value semantics, induction on fuel; the fragment excludes the rewritings with witnesses.",
 "C10": "Free variable inclusion, induction on fuel.",
 "C11": "Model: takePart. Bit semantics of concatenations.",
 "C12": "Model: the mergeConcat loops. Loop invariants on the bit semantics.",
 "C13": "Model: resolveConstant with its two passes over the table. Invariant of the table of constants.",
 "C14": "Model: reorder. Induction over the tree with the ideal semantics.",
 "C15": "Normal form predicate of reorder's results.",
 "C16": "A measure that decreases with every recursive call.",
 "C17": "Model: replaceUndefined. Structural induction.",
 "C18": "Model: splitter.split. Path semantics of condition lists.",
 "C19": "Model: splitter.filter and the reset filter helpers.",
 "C20": "Model: transition's complement of a set of ranges; interval arithmetic, loop invariant of the sweep.",
 "C21": "Model: intersection of sets of ranges.",
 "C22": "Model: utils/inference.py. Case analysis per comparison.",
 "C23": "Model: walkCond of transition.py. Induction over the condition; both inclusions.",
 "C24": "Model: get_loop's search. Induction on the depth with the path as invariant.",
 "C25": "Model: the rotation to the smallest state and the set of loops.",
 "C26": "Induction on the depth: every simple cycle within the limits is found.",
 "C27": "Model: FiniteStateMachine construction and resolve. Histories of construct calls.",
 "C28": "Model: getSources. Structural induction.",
 "C29": "Model: mergeTree. Semantics 'value or not assigned'.",
 "C30": "Model: splitBind. Arithmetic on the pieces; bit semantics for the contents.",
 "C31": "Model: the positions computed for overlapping ranges.",
 "C32": "Model: getMergedTree. Bit semantics of the concatenation of pieces.",
 "C33": "Model: walkTree with its visited set and step counter. The set of unvisited names decreases.",
 "C34": "Leaf invariant over the walk.",
 "C35": "Model: getBindSubset, with the iteration order of Python sets as a parameter. Reachability closure, invariant of the two loops, termination by unvisited names and acyclic clocks.",
 "C36": "Model: DataFlow.addBind. Refinement of every history to an abstract map.",
 "C37": "Model: DataFlow.addTerm. Refinement of every history to an abstract map.",
 "C38": "Model: Label/Labels. Histories of get calls; decimal representation is injective.",
 "C39": "Model: DefinitionInfoTable. Histories of calls.",
 "C40": "Model: Frame.setBlockingAssign / addNonblockingAssign.",
 "C41": "Model: codegen.visit on expressions with the templates, lexer.py, the expression grammar of parser.py as a shift/reduce machine. (1) the printed text is cut into the expected tokens (induction, with the characters that may follow each token); (2) the machine reduces these tokens to the tree (induction, with the level of the waiting operator).",
 "C42": "Same model; the grammar of balanced brackets on tokens.",
 "C43": "Model: identifierreplace.py, identifiervisitor.py. Structural induction over expressions and statements.",
 "C44": "Model: util.dictlistmerge with the effect on its arguments. Induction over the second dictionary.",
 "C45": "Exhaustive over the operator tables (finite), and the grouping of `a o b o' c` by the parser for all operand expressions.",
 "C46": "Model: remove_reset_condition. Meaning out of reset: C46_semantics.",
 "C47": "Model: label range and size of FiniteStateMachine. Fold invariants.",
 "C48": "Composition of C18, C23, C27. The machine after remove_reset_condition and resolve: machineOf (FsmReset.lean).",
 "C49": "Model: merge of the assignments of one range. Invariant of the loop.",
 "C50": "Model: Merge's getTree on arrays.",
 "C51": "Model: optimizer. Rank function on the terms of ranges.",
 "C52": "Free variables of reorder.",
 "C53": "Free variables of walkTree's and getTree's results.",
 "C54": "Step counter invariant of walkTree.",
 "C55": "Value of the walked tree under valuations that solve the netlist.",
 "C56": "Model: diffBranchTree, makeBranchTree, appendBranchTree. Induction over the path.",
 "C57": "Model: makeDFTree and resolveBlockingAssign. Induction over expressions with a value semantics of Verilog expressions (ideal integers).",
 "C58": "Model: the whole visit of always blocks (frames, heap of assignments, labels). Simulation: operational semantics of the statements against the tree of the register; frames invariant, other blocks untouched.",
 "C59": "Model: _createAlwaysinfo. Fold invariant over the sensitivity list.",
 "C60": "Model: searchTerminal. Induction over the scope.",
 "C61": "Model: getAssignType and _discretion. Fold invariants.",
 "C62": "Model: Node.__eq__ and __hash__. Mutual induction.",
 "C63": "Model: DF.tocode, lexer and expression parser. Every construct's text is lexed and reduced on any stack where an expression may begin (induction over the expression); the text is a function of the expression the tree stands for.",
 "C64": "Model: stepBracket. The parser is run symbolically on the text for arbitrary operands.",
 "C65": "Model: Stmt.code (generator with its templates and textwrap.indent), lex, sstep (statement parser on top of the expression parser). The printed text is a re-indentation of a flat text, which is lexed token by token; the tokens are read by induction over the statement on any stack where a statement may begin; the expression parser's runs are embedded because an expression below a terminator can never be reduced again (step_shape).",
 "C66": "Model: lex, indentN, indentAssign. Induction over the text: the lexer's state at a line end does not depend on the blanks that follow.",
 "C67": "Model: BV.getDst, getDsts, parts, getDestinations, makeBind, setDataflow, setNonblocking, addBindObj (Binder.lean). Specification: targets, slices, shares (DstSpec.lean), written from the Verilog rules. Structural induction over the left side, induction over the destinations with C14 for the offsets, an invariant of the store of assignments.",
 "C68": "Model: active_analyzer.py (Active.lean) on top of Splitter, Transition, Fsm. Membership lemma for the nested loops; nodes that are not 'any' are preserved by conjunction and negation; composition of C18, C19, C23, C46.",
 "C69": "Model: getFuncdict with recursion depth. Induction on the depth and on the chain of copies.",
 "C70": "Model: Module.lean (generator templates), ModuleParser.lean (module part of the LALR parser as a stack machine above the statement and expression parsers). Texts are composed by a printing relation Pr (re-indentation of a text that lexes to given tokens); the tokens are read item by item; runs of the inner parsers are embedded (lift_mex, lift_stmt). Generate constructs: induction over nested items, with the dangling else and the missing separators after `end` as conditions.",
 "C71": "Model: inheritIo, createIo. Induction over the relation Abbrev between abbreviated and full headers.",
 "C72": "Model: createDecls, createDeclAssign, stepInts, stepNames, stepPdecl. Specification: Group with its text and its items. Induction over the names.",
 "C73": "Instance of C70; the counterexample is run through lexer and parser.",
 "C74": "Model: addBlocking with renaming, copyBlocking. Specification: baRun (BaSpec.lean), the execution of the statements in order. Counterexamples by evaluation. Positive theorem: invariant over the frames (which assignment object each frame knows), the table of assignments and the objects (BaFrames, BaStep), one step per assignment (BaAssign), the copies at the end of if, case and begin-end (BaSides, BaOpen), values (BaSem), induction over statements (BaGood, BaTop).",
 "C75": "Model: Elab.lean. Specification: ElabSpec.lean (flatten: the list of equations; Eqn.Holds). Invariant Inv over the traversal (terms declared so far, one whole assignment per signal, module frames); Does: a step records its equations and keeps the others; induction over the depth of the hierarchy, using C57, C58, C59 for expressions and always blocks.",
 "C76": "Corollary of C75 for the equations of parameters at every place of the hierarchy (InDesign).",
 "C77": "Part of C75: reductions of concatenations of bits (concat_bits).",
 "C78": "Model BindCode.lean (Bind.tocode and its helpers). Spec: BindMeans b i says which module item makes the assignment (via Means of C63). Reading back: the token and parser lemmas of C70 for the printed pieces; values: induction over trees with exVal / nbRun / baRun.",
 "C79": "Model LexPos.lean (the PLY loop with lineno, lexpos, directives, default_nettype and t_error around the scanners of Lexer.lean). Spec: a text is a list of pieces (tokens spelt as in LexSpec, and gaps); tokensAt/directivesAt compute lines and positions from the text in front. Induction over the length of the remaining text; every scanner is shown to cut off a well-formed piece, and to fail only where no well-formed piece begins.",
 "C80": "Same model and induction as C79; columnOf counts the characters since the last newline. Both theorems are exact descriptions for all texts.",
 "C81": "Spec GrammarSpec.lean: an inductive layered grammar (layers from a table like IEEE 1364 table 5-4). Completeness: induction over derivations, for every stack and lookahead that leave room for the layer. Soundness: an invariant of the shift/reduce machine giving each stack symbol a derivation from its tokens, with relations between neighbours (an operator on the stack is stronger than the one waiting below, operands are of the layers required, nothing lies over the operand of a prefix operator).",
 "C82": "Model: Graphgen.lean (strict AGraph as dictionaries of nodes and edges, rename counter, visit). Spec: Shows/ShowsAll (exact ordered out-lines) and Covers (shared signals). Proof: every visit only appends fresh nodes and lines (Grown), and what it appends shows the tree in every graph that contains it (Drawn, compositional); shared mode by intervals of the rename counter (CoversIn).",
 "C83": "Spec StmtGrammar.lean: an inductive grammar in which a statement carries the flag that it ends with an if without else; the branch in front of an else must not. Completeness: induction over derivations gives a run of the machine from any stack on which a statement may begin, or, if a loop is the last branch of an if, a run to a state without action. Soundness: an invariant giving each symbol of the statement stack a derivation from its tokens, on top of the invariant of the expression stack (C81); the else-conflict is in the invariant (a complete statement with open if is not followed by else).",
 "C84": "DataflowCodegen.lean models dataflow_codegen.py on top of the classification (C61), the subset (C35) and Term.tocode/Bind.tocode. Spec: TermMeans (what declaration a signal stands for, via Term.Shows), BindMeans (C78), Printable, Faithful. Proof: the header is lexed for any indentation and list of ports (the cut of two characters is shown to remove the last comma), every piece of the text is an item for the module machine (ItemReads), replacing dots is the identity on texts without dots (proved over all trees); values by C78. C84_no_ports runs the parser to the state with `)` after a comma, from which there is no step.",
 "C85": "SignalVisitor.lean models signalvisitor.py with the frame table of visit.py. Spec (Props/GenSpec): Opens, an inductive elaboration relation over items, loops and instances with ideal integer constants (ConstVal over Sem), independent of frames and labels; ShowsScope relates an entry of the frame table to a scope. Proof: EnvAt says that the constants visible in a frame are an environment; Grew describes the effect of a step (frames appended, current frame extended, values outside the environment kept) and composes; induction on Opens over all hierarchies and numbers of turns. The evaluation of constants rests on C06/C07 (GenEval), the module table on C48's model (GenTable).",
 "C86": "HierName.lean models searchMatchedScopeChain, toScopeChain, getModuleScopeChain and searchScopeTerminal over the frame table of SignalVisitor.lean. Spec: NamedBy, when a path of labels is described by steps `name` and `name[index]`. Proof: FrameTree.lean, an invariant of the whole first pass: the frames form a tree and the next lists are the children; soundness, completeness and termination of the search by induction on the depth, which is bounded by the number of frames.",
 "C87": "Model: tostr of all node classes, of signals and of assignments (Dump). A reader of dumps is written for the proof; induction on the tree shows that it reads every plain tree back from its dump, whatever follows; injectivity follows. The converse by induction.",
 "C88": "Model: isReset(cond.tostr()) on the modelled dump. The dump is cut at brackets, blanks, dots and commas, none of which occurs in the words searched for; induction on the tree shows that an occurrence lies inside a name or a text.",
 "C89": "Specification: Munch (cut off the longest piece), over the grammar of pieces of C79 (Piece.OK, LexSpec). For every piece at the front of a text lexTok cuts off that piece or a longer one (lexTok_longest: the scanners one by one; the rules for operators are sorted so that no proper prefix comes first, rules_sorted); with lexTok_cut (C79) the cuts of lex and of Munch agree.",
 "C90": "Model: Node.show with the attr_names of all classes, children() of the classes of expressions and statements (Show). The text determines its lines (no line break in a line), a line determines indentation and head, the head determines class, values and line numbers (read from the end), and the indentations determine the tree: induction on the tree with the lines behind it. For expressions and statements: the map to nodes is injective, by induction; sderives_whole connects it with the grammar of C83.",
 "C91": "Model: Calls.lean (makeDFTree with calls threads the state of the visitor: label and frame of the call, declarations, argument and body assignments through the model of the binder). Specification: CallSpec.lean gives an expression with calls a value directly (bodies are run as assignments to a store). Proof: states of a call are described by frames without conditions and always flag (CallQuiet), one blocking assignment leaves a renamed signal and its equation (CallBody), the body is an induction over statements with equations that later assignments do not touch (CallSteps), expressions an induction over nested calls (CallProps), modules by the list of assignments (CallTop).",
 "C92": "the loops shared with transition.py (C20); sorting keeps membership; values of the trees in the ideal semantics",
 "C93": "heap of shared terms; the walk denotes the condition (induction on the condition) with a frame for the terms made before; then lists, reports, and C18 for the split of the tree",
 "C94": "The search is modelled as a loop over the assigned signals; the machine of one signal is linked to C69 (chains of copies, in both directions) and C48 (what the machine does), the loops to C24-C26; getWidth is linked to C07.",
 "C95": "The graph is a pair of dictionaries with the overwriting of pygraphviz's strict graphs; the loops of tograph are characterised by what is in the dictionaries in the end.",
 "C96": "SignalVisitor.lean models the first pass. Spec: StmtOpens, the scopes of statements as the language unrolls them, with the values of loop variables. Proof: an invariant of the frame table (frames are only appended; a statement frame declares nothing, so names keep their meaning inside it) and of the constant table, by induction on the derivation. C96_turns derives the scopes of the usual loop header for all bounds.",
 "C97": "Binder.lean models the second pass. Spec: ForTurns, WhileTurns and TurnOf over states of the pass, in terms of the visit of the statements themselves. Proof: every operation of the pass keeps the current scope and the scopes recorded (LoopFrames.lean, induction over statements), so a value can name one turn only, since entering a recorded scope is an error. For the loop variable (LoopVar.lean, C97Var.lean) the spec is ForReads; proof: behind an assignment of a number outside of conditions the tree of the variable is an intermediate signal that the table of constants maps to the number, and the invariants of C74 carry over turns. ReadsAs says it for the variable and all expressions over it, constants (signals that the block does not assign and that the table of constants knows, such as parameters) and literals (CountEx); CountTurns is the loop over integers; proof: makeDF, resolve, reorder keep the tree of such an expression (NumT), and constant folding computes it. While loops (LoopWhile.lean): the assignment inside the turn leaves the same tree in the table of the module, and the copies made at the ends of scopes keep it (Holds). Sub says that a statement is visited in the visit of another one (LoopNest.lean, induction).",
 "C98": "Binder.lean models getDst, addTerm and setDataflow. Spec: Declares (both tables of declarations, pointwise). Proof: case analysis of the search and of the default net type; recording an assignment changes no table of declarations.",
 "C99": "Model: FsmGraph.lean (`Fsm.view`). Specification: `Fsm.moves` lists the transitions, `Told.line` is the form of a line. C99_lines: the view is exactly these lines. C99_line_tells: the destination stands behind the last space, the source in front of the first one, and no number contains a space, so that lines are injective; C99_text_tells adds the line breaks. C99_same_partial composes this with C63_injective.",
 "C100": "Model: NodeEq.lean (`DF.pyEq` with Python's short circuits and exceptions, `DF.hash` over arbitrary hash functions, `nodeGet` for look-up in a dictionary). By induction on the tree, together with C01 and C02 for names. This also justifies the structural equality `DF.beq` and the dictionaries `Dict DF _` used by the rest of the model."
}