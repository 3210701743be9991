# Formal model of PyHDI/Pyverilog in Lean 4 — design

## 1. Trusted base

* Lean 4.33.0's kernel. Every theorem named in MANIFEST.json depends at most on the standard axioms
  `propext`, `Classical.choice`, `Quot.sound` (checked with `#print axioms` and by `vcheck`). No own axioms,
  no compiled-code evaluation (`decide +kernel` is the kernel's own evaluation).
* The reading of the Python source: the model is hand written from `/repo`; the code is never run here. Every
  definition of the model cites the file and lines it models and states its simplifications.
* CPython semantics taken for granted: unbounded integers with floor `%` and `>>`; `tuple`/`list`/`dict` in
  insertion order; `sorted` is a stable sort; `isinstance` dispatch order; exceptions abort the call.
* For C41/C42/C45 and the other properties about the parser: PLY's documented algorithms (order of the token
  rules, precedence based resolution of shift/reduce conflicts). The LALR tables themselves are not built; the
  expression grammar is modelled as a shift/reduce machine (`Verif/ExprParser.lean`).

### Conventions

* Exceptions are values: `Py α := Except PyErr α`, one constructor per Python exception class that occurs.
  E.g. `raise FormatError(..)` in `optimizer.py`, where the name is not imported, is a `NameError`.
* Python `None` in a tree position is the constructor `DF.none` (or `Option`).
* Functions which in Python recurse through tables (term widths, netlists) take a `fuel` argument: the Python
  recursion depth; running out is `PyErr.recursion` (Python's `RecursionError`). Theorems quantify over all
  fuels, and separate termination theorems say when some fuel suffices.
* Integer values are `Int`; DFEvalValue values are `PyVal` (int / float text / string / None). Arithmetic on
  floats and strings is `PyErr.unmodelled`: no theorem speaks about it.
* `math.log` (used by `_isPowerOf2`) is a parameter (`OptCtx.log2`), since it is libm floating point. Theorems
  that need it state the assumption on it explicitly.
* Python's true division followed by `int()` is modelled exactly (53-bit round-half-even).
* Python sets are lists without repetition; where their iteration order matters it is a parameter and the
  theorems quantify over it (`SubsetEnv.order`).
* Objects: `Stores.lean` treats stored terms and assignments as values (the callers pass fresh objects);
  `Binder.lean` has a heap of assignment objects, because frames and the global table share them;
  `dictlistmerge` states its effect on the caller's lists separately.
* A property that is false of the code is kept at full strength in `properties.jsonl`; the theorems are (a) a
  proof of its negation (a concrete witness, or a theorem for all inputs of the bad class) and (b) a theorem
  with suffix `_partial` for the largest fragment I could prove. The fragment is a named predicate whose
  definition is in a specification file or next to the theorem.

### What is modelled

| part of /repo/pyverilog | Lean module | not modelled there |
|---|---|---|
| utils/scope.py, util.py, signaltype.py (names, term types) | Scope, Util, DF | `getScope` helpers used only for printing |
| dataflow/dataflow.py nodes, `DFIntConst.eval/width`, `__eq__`, `__hash__` of nodes | DF, IntConst, NodeEq | `DFDelay`/`DFUndefined` arithmetic |
| dataflow/optimizer.py | Optimizer (semantics: Sem, BitSem, Bits) | float and string arithmetic; `DFSyscall` |
| dataflow/reorder.py, replace.py | Reorder | – |
| controlflow/splitter.py | Splitter | – |
| utils/inference.py, controlflow/transition.py | Transition | range objects with non integer bounds |
| controlflow/controlflow_analyzer.py (getFuncdict, FSM, loops, search for state machines, drawing) | Fsm, Controlflow, FsmGraph | layout and files of drawings, regular expressions in fsm_vars; what `view` prints before an exception |
| controlflow/active_analyzer.py | Active | – |
| controlflow/active_range.py | ActiveRange (spec: Props/ARangeSpec) | printing; the order of the pairs in a set |
| dataflow/merge.py | Merge | printing |
| dataflow/walker.py | Walker | – |
| dataflow/graphgen.py | Graphgen | graphviz (layout, drawing), attribute syntax |
| dataflow/subset.py, utils/util.py `dictlistmerge` | Subset | – |
| dataflow/dataflow.py stores, visit.py tables and frames | Stores | – |
| dataflow/dataflow.py `tostr`; controlflow/splitter.py `_remove_reset_cond` | Dump | dumps of float values |
| dataflow/dataflow.py `Bind.tocode`, `Term.tocode` | BindCode | the sensitivity list of a combinational block (printed as `@*`) |
| dataflow/bindvisitor.py statements, assignments, expressions | Binder (syntax: Ast) | function calls (see Calls), task calls, generate |
| dataflow/bindvisitor.py function calls | Calls (spec: Props/CallSpec) | calls inside bodies of functions, always blocks and conditions; constants of the module; task calls |
| dataflow/bindvisitor.py declarations, parameters, instances; modulevisitor.py; signalvisitor.py; dataflow_analyzer.py `generate` | Elab (spec: Props/ElabSpec) | functions, tasks, generate; instance arrays in signalvisitor |
| utils/identifierreplace.py, identifiervisitor.py, vparser/ast.py equality | Ident | declarations |
| vparser/ast.py `Node.show`, `attr_names`, `children()` | Show | `children()` of declarations and modules |
| utils/op2mark.py, ast_code_generator/codegen.py expressions | Codegen (domain: CodegenSpec) | modules |
| dataflow/signalvisitor.py (frames, constants, generate) | SignalVisitor (spec: Props/GenSpec) | declarations in begin-end blocks, ports and parameters declared in generate constructs, ports of functions and tasks, pragmas |
| dataflow/visit.py, bindvisitor.py (hierarchical names) | HierName | indices that are constants but no integers; the conversion of the index is a parameter |
| dataflow/dataflow_codegen.py, Term.tocode | DataflowCodegen | options changed after construction |
| ast_code_generator/codegen.py procedural statements, templates | StmtCodegen (domain: StmtSpec) | delays, event/wait/forever/fork, null statements |
| ast_code_generator/codegen.py modules, functions, tasks, generate, templates | Module (domain: ModuleSpec) | pragmas, delays, function calls |
| vparser/lexer.py | Lexer (spec: LexSpec, Props/LexLongest), LexPos (lines, positions, directives, `default_nettype`, errors) | the debug entry points |
| vparser/parser.py expressions | ExprParser (spec: GrammarSpec) | indexed scope labels, calls with a hierarchical name |
| vparser/parser.py procedural statements | StmtParser (spec: StmtGrammar) | delays, event/wait/forever/fork, null statements |
| vparser/parser.py modules, ports, declarations, always/initial, instances, functions, tasks, generate | ModuleParser | pragmas, delays, instances of `or` |

Not modelled at all: vparser/preprocessor.py (runs Icarus),
the command line scripts, file handling.

