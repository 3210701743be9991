## 3. Defects of the code found while modelling

Each is stated by a theorem (negation, or part of the model that a theorem exercises) unless marked (read).

Optimizer and constants
* `_evalOperator` has no case for `Sla`: `1 <<< 3` folds to `DFEvalValue(None)`; `%`, `>>` and `~^` of negatives and big
  divisions fold to other values than Verilog's.
* `evalPointer` shifts node objects: a bit select of a known constant raises TypeError.
* `takePart` with a single used operand returns absolute bounds: `{a,b}[5:4]` (4 bit a, b) becomes `a[5:4]`.
* `mergeStaticNodes` rewrites `~x && x` to 0 for any width; `Divide` by a power of two becomes `Sra` (floor) while
  folding truncates.
* Signed literals have width 32 whatever their size; `?` digits raise; the lexer's class for signed binary
  literals lacks `X`.
* A parameter whose declared range depends on itself makes the optimizer recurse forever.
* Resolution makes two passes: chains of parameters in reverse order stay unresolved.

Control flow
* every condition on a signal with `rst` or `reset` somewhere in its path (`first`, an instance `burst_ctl`) is dropped as if it
  tested the reset (C88_removed_false), and with it the functions guarded by it (C88_first_false).
* the dump of an assignment does not show whether it is clocked, combinational or a parameter (C87_bind_kind_false).
* `LassEq` typo: `<=` is not recognised by inference; `op_LessThan(0)` yields the unbounded range.
* `andStateNode` returns None for an empty intersection, which is then "no constraint".
* `_walkCond_DFOperator_unary` treats `~`, `&`, `|`, ... as identity or logical not; `c >= s` and a bare state raise.
* get_loop prunes by visit counts, stops at depth 51 and ignores transitions valid in any state; states with self
  loops are repeated in reported loops.
* Splitting reports a conditional without leaves as a leaf.

Merging and walking
* `mergeTree` gives priority to the first tree when it is a branch and the second is not.
* `splitBind`: the left piece uses absolute bounds; split positions miss strictly contained ranges and parts outside;
  overlapping element assignments raise NameError (`search`).
* `getMergedTree`: the width of a gap is computed negative; pieces with constant index are skipped.
* `getTree` raises KeyError when the assigned indices of an array have a hole.
* The walker walks an array index twice, loses widths and declared offsets of aliases; undriven wires keep their name.
* reorder drops the index of missing sides.

Binding
* stale copies of values, lost defaults, bodies of casez and unique case unconditional, a `default` that is not last is
  taken first, an empty then-branch raises TypeError, a conditional as condition raises AttributeError
  (`reorder.insertCond`), a concatenated destination is part-selected twice.
* always_ff/always_comb/always_latch are not treated as always (C75_fails_always_ff); `[a +: w]` is parsed as `[a : a+w]`; system calls become 0;
  edges of signals whose names contain neither clk/clock nor rst/reset make the block combinational.
* Frames compare msb twice and never lsb; labels clash for names ending in digits; setBind keeps the clock of the first
  assignment.

* Blocking assignments: a default in front of nested conditions or of a case is lost; a condition that is assigned in its
  own branch is asked for its later value; after an assignment to a whole signal, assignments to its parts are ignored
  when it is read (C74).
* Undeclared destinations are refused under `default_nettype tri, wand, wor, … (C98_fails_tri) and accepted in always blocks
  (C98_fails_always).
* Instances: a localparam is computed with the default of the parameters and never again (C76_fails_localparam); an output
  connected to a concatenation raises FormatError (C75_fails_concat); `not`/`buf` with several outputs take the second
  terminal as input (C77_fails_outputs). (read): in instance arrays every connection becomes `arg[i]` whatever the width
  of the port, and `[0:3]` yields no instances; a supply without range gets msb 31; `real` names are declared nowhere;
  the message of "No such port" reads a missing attribute.

Subset and utilities
* `signaltype.isWireArray` does not exist: `getAssignType` (getSubset, getEntire) raises AttributeError for any signal
  that is not a wire.
* getBindSubset never returns when clocks are circular; a foreign clock is followed but missing in the names.
* `dictlistmerge` changes the lists of its first argument.
* AST `==` equates nodes whose children are a prefix of the other's, raises IndexError the other way round;
  an if with only a then-branch equals one with only an else-branch.
* identifier replacement drops the hierarchy of a renamed name.
* flat names of different signals can coincide.

Code generation
* no visit_Sla: `a <<< b` is printed `ab`; del_paren removes parentheses that do not match; del_space merges `& &` and
  `| |`, and breaks escaped names and strings in part select bounds.
* an if without else is printed without begin/end in front of an else: the else changes its owner (dangling else);
  casez and unique case statements are printed as their parts; the head of a for loop loses all its spaces (escaped names,
  strings); `textwrap.indent` puts blanks after form feeds and other Unicode line separators inside strings.
* always_ff, always_comb and always_latch are printed without their keyword; `#(parameter A = 1, B = 2)` is printed without
  a comma; the value of an integer is not printed; supplies are printed as a digit; the width of a parameter whose value
  begins and ends with a quote is not printed; semicolons in strings are removed from the header.
* the items of a generate construct are printed without separators (`endassign`, C70_fails_generate).
* `Bind.tocode` does not print which bit of a signal is the clock or the reset (C78_bits_lost).
* `DFDelay.__eq__` refers to a missing attribute (read).

Parser
* the column of a lexical error is one too large on every line but the first (C80_column); the line numbers and directives of a
  second text parsed with the same parser go on from the first (C80_second_text); a directive at the end of a text without newline
  is a lexical error, a `//` comment there is read as divisions (C89_last_comment_false); signed binary literals beginning with `X`
  are lexical errors (C89_signedX_false).
* a comma before the first argument of a call is accepted and dropped (C81_stray_comma);
* an if whose last branch is a for or while without begin/end raises AttributeError (C83_fails_loop), and so does an always
  with such a body: the actions read `end_lineno` of a node that never has one.
* the drawn graph merges equal operands (`{a, a}`, `c ? a : a`) and signals whose names read the same when joined
  by `_` (C82_default_merges).
* the dump of a syntax tree shows a block called `None` like one without a name, and an if that has only an else branch (built by
  hand) like one that has only a then branch (C90_block_name_false, C90_branches_false).
* tasks with outputs are a syntax error (C70_fails_task_output).
* a port without a type takes only direction and range of the port in front of it, not its sign and dimensions; behind
  `output wire a` it takes the type of an earlier port, or becomes None; `logic a;` declares nothing; every `real` variable
  is named `real`; `s u(, a)` connects `a` to the first port; `integer signed` raises ValueError and
  `wire #1 a = #1 b` uses the delay as the name (read).

Elaboration
* a generate condition with a negative value counts as false (C85_negative_false); an instance of a module that has a
  parameter with a range raises FormatError (C85_ranged_parameter); hierarchical names, `$signed` and `$unsigned` in a constant
  raise AttributeError and TypeError (C85_unsupported).
* a hierarchical name without the index of a generate loop is accepted and means the first turn (C86_index_false); one that
  names no scope raises NameError: scope.py:77 uses verror, which it does not import (C86_missing).

Function calls
* in a function called from a continuous assignment earlier assignments are not resolved: `t = p; f = t; t = q;` returns `q`
  (C91_fails_overwritten), and `f = p; f = f & q;` becomes the circular equation `f = f & q` (C91_fails_circular).
* a call with a wrong number of arguments raises AttributeError in making the message (C91_fails_message).

Dataflow to Verilog
* `generateCode` raises AttributeError for every design that assigns a register, an output or the input of an instance
  (C84_nonwire); its text is rejected if the top module has no port besides clock and reset (C84_no_ports); replacing dots
  turns `1.5` into `1_5` (C84_fails_float); genvars are declared without a keyword (C84_fails_genvar); the flat wire of
  the enable input is never declared; a sub-module's `input wire a` is declared `wire wire`, which this parser accepts (read).

Control flow
* every condition on a signal with `rst` or `reset` somewhere in its path (`first`, an instance `burst_ctl`) is dropped as if it
  tested the reset (C88_removed_false), and with it the functions guarded by it (C88_first_false).
* the dump of an assignment does not show whether it is clocked, combinational or a parameter (C87_bind_kind_false).
* `getActiveConditions` raises TypeError for a signal that is active unconditionally (`dict.values()[0]`,
  C68_unconditional_raises); states reached under conditions that do not mention the state register are not reported.
* the range analyzer (active_range.py) reads `n != 3` as `n == 3` (C93_notEq_false), raises FormatError for `<=` and for comparisons of two
  signals, TypeError for `n > 2 && n < 9` (C93_between_raises), loses negated disjunctions, operands of `||` it does not understand, and
  terms that are shared or contradictory (C93_shared_false, C93_contradiction_false); `toTree` prints `x >= hi` for the upper bound
  (C92_tree_closed_false).
* `getFuncdict` recurses without end on registers that copy each other in a circle, or that keep their own value apart
  from the reset (C69_circle_raises).
