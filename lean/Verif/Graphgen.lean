import Verif.Walker
/-
  Model of pyverilog/dataflow/graphgen.py: the graph that is handed to graphviz.
-/
namespace Pyv

/-- The class names of the operators: the strings `DFOperator.operator` holds (keys of op2mark.py:10-20). -/
def Op.pyName : Op → Str
  | .uminus => "Uminus".toList | .ulnot => "Ulnot".toList | .unot => "Unot".toList | .uand => "Uand".toList
  | .unand => "Unand".toList | .uor => "Uor".toList | .unor => "Unor".toList | .uxor => "Uxor".toList
  | .uxnor => "Uxnor".toList | .power => "Power".toList | .times => "Times".toList | .divide => "Divide".toList
  | .mod => "Mod".toList | .plus => "Plus".toList | .minus => "Minus".toList | .sll => "Sll".toList
  | .srl => "Srl".toList | .sla => "Sla".toList | .sra => "Sra".toList | .lessThan => "LessThan".toList
  | .greaterThan => "GreaterThan".toList | .lessEq => "LessEq".toList | .greaterEq => "GreaterEq".toList
  | .eq => "Eq".toList | .notEq => "NotEq".toList | .eql => "Eql".toList | .notEql => "NotEql".toList
  | .and => "And".toList | .xor => "Xor".toList | .xnor => "Xnor".toList | .or => "Or".toList
  | .land => "Land".toList | .lor => "Lor".toList

/-- `tolabel()` of every node class: dataflow.py:57 (`__repr__`, with the `__repr__`s of 122-123, 229-230, 274-275,
322-323, 360-361, 402-403, 491-503, 547-553, 582-588, 617-618, 652-653) and 100-101 (Terminal: `tocode`). -/
def DF.tolabel : DF → Py Str
  | .op o _ => .ok o.pyName
  | .psel _ _ _ => .ok "PartSelect".toList
  | .ptr _ _ => .ok "Pointer".toList
  | .concat _ => .ok "Concat".toList
  | .branch _ _ _ => .ok "Branch".toList
  | .delay _ => .ok "Delay".toList
  | .sys _ _ => .ok "Syscall".toList
  | t => t.tocode []

/-- The colours graphgen.py writes. -/
inductive Colour where
  | black | orange | blue | green | red
  deriving DecidableEq, Repr

/-- The edge labels graphgen.py writes: 'VAR', 'MSB', 'LSB', 'PTR', 'COND', 'TRUE', 'FALSE'. -/
inductive ELabel where
  | var | msb | lsb | ptr | cond | tru | fals
  deriving DecidableEq, Repr

/-- `VerilogGraphGenerator` (graphgen.py:37-57): the pygraphviz graph `AGraph(directed=True)`, which is strict (one
edge for a pair of nodes), and `renamecounter`.  A node carries its `label` and `color` attributes, an edge its
`label` and `color`.  Simplification: attributes are kept as values, in the order of creation. -/
structure Graph where
  nodes : Dict Str (Option Str × Option Colour)
  edges : Dict (Str × Str) (Option ELabel × Colour)
  counter : Nat
  deriving DecidableEq, Repr

/-- `self.identical` and `self.withcolor`. -/
structure GCfg where
  identical : Bool
  withcolor : Bool

/-- The colour that is written: graphgen.py:189-190, 197-198. -/
def GCfg.paint (c : GCfg) (col : Colour) : Colour := if c.withcolor then col else .black

/-- pygraphviz `add_node(name, **attr)`: a node that exists only gets the given attributes. -/
def Graph.node (g : Graph) (name : Str) (label : Option Str) (col : Option Colour) : Graph :=
  let old := (g.nodes.get? name).getD (none, none)
  { g with nodes := g.nodes.set name (label.orElse (fun _ => old.1), col.orElse (fun _ => old.2)) }

/-- graphgen.py:188-194 `add_node`. -/
def Graph.addNode (c : GCfg) (g : Graph) (name : Str) (label : Option Str) (col : Colour) : Graph :=
  g.node name label (some (c.paint col))

/-- graphgen.py:196-202 `add_edge`: creates missing end points; an edge that exists (the graph is strict) only gets
the given attributes. -/
def Graph.addEdge (c : GCfg) (g : Graph) (a b : Str) (col : Colour) (label : Option ELabel) : Graph :=
  let g := (g.node a none none).node b none none
  let old := ((g.edges.get? (a, b)).map (·.1)).getD none
  { g with edges := g.edges.set (a, b) (label.orElse (fun _ => old), c.paint col) }

/-- The text graphgen.py:184 puts between a label and a number. -/
def renameMark : Str := "_graphrename_".toList

/-- graphgen.py:183-186 `rename`. -/
def Graph.rename (g : Graph) (name : Str) : Str × Graph :=
  (name ++ renameMark ++ natStr g.counter, { g with counter := g.counter + 1 })

/-- graphgen.py:172-181 `add_RenamedDF`. -/
def Graph.addRenamed (c : GCfg) (g : Graph) (t : DF) (parent : Str) (col : Colour) (el : Option ELabel) :
    Py (Str × Graph) := do
  let label ← t.tolabel
  let r := g.rename label
  .ok (r.1, ((r.2.addNode c r.1 (some label) col).addEdge c parent r.1 col el))

/-- graphgen.py:161-170 `add_DF`. -/
def Graph.addShared (c : GCfg) (g : Graph) (t : DF) (parent : Str) (col : Colour) (el : Option ELabel) : Py Graph := do
  let name ← t.tolabel
  .ok ((g.addNode c name none col).addEdge c parent name col el)

mutual
/-- graphgen.py:26-35 `visit`/`generic_visit` and the `visit_` methods 90-159.  A DFSyscall has no method: its
children are attached to the parent (dataflow.py:672-676 `children`).  Children that are None are skipped. -/
def Graph.visit (c : GCfg) (g : Graph) (parent : Str) (col : Colour) (el : Option ELabel) : DF → Py Graph
  | .none => .ok g
  | .term n => do
    if c.identical then do
      let r ← g.addRenamed c (.term n) parent col el
      .ok r.2
    else g.addShared c (.term n) parent col el
  | .op o ns => do
    let r ← g.addRenamed c (.op o ns) parent col el
    Graph.visitList c r.2 r.1 col none ns
  | .psel v m l => do
    let r ← g.addRenamed c (.psel v m l) parent col el
    let g1 ← Graph.visit c r.2 r.1 col (some .var) v
    let g2 ← Graph.visit c g1 r.1 .orange (some .msb) m
    Graph.visit c g2 r.1 .orange (some .lsb) l
  | .ptr v p => do
    let r ← g.addRenamed c (.ptr v p) parent col el
    let g1 ← Graph.visit c r.2 r.1 col (some .var) v
    Graph.visit c g1 r.1 .orange (some .ptr) p
  | .concat ns => do
    let r ← g.addRenamed c (.concat ns) parent col el
    Graph.visitList c r.2 r.1 col none ns
  | .branch cn t f => do
    let r ← g.addRenamed c (.branch cn t f) parent col el
    let g1 ← Graph.visit c r.2 r.1 .blue (some .cond) cn
    let g2 ← Graph.visit c g1 r.1 .green (some .tru) t
    Graph.visit c g2 r.1 .red (some .fals) f
  | .delay n => do
    let r ← g.addRenamed c (.delay n) parent col el
    Graph.visit c r.2 r.1 col none n
  | .sys _ ns => Graph.visitList c g parent col el ns
  | .intc s => do let r ← g.addRenamed c (.intc s) parent col el; .ok r.2
  | .fltc s => do let r ← g.addRenamed c (.fltc s) parent col el; .ok r.2
  | .strc s => do let r ← g.addRenamed c (.strc s) parent col el; .ok r.2
  | .ev v w a b => do let r ← g.addRenamed c (.ev v w a b) parent col el; .ok r.2
  | .undef w => do let r ← g.addRenamed c (.undef w) parent col el; .ok r.2
  | .hiz w => do let r ← g.addRenamed c (.hiz w) parent col el; .ok r.2
/-- graphgen.py:31-35 `generic_visit` over the children. -/
def Graph.visitList (c : GCfg) (g : Graph) (parent : Str) (col : Colour) (el : Option ELabel) : List DF → Py Graph
  | [] => .ok g
  | n :: ns => do
    let g1 ← Graph.visit c g parent col el n
    Graph.visitList c g1 parent col el ns
end

/-- The keyword arguments of `generate` (graphgen.py:59); `delay` is only handed to the walker, which never reads
it. -/
structure GOpts where
  identical : Bool := false
  walk : Bool := true
  step : Int := 1
  reorder : Bool := false

/-- graphgen.py:59-75: the tree that is drawn.  `opt` is `self.optimizer.optimize`.  Simplification: the name is the
scope chain stored in the tables (as in `MergeEnv.walkBind`). -/
def MergeEnv.graphTree (S : MergeEnv) (opt : DF → Py DF) (fuel : Nat) (n : ScopeChain) (o : GOpts) : Py DF := do
  let t0 ← S.getTree n .none
  let _ ← (if t0 = .none then .error .definition else .ok () : Py Unit)
  let t1 ← (if o.walk then do
      let w ← S.walk fuel [] o.step false .none t0
      if o.reorder then S.reo w else .ok w
    else .ok t0 : Py DF)
  let t2 ← opt t1
  let t3 ← (if o.reorder then S.reo t2 else .ok t2 : Py DF)
  replaceUndefined n t3

/-- graphgen.py:59-80 `generate`; `signal` is the text of the signal name. -/
def MergeEnv.generateGraph (S : MergeEnv) (opt : DF → Py DF) (fuel : Nat) (withcolor : Bool) (g : Graph) (signal : Str)
    (n : ScopeChain) (o : GOpts) : Py Graph := do
  let t ← S.graphTree opt fuel n o
  let r := g.rename signal
  let c : GCfg := ⟨o.identical, withcolor⟩
  Graph.visit c (r.2.addNode c r.1 (some signal) .black) r.1 .black none t

end Pyv
