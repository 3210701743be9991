import Verif.Merge
/-
  Model of the stores of the analysis: pyverilog/dataflow/dataflow.py (`DataFlow`), pyverilog/dataflow/visit.py
  (`Label`, `Labels`, `VariableTable`, `Variables`, `DefinitionInfoTable`, the assignments of a `Frame`).

  Simplification for this file: the stored objects are values.  In the code `setTerm`, `setBind` and
  `setBlockingAssign` mutate the stored object; the callers in bindvisitor.py pass freshly built objects.
-/
namespace Pyv

/-! ### DataFlow -/

/-- dataflow.py:949-957 `DataFlow`: the tables of terms and assignments (the other tables are plain dictionaries). -/
structure DataFlow where
  terms : Dict ScopeChain Term
  binds : Dict ScopeChain (List Bind)

/-- dataflow.py:950-957 `__init__`. -/
def DataFlow.empty : DataFlow := ⟨[], []⟩

/-- `if x is None: x = y`. -/
def DF.orElse (x y : DF) : DF := if x = .none then y else x

/-- dataflow.py:965-972 `setTerm`, the update of one stored term. -/
def Term.merge (old new : Term) : Term :=
  { old with types := setUnion old.types new.types, msb := old.msb.orElse new.msb, lsb := old.lsb.orElse new.lsb,
             dims := if old.dims.isNone then new.dims else old.dims }

/-- dataflow.py:959-972 `addTerm`, `setTerm`. -/
def DataFlow.addTerm (d : DataFlow) (n : ScopeChain) (t : Term) : DataFlow :=
  match d.terms.get? n with
  | none => { d with terms := Dict.set d.terms n t }
  | some old => { d with terms := Dict.set d.terms n (old.merge t) }

/-- dataflow.py:977-980 `getTerm`. -/
def DataFlow.getTerm (d : DataFlow) (n : ScopeChain) : Option Term := d.terms.get? n

/-- dataflow.py:997-1003: replace the tree of the first stored assignment of the same range, or append. -/
def setBindList : List Bind → Bind → List Bind
  | [], b => [b]
  | c :: cs, b => if c.msb = b.msb ∧ c.lsb = b.lsb ∧ c.ptr = b.ptr then { c with tree := b.tree } :: cs else c :: setBindList cs b

/-- dataflow.py:985-1003 `addBind`, `setBind`; the name may be None. -/
def DataFlow.addBind (d : DataFlow) (n : Option ScopeChain) (b : Bind) : Py DataFlow :=
  match n with
  | none => .error .definition
  | some n =>
    match d.binds.get? n with
    | none => .ok { d with binds := Dict.set d.binds n [b] }
    | some bs => .ok { d with binds := Dict.set d.binds n (setBindList bs b) }

/-- dataflow.py:1005-1008 `getBindlist`. -/
def DataFlow.getBindlist (d : DataFlow) (n : ScopeChain) : List Bind := (d.binds.get? n).getD []

/-! ### Labels -/

/-- visit.py:105-131 `Label`, `Labels`: the counters per name. -/
abbrev Labels := Dict Str Nat

/-- visit.py:123-126 `Labels.get` with 110-116 `Label.get`: the label, and the counters afterwards. -/
def Labels.get (l : Labels) (name : Str) : Str × Labels :=
  let c := (Dict.get? l name).getD 0
  (name ++ natStr c, Dict.set l name (c + 1))

/-- visit.py:128-131 `Labels.inc`. -/
def Labels.inc (l : Labels) (name : Str) : Labels := Dict.set l name ((Dict.get? l name).getD 0 + 1)

/-! ### Variables and definitions -/

/-- visit.py:134-154 `VariableTable`: a tuple of variables per name. -/
abbrev VariableTable (V : Type) := Dict Str (List V)

/-- visit.py:138-142 `VariableTable.add`. -/
def VariableTable.add {V : Type} (t : VariableTable V) (n : Str) (v : V) : VariableTable V :=
  match Dict.get? t n with
  | some vs => Dict.set t n (vs ++ [v])
  | none => Dict.set t n [v]

/-- visit.py:169-173 `Variables`. -/
structure Variables (V : Type) where
  signal : VariableTable V
  const : VariableTable V
  genvar : VariableTable V

/-- visit.py:175-178 `addSignal`. -/
def Variables.addSignal {V : Type} (x : Variables V) (n : Str) (v : V) : Variables V :=
  if x.const.has n then x else { x with signal := x.signal.add n v }

/-- visit.py:180-183 `addConst`. -/
def Variables.addConst {V : Type} (x : Variables V) (n : Str) (v : V) : Variables V :=
  if x.const.has n then x else { x with const := x.const.add n v }

/-- visit.py:185-188 `addGenvar`. -/
def Variables.addGenvar {V : Type} (x : Variables V) (n : Str) (v : V) : Variables V :=
  if x.const.has n then x else { x with genvar := x.genvar.add n v }

/-- visit.py:218-224 `DefinitionInfo`. -/
structure DefinitionInfo (D V P : Type) where
  name : Str
  definition : D
  variables : Variables V
  ioports : List P
  params : List Str

/-- visit.py:261-264 `DefinitionInfoTable`. -/
structure DefinitionInfoTable (D V P : Type) where
  dict : Dict Str (DefinitionInfo D V P)
  current : Option Str

variable {D V P : Type}

/-- visit.py:266-270 `addDefinition`. -/
def DefinitionInfoTable.addDefinition (t : DefinitionInfoTable D V P) (n : Str) (d : D) : Py (DefinitionInfoTable D V P) :=
  if t.dict.has n then .error .definition
  else .ok ⟨Dict.set t.dict n ⟨n, d, ⟨[], [], []⟩, [], []⟩, some n⟩

/-- `self.dict[self.current]` updated by `f`: visit.py:272-285. -/
def DefinitionInfoTable.update (t : DefinitionInfoTable D V P) (f : DefinitionInfo D V P → DefinitionInfo D V P) :
    Py (DefinitionInfoTable D V P) :=
  match t.current with
  | none => .error .key
  | some c =>
    match t.dict.get? c with
    | none => .error .key
    | some i => .ok { t with dict := Dict.set t.dict c (f i) }

/-- visit.py:275-276 `addPort`. -/
def DefinitionInfoTable.addPort (t : DefinitionInfoTable D V P) (p : P) : Py (DefinitionInfoTable D V P) :=
  t.update (fun i => { i with ioports := i.ioports ++ [p] })

/-- visit.py:278-279 `addSignal`. -/
def DefinitionInfoTable.addSignal (t : DefinitionInfoTable D V P) (n : Str) (v : V) : Py (DefinitionInfoTable D V P) :=
  t.update (fun i => { i with variables := i.variables.addSignal n v })

/-- visit.py:281-282 `addConst`. -/
def DefinitionInfoTable.addConst (t : DefinitionInfoTable D V P) (n : Str) (v : V) : Py (DefinitionInfoTable D V P) :=
  t.update (fun i => { i with variables := i.variables.addConst n v })

/-- visit.py:284-285 `addParamName`. -/
def DefinitionInfoTable.addParamName (t : DefinitionInfoTable D V P) (n : Str) : Py (DefinitionInfoTable D V P) :=
  t.update (fun i => { i with params := i.params ++ [n] })

/-- visit.py:297-300 `getDefinition`. -/
def DefinitionInfoTable.getDefinition (t : DefinitionInfoTable D V P) (n : Str) : Py D :=
  match t.dict.get? n with
  | none => .error .definition
  | some i => .ok i.definition

/-- visit.py:305-308 `getIOPorts`. -/
def DefinitionInfoTable.getIOPorts (t : DefinitionInfoTable D V P) (n : Str) : Py (List P) :=
  match t.dict.get? n with
  | none => .error .definition
  | some i => .ok i.ioports

/-- visit.py:310-313 `getParamNames`. -/
def DefinitionInfoTable.getParamNames (t : DefinitionInfoTable D V P) (n : Str) : Py (List Str) :=
  match t.dict.get? n with
  | none => .error .definition
  | some i => .ok i.params

/-- visit.py:287-290 `getSignals`. -/
def DefinitionInfoTable.getSignals (t : DefinitionInfoTable D V P) (n : Str) : Py (VariableTable V) :=
  match t.dict.get? n with
  | none => .error .definition
  | some i => .ok i.variables.signal

/-- visit.py:292-295 `getConsts`. -/
def DefinitionInfoTable.getConsts (t : DefinitionInfoTable D V P) (n : Str) : Py (VariableTable V) :=
  match t.dict.get? n with
  | none => .error .definition
  | some i => .ok i.variables.const

/-! ### Assignments of a frame -/

/-- visit.py:493-498, 512-517: replace the tree of the first stored assignment with the same index and most significant
bit (the condition names `msb` twice, the least significant bit is not looked at), or append. -/
def setFrameList : List Bind → Bind → List Bind
  | [], b => [b]
  | c :: cs, b => if c.msb = b.msb ∧ c.msb = b.msb ∧ c.ptr = b.ptr then { c with tree := b.tree } :: cs else c :: setFrameList cs b

/-- visit.py:489-498 `setBlockingAssign` and 508-517 `addNonblockingAssign`. -/
def setFrameAssign (d : Dict ScopeChain (List Bind)) (dst : ScopeChain) (b : Bind) : Dict ScopeChain (List Bind) :=
  match d.get? dst with
  | none => Dict.set d dst [b]
  | some bs => Dict.set d dst (setFrameList bs b)

/-- visit.py:500-503 `getBlockingAssign`. -/
def getFrameAssign (d : Dict ScopeChain (List Bind)) (dst : ScopeChain) : List Bind := (d.get? dst).getD []

end Pyv
