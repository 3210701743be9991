import Verif.Binder
import Verif.Module
/-
  Model of the elaboration of a design: pyverilog/dataflow/modulevisitor.py, the declarations, parameters and instances of
  pyverilog/dataflow/signalvisitor.py and bindvisitor.py, and the order of the passes in dataflow_analyzer.py.

  As in Binder.lean the frames created by signalvisitor.py are created when bindvisitor.py enters them (`BV.push`).
  Simplifications: functions, tasks and generate blocks are left out; signalvisitor.py evaluates the constants of the
  instances as well (and may fail there), which is left out because without generate blocks the values have no effect;
  `default_nettype` is the same for all modules; a name is not declared both as a constant and as a signal.
-/
namespace Pyv

/-! ### Modules -/

/-- The class of a node as a term type. -/
def SigKind.termType : SigKind → TermType
  | .input => .input
  | .output => .output
  | .inout => .inout
  | .wire => .wire
  | .reg => .reg
  | .tri => .tri

/-- The declared nodes of a module in the order of the visits (ast.py:112-130 `ModuleDef.children`, 333-348 `Ioport`). -/
def ModuleDef.nodes (m : ModuleDef) : List DItem :=
  m.params.flatten.map (DItem.param false) ++
  m.ports.flatMap (fun p => match p with | .io f s => DItem.var f :: (s.map DItem.var).toList | _ => []) ++
  m.items.flatMap (fun i => match i with | .decl ds => ds | _ => [])

/-- The name and the term type of a declared node; `Real` is not visited (signalvisitor.py:38-82, bindvisitor.py:66-127). -/
def DItem.term : DItem → Option (Str × TermType)
  | .var v => some (v.name, v.kind.termType)
  | .int n _ => some (n, .integer)
  | .real _ => none
  | .genvar n => some (n, .genvar)
  | .param loc p => some (p.name, if loc then .localparam else .parameter)
  | .supply n _ _ _ => some (n, .supply)
  | .assign _ _ => none

/-- The names and term types of a module. -/
def ModuleDef.termTypes (m : ModuleDef) : List (Str × TermType) := m.nodes.filterMap DItem.term

/-- A constant of a frame: visit.py:180-183; a genvar has no value. -/
structure ConstDef where
  name : Str
  type : TermType
  width : Option WRange
  value : Option Ex

/-- A node as a constant (signalvisitor.py:61-82). -/
def DItem.const : DItem → Option ConstDef
  | .param loc p => some ⟨p.name, if loc then .localparam else .parameter, p.width, some p.value⟩
  | .genvar n => some ⟨n, .genvar, some (.intc "31".toList, .intc ['0']), none⟩
  | _ => none

/-- Keep the first constant of each name (visit.py:180-183). -/
def firstConsts : List ConstDef → List Str → List ConstDef
  | [], _ => []
  | d :: ds, seen => if d.name ∈ seen then firstConsts ds seen else d :: firstConsts ds (d.name :: seen)

/-- The constants of the frame of an instance: the parameters come first (signalvisitor.py:353-355), then what the visit
adds. -/
def ModuleDef.consts (m : ModuleDef) : List ConstDef :=
  let cs := m.nodes.filterMap DItem.const
  firstConsts (cs.filter (fun d => d.type = .parameter) ++ cs) []

/-- The table of modules (visit.py:329 `ModuleInfoTable`). -/
abbrev ModTable := DefinitionInfoTable ModuleDef DItem Str

/-- visit.py:237-242 `addPorts`, of one port. -/
def PortD.ioname : PortD → Py Str
  | .port n => .ok n
  | .io f _ => .ok f.name
  | .none_ => .error .attribute

/-- modulevisitor.py:30-43, one declared node of an item or of the parameter list. -/
def ModTable.node (t : ModTable) : DItem → Py ModTable
  | .var v =>
    if v.kind = .input ∨ v.kind = .output ∨ v.kind = .inout then DefinitionInfoTable.addSignal t v.name (.var v) else .ok t
  | .param false p => do
    let t1 ← DefinitionInfoTable.addConst t p.name (.param false p)
    DefinitionInfoTable.addParamName t1 p.name
  | _ => .ok t

/-- modulevisitor.py:23-28 `visit_ModuleDef`, `visit_Portlist` (which does not look inside the ports). -/
def ModTable.addModule (t : ModTable) (m : ModuleDef) : Py ModTable := do
  let t1 ← DefinitionInfoTable.addDefinition t m.name m
  let t2 ← (m.params.flatten.map (DItem.param false)).foldlM ModTable.node t1
  let ps ← m.ports.mapM PortD.ioname
  let t3 ← ps.foldlM DefinitionInfoTable.addPort t2
  (m.items.flatMap (fun i => match i with | .decl ds => ds | _ => [])).foldlM ModTable.node t3

/-- The table of all modules of a source text. -/
def modTable (ms : List ModuleDef) : Py ModTable := ms.foldlM ModTable.addModule ⟨[], none⟩

/-! ### Declarations -/

/-- bindvisitor.py:854-882 `addTerm`: the most significant bit of a node without range (`Localparam` and `Supply` are
subclasses of `Parameter`). -/
def TermType.msb (t : TermType) : DF :=
  .intc (if t = .parameter ∨ t = .localparam ∨ t = .supply then "31".toList else ['0'])

/-- bindvisitor.py:849-882 `addTerm` outside of functions and tasks. -/
def BV.addTerm (s : BV) (ty : TermType) (n : Str) (w : Option WRange) (dims : Option (List WRange)) : Py BV := do
  let m ← (match w with | none => .ok ty.msb | some r => s.makeDF r.1 s.current : Py DF)
  let l ← (match w with | none => .ok (.intc ['0']) | some r => s.makeDF r.2 s.current : Py DF)
  let d ← (match dims with
    | none => .ok none
    | some ls => do
      let ds ← ls.mapM (fun r => do
        let a ← s.makeDF r.1 s.current
        let b ← s.makeDF r.2 s.current
        .ok (a, b))
      .ok (some ds) : Py (Option (List (DF × DF))))
  let c := s.current ++ [⟨n, .signal, none⟩]
  let t : Term := ⟨c, [ty], m, l, d⟩
  .ok { s with terms := ((DataFlow.mk s.terms []).addTerm c t).terms,
               octx := { s.octx with terms := Dict.set s.octx.terms c t } }

/-- bindvisitor.py:666-667 `setConstant`. -/
def BV.setConst (s : BV) (n : ScopeChain) (v : DF) : BV := { s with octx := { s.octx with consts := Dict.set s.octx.consts n v } }

/-- bindvisitor.py:678-679 `setConstantTerm`. -/
def BV.setConstTerm (s : BV) (n : ScopeChain) (t : Term) : BV :=
  { s with octx := { s.octx with terms := Dict.set s.octx.terms n t } }

/-- bindvisitor.py:920-924 `addDataflow` without always block. -/
def BV.addFlow (s : BV) (dst : List PDst) (right : Ex) (lscope rscope : ScopeChain) (ty : Str) : Py BV := do
  let p ← s.path lscope
  let raw ← s.getTree right rscope
  s.setDataflow dst raw p none ty

/-- bindvisitor.py:1337-1339: the destination of a plain name; no net is declared implicitly. -/
def BV.nameDst (s : BV) (n : Str) (scope : ScopeChain) : Py (List PDst) := do
  let r ← s.searchTerminal n scope
  .ok [⟨⟨r, .none, .none, .none⟩, .none, .none⟩]

/-- bindvisitor.py:884-897 `addBind` of a plain name. -/
def BV.addNameBind (s : BV) (n : Str) (right : Ex) (ty : Str) : Py BV := do
  let dst ← s.nameDst n s.current
  s.addFlow dst right s.current s.current ty

/-- bindvisitor.py:87-88, 106-107: the value of a constant that has none yet. -/
def BV.constValue (s : BV) (n : Str) (v : Ex) : Py BV :=
  let c := s.current ++ [⟨n, .signal, none⟩]
  if s.octx.consts.has c then .ok s
  else do
    let t ← s.getTree v s.current
    let x ← s.opt t
    .ok (s.setConst c x)

/-- bindvisitor.py:84-95 `visit_Parameter`. -/
def BV.visitParam (s : BV) (p : Param) : Py BV := do
  let s1 ← s.addTerm .parameter p.name p.width none
  let s2 ← s1.constValue p.name p.value
  if s2.getBindlist (s2.current ++ [⟨p.name, .signal, none⟩]) = [] then s2.addNameBind p.name p.value "parameter".toList
  else .ok s2

/-- bindvisitor.py:103-112 `visit_Localparam`. -/
def BV.visitLocalparam (s : BV) (p : Param) : Py BV := do
  let s1 ← s.addTerm .localparam p.name p.width none
  let s2 ← s1.constValue p.name p.value
  s2.addNameBind p.name p.value "localparam".toList

/-- bindvisitor.py:63-120, 547-548: a declared node. -/
def BV.visitNode (s : BV) : DItem → Py BV
  | .var v => s.addTerm v.kind.termType v.name v.width v.dims
  | .int n _ => s.addTerm .integer n (some (.intc "31".toList, .intc ['0'])) none
  | .real _ => .ok s
  | .genvar n => do
    let s1 ← s.addTerm .genvar n (some (.intc "31".toList, .intc ['0'])) none
    .ok (s1.setConst (s1.current ++ [⟨n, .signal, none⟩]) (.ev (.int 0) (some 32) false false))
  | .param false p => s.visitParam p
  | .param true p => s.visitLocalparam p
  | .supply n one w _ => do
    let s1 ← s.addTerm .supply n w none
    s1.addNameBind n (.intc [if one then '1' else '0']) "parameter".toList
  | .assign l r => s.visitAssign l r

/-- bindvisitor.py:841-847 `makeConstantTerm`. -/
def BV.constTerm (s : BV) (d : ConstDef) (scope : ScopeChain) : Py Term := do
  let m ← (match d.width with | none => .ok (.intc "31".toList) | some r => s.makeDF r.1 scope : Py DF)
  let l ← (match d.width with | none => .ok (.intc ['0']) | some r => s.makeDF r.2 scope : Py DF)
  .ok ⟨scope ++ [⟨d.name, .signal, none⟩], [d.type], m, l, none⟩

/-- dataflow.py:959-972 `addTerm` of a term that only has a type. -/
def addTypeTerm (scope : ScopeChain) (terms : Dict ScopeChain Term) (d : Str × TermType) : Dict ScopeChain Term :=
  ((DataFlow.mk terms []).addTerm (scope ++ [⟨d.1, .signal, none⟩])
    ⟨scope ++ [⟨d.1, .signal, none⟩], [d.2], .none, .none, none⟩).terms

/-- bindvisitor.py:611-624: one round over the constants; the flag says whether all have a value. -/
def BV.constPass (scope : ScopeChain) : List ConstDef → BV → Py (BV × Bool)
  | [], s => .ok (s, true)
  | d :: ds, s =>
    let c := scope ++ [⟨d.name, .signal, none⟩]
    if s.octx.consts.has c then BV.constPass scope ds s
    else
      match d.value with
      | none => BV.constPass scope ds s
      | some e => do
        let t ← s.getTree e scope
        let v ← s.opt t
        if v.isEv then BV.constPass scope ds (s.setConst c v)
        else do
          let r ← BV.constPass scope ds s
          .ok (r.1, false)

/-- bindvisitor.py:609-624: the rounds are repeated until all constants have a value (forever, if one never has); the first
argument bounds the number of rounds. -/
def BV.constLoop (scope : ScopeChain) (ds : List ConstDef) : Nat → BV → Py BV
  | 0, _ => .error .recursion
  | k + 1, s => do
    let r ← BV.constPass scope ds s
    if r.2 then .ok r.1 else BV.constLoop scope ds k r.1

/-- bindvisitor.py:592-624 `copyFrameInfo` of the frame of a module. -/
def BV.copyFrameInfo (s : BV) (m : ModuleDef) (scope : ScopeChain) : Py BV := do
  let s1 : BV := { s with terms := (m.consts.map (fun d => (d.name, d.type))).foldl (addTypeTerm scope) s.terms }
  let s2 ← m.consts.foldlM (fun (st : BV) d => do
    let t ← st.constTerm d scope
    .ok (st.setConstTerm t.name t)) s1
  BV.constLoop scope m.consts s2.loops s2

/-! ### Instances -/

/-- visit.py:29-38 `primitives`; `some none` is `buf`. -/
def primitiveOf (m : Str) : Option (Option Op) :=
  if m = "and".toList then some (some .uand)
  else if m = "nand".toList then some (some .unand)
  else if m = "or".toList then some (some .uor)
  else if m = "nor".toList then some (some .unor)
  else if m = "xor".toList then some (some .uxor)
  else if m = "xnor".toList then some (some .uxnor)
  else if m = "not".toList then some (some .unot)
  else if m = "buf".toList then some none
  else none

/-- `getDestinations` of an expression that is no left-hand side of an assignment: a concatenation is no `LConcat` and
raises FormatError (bindvisitor.py:1325-1334, 1393). -/
def BV.exprDst (s : BV) (e : Ex) (scope : ScopeChain) : Py (List PDst × BV) :=
  match e with
  | .concat _ => .error .format
  | e => s.getDestinations e scope

/-- `Pointer(e, IntConst(str(i)))`, if there is an index. -/
def indexed (e : Ex) : Option Nat → Ex
  | none => e
  | some i => .ptr e (.intc (natStr i))

/-- The argument of a connection of a primitive: None makes `getDst` and `makeDFTree` raise FormatError. -/
def PArg.prim (p : PArg) : Py Ex :=
  match p.arg with
  | none => .error .format
  | some e => .ok e

/-- bindvisitor.py:192-208 `_visit_Instance_primitive`. -/
def BV.visitPrimitive (s : BV) (o : Option Op) (ports : List PArg) (idx : Option Nat) : Py BV :=
  match ports with
  | [] => .error .index
  | out :: ins => do
    let l ← out.prim
    let l' := indexed l idx
    let bit (p : PArg) : Py Ex := do
      let e ← p.prim
      .ok (indexed e (some (idx.getD 0)))
    let r ← (match o, ins with
      | none, [] => .error .index
      | none, i :: _ => bit i
      | some .unot, [] => .error .index
      | some .unot, i :: _ => do
        let e ← bit i
        .ok (.un .ulnot e)
      | some o, is => do
        let es ← is.mapM bit
        .ok (.un o (.concat es)) : Py Ex)
    match l' with
    | .concat _ => .error .format
    | l' => s.visitAssign l' r

/-- bindvisitor.py:899-906 `addInstanceParameterBind`, then 155-166 the value of the parameter. -/
def BV.instParam (names : List Str) (parent : ScopeChain) (s : BV) (p : PArg × Nat) : Py BV :=
  match names[p.2]? with
  | none => .error .index
  | some d => do
    let n := p.1.name.getD d
    let dst ← s.nameDst n s.current
    match p.1.arg with
    | none => .error .format
    | some e => do
      let s1 ← s.addFlow dst e s.current parent "parameter".toList
      let t ← s1.getTree e parent
      let v ← s1.opt t
      if n ∈ names then do
        let c := s1.current ++ [⟨n, .signal, none⟩]
        let _ ← v.valueAttr
        .ok ((s1.setConst c v).setConstTerm c ⟨c, [.parameter], .intc "31".toList, .intc ['0'], none⟩)
      else .error .format

/-- bindvisitor.py:917-943: the connection of a port, for one of its term types; `e` is the connected expression. -/
def BV.connectAs (ldst : List PDst) (port : Str) (e : Ex) (lscope rscope : ScopeChain) (s : BV) : TermType → Py BV
  | .input => s.addFlow ldst e lscope rscope []
  | .output => do
    let (rdst, s1) ← s.exprDst e rscope
    s1.addFlow rdst (.ident [] port) rscope lscope []
  | .inout => do
    let s1 ← s.addFlow ldst e lscope rscope []
    let (rdst, s2) ← s1.exprDst e rscope
    s2.addFlow rdst (.ident [] port) rscope lscope []
  | _ => .ok s

/-- bindvisitor.py:908-943 `addInstancePortBind`. -/
def BV.connect (s : BV) (port : Str) (arg : Option Ex) (lscope rscope : ScopeChain) (idx : Option Nat) : Py BV := do
  let r ← s.searchTerminal port lscope
  match r with
  | none => .error .definition
  | some c =>
    match s.terms.get? c with
    | none => .error .attribute
    | some t =>
      match arg with
      | none => .ok s
      | some e =>
        t.types.foldlM (BV.connectAs [⟨⟨some c, .none, .none, .none⟩, .none, .none⟩] port (indexed e idx) lscope rscope) s

/-- bindvisitor.py:168-173: one connection with its position.  The message of the FormatError reads `argname.name`. -/
def BV.instPort (ports : List Str) (parent : ScopeChain) (idx : Option Nat) (s : BV) (p : PArg × Nat) : Py BV :=
  match p.1.name, p.1.arg with
  | some n, a =>
    if n ∈ ports then
      match ports[p.2]? with
      | none => .error .index
      | some _ => s.connect n a s.current parent idx
    else (match a with | some (.ident _ _) => .error .format | some (.call _ _) => .error .format | _ => .error .attribute)
  | none, a =>
    match ports[p.2]? with
    | none => .error .index
    | some n => s.connect n a s.current parent idx

/-- bindvisitor.py:143-182 `_visit_Instance_body`; `rec` visits the definition of a module. -/
def BV.visitInstBody (T : ModTable) (rec : BV → Str → Py BV) (s : BV) (mod : Str) (params : List PArg) (name : Str)
    (ports : List PArg) (idx : Option Nat) : Py BV :=
  match primitiveOf mod with
  | some o => s.visitPrimitive o ports idx
  | none =>
    if name = [] then .error .format
    else do
      let cur := s.current
      let m ← DefinitionInfoTable.getDefinition T mod
      let s1 ← s.push ⟨name, .module, none⟩ { previous := [], isModule := true }
      let s2 ← s1.copyFrameInfo m s1.current
      let names ← DefinitionInfoTable.getParamNames T mod
      let s3 ← params.zipIdx.foldlM (BV.instParam names cur) s2
      let io ← DefinitionInfoTable.getIOPorts T mod
      let s4 ← ports.zipIdx.foldlM (BV.instPort io cur idx) s3
      let s5 ← s4.copyFrameInfo m s4.current
      let s6 ← rec s5 mod
      .ok { s6 with current := cur }

/-- bindvisitor.py:124-141 `visit_Instance`, `_visit_Instance_array`: the instances of `[msb:lsb]` are numbered from lsb to
msb.  Simplification: negative numbers are left out. -/
def BV.visitInst (T : ModTable) (rec : BV → Str → Py BV) (mod : Str) (params : List PArg) (s : BV) (i : Inst) : Py BV :=
  match i.array with
  | none => s.visitInstBody T rec mod params i.name i.ports none
  | some (me, le) =>
    if i.name = [] then .error .format
    else do
      let tm ← s.getTree me s.current
      let vm ← s.opt tm
      let hi ← vm.intAttr
      let tl ← s.getTree le s.current
      let vl ← s.opt tl
      let lo ← vl.intAttr
      if lo < 0 then .error .unmodelled
      else
        (List.range' lo.toNat (hi + 1 - lo).toNat).foldlM (fun (st : BV) k =>
          st.visitInstBody T rec mod params (i.name ++ ['_'] ++ natStr k) i.ports (some k)) s

/-! ### Designs -/

/-- The sensitivity of an always block (parser.py: `Sens`). -/
def SensItem.sens : SensItem → Sens
  | .all => ⟨none, "all".toList⟩
  | .posedge e => ⟨some e, "posedge".toList⟩
  | .negedge e => ⟨some e, "negedge".toList⟩
  | .level e => ⟨some e, "level".toList⟩

/-- bindvisitor.py:55-280, 547-548: an item of a module.  There is no method for `AlwaysFF`, `AlwaysComb` and `AlwaysLatch`:
their statement is visited like an item of the module.
Functions, tasks and generate constructs are not modelled here. -/
def BV.visitItem (T : ModTable) (rec : BV → Str → Py BV) (s : BV) : MItem → Py BV
  | .decl ds => ds.foldlM BV.visitNode s
  | .assign l r => s.visitAssign l r
  | .always .always ss b => s.visitAlways (ss.map SensItem.sens) b
  | .always _ _ b => b.visit s
  | .initial _ => .ok s
  | .insts m ps is => is.foldlM (BV.visitInst T rec m ps) s
  | _ => .error .unmodelled

/-- bindvisitor.py:51-57 `visit_ModuleDef`; the first argument bounds the depth of the hierarchy. -/
def BV.visitModule (T : ModTable) : Nat → BV → Str → Py BV
  | 0, _, _ => .error .recursion
  | k + 1, s, name => do
    let m ← DefinitionInfoTable.getDefinition T name
    let s1 ← (m.params.flatten.map (DItem.param false)).foldlM BV.visitNode s
    let s2 ← (m.ports.flatMap (fun p => match p with | .io f x => DItem.var f :: (x.map DItem.var).toList | _ => [])).foldlM
      BV.visitNode s1
    m.items.foldlM (BV.visitItem T (BV.visitModule T k)) s2

/-- The instances of a module that is no primitive, with their scope labels.  The instances of an array and
those in generate constructs are not modelled here. -/
def ModuleDef.insts (m : ModuleDef) : List (Str × Inst) :=
  m.items.flatMap (fun i => match i with
    | .insts md _ is => if (primitiveOf md).isSome then [] else is.map (fun x => (md, x))
    | _ => [])

/-- signalvisitor.py:31-160, the names with their types in all scopes of a design.  Instance arrays are not modelled here:
they end in `unmodelled`. -/
def declared (T : ModTable) : Nat → ScopeChain → Str → Py (List (ScopeChain × List (Str × TermType)))
  | 0, _, _ => .error .recursion
  | k + 1, sc, name => do
    let m ← DefinitionInfoTable.getDefinition T name
    let rs ← m.insts.mapM (fun i =>
      if i.2.array.isSome then .error .unmodelled
      else declared T k (sc ++ [⟨i.2.name, .module, none⟩]) i.1)
    .ok ((sc, m.termTypes) :: rs.flatten)

/-- bindvisitor.py:31-53 the constructor, dataflow_analyzer.py:41-62 `generate`: the tables of a design.  `fuel`, `loops`
and `depth` bound the recursions and loops; `ctx` is the empty optimizer. -/
def generate (ctx : OptCtx) (fuel loops depth : Nat) (ms : List ModuleDef) (top : Str) : Py BV := do
  let T ← modTable ms
  let ds ← declared T depth [⟨top, .module, none⟩] top
  let m ← DefinitionInfoTable.getDefinition T top
  let s0 : BV := { frames := [], current := [], terms := [], octx := ctx, fuel := fuel, loops := loops }
  let s1 ← s0.push ⟨top, .module, none⟩ { previous := [], isModule := true }
  let s2 ← s1.copyFrameInfo m s1.current
  let s3 : BV := { s2 with terms := ds.foldl (fun ts d => d.2.foldl (addTypeTerm d.1) ts) s2.terms }
  let s4 ← s3.copyFrameInfo m s3.current
  s4.visitModule T depth top

end Pyv
