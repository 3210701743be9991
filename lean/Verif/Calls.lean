import Verif.Elab
/-
  Model of function calls in pyverilog/dataflow/bindvisitor.py: the conversion of expressions with calls (`makeDFTree`), which
  declares the variables of the function in a frame of its own, records its arguments and its assignments, and continuous
  assignments with such expressions.

  Simplifications: the body of a function contains no calls (Stmt.visit ends in `unmodelled` there), nor do the conditions
  around the call; of the declarations of a function only signals and integers are modelled; the frames hold no constants
  of their own (as in Binder.lean).
-/
namespace Pyv

/-- ast.py:1074-1092 `Function`: the statements are declarations and a body (parser.py:2089-2150). -/
structure Func where
  name : Str
  ret : WRange
  items : List DItem
  body : Stmt

/-- dataflow.py:1043-1060 the table of functions, by scope and name (bindvisitor.py:632-634). -/
abbrev FuncTable := Dict ScopeChain Func

/-- visit.py:671-673: the inputs are the ports, in the order of their declarations. -/
def Func.ports (f : Func) : List Var :=
  f.items.filterMap (fun d => match d with | .var v => if v.kind = .input then some v else none | _ => none)

/-- bindvisitor.py:802-810 `searchFunction`, 822-830 `searchFunctionPorts`. -/
def BV.searchFunction (s : BV) (FT : FuncTable) (n : Str) (scope : ScopeChain) : Py (Option Func) :=
  if h : scope = [] then .ok none
  else match FT.get? (scope ++ [⟨n, .function, none⟩]) with
  | some f => .ok (some f)
  | none => do
    let fr ← s.frame scope
    if fr.isModule then .ok none else s.searchFunction FT n scope.dropLast
termination_by scope.length
decreasing_by
  simp only [List.length_dropLast]
  have := List.length_pos_iff.mpr h
  omega

/-- bindvisitor.py:849-882 `addTerm` in the frame of a call: the type is `Function`, the default range `[0:0]`. -/
def BV.addFuncTerm (s : BV) (n : Str) (w : Option WRange) (dims : Option (List WRange)) : Py BV :=
  s.addTerm .function n w dims

/-- bindvisitor.py:63-82: a declaration in the frame of a call. -/
def BV.visitFuncItem (s : BV) : DItem → Py BV
  | .var v => s.addFuncTerm v.name v.width v.dims
  | .int n _ => s.addFuncTerm n (some (.intc "31".toList, .intc ['0'])) none
  | .real _ => .ok s
  | _ => .error .unmodelled

/-- bindvisitor.py:987-993 `getTree` after `makeDFTree`. -/
def BV.finishTree (s : BV) (t : DF) (scope : ScopeChain) : Py DF := do
  let r ← (s.resEnv s.path scope).resolve t
  if s.noreorder then .ok r else s.reo r

/-- bindvisitor.py:1088-1103: label and frame of a call below `scope`, the declaration of the result and of the ports.  The
message for a wrong number of arguments reads `func.name.name`: AttributeError. -/
def BV.openCall (s : BV) (f : Func) (nargs : Nat) (scope : ScopeChain) : Py BV := do
  let (l, s1) ← s.label "functioncall".toList
  let fr ← s1.frame scope
  let s2 ← ({ s1 with current := scope } : BV).push ⟨l, .functioncall, none⟩
    { previous := [], isFcall := true, isGenerate := fr.isGenerate, isAlways := fr.isAlways }
  let s3 ← s2.addFuncTerm f.name (some f.ret) none
  if f.ports.length ≠ nargs then .error .attribute
  else f.ports.foldlM (fun st p => st.addFuncTerm p.name p.width none) s3

/-- bindvisitor.py:120-123 `visit_Function` in the frame of a call. -/
def BV.visitFunc (s : BV) (f : Func) : Py BV := do
  let s1 ← f.items.foldlM BV.visitFuncItem s
  f.body.visit s1

mutual
/-- bindvisitor.py:1003-1122 `makeDFTree` with calls; the state is that of the visitor. -/
def BV.makeDFC (FT : FuncTable) (scope : ScopeChain) : Ex → BV → Py (DF × BV)
  | .ident sc n, s => do
    let t ← s.makeDF (.ident sc n) scope
    .ok (t, s)
  | .intc a, s => .ok (.intc a, s)
  | .fltc a, s => .ok (.fltc a, s)
  | .strc a, s => .ok (.strc a, s)
  | .cond c t f, s => do
    let (t', s1) ← BV.makeDFC FT scope t s
    let (f', s2) ← BV.makeDFC FT scope f s1
    let (c', s3) ← BV.makeDFC FT scope c s2
    if c'.isBranch then .error .attribute else .ok (.branch c' t' f', s3)
  | .uplus _, _ => .error .unmodelled
  | .un o e, s => do
    let (e', s1) ← BV.makeDFC FT scope e s
    let r ← insertOpList [e'] o
    .ok (r, s1)
  | .bin o a b, s => do
    let (a', s1) ← BV.makeDFC FT scope a s
    let (b', s2) ← BV.makeDFC FT scope b s1
    let r ← insertOpList [a', b'] o
    .ok (r, s2)
  | .psel v m l, s => do
    let (v', s1) ← BV.makeDFC FT scope v s
    let (m', s2) ← BV.makeDFC FT scope m s1
    let (l', s3) ← BV.makeDFC FT scope l s2
    let r ← (if v'.isBranch then insertPartselect v' m' l' else .ok (.psel v' m' l'))
    .ok (r, s3)
  | .ptr v p, s => do
    let (v', s1) ← BV.makeDFC FT scope v s
    let (p', s2) ← BV.makeDFC FT scope p s1
    match v' with
    | .term n => do
      let d ← s2.hasDims n
      .ok (if d then .ptr v' p' else .psel v' p' p', s2)
    | _ => .ok (.psel v' p' p', s2)
  | .concat es, s => do
    let (es', s1) ← BV.makeDFCL FT scope es s
    let r ← (if es'.any DF.isBranch then insertConcat es' else .ok (.concat es'))
    .ok (r, s1)
  | .rep t v, s => do
    let (t', s1) ← BV.makeDFC FT scope t s
    let n ← s1.timesOf s1.path scope t'
    let (v', s2) ← BV.makeDFC FT scope v s1
    .ok (.concat (List.replicate n.toNat v'), s2)
  | .call n args, s => do
    let r ← s.searchFunction FT n scope
    match r with
    | none => .error .definition
    | some f => do
      let s1 ← s.openCall f args.length scope
      let s2 ← BV.bindArgs FT scope args f.ports s1
      let s3 ← s2.visitFunc f
      .ok (.term (s1.current ++ [⟨f.name, .signal, none⟩]), { s3 with current := s.current })
  | .sys f es, s =>
    if f = "unsigned".toList ∨ f = "signed".toList then
      match es with
      | [] => .error .index
      | e :: _ => BV.makeDFC FT scope e s
    else .ok (.intc ['0'], s)
/-- `makeDFTree` of each operand. -/
def BV.makeDFCL (FT : FuncTable) (scope : ScopeChain) : List Ex → BV → Py (List DF × BV)
  | [], s => .ok ([], s)
  | e :: es, s => do
    let (x, s1) ← BV.makeDFC FT scope e s
    let (xs, s2) ← BV.makeDFCL FT scope es s1
    .ok (x :: xs, s2)
/-- bindvisitor.py:1106-1113: each argument is assigned to its port, 920-924 `addDataflow`. -/
def BV.bindArgs (FT : FuncTable) (scope : ScopeChain) : List Ex → List Var → BV → Py BV
  | e :: es, p :: ps, s => do
    let dst ← s.nameDst p.name s.current
    let c ← s.path s.current
    let (t, s1) ← BV.makeDFC FT scope e s
    let raw ← s1.finishTree t scope
    let s2 ← s1.setDataflow dst raw c none []
    BV.bindArgs FT scope es ps s2
  | _, _, s => .ok s
end

/-- bindvisitor.py:547-548 `visit_Assign`, 884-897 `addBind`, 920-924 `addDataflow`: a continuous assignment whose right side
may contain calls. -/
def BV.visitAssignC (FT : FuncTable) (s : BV) (l r : Ex) : Py BV := do
  let (dst, s') ← s.getDestinations l s.current
  let p ← s'.path s'.current
  let (t, s1) ← BV.makeDFC FT s'.current r s'
  let raw ← s1.finishTree t s'.current
  s1.setDataflow dst raw p none "assign".toList

/-! ### Modules -/

/-- A module of signals, functions and continuous assignments (ast.py:104-131 `ModuleDef`), each in the order of the text. -/
structure FModule where
  name : Str
  vars : List Var
  funcs : List Func
  assigns : List (Ex × Ex)

/-- The scope of the module. -/
def FModule.scope (m : FModule) : ScopeChain := [⟨m.name, .module, none⟩]

/-- visit.py:444-445 `addFunction`, 266-270 `addDefinition` (a second definition is an error), 718-724 `getAllFunctions`. -/
def funcTable (scope : ScopeChain) (fs : List Func) : Py FuncTable :=
  fs.foldlM (fun T f =>
    if T.has (scope ++ [⟨f.name, .function, none⟩]) then .error .definition
    else .ok (Dict.set T (scope ++ [⟨f.name, .function, none⟩]) f)) []

/-- dataflow_analyzer.py:41-62 `generate` for one module, bindvisitor.py:31-57.  Simplifications: the declarations come before the
assignments; the visits of the definitions of the functions are left out: 849-852 and 884-887 make them leave nothing but frames and
labels of their blocks. -/
def FModule.analyse (ctx : OptCtx) (fuel loops : Nat) (m : FModule) : Py BV := do
  let FT ← funcTable m.scope m.funcs
  let s0 : BV := { frames := [], current := [], terms := [], octx := ctx, fuel := fuel, loops := loops }
  let s1 ← s0.push ⟨m.name, .module, none⟩ { previous := [], isModule := true }
  let s2 : BV := { s1 with terms := (m.vars.map (fun v => (v.name, v.kind.termType))).foldl (addTypeTerm s1.current) s1.terms }
  let s3 ← (m.vars.map DItem.var).foldlM BV.visitNode s2
  m.assigns.foldlM (fun st a => st.visitAssignC FT a.1 a.2) s3

end Pyv
