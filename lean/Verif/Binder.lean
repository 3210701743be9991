import Verif.Ast
import Verif.Stores
/-
  Model of pyverilog/dataflow/bindvisitor.py: from procedural statements to assignment trees.

  Covered: expressions, destinations, the assignment trees, always blocks with their statements, continuous assignments.
  Not covered: module instances, function and task calls, generate constructs, declarations.

  The frames of visit.py are created by signalvisitor.py, whose traversal of the statements is the same, with `addFrame`
  (which raises when the scope exists); bindvisitor.py then enters them with `stackNextFrame`.  The two traversals are
  modelled as one: `BV.push` is `addFrame`.  Simplification: the frames hold no constants of their own (`copyFrameInfo`
  does nothing).
-/
namespace Pyv

/-! ### Trees along a path of conditions -/

/-- A path of conditions with the branch taken: the zipped `condlist` and `flowlist` (bindvisitor.py:951-985; both are
collected from the same frames). -/
abbrev CondPath := List (DF × Bool)

/-- bindvisitor.py:1519-1533 `diffBranchTree`: the rest of the tree, the rest of the path, the flags of the matched part. -/
def diffBranchTree : DF → CondPath → DF × CondPath × List Bool
  | t, [] => (t, [], [])
  | .branch c t f, (p, b) :: ps =>
    if p ≠ c then (.branch c t f, (p, b) :: ps, [])
    else
      let r := if b then diffBranchTree t ps else diffBranchTree f ps
      (r.1, r.2.1, b :: r.2.2)
  | t, ps => (t, ps, [])

/-- bindvisitor.py:1535-1553 `makeBranchTree`. -/
def makeBranchTree : CondPath → DF → DF
  | [], n => n
  | (c, true) :: ps, n => .branch c (makeBranchTree ps n) .none
  | (c, false) :: ps, n => .branch c .none (makeBranchTree ps n)

/-- bindvisitor.py:1555-1572 `appendBranchTree`: AttributeError when the position leaves the tree. -/
def appendBranchTree : DF → List Bool → DF → Py DF
  | _, [], t => .ok t
  | .branch c t f, true :: ps, n => do let r ← appendBranchTree t ps n; .ok (.branch c r f)
  | .branch c t f, false :: ps, n => do let r ← appendBranchTree f ps n; .ok (.branch c t r)
  | _, _ :: _, _ => .error .attribute

/-- `flowlist[:-1] + (not flowlist[-1],)`: bindvisitor.py:1507. -/
def flipLast : List Bool → List Bool
  | [] => []
  | [b] => [!b]
  | b :: bs => b :: flipLast bs

/-- bindvisitor.py:1504-1508: the tree to put at the end of the matched path. -/
def addTree (rest : DF) (restPath : CondPath) (raw : DF) : Py DF :=
  if restPath ≠ [] ∧ rest ≠ .none then
    appendBranchTree (makeBranchTree restPath raw) (flipLast (restPath.map (·.2))) rest
  else .ok (makeBranchTree restPath raw)

/-- bindvisitor.py:1491-1511: the tree of `makeBind` from the current one; `reo` is `reorder.reorder`. -/
def bindTree (reo : DF → Py DF) (cur : DF) (path : CondPath) (raw : DF) : Py DF := do
  let d := diffBranchTree cur path
  let a ← addTree d.1 d.2.1 raw
  let t ← appendBranchTree cur d.2.2 a
  reo t

/-! ### Expressions -/

/-- What the conversion of expressions consults: bindvisitor.py:797-806 `searchTerminal` in the scope of the expression,
740-747 `searchScopeTerminal`, whether a term is an array, and the number of copies of a replication (1081). -/
structure ExprEnv where
  find : Str → Py (Option ScopeChain)
  hier : List Str → Str → Py ScopeChain
  dims : ScopeChain → Py Bool
  times : DF → Py Int

mutual
/-- bindvisitor.py:1003-1169 `makeDFTree`.  `reorder.insertCond` (1031) does not exist: AttributeError.  Not modelled:
function and task calls, unary plus (whose dataflow operator the optimizer does not know either). -/
def ExprEnv.makeDF (E : ExprEnv) : Ex → Py DF
  | .ident [] n => do
    let r ← E.find n
    match r with
    | none => .error .definition
    | some c => .ok (.term c)
  | .ident (l :: ls) n => do
    let c ← E.hier (l :: ls) n
    .ok (.term c)
  | .intc s => .ok (.intc s)
  | .fltc s => .ok (.fltc s)
  | .strc s => .ok (.strc s)
  | .cond c t f => do
    let t' ← E.makeDF t
    let f' ← E.makeDF f
    let c' ← E.makeDF c
    if c'.isBranch then .error .attribute else .ok (.branch c' t' f')
  | .uplus _ => .error .unmodelled
  | .un o e => do
    let e' ← E.makeDF e
    insertOpList [e'] o
  | .bin o a b => do
    let a' ← E.makeDF a
    let b' ← E.makeDF b
    insertOpList [a', b'] o
  | .psel v m l => do
    let v' ← E.makeDF v
    let m' ← E.makeDF m
    let l' ← E.makeDF l
    if v'.isBranch then insertPartselect v' m' l' else .ok (.psel v' m' l')
  | .ptr v p => do
    let v' ← E.makeDF v
    let p' ← E.makeDF p
    match v' with
    | .term n => do
      let d ← E.dims n
      .ok (if d then .ptr v' p' else .psel v' p' p')
    | _ => .ok (.psel v' p' p')
  | .concat es => do
    let es' ← E.makeDFList es
    if es'.any DF.isBranch then insertConcat es' else .ok (.concat es')
  | .rep t v => do
    let t' ← E.makeDF t
    let n ← E.times t'
    let v' ← E.makeDF v
    .ok (.concat (List.replicate n.toNat v'))
  | .call _ _ => .error .unmodelled
  | .sys f es =>
    if f = "unsigned".toList ∨ f = "signed".toList then
      match es with
      | [] => .error .index
      | e :: _ => E.makeDF e
    else .ok (.intc ['0'])
/-- `makeDFTree` of each operand. -/
def ExprEnv.makeDFList (E : ExprEnv) : List Ex → Py (List DF)
  | [] => .ok []
  | e :: es => do
    let x ← E.makeDF e
    let xs ← E.makeDFList es
    .ok (x :: xs)
end

/-- What `resolveBlockingAssign` consults: the tree standing for a signal (itself, the value of a genvar, or what was
assigned before by blocking assignments), whether it is an array, and the blocking assignments to its elements. -/
structure ResEnv where
  look : ScopeChain → Py DF
  dims : ScopeChain → Py Bool
  elems : ScopeChain → Py (List Bind)

mutual
/-- bindvisitor.py:1193-1265 `resolveBlockingAssign`. -/
def ResEnv.resolve (R : ResEnv) : DF → Py DF
  | .none => .ok .none
  | .intc s => .ok (.intc s)
  | .fltc s => .ok (.fltc s)
  | .strc s => .ok (.strc s)
  | .ev v w a b => .ok (.ev v w a b)
  | .term n => R.look n
  | .branch c t f => do
    let t' ← R.resolve t
    let f' ← R.resolve f
    let c' ← R.resolve c
    .ok (if c'.isBranch then insertBranch c' t' f' else .branch c' t' f')
  | .op o ns => do
    let rs ← R.resolveList ns
    if rs.any DF.isBranch then insertOpList rs o else DF.mkOp o rs
  | .concat ns => do
    let rs ← R.resolveList ns
    if rs.any DF.isBranch then insertConcat rs else .ok (.concat rs)
  | .psel v m l => do
    let m' ← R.resolve m
    let l' ← R.resolve l
    let v' ← R.resolve v
    if v'.isBranch then insertPartselect v' m' l' else .ok (.psel v' m' l')
  | .ptr v p => do
    let p' ← R.resolve p
    let a ← (match v with | .term n => R.dims n | _ => .ok false)
    if a then
      match v with
      | .term n => do
        let bs ← R.elems n
        bs.foldlM (fun t b => do let c ← DF.mkOp .eq [b.ptr, p']; .ok (.branch c b.tree t)) (.ptr v p')
      | _ => .error .unmodelled
    else do
      let v' ← R.resolve v
      if v'.isBranch then insertPointer v' p' else .ok (.ptr v' p')
  | .undef _ => .error .format
  | .hiz _ => .error .format
  | .delay _ => .error .format
  | .sys _ _ => .error .format
/-- `resolveBlockingAssign` of each operand. -/
def ResEnv.resolveList (R : ResEnv) : List DF → Py (List DF)
  | [] => .ok []
  | n :: ns => do
    let x ← R.resolve n
    let xs ← R.resolveList ns
    .ok (x :: xs)
end

/-! ### The state of the visitor -/

/-- visit.py:354-387 `Frame`.  `blocking` holds references to bind objects (they are shared with the table of
assignments), `nonblocking` holds copies (visit.py:510). -/
structure Frame where
  previous : ScopeChain
  cond : Option Ex := none
  isElse : Bool := false
  isModule : Bool := false
  isAlways : Bool := false
  isGenerate : Bool := false
  isInitial : Bool := false
  isFcall : Bool := false
  isTcall : Bool := false
  always : Option AlwaysInfo := none
  blocking : Dict ScopeChain (List Nat) := []
  nonblocking : Dict ScopeChain (List Bind) := []

/-- bindvisitor.py:31-53, visit.py:523-533: frames, labels, tables of terms and assignments, optimizer, counter.  Bind
objects are kept in `objs` and referred to by position.  `fuel` bounds the recursion of the tree functions, `loops` the
iterations of a loop, `nettype` is `default_nettype`; `scopeTerm` stands for `searchScopeTerminal` (hierarchical names),
which is not modelled. -/
structure BV where
  frames : Dict ScopeChain Frame
  current : ScopeChain
  labels : Labels := []
  terms : Dict ScopeChain Term
  binds : Dict ScopeChain (List Nat) := []
  objs : List Bind := []
  octx : OptCtx
  rename : Nat := 0
  fuel : Nat
  loops : Nat := 0
  noreorder : Bool := false
  nettype : Str := "wire".toList
  scopeTerm : List Str → Str → ScopeChain → Py ScopeChain := fun _ _ _ => .error .unmodelled

/-- bindvisitor.py:564-565 `optimize`. -/
def BV.opt (s : BV) (t : DF) : Py DF := s.octx.optimize s.fuel 2 t

/-- `reorder.reorder`. -/
def BV.reo (s : BV) (t : DF) : Py DF := reorder s.fuel t

/-- `self.frames.dict[scope]`. -/
def BV.frame (s : BV) (c : ScopeChain) : Py Frame := s.frames.get c

/-- bindvisitor.py:797-806 `searchTerminal`. -/
def BV.searchTerminal (s : BV) (n : Str) (scope : ScopeChain) : Py (Option ScopeChain) :=
  if h : scope = [] then .ok none
  else if s.terms.has (scope ++ [⟨n, .signal, none⟩]) then .ok (some (scope ++ [⟨n, .signal, none⟩]))
  else do
    let f ← s.frame scope
    if f.isModule then .ok none else s.searchTerminal n scope.dropLast
termination_by scope.length
decreasing_by
  simp only [List.length_dropLast]
  have := List.length_pos_iff.mpr h
  omega

/-- bindvisitor.py:685-688 `getTermDims`: AttributeError for an unknown term. -/
def BV.hasDims (s : BV) (n : ScopeChain) : Py Bool :=
  match s.terms.get? n with
  | none => .error .attribute
  | some t => .ok t.dims.isSome

/-- bindvisitor.py:690-692 `getTermtype` with signaltype.isGenvar. -/
def BV.isGenvar (s : BV) (n : ScopeChain) : Py Bool :=
  match s.terms.get? n with
  | none => .error .attribute
  | some t => .ok (t.types.contains .genvar)

/-- bindvisitor.py:1171-1176 `reduceIfScope`, on the reversed chain. -/
def reduceIfRev : ScopeChain → ScopeChain
  | [] => []
  | l :: ls => if l.type = .if_ then ls else reduceIfRev ls

/-- bindvisitor.py:1171-1176 `reduceIfScope`. -/
def reduceIfScope (c : ScopeChain) : ScopeChain := (reduceIfRev c.reverse).reverse

/-- The bind objects behind a list of references. -/
def BV.deref (s : BV) (ids : List Nat) : List Bind := ids.filterMap (fun i => s.objs[i]?)

/-- visit.py:772-779 `getBlockingAssign`: the assignments in the innermost always frame that has some. -/
def BV.getBlockingAssign (s : BV) (dst : ScopeChain) : Nat → ScopeChain → Py (List Bind)
  | 0, _ => .error .recursion
  | k + 1, p => do
    let f ← s.frame p
    if f.isAlways then
      let ids := (f.blocking.get? dst).getD []
      if ids = [] then s.getBlockingAssign dst k f.previous else .ok (s.deref ids)
    else .ok []

/-- bindvisitor.py:1267-1277 `getFitTree`; the merged tree is the one of merge.py (bindvisitor.py:1279-1302 repeats
merge.py:280-301). -/
def BV.getFitTree (s : BV) (bs : List Bind) (msb lsb : DF) : Py DF := do
  let m ← s.opt msb
  let l ← s.opt lsb
  let rec go : List Bind → Py (Option DF)
    | [] => .ok none
    | b :: rest =>
      if b.msb = .none ∧ b.lsb = .none then .ok (some b.tree)
      else do
        let bm ← s.opt b.msb
        let bl ← s.opt b.lsb
        if bm = m ∧ bl = l then .ok (some b.tree) else go rest
  let r ← go bs
  match r with
  | some t => .ok t
  | none => MergeEnv.mergedTree ⟨s.terms, [], [], s.opt, s.opt, s.reo⟩ bs

/-- bindvisitor.py:1184-1191 `removeOverwrappedCondition`, given the path of conditions of the scope. -/
def BV.removeOverwrapped (s : BV) (n : ScopeChain) (bs : List Bind) (path : CondPath) : Py DF :=
  match s.terms.get? n with
  | none => .error .attribute
  | some t => do
    let m ← s.getFitTree bs t.msb t.lsb
    replaceUndefined n (diffBranchTree m path).1

/-- The environment of `resolveBlockingAssign` in a scope, bindvisitor.py:1203-1211, 1245-1259; `path` gives the path of
conditions of the scope. -/
def BV.resEnv (s : BV) (path : ScopeChain → Py CondPath) (scope : ScopeChain) : ResEnv where
  look n := do
    let g ← s.isGenvar n
    if g then
      match s.octx.consts.get? n with
      | none => .error .definition
      | some v => .ok v
    else do
      let bs ← s.getBlockingAssign n (scope.length + 1) scope
      if bs = [] then .ok (.term n) else do
        let p ← path scope
        s.removeOverwrapped n bs p
  dims := s.hasDims
  elems n := s.getBlockingAssign n (scope.length + 1) scope

/-- bindvisitor.py:951-971 `getCondlist` and 973-985 `getFlowlist` without the conversion: the conditions of the enclosing
frames up to the module, innermost first, with their scopes and flags. -/
def BV.rawConds (s : BV) : Nat → ScopeChain → Py (List (Ex × ScopeChain × Bool))
  | 0, _ => .error .recursion
  | k + 1, c => do
    let f ← s.frame c
    let here := match f.cond with | some e => [(e, c, !f.isElse)] | none => []
    if f.isModule then .ok here
    else do
      let rest ← s.rawConds k f.previous
      .ok (here ++ rest)

/-- The environment of `makeDFTree` in a scope, with the number of copies of a replication computed by `times`. -/
def BV.exprEnv (s : BV) (times : DF → Py Int) (scope : ScopeChain) : ExprEnv where
  find n := s.searchTerminal n scope
  hier ls n := s.scopeTerm ls n scope
  dims := s.hasDims
  times := times

/-- bindvisitor.py:1081: `self.optimize(self.getTree(node.times, scope)).value`, with `int(...)`. -/
def BV.timesOf (s : BV) (path : ScopeChain → Py CondPath) (scope : ScopeChain) (t : DF) : Py Int := do
  let r ← (s.resEnv path scope).resolve t
  let r' ← (if s.noreorder then .ok r else s.reo r)
  let v ← s.opt r'
  v.intAttr

/-- bindvisitor.py:1178-1182 `resolveCondlist`: the conditions, innermost first, are resolved in the scopes around the
successive ifs. -/
def BV.resolveConds (s : BV) (path : ScopeChain → Py CondPath) : ScopeChain → CondPath → Py CondPath
  | _, [] => .ok []
  | scope, (c, b) :: cs => do
    let c' ← (s.resEnv path scope).resolve c
    let cs' ← s.resolveConds path (reduceIfScope scope) cs
    .ok ((c', b) :: cs')

/-- bindvisitor.py:945-949 `getCondflow`: outermost condition first.  `k` bounds the mutual recursion with
`resolveBlockingAssign`. -/
def BV.condflow (s : BV) : Nat → ScopeChain → Py CondPath
  | 0, _ => .error .recursion
  | k + 1, scope => do
    let raw ← s.rawConds (scope.length + 1) scope
    let cs ← raw.mapM (fun r => do
      let t ← (s.exprEnv (s.timesOf (s.condflow k) (reduceIfScope r.2.1)) (reduceIfScope r.2.1)).makeDF r.1
      .ok (t, r.2.2))
    let rs ← s.resolveConds (s.condflow k) (reduceIfScope scope) cs
    .ok rs.reverse

/-- The path of conditions of a scope. -/
def BV.path (s : BV) (scope : ScopeChain) : Py CondPath := s.condflow s.fuel scope

/-- bindvisitor.py:1003 `makeDFTree` in the state. -/
def BV.makeDF (s : BV) (e : Ex) (scope : ScopeChain) : Py DF := (s.exprEnv (s.timesOf s.path scope) scope).makeDF e

/-- bindvisitor.py:987-993 `getTree`. -/
def BV.getTree (s : BV) (e : Ex) (scope : ScopeChain) : Py DF := do
  let t ← s.makeDF e scope
  let r ← (s.resEnv s.path scope).resolve t
  if s.noreorder then .ok r else s.reo r

/-! ### Destinations -/

/-- A destination: name, msb, lsb, index. -/
structure Dst where
  name : Option ScopeChain
  msb : DF
  lsb : DF
  ptr : DF

/-- A destination with its part of the right-hand side (None for a single destination). -/
structure PDst extends Dst where
  pmsb : DF
  plsb : DF

/-- bindvisitor.py:849-882 `addTerm` for an implicit `Wire(name)` or `Reg(name)`. -/
def BV.addImplicit (s : BV) (ty : TermType) (n : Str) (scope : ScopeChain) : BV :=
  let c := scope ++ [⟨n, .signal, none⟩]
  let t : Term := ⟨c, [ty], .intc ['0'], .intc ['0'], none⟩
  let d := (DataFlow.mk s.terms []).addTerm c t
  { s with terms := d.terms, octx := { s.octx with terms := Dict.set s.octx.terms c t } }

/-- `re.search(sub, text)` for a plain word. -/
def hasSub (sub : Str) : Str → Bool
  | [] => sub = []
  | c :: cs => sub.isPrefixOf (c :: cs) || hasSub sub cs

/-- bindvisitor.py:1341-1354: an undeclared destination. -/
def BV.implicit (s : BV) (n : Str) (scope : ScopeChain) : Py BV :=
  if hasSub "none".toList s.nettype then .error .format
  else
    let s := if hasSub "wire".toList s.nettype then s.addImplicit .wire n scope else s
    .ok (if hasSub "reg".toList s.nettype then s.addImplicit .reg n scope else s)

/-- The name on the left of a select: bindvisitor.py:1366-1368, 1384-1386.  A hierarchical name raises (an AST node is
added to a label). -/
def BV.dstName (s : BV) (v : Ex) (scope : ScopeChain) : Py (Option ScopeChain) :=
  match v with
  | .ident sc n => do
    let r ← s.searchTerminal n scope
    if sc = [] then .ok r else .error .type
  | _ => .error .attribute

/-- bindvisitor.py:1336-1394 `getDst`. -/
def BV.getDst (s : BV) (scope : ScopeChain) : Ex → Py (Dst × BV)
  | .ident sc n => do
    let r ← s.searchTerminal n scope
    let s' ← (match r with | some _ => .ok s | none => s.implicit n scope)
    let r' ← s'.searchTerminal n scope
    if sc = [] then .ok (⟨r', .none, .none, .none⟩, s') else .error .type
  | .psel (.ptr v p) m l => do
    let (d, s') ← s.getDst scope (.ptr v p)
    if d.msb = .none ∧ d.lsb = .none then do
      let m' ← s'.makeDF m scope
      let m'' ← s'.opt m'
      let l' ← s'.makeDF l scope
      let l'' ← s'.opt l'
      .ok (⟨d.name, m'', l'', d.ptr⟩, s')
    else .error .format
  | .psel v m l => do
    let n ← s.dstName v scope
    let m' ← s.makeDF m scope
    let m'' ← s.opt m'
    let l' ← s.makeDF l scope
    let l'' ← s.opt l'
    .ok (⟨n, m'', l'', .none⟩, s)
  | .ptr (.ptr v p) q => do
    let (d, s') ← s.getDst scope (.ptr v p)
    if d.msb = .none ∧ d.lsb = .none then do
      let q' ← s'.makeDF q scope
      let q'' ← s'.opt q'
      .ok (⟨d.name, q'', q'', d.ptr⟩, s')
    else .error .format
  | .ptr v p => do
    let n ← s.dstName v scope
    let p' ← s.makeDF p scope
    let p'' ← s.opt p'
    match n with
    | none => .error .attribute
    | some c => do
      let a ← s.hasDims c
      .ok (if a then ⟨some c, .none, .none, p''⟩ else ⟨some c, p'', p'', .none⟩, s)
  | _ => .error .format

mutual
/-- bindvisitor.py:1325-1334 `getDsts`. -/
def BV.getDsts (s : BV) (scope : ScopeChain) : Ex → Py (List Dst × BV)
  | .concat es => s.getDstsList scope es
  | e => do
    let (d, s') ← s.getDst scope e
    .ok ([d], s')
/-- `getDsts` of the elements of a concatenation, in order. -/
def BV.getDstsList (s : BV) (scope : ScopeChain) : List Ex → Py (List Dst × BV)
  | [] => .ok ([], s)
  | e :: es => do
    let (d, s') ← s.getDsts scope e
    let (ds, s'') ← s'.getDstsList scope es
    .ok (d ++ ds, s'')
end

/-- bindvisitor.py:1307-1322: the parts of the destinations, from the least significant one. -/
def BV.parts (s : BV) : DF → List Dst → Py (List PDst)
  | _, [] => .ok []
  | off, d :: ds => do
    let (m, l) ← (if d.msb = .none ∧ d.lsb = .none then
        match d.name.bind s.terms.get? with
        | none => .error .attribute
        | some t => .ok (t.msb, t.lsb)
      else .ok (d.msb, d.lsb) : Py (DF × DF))
    let df0 ← DF.mkOp .minus [m, l]
    let diff ← s.reo df0
    let pm0 ← DF.mkOp .plus [off, diff]
    let pm ← s.reo pm0
    let of0 ← DF.mkOp .plus [pm, .intc ['1']]
    let of ← s.reo of0
    let rest ← s.parts of ds
    .ok (⟨⟨d.name, m, l, d.ptr⟩, pm, off⟩ :: rest)

/-- bindvisitor.py:1304-1323 `getDestinations`. -/
def BV.getDestinations (s : BV) (left : Ex) (scope : ScopeChain) : Py (List PDst × BV) := do
  let (ds, s') ← s.getDsts scope left
  match ds with
  | [d] => .ok ([⟨d, .none, .none⟩], s')
  | ds => do
    let ps ← s'.parts (.intc ['0']) ds.reverse
    .ok (ps, s')

/-! ### Assignments -/

/-- The assignments recorded for a signal. -/
def BV.getBindlist (s : BV) (n : ScopeChain) : List Bind := s.deref ((s.binds.get? n).getD [])

/-- The position of the first reference to an object satisfying `q`. -/
def BV.findObj (s : BV) (q : Bind → Bool) (ids : List Nat) : Option Nat :=
  ids.find? (fun i => match s.objs[i]? with | some b => q b | none => false)

/-- Replace the tree of an object. -/
def BV.setTree (s : BV) (i : Nat) (t : DF) : BV := { s with objs := s.objs.modify i (fun b => { b with tree := t }) }

/-- A new object; its reference is the length of the store before. -/
def BV.alloc (s : BV) (b : Bind) : BV := { s with objs := s.objs ++ [b] }

/-- Same bits of the same element. -/
def Bind.sameRange (b c : Bind) : Bool := c.msb = b.msb ∧ c.lsb = b.lsb ∧ c.ptr = b.ptr

/-- dataflow.py:985-1003 `addBind`, `setBind`, of the object `i` holding `b`. -/
def BV.addBindObj (s : BV) (n : ScopeChain) (i : Nat) (b : Bind) : BV :=
  match s.binds.get? n with
  | none => { s with binds := Dict.set s.binds n [i] }
  | some ids =>
    match s.findObj b.sameRange ids with
    | some j => s.setTree j b.tree
    | none => { s with binds := Dict.set s.binds n (ids ++ [i]) }

/-- visit.py:489-498 `Frame.setBlockingAssign` through 769-770, of the object `i` holding `b` (the least significant bit
is not compared). -/
def BV.setBlocking (s : BV) (scope dst : ScopeChain) (i : Nat) (b : Bind) : Py BV := do
  let f ← s.frame scope
  match f.blocking.get? dst with
  | none => .ok { s with frames := Dict.set s.frames scope { f with blocking := Dict.set f.blocking dst [i] } }
  | some ids =>
    match s.findObj (fun c => c.msb = b.msb ∧ c.ptr = b.ptr) ids with
    | some j => .ok (s.setTree j b.tree)
    | none => .ok { s with frames := Dict.set s.frames scope { f with blocking := Dict.set f.blocking dst (ids ++ [i]) } }

/-- visit.py:781-782 with 508-517 `addNonblockingAssign` in the current frame. -/
def BV.addNonblocking (s : BV) (dst : ScopeChain) (b : Bind) : Py BV := do
  let f ← s.frame s.current
  .ok { s with frames := Dict.set s.frames s.current { f with nonblocking := setFrameAssign f.nonblocking dst b } }

/-- bindvisitor.py:1467-1517 `makeBind`.  An unresolved destination raises in the constructor of Bind (or, for a
subscript, before). -/
def BV.makeBind (s : BV) (d : PDst) (raw : DF) (path : CondPath) (numDst : Nat) (ai : Option AlwaysInfo) (ty : Str) :
    Py Bind :=
  match d.name with
  | none => .error .definition
  | some n => do
    let cur := match (s.getBindlist n).find? (fun c => c.msb = d.msb ∧ c.lsb = d.lsb ∧ c.ptr = d.ptr) with
      | some b => b.tree
      | none => .none
    let t ← bindTree s.reo cur path raw
    let t' ← (if numDst > 1 then s.reo (.psel t d.pmsb d.plsb) else .ok t)
    .ok ⟨t', n, d.msb, d.lsb, d.ptr, ty, ai⟩

/-- bindvisitor.py:1412-1419 `setNonblockingAssign`. -/
def BV.setNonblocking (s : BV) (n : ScopeChain) (d : PDst) (numDst : Nat) (raw : DF) (ai : AlwaysInfo) : Py BV := do
  let t ← (if numDst > 1 then s.reo (.psel raw d.pmsb d.plsb) else .ok raw)
  s.addNonblocking n ⟨t, n, d.msb, d.lsb, d.ptr, [], some ai⟩

/-- bindvisitor.py:1396-1414 `setDataflow`, one destination. -/
def BV.setDataflow1 (raw : DF) (path : CondPath) (numDst : Nat) (ai : Option AlwaysInfo) (ty : Str) (s : BV) (d : PDst) :
    Py BV := do
  let b ← s.makeBind d raw path numDst ai ty
  let s' := (s.alloc b).addBindObj b.dest s.objs.length b
  match ai with
  | none => .ok s'
  | some a => s'.setNonblocking b.dest d numDst raw a

/-- bindvisitor.py:1396-1414 `setDataflow`. -/
def BV.setDataflow (s : BV) (dst : List PDst) (raw : DF) (path : CondPath) (ai : Option AlwaysInfo) (ty : Str) : Py BV :=
  dst.foldlM (BV.setDataflow1 raw path dst.length ai ty) s

/-- bindvisitor.py:697-702 `renameVar` and 1423-1430: the first unused name from the counter on.  The name is looked for
among the next `length + 1` ones, one of which is free. -/
def BV.freshName (s : BV) (n : ScopeChain) : Nat → Py (ScopeChain × Nat)
  | 0 => .error .recursion
  | k + 1 =>
    let nm := match n.getLast? with | some l => l.name | none => []
    let rec go (r : Nat) : Nat → Py (ScopeChain × Nat)
      | 0 => .error .recursion
      | j + 1 =>
        let c := n.dropLast ++ [⟨"_rn".toList ++ natStr r ++ ['_'] ++ nm, .signal, none⟩]
        if s.terms.has c then go (r + 1) j else .ok (c, r + 1)
    go s.rename (k + 1)

/-- bindvisitor.py:1423-1440 `getRenamedDst`, one destination. -/
def BV.renameDst (s : BV) (d : PDst) : Py (PDst × BV) :=
  match d.name with
  | none => .error .type
  | some n => do
    let (c, r) ← s.freshName n (s.terms.length + 1)
    match s.terms.get? n with
    | none => .error .attribute
    | some t =>
      .ok ({ d with name := some c },
        { s with rename := r, terms := ((DataFlow.mk s.terms []).addTerm c { t with name := c, types := [.rename] }).terms })

/-- bindvisitor.py:1423-1440 `getRenamedDst`. -/
def BV.renameDsts (s : BV) : List PDst → Py (List PDst × BV)
  | [] => .ok ([], s)
  | d :: ds => do
    let (d', s') ← s.renameDst d
    let (ds', s'') ← s'.renameDsts ds
    .ok (d' :: ds', s'')

/-- bindvisitor.py:1442-1455 `setRenamedTree`, one destination. -/
def BV.setRenamedTree1 (raw : DF) (numDst : Nat) (s : BV) (d : PDst) : Py BV :=
  match d.name with
  | none => .error .definition
  | some n => do
    let t ← (if numDst > 1 then s.reo (.psel raw d.pmsb d.plsb) else .ok raw)
    let b : Bind := ⟨t, n, d.msb, d.lsb, d.ptr, [], none⟩
    let s' := (s.alloc b).addBindObj n s.objs.length b
    let v ← s'.opt t
    let consts := if v.isEv then Dict.set s'.octx.consts n v else s'.octx.consts
    match s'.terms.get? n with
    | none => .error .attribute
    | some tm =>
      .ok { s' with octx := { s'.octx with consts := consts,
                                           terms := Dict.set s'.octx.terms n ⟨n, [.rename], tm.msb, tm.lsb, none⟩ } }

/-- bindvisitor.py:1457-1465 `setRenamedFlow`, one destination with its renamed one. -/
def BV.setRenamedFlow1 (path : CondPath) (numDst : Nat) (scope : ScopeChain) (ai : Option AlwaysInfo) (s : BV)
    (p : PDst × PDst) : Py BV :=
  match p.2.name with
  | none => .error .definition
  | some rn => do
    let b ← s.makeBind p.1 (.term rn) path numDst ai []
    let i := s.objs.length
    ((s.alloc b).addBindObj b.dest i b).setBlocking scope b.dest i b

/-- bindvisitor.py:933-943: the constant tables after a blocking assignment to one destination. -/
def BV.setLoopConst (s : BV) (dst : List PDst) (raw : DF) : Py BV :=
  match dst with
  | [d] =>
    match d.name with
    | none => .error .attribute
    | some n => do
      let g ← s.isGenvar n
      let v ← s.opt raw
      let c := if g || v.isEv then Dict.set s.octx.consts n v else Dict.del s.octx.consts n
      .ok { s with octx := { s.octx with consts := c } }
  | _ => .ok s

/-- bindvisitor.py:926-943 `addDataflow_blocking`, 1405-1410 `setDataflow_rename`. -/
def BV.addBlocking (s : BV) (dst : List PDst) (right : Ex) (scope : ScopeChain) (ai : Option AlwaysInfo) : Py BV := do
  let p ← s.path scope
  let raw ← s.getTree right scope
  let (rd, s1) ← s.renameDsts dst
  let s2 ← rd.foldlM (BV.setRenamedTree1 raw rd.length) s1
  let s3 ← (dst.zip rd).foldlM (BV.setRenamedFlow1 p dst.length scope ai) s2
  s3.setLoopConst dst raw

/-- visit.py:746-761 `getAlwaysStatus`. -/
def BV.alwaysStatus (s : BV) : Nat → ScopeChain → Py (Option AlwaysInfo)
  | 0, _ => .error .recursion
  | k + 1, c => do
    let f ← s.frame c
    if f.isFcall || f.isTcall || !f.isAlways then .ok none
    else match f.always with
      | some a => .ok (some a)
      | none => s.alwaysStatus k f.previous

/-- bindvisitor.py:884-897 `addBind` of a nonblocking (or continuous) assignment, 920-924 `addDataflow`. -/
def BV.addBind (s : BV) (l r : Ex) (ai : Option AlwaysInfo) (ty : Str) : Py BV := do
  let (dst, s') ← s.getDestinations l s.current
  let p ← s'.path s'.current
  let raw ← s'.getTree r s'.current
  s'.setDataflow dst raw p ai ty

/-- bindvisitor.py:884-897 `addBind` of a blocking assignment. -/
def BV.addBindBlocking (s : BV) (l r : Ex) (ai : Option AlwaysInfo) : Py BV := do
  let (dst, s') ← s.getDestinations l s.current
  s'.addBlocking dst r s'.current ai

/-! ### Frames -/

/-- visit.py:634-648 `getLabelKey`. -/
def Frame.labelKey (f : Frame) (n : Str) : Str :=
  (if f.isModule then "md_".toList else []) ++ (if f.isGenerate then "ge_".toList else []) ++
  (if f.isAlways then "al_".toList else []) ++ (if f.isInitial then "in_".toList else []) ++
  (if f.isFcall then "fc_".toList else []) ++ (if f.isTcall then "tc_".toList else []) ++ n

/-- `self.labels.get(self.frames.getLabelKey(n))`. -/
def BV.label (s : BV) (n : Str) : Py (Str × BV) := do
  let f ← s.frame s.current
  let r := s.labels.get (f.labelKey n)
  .ok (r.1, { s with labels := r.2 })

/-- visit.py:540-563 `addFrame`: a new frame below the current one, which becomes current.  The list of successors is not
kept. -/
def BV.push (s : BV) (l : ScopeLabel) (f : Frame) : Py BV :=
  let c := s.current ++ [l]
  if s.frames.has c then .error .definition
  else .ok { s with frames := Dict.set s.frames c { f with previous := s.current }, current := c }

/-- A frame below a statement frame inherits its kind (bindvisitor.py:325-332 and the like). -/
def Frame.child (f : Frame) (cond : Option Ex) (isElse : Bool) : Frame :=
  { previous := [], cond := cond, isElse := isElse, isAlways := f.isAlways, isGenerate := f.isGenerate,
    isInitial := f.isInitial, isFcall := f.isFcall, isTcall := f.isTcall }

/-- Enter a frame of statements. -/
def BV.enter (s : BV) (l : ScopeLabel) (cond : Option Ex) (isElse : Bool) : Py BV := do
  let f ← s.frame s.current
  s.push l (f.child cond isElse)

/-- bindvisitor.py:644-658: one assignment copied into the new frame. -/
def BV.copyNonblocking1 (p : CondPath) (s : BV) (nb : ScopeChain × Bind) : Py BV := do
  let s' ← s.addNonblocking nb.1 nb.2
  let b ← s'.makeBind ⟨⟨some nb.1, nb.2.msb, nb.2.lsb, nb.2.ptr⟩, .none, .none⟩ nb.2.tree p 1 nb.2.always []
  .ok ((s'.alloc b).addBindObj nb.1 s'.objs.length b)

/-- bindvisitor.py:641-658 `copyPreviousNonblockingAssign`, visit.py:793-800 `getPreviousNonblockingAssign`. -/
def BV.copyNonblocking (s : BV) : Py BV := do
  let f ← s.frame s.current
  if f.previous = [] then .ok s
  else do
    let pf ← s.frame f.previous
    if !pf.isAlways then .ok s
    else do
      let all := pf.nonblocking.flatMap (fun e => e.2.map (fun b => (e.1, b)))
      if all = [] then .ok s
      else do
        let p ← s.path s.current
        all.foldlM (BV.copyNonblocking1 p) s

/-- bindvisitor.py:660-664 `copyBlockingAssigns`. -/
def BV.copyBlocking (s : BV) (src dst : ScopeChain) : Py BV := do
  let f ← s.frame src
  (f.blocking.flatMap (fun e => e.2.map (fun i => (e.1, i)))).foldlM (fun st e =>
    match st.objs[e.2]? with
    | some b => st.setBlocking dst e.1 e.2 b
    | none => .ok st) s

/-- `label + '_ELSE'`. -/
def toELSE (l : Str) : Str := l ++ "_ELSE".toList

/-- bindvisitor.py:386-394: the condition of a case item. -/
def caseCond (comp : Ex) : Option (List Ex) → Py Ex
  | none => .ok (.intc ['1'])
  | some [] => .error .index
  | some (c :: cs) => .ok (cs.foldl (fun a e => .bin .lor a (.bin .eq comp e)) (.bin .eq comp c))

/-- bindvisitor.py:314-346 `_if_true`, 348-372 `_if_false`: one side of an if with its label; `body` visits the statement. -/
def BV.side (l : Str) (c : Ex) (isElse : Bool) (body : BV → Py BV) (s : BV) : Py BV := do
  let s1 ← s.enter ⟨l, .if_, none⟩ (some c) isElse
  let s2 ← s1.copyNonblocking
  let s3 ← body s2
  .ok { s3 with current := s.current }

/-- Whether a statement is present. -/
def Stmt.isSkip : Stmt → Bool
  | .skip => true
  | _ => false

/-- bindvisitor.py:282-312 `visit_IfStatement` outside generate blocks.  Without a true statement there is no label, and a
false statement raises TypeError (`None + '_ELSE'`). -/
def Stmt.visitIf (c : Ex) (noT : Bool) (vt : BV → Py BV) (noF : Bool) (vf : BV → Py BV) (s : BV) : Py BV :=
  if noT then (if noF then .ok s else .error .type)
  else do
    let (l, s0) ← s.label "if".toList
    let s1 ← s0.side l c false vt
    if noF then s1.copyBlocking (s.current ++ [⟨l, .if_, none⟩]) s.current
    else do
      let s2 ← s1.side (toELSE l) c true vf
      let s3 ← s2.copyBlocking (s.current ++ [⟨l, .if_, none⟩]) s.current
      s3.copyBlocking (s.current ++ [⟨toELSE l, .if_, none⟩]) s.current

/-- The label of a block: its name or a fresh one (bindvisitor.py:526-530). -/
def BV.blockLabel (s : BV) : Option Str → Py (Str × BV)
  | some n => .ok (n, s)
  | none => s.label "block".toList

/-- bindvisitor.py:525-545 `visit_Block`. -/
def Stmt.visitBlock (name : Option Str) (body : BV → Py BV) (s : BV) : Py BV := do
  let (l, s0) ← s.blockLabel name
  let s1 ← s0.enter ⟨l, .block, none⟩ none false
  let s2 ← body s1
  let s3 : BV := { s2 with current := s.current }
  let f ← s3.frame s.current
  if f.isAlways then s3.copyBlocking (s.current ++ [⟨l, .block, none⟩]) s.current else .ok s3

/-- The static value of a condition (bindvisitor.py:447-453). -/
def BV.staticCond (s : BV) (c : Ex) : Py Bool := do
  let t ← s.getTree c s.current
  let v ← s.opt t
  if v.isEv then do
    let n ← v.intAttr
    .ok (decide (n > 0))
  else .error .format

/-- The static value of a loop variable (bindvisitor.py:438-439, 474-475): AttributeError when it is not constant. -/
def BV.staticVal (s : BV) (e : Ex) : Py Int := do
  let t ← s.getTree e s.current
  let v ← s.opt t
  v.intAttr

/-- One iteration of a loop: bindvisitor.py:458-470, 497-512. -/
def BV.iteration (lab : ScopeLabel) (body : BV → Py BV) (s : BV) : Py BV := do
  let s1 ← s.enter lab none false
  let s2 ← body s1
  let s3 ← s2.copyBlocking s2.current s.current
  .ok { s3 with current := s.current }

/-- bindvisitor.py:445-480, the loop; the first argument bounds the number of iterations. -/
def Stmt.forLoop (label : Str) (c ql qr : Ex) (body : BV → Py BV) : Nat → Int → BV → Py BV
  | 0, _, _ => .error .recursion
  | k + 1, loop, s => do
    let go ← s.staticCond c
    if go then do
      let s1 ← s.iteration ⟨label, .for_, some loop⟩ body
      let n ← s1.staticVal qr
      let ai ← s1.alwaysStatus (s1.current.length + 1) s1.current
      let s2 ← s1.addBindBlocking ql qr ai
      Stmt.forLoop label c ql qr body k n s2
    else .ok s

/-- bindvisitor.py:430-480 `visit_ForStatement`. -/
def Stmt.visitFor (pl pr c ql qr : Ex) (body : BV → Py BV) (s : BV) : Py BV := do
  let n ← s.staticVal pr
  let ai ← s.alwaysStatus (s.current.length + 1) s.current
  let s1 ← s.addBindBlocking pl pr ai
  let (l, s2) ← s1.label "for".toList
  Stmt.forLoop l c ql qr body s2.loops n s2

/-- bindvisitor.py:490-513, the loop. -/
def Stmt.whileLoop (label : Str) (c : Ex) (body : BV → Py BV) : Nat → Int → BV → Py BV
  | 0, _, _ => .error .recursion
  | k + 1, loop, s => do
    let go ← s.staticCond c
    if go then do
      let s1 ← s.iteration ⟨label, .while_, some loop⟩ body
      Stmt.whileLoop label c body k (loop + 1) s1
    else .ok s

/-- bindvisitor.py:482-513 `visit_WhileStatement`. -/
def Stmt.visitWhile (c : Ex) (body : BV → Py BV) (s : BV) : Py BV := do
  let (l, s1) ← s.label "while".toList
  Stmt.whileLoop l c body s1.loops 0 s1

mutual
/-- bindvisitor.py:282-562: the visit of a statement.  Simplification: no generate-if (the statement is inside an always
block), no function or task definition. -/
def Stmt.visit : Stmt → BV → Py BV
  | .skip, s => .ok s
  | .nb l r, s => do
    let f ← s.frame s.current
    if f.isFcall then .error .format
    else do
      let ai ← s.alwaysStatus (s.current.length + 1) s.current
      s.addBind l r ai "nonblocking".toList
  | .ba l r, s => do
    let ai ← s.alwaysStatus (s.current.length + 1) s.current
    s.addBindBlocking l r ai
  | .ifs c t f, s => Stmt.visitIf c t.isSkip (Stmt.visit t) f.isSkip (Stmt.visit f) s
  | .cases k comp conds bodies, s =>
    match k with
    | .casez | .unique => Stmt.visitList bodies s
    | _ => do
      let cur := s.current
      let (s', fs) ← Stmt.visitCases comp conds bodies s
      fs.foldlM (fun st f => st.copyBlocking f cur) { s' with current := cur }
  | .block n ss, s => Stmt.visitBlock n (Stmt.visitList ss) s
  | .fors pl pr c ql qr b, s => Stmt.visitFor pl pr c ql qr (Stmt.visit b) s
  | .whiles c b, s => Stmt.visitWhile c (Stmt.visit b) s
/-- The statements of a list in order. -/
def Stmt.visitList : List Stmt → BV → Py BV
  | [], s => .ok s
  | x :: xs, s => do
    let s' ← Stmt.visit x s
    Stmt.visitList xs s'
/-- bindvisitor.py:381-428 `_case`: the state and the frames of the items. -/
def Stmt.visitCases (comp : Ex) : List (Option (List Ex)) → List Stmt → BV → Py (BV × List ScopeChain)
  | c :: cs, b :: bs, s => do
    let e ← caseCond comp c
    let (l, s1) ← s.label "if".toList
    let cur := s1.current
    let s2 ← s1.enter ⟨l, .if_, none⟩ (some e) false
    let s3 ← s2.copyNonblocking
    let s4 ← Stmt.visit b s3
    let fr := cur ++ [⟨l, .if_, none⟩]
    if bs.isEmpty then .ok ({ s4 with current := cur }, [fr])
    else do
      let s5 ← ({ s4 with current := cur } : BV).enter ⟨toELSE l, .if_, none⟩ (some e) true
      let s6 ← s5.copyNonblocking
      let (s7, fs) ← Stmt.visitCases comp cs bs s6
      .ok (s7, fr :: (cur ++ [⟨toELSE l, .if_, none⟩]) :: fs)
  | _, _, s => .ok (s, [])
end

/-! ### Always blocks -/

/-- ast.py:739-752 `Sens`: the signal (none for `*`) and the kind of event. -/
structure Sens where
  sig : Option Ex
  type : Str

/-- signaltype.py:67-84: a name with one of the words in it. -/
def isClockName (n : Str) : Bool :=
  hasSub "clk".toList (n.map Char.toLower) || hasSub "clock".toList (n.map Char.toLower)

/-- signaltype.py:67-84. -/
def isResetName (n : Str) : Bool :=
  hasSub "reset".toList (n.map Char.toLower) || hasSub "rst".toList (n.map Char.toLower)

/-- bindvisitor.py:234-241 `_get_signal_name`. -/
def signalName : Ex → Option Str
  | .ident _ n => some n
  | .ptr v _ => signalName v
  | .psel v _ _ => signalName v
  | _ => none

/-- bindvisitor.py:257-262: name and bit of an event; a bit that is not a plain decimal number raises ValueError. -/
def Sens.nameBit : Ex → Py (Str × Int)
  | .ptr v (.intc d) =>
    match signalName v, pyIntOf 10 d with
    | some n, .ok i => .ok (n, i)
    | _, .error e => .error e
    | none, _ => .error .attribute
  | .ptr _ _ => .error .attribute
  | e => match signalName e with | some n => .ok (n, 0) | none => .error .attribute

/-- bindvisitor.py:252-274: one event; the result is the description of the block with the number of other signals. -/
def BV.sensStep (s : BV) (scope : ScopeChain) (st : AlwaysInfo × Nat) (l : Sens) : Py (AlwaysInfo × Nat) :=
  match l.sig with
  | none => .ok st
  | some e => do
    let (n, bit) ← Sens.nameBit e
    if isClockName n then do
      let t ← s.searchTerminal n scope
      .ok ({ st.1 with clockName := t, clockEdge := some l.type, clockBit := some bit }, st.2)
    else if isResetName n then do
      let t ← s.searchTerminal n scope
      .ok ({ st.1 with resetName := t, resetEdge := some l.type, resetBit := some bit }, st.2)
    else .ok (st.1, st.2 + 1)

/-- bindvisitor.py:243-280 `_createAlwaysinfo`. -/
def BV.alwaysInfo (s : BV) (scope : ScopeChain) (ls : List Sens) : Py AlwaysInfo := do
  let r ← ls.foldlM (s.sensStep scope) (({} : AlwaysInfo), 0)
  if (r.1.clockEdge.isSome || r.1.resetEdge.isSome) && decide (r.2 > 0) then .error .format else .ok r.1

/-- bindvisitor.py:222-232 `visit_Always`. -/
def BV.visitAlways (s : BV) (ls : List Sens) (body : Stmt) : Py BV := do
  let (l, s0) ← s.label "always".toList
  let f ← s0.frame s0.current
  let s1 ← s0.push ⟨l, .always, none⟩ { previous := [], isAlways := true, isGenerate := f.isGenerate }
  let ai ← s1.alwaysInfo s.current ls
  let g ← s1.frame s1.current
  let s2 ← body.visit { s1 with frames := Dict.set s1.frames s1.current { g with always := some ai } }
  .ok { s2 with current := s.current }

/-- bindvisitor.py:547-548 `visit_Assign`. -/
def BV.visitAssign (s : BV) (l r : Ex) : Py BV := s.addBind l r none "assign".toList

end Pyv
