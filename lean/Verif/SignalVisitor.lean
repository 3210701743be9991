import Verif.Elab
/-
  Model of pyverilog/dataflow/signalvisitor.py: the first pass over a design, which opens the scopes of instances, generate
  constructs, always blocks and statements and records the declared names in them.

  Covered: all visit methods, the constants, the conversion of constant expressions.  Simplifications: no declarations inside
  begin-end blocks of statements (they are not in `Stmt`), no ports and `parameter`s declared inside generate constructs, no
  pragmas; the ports of functions and tasks are not kept.
-/
namespace Pyv

/-- visit.py:354-387 `Frame`, as far as signalvisitor.py uses it. -/
structure SFrame where
  previous : ScopeChain
  next : List ScopeChain := []
  cond : Option Ex := none
  isElse : Bool := false
  isModule : Bool := false
  isAlways : Bool := false
  isGenerate : Bool := false
  loop : Option Int := none
  iter : Option ScopeChain := none
  vars : Variables DItem := ⟨[], [], []⟩
  funcs : List Str := []
  tasks : List Str := []

/-- signalvisitor.py:24-35, visit.py:522-533: frames, labels, optimizer, the flags of the frame table.  `fuel` bounds the
recursion of the optimizer, `loops` the iterations of a loop. -/
structure SV where
  frames : Dict ScopeChain SFrame
  current : ScopeChain
  labels : Labels := []
  octx : OptCtx
  fdef : Bool := false
  tdef : Bool := false
  forIter : Option ScopeChain := none
  fuel : Nat
  loops : Nat

/-- signalvisitor.py:334-335 `optimize`. -/
def SV.opt (s : SV) (t : DF) : Py DF := s.octx.optimize s.fuel 2 t

/-- `self.frames.dict[scope]`. -/
def SV.frame (s : SV) (c : ScopeChain) : Py SFrame := s.frames.get c

/-! ### Constants -/

/-- visit.py:802-808, 815-821 `searchConstantDefinition`, `searchSignalDefinition`: the innermost frame that has the name
(`has`), up to the module.  The first argument bounds the number of frames. -/
def SV.searchUp (s : SV) (has : Variables DItem → Bool) : Nat → ScopeChain → Py (Option ScopeChain)
  | 0, _ => .error .recursion
  | k + 1, c => do
    let f ← s.frame c
    if has f.vars then .ok (some c)
    else if f.isModule then .ok none
    else s.searchUp has k f.previous

/-- signalvisitor.py:454-462 `searchConstantDefinition`: constants first, then signals. -/
def SV.searchConst (s : SV) (scope : ScopeChain) (n : Str) : Py ScopeChain := do
  let r ← s.searchUp (fun v => v.const.has n) (scope.length + 1) scope
  match r with
  | some c => .ok (c ++ [⟨n, .signal, none⟩])
  | none => do
    let r2 ← s.searchUp (fun v => v.signal.has n) (scope.length + 1) scope
    match r2 with
    | some c => .ok (c ++ [⟨n, .signal, none⟩])
    | none => .error .definition

/-- signalvisitor.py:464-467 `searchConstantValue`, optimizer.py:38-41 `getConstant`. -/
def SV.constOf (s : SV) (scope : ScopeChain) (n : Str) : Py DF := do
  let c ← s.searchConst scope n
  match s.octx.consts.get? c with
  | some v => .ok v
  | none => .error .definition

mutual
/-- signalvisitor.py:476-559 `makeDFTree`; names stand for their values.  `frames.getCurrentModuleScopeChain` (439) and
`reorder.insertCond` do not exist: hierarchical names and a conditional as a condition raise AttributeError; `$signed` and
`$unsigned` (550-553) lack an argument: TypeError; a function call raises FormatError. -/
def constDF (look : Str → Py DF) (opt : DF → Py DF) : Ex → Py DF
  | .ident [] n => look n
  | .ident (_ :: _) _ => .error .attribute
  | .intc s => .ok (.intc s)
  | .fltc s => .ok (.fltc s)
  | .strc s => .ok (.strc s)
  | .cond c t f => do
    let t' ← constDF look opt t
    let f' ← constDF look opt f
    let c' ← constDF look opt c
    if c'.isBranch then .error .attribute else .ok (.branch c' t' f')
  | .uplus _ => .error .unmodelled
  | .un o e => do
    let e' ← constDF look opt e
    insertOpList [e'] o
  | .bin o a b => do
    let a' ← constDF look opt a
    let b' ← constDF look opt b
    insertOpList [a', b'] o
  | .psel v m l => do
    let v' ← constDF look opt v
    let m' ← constDF look opt m
    let l' ← constDF look opt l
    if v'.isBranch then insertPartselect v' m' l' else .ok (.psel v' m' l')
  | .ptr v p => do
    let v' ← constDF look opt v
    let p' ← constDF look opt p
    .ok (.ptr v' p')
  | .concat es => do
    let es' ← constDFList look opt es
    if es'.any DF.isBranch then insertConcat es' else .ok (.concat es')
  | .rep t v => do
    let t' ← constDF look opt t
    let x ← opt t'
    let n ← x.intAttr
    let v' ← constDF look opt v
    .ok (.concat (List.replicate n.toNat v'))
  | .call _ _ => .error .format
  | .sys f es =>
    if f = "unsigned".toList ∨ f = "signed".toList then
      match es with
      | [] => .error .index
      | _ :: _ => .error .type
    else .ok (.intc ['0'])
/-- `makeDFTree` of each operand. -/
def constDFList (look : Str → Py DF) (opt : DF → Py DF) : List Ex → Py (List DF)
  | [] => .ok []
  | e :: es => do
    let x ← constDF look opt e
    let xs ← constDFList look opt es
    .ok (x :: xs)
end

/-- signalvisitor.py:476-478 `getTree`. -/
def SV.getTree (s : SV) (e : Ex) (scope : ScopeChain) : Py DF := constDF (s.constOf scope) s.opt e

/-- `self.optimize(self.getTree(e, scope))`. -/
def SV.eval (s : SV) (e : Ex) (scope : ScopeChain) : Py DF := do
  let t ← s.getTree e scope
  s.opt t

/-- signalvisitor.py:411-412 `setConstant`. -/
def SV.setConst (s : SV) (n : ScopeChain) (v : DF) : SV := { s with octx := { s.octx with consts := Dict.set s.octx.consts n v } }

/-- signalvisitor.py:421-422 `setConstantTerm`. -/
def SV.setTerm (s : SV) (n : ScopeChain) (t : Term) : SV := { s with octx := { s.octx with terms := Dict.set s.octx.terms n t } }

/-! ### Frames -/

/-- visit.py:540-563 `addFrame`: DefinitionError when the scope exists. -/
def SV.addFrame (s : SV) (l : ScopeLabel) (f : SFrame) : Py SV :=
  let c := s.current ++ [l]
  if s.frames.has c then .error .definition
  else
    let fr := match s.frames.get? s.current with
      | some p => Dict.set s.frames s.current { p with next := p.next ++ [c] }
      | none => s.frames
    .ok { s with frames := Dict.set fr c { f with previous := s.current }, current := c }

/-- visit.py:634-648 `getLabelKey` (in this pass no frame belongs to a call or to an initial block). -/
def SFrame.labelKey (f : SFrame) (n : Str) : Str :=
  (if f.isModule then "md_".toList else []) ++ (if f.isGenerate then "ge_".toList else []) ++
  (if f.isAlways then "al_".toList else []) ++ n

/-- `self.labels.get(self.frames.getLabelKey(n))`. -/
def SV.label (s : SV) (n : Str) : Py (Str × SV) := do
  let f ← s.frame s.current
  let r := s.labels.get (f.labelKey n)
  .ok (r.1, { s with labels := r.2 })

/-- A frame of a statement inherits the kind of the frame around it. -/
def SFrame.child (f : SFrame) : SFrame := { previous := [], isAlways := f.isAlways, isGenerate := f.isGenerate }

/-- Enter a frame, visit the body, and return. -/
def SV.inside (s : SV) (l : ScopeLabel) (f : SFrame) (body : SV → Py SV) : Py SV := do
  let s1 ← s.addFrame l f
  let s2 ← body s1
  .ok { s2 with current := s.current }

/-- Change the current frame. -/
def SV.modify (s : SV) (g : SFrame → SFrame) : Py SV := do
  let f ← s.frame s.current
  .ok { s with frames := Dict.set s.frames s.current (g f) }

/-! ### Declarations -/

/-- signalvisitor.py:38-60 with visit.py:650-657 `addSignal`: an input of a function or task is only a port of it. -/
def SV.addSignal (s : SV) (n : Str) (d : DItem) (isInput : Bool) : Py SV :=
  if (s.fdef || s.tdef) && isInput then .ok s
  else s.modify (fun f => { f with vars := f.vars.addSignal n d })

/-- visit.py:659-660 `addConst`. -/
def SV.addConst (s : SV) (n : Str) (d : DItem) : Py SV := s.modify (fun f => { f with vars := f.vars.addConst n d })

/-- signalvisitor.py:38-82: a declared node. -/
def SV.visitNode (s : SV) (d : DItem) : Py SV :=
  match d with
  | .var v => s.addSignal v.name d (v.kind = .input)
  | .int n _ => s.addSignal n d false
  | .real _ => .ok s
  | .supply n _ _ _ => s.addSignal n d false
  | .assign _ _ => .ok s
  | .genvar n => do
    let s1 ← s.addConst n d
    let c := s1.current ++ [⟨n, .signal, none⟩]
    if s1.octx.consts.has c then .ok s1 else .ok (s1.setConst c (.ev (.int 0) (some 32) false false))
  | .param _ p => do
    let s1 ← s.addConst p.name d
    let c := s1.current ++ [⟨p.name, .signal, none⟩]
    if s1.octx.consts.has c then .ok s1
    else do
      let v ← s1.eval p.value s1.current
      .ok (s1.setConst c v)

/-! ### Statements and generate constructs -/

/-- One side of an if: signalvisitor.py:195-209 `_if_true`, 211-225 `_if_false`. -/
def SV.side (s : SV) (l : Str) (c : Ex) (isElse : Bool) (body : SV → Py SV) : Py SV := do
  let f ← s.frame s.current
  s.inside ⟨l, .if_, none⟩ { f.child with cond := some c, isElse := isElse } body

/-- signalvisitor.py:171-190 `visit_IfStatement`: a generate-if, whose condition must be constant, has one of its sides
visited; otherwise both are.  A side may be missing (`noT`, `noF`). -/
def SV.visitIf (c : Ex) (noT : Bool) (vt : SV → Py SV) (noF : Bool) (vf : SV → Py SV) (s : SV) : Py SV := do
  let f ← s.frame s.current
  if f.isGenerate && !f.isAlways && !s.fdef && !s.tdef then do
    let v ← s.eval c s.current
    if !v.isEv then .error .format
    else do
      let n ← v.intAttr
      if n > 0 then
        if noT then .ok s
        else do
          let r ← s.label "if".toList
          r.2.side r.1 c false vt
      else do
        let r ← s.label "if".toList
        if noF then .ok r.2 else r.2.side (toELSE r.1) c true vf
  else if noT then (if noF then .ok s else .error .type)
  else do
    let r ← s.label "if".toList
    let s1 ← r.2.side r.1 c false vt
    if noF then .ok s1 else s1.side (toELSE r.1) c true vf

/-- signalvisitor.py:326-333 `visit_BlockingSubstitution` in the head of a for loop: the loop variable gets its value. -/
def SV.assignIter (s : SV) (l r : Ex) : Py SV :=
  match l with
  | .ident _ n => do
    let c ← s.searchConst s.current n
    let v ← s.eval r s.current
    .ok { s.setConst c v with forIter := some c }
  | _ => .error .attribute

/-- signalvisitor.py:262-302, the loop; the first argument bounds the number of iterations. -/
def SV.forLoop (label : Str) (c ql qr : Ex) (body : SV → Py SV) : Nat → Int → SV → Py SV
  | 0, _, _ => .error .recursion
  | k + 1, loop, s => do
    let v ← s.eval c s.current
    if !v.isEv then .error .format
    else do
      let x ← v.intAttr
      if x ≤ 0 then .ok s
      else do
        let f ← s.frame s.current
        let s1 ← s.inside ⟨label, .for_, some loop⟩ { f.child with loop := some loop, iter := s.forIter } body
        let w ← s1.eval qr s1.current
        let n ← w.intAttr
        let s2 ← s1.assignIter ql qr
        SV.forLoop label c ql qr body k n s2

/-- signalvisitor.py:262-302 `visit_ForStatement`. -/
def SV.visitFor (pl pr c ql qr : Ex) (body : SV → Py SV) (s : SV) : Py SV := do
  let w ← s.eval pr s.current
  let n ← w.intAttr
  let s1 ← s.assignIter pl pr
  let r ← s1.label "for".toList
  SV.forLoop r.1 c ql qr body r.2.loops n r.2

/-- signalvisitor.py:314-329 `visit_Block`. -/
def SV.visitBlock (name : Option Str) (body : SV → Py SV) (s : SV) : Py SV := do
  let r ← (match name with | some n => .ok (n, s) | none => s.label "block".toList : Py (Str × SV))
  let f ← r.2.frame r.2.current
  r.2.inside ⟨r.1, .block, none⟩ f.child body

mutual
/-- signalvisitor.py:171-333: the visit of a statement.  `casez` and `unique case` have no method: their statements are
visited in place; the body of a while loop is not visited. -/
def Stmt.scan : Stmt → SV → Py SV
  | .skip, s => .ok s
  | .nb _ _, s => .ok s
  | .ba _ _, s => .ok s
  | .ifs c t f, s => SV.visitIf c t.isSkip (Stmt.scan t) f.isSkip (Stmt.scan f) s
  | .cases k comp conds bodies, s =>
    match k with
    | .casez | .unique => Stmt.scanList bodies s
    | _ => do
      let s1 ← Stmt.scanCases comp conds bodies s
      .ok { s1 with current := s.current }
  | .block n ss, s => SV.visitBlock n (Stmt.scanList ss) s
  | .fors pl pr c ql qr b, s => SV.visitFor pl pr c ql qr (Stmt.scan b) s
  | .whiles _ _, s => .ok s
/-- The statements of a list in order. -/
def Stmt.scanList : List Stmt → SV → Py SV
  | [], s => .ok s
  | x :: xs, s => do
    let s1 ← Stmt.scan x s
    Stmt.scanList xs s1
/-- signalvisitor.py:235-260 `_case`; the frame of the last else stays current. -/
def Stmt.scanCases (comp : Ex) : List (Option (List Ex)) → List Stmt → SV → Py SV
  | c :: cs, b :: bs, s => do
    let e ← caseCond comp c
    let r ← s.label "if".toList
    let s1 ← r.2.side r.1 e false (Stmt.scan b)
    if bs.isEmpty then .ok s1
    else do
      let f ← s1.frame s1.current
      let s2 ← s1.addFrame ⟨toELSE r.1, .if_, none⟩ { f.child with cond := some e, isElse := true }
      Stmt.scanCases comp cs bs s2
  | _, _, s => .ok s
end

/-! ### Instances -/

/-- signalvisitor.py:337-342 `stackInstanceFrame`. -/
def SV.stackInstance (T : ModTable) (s : SV) (inst mod : Str) : Py SV := do
  let s1 ← s.addFrame ⟨inst, .module, none⟩ { previous := [], isModule := true }
  let sg ← DefinitionInfoTable.getSignals T mod
  let cs ← DefinitionInfoTable.getConsts T mod
  s1.modify (fun f => { f with vars := { f.vars with signal := sg, const := cs } })

/-- The constants of the current frame; DefinitionInfo keeps the first definition of a name only, so that the error
'Multiple definitions' (signalvisitor.py:347) does not occur. -/
def SV.consts (s : SV) : Py (List ConstDef) := do
  let f ← s.frame s.current
  .ok (f.vars.const.filterMap (fun e => e.2.head?.bind DItem.const))

/-- signalvisitor.py:468-474 `makeConstantTerm`. -/
def SV.constTerm (s : SV) (d : ConstDef) (scope : ScopeChain) : Py Term := do
  let m ← (match d.width with | none => .ok (.intc "31".toList) | some r => s.getTree r.1 scope : Py DF)
  let l ← (match d.width with | none => .ok (.intc ['0']) | some r => s.getTree r.2 scope : Py DF)
  .ok ⟨scope ++ [⟨d.name, .signal, none⟩], [d.type], m, l, none⟩

/-- signalvisitor.py:344-356 `setInstanceSimpleConstantTerms`: for a constant with a range the bounds are replaced by None,
which `makeDFTree` does not accept: FormatError. -/
def SV.simpleTerms (s : SV) : Py SV := do
  let ds ← s.consts
  ds.foldlM (fun (st : SV) d =>
    match d.width with
    | some _ => .error .format
    | none => do
      let t ← st.constTerm d st.current
      .ok (st.setTerm t.name t)) s

/-- signalvisitor.py:358-366 `setInstanceConstantTerms`. -/
def SV.constTerms (s : SV) : Py SV := do
  let ds ← s.consts
  ds.foldlM (fun (st : SV) d => do
    let t ← st.constTerm d st.current
    .ok (st.setTerm t.name t)) s

/-- signalvisitor.py:374-388: one round over the constants; the flag says whether all have a value. -/
def SV.constPass (scope : ScopeChain) : List ConstDef → SV → Py (SV × Bool)
  | [], s => .ok (s, true)
  | d :: ds, s =>
    let c := scope ++ [⟨d.name, .signal, none⟩]
    if s.octx.consts.has c then SV.constPass scope ds s
    else
      match d.value with
      | none => SV.constPass scope ds s
      | some e => do
        let v ← s.eval e scope
        if v.isEv then SV.constPass scope ds (s.setConst c v)
        else do
          let r ← SV.constPass scope ds s
          .ok (r.1, false)

/-- signalvisitor.py:368-388 `setInstanceConstants`; the first argument bounds the number of rounds. -/
def SV.constLoop (scope : ScopeChain) (ds : List ConstDef) : Nat → SV → Py SV
  | 0, _ => .error .recursion
  | k + 1, s => do
    let r ← SV.constPass scope ds s
    if r.2 then .ok r.1 else SV.constLoop scope ds k r.1

/-- signalvisitor.py:142-151: one argument for a parameter, evaluated in the scope of the instantiation. -/
def SV.instParam (names : List Str) (parent : ScopeChain) (s : SV) (p : PArg × Nat) : Py SV := do
  let n ← (match p.1.name with
    | some n => .ok n
    | none => match names[p.2]? with | some n => .ok n | none => .error .index : Py Str)
  if n ∈ names then
    match p.1.arg with
    | none => .error .format
    | some e => do
      let v ← s.eval e parent
      let c ← s.searchConst s.current n
      .ok (s.setConst c v)
  else .error .format

/-- signalvisitor.py:128-160 `_visit_Instance_body`; `rec` visits the definition of a module. -/
def SV.visitInstBody (T : ModTable) (rec : SV → Str → Py SV) (s : SV) (mod : Str) (params : List PArg) (name : Str) : Py SV :=
  match primitiveOf mod with
  | some _ => .ok s
  | none =>
    if name = [] then .error .format
    else do
      let s1 ← s.stackInstance T name mod
      let s2 ← s1.simpleTerms
      let names ← DefinitionInfoTable.getParamNames T mod
      let s3 ← params.zipIdx.foldlM (SV.instParam names s.current) s2
      let ds ← s3.consts
      let s4 ← SV.constLoop s3.current ds s3.loops s3
      let s5 ← s4.constTerms
      let s6 ← rec s5 mod
      .ok { s6 with current := s.current }

/-- signalvisitor.py:108-126 `visit_Instance`, `_visit_Instance_array`. -/
def SV.visitInst (T : ModTable) (rec : SV → Str → Py SV) (mod : Str) (params : List PArg) (s : SV) (i : Inst) : Py SV :=
  match i.array with
  | none => s.visitInstBody T rec mod params i.name
  | some (me, le) =>
    if i.name = [] then .error .format
    else do
      let m ← s.eval me s.current
      let hi ← m.intAttr
      let l ← s.eval le s.current
      let lo ← l.intAttr
      (List.range (hi + 1 - lo).toNat).foldlM (fun (st : SV) (k : Nat) =>
        st.visitInstBody T rec mod params (i.name ++ ['_'] ++ intStr (lo + k))) s

/-! ### Modules -/

mutual
/-- signalvisitor.py:38-333: an item of a module.  `AlwaysFF`, `AlwaysComb` and `AlwaysLatch` have no method: their
statement is visited in place. -/
def MItem.scan (T : ModTable) (rec : SV → Str → Py SV) : MItem → SV → Py SV
  | .decl ds, s => ds.foldlM SV.visitNode s
  | .assign _ _, s => .ok s
  | .always .always _ b, s => do
    let r ← s.label "always".toList
    let f ← r.2.frame r.2.current
    r.2.inside ⟨r.1, .always, none⟩ { previous := [], isAlways := true, isGenerate := f.isGenerate } (Stmt.scan b)
  | .always _ _ b, s => b.scan s
  | .initial _, s => .ok s
  | .insts m ps is, s => is.foldlM (SV.visitInst T rec m ps) s
  | .func n _ ds b, s => do
    let f ← s.frame s.current
    if n ∈ f.funcs then .error .definition
    else do
      let s1 ← s.modify (fun f => { f with funcs := f.funcs ++ [n] })
      let s2 ← ds.flatten.foldlM SV.visitNode { s1 with fdef := true }
      let s3 ← b.scan s2
      .ok { s3 with fdef := false }
  | .task n ds b, s => do
    let f ← s.frame s.current
    if n ∈ f.tasks then .error .definition
    else do
      let s1 ← s.modify (fun f => { f with tasks := f.tasks ++ [n] })
      let s2 ← ds.flatten.foldlM SV.visitNode { s1 with tdef := true }
      let s3 ← b.scan s2
      .ok { s3 with tdef := false }
  | .gen is, s => do
    let r ← s.label "generate".toList
    r.2.inside ⟨r.1, .generate, none⟩ { previous := [], isGenerate := true } (MItem.scanList T rec is)
  | .gif c t, s => SV.visitIf c false (MItem.scan T rec t) true (fun s => .ok s) s
  | .gife c t f, s => SV.visitIf c false (MItem.scan T rec t) false (MItem.scan T rec f) s
  | .gfor pl pr c ql qr b, s => SV.visitFor pl pr c ql qr (MItem.scan T rec b) s
  | .gblock n is, s => SV.visitBlock n (MItem.scanList T rec is) s
/-- The items of a list in order. -/
def MItem.scanList (T : ModTable) (rec : SV → Str → Py SV) : List MItem → SV → Py SV
  | [], s => .ok s
  | i :: is, s => do
    let s1 ← MItem.scan T rec i s
    MItem.scanList T rec is s1
end

/-- signalvisitor.py: the visit of a module definition (`generic_visit` of `ModuleDef`); the first argument bounds the depth
of the hierarchy. -/
def SV.visitModule (T : ModTable) : Nat → SV → Str → Py SV
  | 0, _, _ => .error .recursion
  | k + 1, s, name => do
    let m ← DefinitionInfoTable.getDefinition T name
    let s1 ← (m.params.flatten.map (DItem.param false)).foldlM SV.visitNode s
    let s2 ← (m.ports.flatMap (fun p => match p with | .io f x => DItem.var f :: (x.map DItem.var).toList | _ => [])).foldlM
      SV.visitNode s1
    MItem.scanList T (SV.visitModule T k) m.items s2

/-- signalvisitor.py:24-38, dataflow_analyzer.py:45-48: the frames of a design. -/
def signalPass (ctx : OptCtx) (fuel loops depth : Nat) (ms : List ModuleDef) (top : Str) : Py SV := do
  let T ← modTable ms
  let s0 : SV := { frames := [], current := [], octx := ctx, fuel := fuel, loops := loops }
  let s1 ← s0.stackInstance T top top
  s1.visitModule T depth top

end Pyv
