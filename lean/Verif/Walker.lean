import Verif.Merge
/-
  Model of pyverilog/dataflow/walker.py, and of the parts of dataflow.py, visit.py and merge.py it uses.
-/
namespace Pyv

/-- dataflow.py:809-814 `Bind.isCombination` with visit.py:92-95 `AlwaysInfo.isCombination`. -/
def Bind.isCombination (b : Bind) : Bool :=
  match b.always with
  | none => true
  | some a => a.clockName.isNone

/-- merge.py:101-108 `isCombination`. -/
def MergeEnv.isCombination (S : MergeEnv) (n : ScopeChain) : Bool := (S.bindlist n).any Bind.isCombination

/-- merge.py:56-60 `getTermtype`. -/
def MergeEnv.termtype (S : MergeEnv) (n : ScopeChain) : Py (List TermType) :=
  match S.terms.get? n with
  | none => .error .definition
  | some t => .ok t.types

/-- walker.py:71-77: a register that is assigned in clocked always blocks only, and is not a renamed one. -/
def MergeEnv.clocked (S : MergeEnv) (n : ScopeChain) (ty : List TermType) : Bool :=
  ty.contains .reg && !S.isCombination n && !ty.contains .rename

/-- scope.py:28-36 `ScopeLabel.__repr__`. -/
def ScopeLabel.repr (a : ScopeLabel) : Str :=
  match a.loop with
  | none => a.name
  | some n => a.name ++ '[' :: intStr n ++ [']']

/-- scope.py:109-115 `ScopeChain.__repr__`, dataflow.py:82-86 `DFTerminal.__repr__`. -/
def ScopeChain.repr (c : ScopeChain) : Str := dotJoin (c.map ScopeLabel.repr)

/-- merge.py:32-36 `getTerm` of a str: the first term whose printed name it is (a str is never a key itself). -/
def MergeEnv.termByRepr (S : MergeEnv) (s : Str) : Option Term :=
  (S.terms.find? (fun kv => decide (ScopeChain.repr kv.1 = s))).map (·.2)

/-- `node.eval()` used as an int: dataflow.py:153-171 (DFIntConst), 198-199, 210-211, 526-527 (DFEvalValue); other
nodes have no such method.  Floats and strings are not modelled. -/
def DF.evalInt : DF → Py Int
  | .intc s => intConstEval s
  | .ev v _ _ _ => v.toInt
  | .fltc _ => .error .unmodelled
  | .strc _ => .error .unmodelled
  | _ => .error .attribute

/-- walker.py:98-101: `getTerm(str(tree.var)).lsb.eval()`.  The printed form of a node that is no terminal is not the
name of a term: `getTerm` returns None, AttributeError. -/
def MergeEnv.childLsb (S : MergeEnv) : DF → Py Int
  | .term n =>
    match S.termByRepr (ScopeChain.repr n) with
    | none => .error .attribute
    | some t => t.lsb.evalInt
  | _ => .error .attribute

/-- walker.py:97-102: the part-select of a walked variable. -/
def MergeEnv.walkPsel (S : MergeEnv) (orig var m l : DF) : Py DF :=
  match var with
  | .psel v _ vl => do
    let c ← S.childLsb orig
    let mv ← m.evalInt
    let bv ← vl.evalInt
    let lv ← l.evalInt
    .ok (.psel v (.intc (intStr (mv + bv - c))) (.intc (intStr (lv + bv - c))))
  | var => .ok (.psel var m l)

/-- walker.py:107-111: the pointer into a walked variable. -/
def MergeEnv.walkPtr (S : MergeEnv) (orig var p : DF) : Py DF :=
  match orig with
  | .term n => do
    let d ← S.hasDims n
    .ok (if d = true ∧ var ≠ .term n then var else .ptr var p)
  | _ => .ok (.ptr var p)

/-- walker.py:62-68: what to do with a terminal that is neither being expanded nor a top-level input: `none` to leave
it, or the pointer to pass on.  `sel` says that msb and lsb are given. -/
def MergeEnv.walkIndex (S : MergeEnv) (n : ScopeChain) (sel : Bool) (ptr : DF) : Py (Option DF) := do
  let d ← S.hasDims n
  if d then (if ptr = .none then .error .format else if sel then .ok none else .ok (some ptr))
  else .ok (some .none)

/-- walker.py:36-121 `walkTree`; `fuel` bounds the recursion depth, `visited` is the set of signals being expanded,
`sel` says whether `msb` and `lsb` are given (they are only tested for being None), `ptr` is None = `.none`.  The
argument `delay` is never read. -/
def MergeEnv.walk (S : MergeEnv) : Nat → List ScopeChain → Int → Bool → DF → DF → Py DF
  | 0, _, _, _, _, _ => .error .recursion
  | k + 1, visited, step, sel, ptr, tree =>
    match tree with
    | .none => .ok (.undef (some 32))
    | .undef w => .ok (.undef w)
    | .hiz w => .ok (.hiz w)
    | .intc s => .ok (.intc s)
    | .fltc s => .ok (.fltc s)
    | .strc s => .ok (.strc s)
    | .ev v w a b => .ok (.ev v w a b)
    | .term n =>
      if n ∈ visited then .ok (.term n)
      else do
        let ty ← S.termtype n
        if isTopmodule (getScope n) && ty.contains .input then .ok (.term n)
        else do
          let i ← S.walkIndex n sel ptr
          match i with
          | none => .ok (.term n)
          | some nptr =>
            if S.clocked n ty = true ∧ step = 0 then .ok (.term n)
            else do
              let t ← S.getTree n nptr
              S.walk k (n :: visited) (if S.clocked n ty then step - 1 else step) false .none t
    | .branch c t f => do
      let c' ← S.walk k visited step false .none c
      let t' ← S.walk k visited step false .none t
      let f' ← S.walk k visited step false .none f
      .ok (.branch c' t' f')
    | .op o ns => do
      let rs ← ns.mapM (S.walk k visited step false .none)
      DF.mkOp o rs
    | .psel v m l => do
      let m' ← S.walk k visited step false .none m
      let l' ← S.walk k visited step false .none l
      let v' ← S.walk k visited step true .none v
      S.walkPsel v v' m' l'
    | .ptr v p => do
      let p' ← S.walk k visited step false .none p
      let v' ← S.walk k visited step false p' v
      S.walkPtr v v' p'
    | .concat ns => do
      let rs ← ns.mapM (S.walk k visited step false .none)
      .ok (.concat rs)
    | .delay _ => .error .definition
    | .sys _ _ => .error .definition

/-- walker.py:28-34 `walkBind`.  Simplification: the name is taken as the scope chain stored in the tables (the code
looks up a chain of labels of type 'any', which compares equal to it, C02). -/
def MergeEnv.walkBind (S : MergeEnv) (fuel : Nat) (n : ScopeChain) (step : Int) : Py DF := do
  let _ ← (if S.terms.has n then .ok () else .error .definition : Py Unit)
  let t ← S.getTree n .none
  let w ← S.walk fuel [] step false .none t
  replaceUndefined n w

end Pyv
