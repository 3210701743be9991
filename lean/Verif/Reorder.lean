import Verif.DF
/-
  Model of pyverilog/dataflow/reorder.py and pyverilog/dataflow/replace.py.
-/
namespace Pyv

/-- `isinstance(n, DFBranch)`. -/
def DF.isBranch : DF → Bool
  | .branch .. => true
  | _ => false

/-- reorder.py:90-93 `insertBranch`. -/
def insertBranch : DF → DF → DF → DF
  | .branch c t f, tn, fn => .branch c (insertBranch t tn fn) (insertBranch f tn fn)
  | base, tn, fn => .branch base tn fn

/-- The common shape of insertOpList, insertConcat, insertPartselect, insertPointer: descend through the
conditionals at the top of `n` (true side first) and apply `k` to the leaves. -/
def hoistNode (k : DF → Py DF) : DF → Py DF
  | .branch c t f => do
    let a ← hoistNode k t
    let b ← hoistNode k f
    .ok (.branch c a b)
  | n => k n

/-- reorder.py:109-130 `insertOpList` / `insertConcat` (they differ in the node built at the end, `k`).
`done` is `donenodes`.  Simplification: the code restarts its scan at the first operand after replacing a
conditional by one of its sides; the operands before it are not conditionals, so the scan passes over them. -/
def hoistList (k : List DF → Py DF) : List DF → List DF → Py DF
  | done, [] => k done
  | done, n :: rest => hoistNode (fun n => hoistList k (done ++ [n]) rest) n

/-- reorder.py:109-118 `insertOpList`. -/
def insertOpList (ns : List DF) (o : Op) : Py DF := hoistList (DF.mkOp o) [] ns

/-- reorder.py:121-130 `insertConcat`. -/
def insertConcat (ns : List DF) : Py DF := hoistList (fun ns => .ok (.concat ns)) [] ns

/-- reorder.py:133-138 `insertPartselect`. -/
def insertPartselect (v m l : DF) : Py DF :=
  hoistNode (fun n => match n with | .none => .ok .none | n => .ok (.psel n m l)) v

/-- reorder.py:141-146 `insertPointer`. -/
def insertPointer (v p : DF) : Py DF :=
  hoistNode (fun n => match n with | .none => .ok .none | n => .ok (.ptr n p)) v

/-- reorder.py:18-84 `reorder`.  `fuel` bounds the recursion depth: the function re-invokes itself on freshly
built pointers (73-75).  Lines 64 and 84 name exceptions that are not imported: NameError. -/
def reorder : Nat → DF → Py DF
  | 0, _ => .error .recursion
  | k + 1, t =>
    match t with
    | .branch c tn fn => do
      let t' ← reorder k tn
      let f' ← reorder k fn
      let c' ← reorder k c
      .ok (if c'.isBranch then insertBranch c' t' f' else .branch c' t' f')
    | .op o ns => do
      let rs ← ns.mapM (reorder k)
      if rs.any DF.isBranch then insertOpList rs o else DF.mkOp o rs
    | .concat ns => do
      let rs ← ns.mapM (reorder k)
      if rs.any DF.isBranch then insertConcat rs else .ok (.concat rs)
    | .psel v m l => do
      let m' ← reorder k m
      let l' ← reorder k l
      let v' ← reorder k v
      if m'.isBranch || l'.isBranch then .error .name
      else if v'.isBranch then insertPartselect v' m' l'
      else .ok (.psel v' m' l')
    | .ptr v p => do
      let p' ← reorder k p
      let v' ← reorder k v
      match p' with
      | .branch c pt pf => do
        let a ← reorder k (.ptr v' pt)
        let b ← reorder k (.ptr v' pf)
        .ok (.branch c a b)
      | p' => if v'.isBranch then insertPointer v' p' else .ok (.ptr v' p')
    | .delay n => do
      let n' ← reorder k n
      .ok (.delay n')
    | .sys _ _ => .error .name
    | t => .ok t

mutual
/-- replace.py:18-57 `replaceUndefined`.  Line 57 names an exception that is not imported: NameError (reached
for DFHighImpedance, DFDelay, DFSyscall). -/
def replaceUndefined (name : ScopeChain) : DF → Py DF
  | .none => .ok (.term name)
  | .undef _ => .ok (.term name)
  | .intc s => .ok (.intc s)
  | .fltc s => .ok (.fltc s)
  | .strc s => .ok (.strc s)
  | .ev v w a b => .ok (.ev v w a b)
  | .term n => .ok (.term n)
  | .branch c t f => do
    let c' ← replaceUndefined name c
    let t' ← replaceUndefined name t
    let f' ← replaceUndefined name f
    .ok (.branch c' t' f')
  | .op o ns => do
    let rs ← replaceUndefinedList name ns
    DF.mkOp o rs
  | .psel v m l => do
    let m' ← replaceUndefined name m
    let l' ← replaceUndefined name l
    let v' ← replaceUndefined name v
    .ok (.psel v' m' l')
  | .ptr v p => do
    let p' ← replaceUndefined name p
    let v' ← replaceUndefined name v
    .ok (.ptr v' p')
  | .concat ns => do
    let rs ← replaceUndefinedList name ns
    .ok (.concat rs)
  | .hiz _ => .error .name
  | .delay _ => .error .name
  | .sys _ _ => .error .name
/-- `replaceUndefined` of each child. -/
def replaceUndefinedList (name : ScopeChain) : List DF → Py (List DF)
  | [] => .ok []
  | n :: ns => do
    let x ← replaceUndefined name n
    let xs ← replaceUndefinedList name ns
    .ok (x :: xs)
end

end Pyv
