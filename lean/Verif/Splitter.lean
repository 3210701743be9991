import Verif.DF
import Verif.Dict
/-
  Model of pyverilog/controlflow/splitter.py.
-/
namespace Pyv

/-- A function dictionary: condition list ↦ function. -/
abbrev FuncDict := Dict (List DF) DF

/-- splitter.py:24-25 / 31-32: `for cond, func in funcs.items(): funcdict[(c,) + cond] = func`. -/
def addPrefixed (c : DF) (fd : FuncDict) (funcs : FuncDict) : FuncDict :=
  funcs.foldl (fun fd p => fd.set (c :: p.1) p.2) fd

/-- splitter.py:23-28 / 30-35: record one side of a conditional. -/
def addSide (c : DF) (side : DF) (funcs : FuncDict) (fd : FuncDict) : FuncDict :=
  if funcs.length > 0 then addPrefixed c fd funcs
  else if side ≠ .none then fd.set [c] side else fd

/-- splitter.py:18-36 `split`.  The dictionary keys are tuples of nodes, compared structurally. -/
def split : DF → Py FuncDict
  | .branch c t f => do
    let tf ← split t
    let fd := addSide c t tf []
    let ff ← split f
    let fc ← DF.mkOp .ulnot [c]
    .ok (addSide fc f ff fd)
  | _ => .ok []

/-- splitter.py:49-56 `remove_reset_condlist`, 59-63 `_remove_reset_cond`; `isReset` abstracts
`signaltype.isReset(cond.tostr())`. -/
def removeResetCondlist (isReset : DF → Bool) (cs : List DF) : List DF := cs.filter (fun c => !isReset c)

/-- splitter.py:39-46 `remove_reset_condition`. -/
def removeResetCondition (isReset : DF → Bool) (fd : FuncDict) : FuncDict :=
  let n : FuncDict := fd.foldl (fun n p => n.set (removeResetCondlist isReset p.1) p.2) []
  if n.has [] && decide (n.length > 1) then n.del [] else n

/-- The comparison operators accepted by `active_constant` as text. -/
inductive CmpOp where
  | lt | le | gt | ge | eq | ne
  deriving DecidableEq, Repr

/-- The meaning of the comparison evaluated by splitter.py:69 on ints. -/
def CmpOp.holds : CmpOp → Int → Int → Bool
  | .lt, a, b => decide (a < b)
  | .le, a, b => decide (a ≤ b)
  | .gt, a, b => decide (a > b)
  | .ge, a, b => decide (a ≥ b)
  | .eq, a, b => decide (a = b)
  | .ne, a, b => decide (a ≠ b)

/-- splitter.py:66-71 `active_constant` (int values; other values are outside the model). -/
def activeConstant (op : CmpOp) (value : Int) (_name : ScopeChain) : DF → Py Bool
  | .ev (.int v) _ _ _ => .ok (op.holds v value)
  | .ev .. => .error .unmodelled
  | _ => .ok false

/-- splitter.py:74-77 `active_modify`. -/
def activeModify (name : ScopeChain) : DF → Py Bool
  | .term n => .ok (if n = name then false else true)
  | _ => .ok true

/-- splitter.py:80-83 `active_unmodify`. -/
def activeUnmodify (name : ScopeChain) : DF → Py Bool
  | .term n => .ok (if n = name then true else false)
  | _ => .ok false

/-- splitter.py:86-92: the loop of `filter`. -/
def filterLoop (name : ScopeChain) (condition : ScopeChain → DF → Py Bool) : FuncDict → FuncDict → Py FuncDict
  | [], ret => .ok ret
  | (k, f) :: rest, ret => do
    let b ← condition name f
    filterLoop name condition rest (if b then ret.set k f else ret)

/-- splitter.py:86-92 `filter`. -/
def filterFuncs (fd : FuncDict) (name : ScopeChain) (condition : ScopeChain → DF → Py Bool) : Py FuncDict :=
  filterLoop name condition fd []

end Pyv
