import Verif.Fsm
/-
  Model of pyverilog/controlflow/active_analyzer.py.
-/
namespace Pyv

/-- A loop that appends what each round yields. -/
def collectM {α β : Type} (f : α → Py (List β)) : List α → Py (List β)
  | [] => .ok []
  | x :: xs => do
    let a ← f x
    let b ← collectM f xs
    .ok (a ++ b)

/-- active_analyzer.py:72-76: one state of one StateNode; no transition condition (None) is `DF.none`. -/
def activeState (opt : DF → Py DF) (tc : Option DF) (state : Int) : Py (List (Int × DF)) := do
  let c ← opt (tc.getD .none)
  match c with
  | .ev (.int 0) _ _ _ => .ok []
  | c => .ok [(state, c)]

/-- active_analyzer.py:67-76: one StateNode. -/
def activeNode (opt : DF → Py DF) (n : SNode) : Py (List (Int × DF)) :=
  collectM (fun rp => collectM (activeState opt n.tc) (intRange rp.1 rp.2)) n.ranges

/-- The StateNodes of a result of `walkCondlist`: active_analyzer.py:59-65. -/
def stateNodes : Option SN → List SNode
  | none => []
  | some (.one n) => [n]
  | some (.many ns) => ns

/-- active_analyzer.py:57-76: one entry of the function dictionary. -/
def activeEntry (opt : DF → Py DF) (sig : ScopeChain) (width : Nat) (e : List DF × DF) : Py (List (Int × DF)) := do
  let r ← walkCondlist e.1 sig width
  collectM (activeNode opt) (stateNodes r)

/-- active_analyzer.py:53-77 `getActiveConditions_fsm`. -/
def activeFsm (opt : DF → Py DF) (sig : ScopeChain) (width : Nat) (fd : FuncDict) : Py (List (Int × DF)) :=
  collectM (activeEntry opt sig width) (sortOn (fun e => (e.1.length : Int)) fd)

/-- active_analyzer.py:38-43: the loop over the state machines. -/
def activeLoop (opt : DF → Py DF) (width : ScopeChain → Py Nat) (fd : FuncDict) :
    List ScopeChain → Dict ScopeChain (List (Int × DF)) → Py (Dict ScopeChain (List (Int × DF)))
  | [], d => .ok d
  | s :: ss, d => do
    let w ← width s
    let r ← activeFsm opt s w fd
    activeLoop opt width fd ss (if r.length > 0 then d.set s r else d)

/-- active_analyzer.py:25-51 `getActiveConditions`: `bound` says whether the term is a key of `resolved_binddict`,
`tree` is `makeTree(termname)`, `fsms` the keys of `self.fsms`.  `funcdict.values()[0]` raises TypeError in Python 3. -/
def getActive (isReset : DF → Bool) (opt : DF → Py DF) (width : ScopeChain → Py Nat) (fsms : List ScopeChain)
    (name : ScopeChain) (bound : Bool) (tree : DF) (condition : ScopeChain → DF → Py Bool) :
    Py (Dict ScopeChain (List (Int × DF))) :=
  if bound = false then .ok []
  else do
    let fd ← split tree
    let fd ← filterFuncs fd name condition
    let fd := removeResetCondition isReset fd
    if fd.length = 1 ∧ (fd.map (·.1)).head? = some [] then .error .type
    else do
      let d ← activeLoop opt width fd fsms []
      if (d.map (fun p => p.2.length)).sum = 0 then do
        let w ← width name
        let r ← activeFsm opt name w fd
        .ok (if r.length > 0 then d.set name r else d)
      else .ok d

end Pyv
