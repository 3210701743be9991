import Verif.Fsm
import Verif.Binder
import Verif.Walker
/-
  Model of pyverilog/controlflow/controlflow_analyzer.py: the search for state machines (`getFiniteStateMachines`) and their loops
  (`getLoops`).

  Simplification: the words `fsm_vars` are plain text (as the default ones are), no regular expressions.
-/
namespace Pyv

/-- controlflow_analyzer.py:31: the default of `fsm_vars`. -/
def fsmVars : List Str := ["fsm".toList, "state".toList, "count".toList, "cnt".toList, "step".toList, "mode".toList]

/-- controlflow_analyzer.py:97-101 `isFsmVar`. -/
def isFsmVar (words : List Str) (n : ScopeChain) : Bool :=
  words.any (fun v => hasSub (v.map Char.toLower) ((ScopeChain.repr n).map Char.toLower))

/-- controlflow_analyzer.py:103-110 `getWidth`; `terms` are the terms of the analyzer, `ctx` is its optimizer. -/
def flowWidth (terms : Dict ScopeChain Term) (ctx : OptCtx) (fuel : Nat) (n : ScopeChain) : Py Nat :=
  match terms.get? n with
  | none => .error .attribute
  | some t => do
    let m ← ctx.optConst fuel t.msb
    let l ← ctx.optConst fuel t.lsb
    if m ≠ .none ∧ l ≠ .none then do
      let d ← ctx.optConst fuel (.op .minus [m, l])
      let v ← d.intAttr
      .ok (v.natAbs + 1)
    else .ok 32

/-- What the search looks up: as `TermInfo`, and the keys of `resolved_binddict` and `getWidth`. -/
structure FlowInfo extends TermInfo where
  bound : List ScopeChain
  width : ScopeChain → Py Nat

/-- controlflow_analyzer.py:54-61 with 64-69: one signal; no machine without transitions. -/
def fsmOne (isReset : DF → Bool) (opt : DF → Py DF) (info : FlowInfo) (fuel : Nat) (n : ScopeChain) : Py (Option (Fsm × Nat)) := do
  let x ← getFuncdict isReset info.toTermInfo fuel n 0
  if x.1 = [] then .ok none
  else do
    let w ← info.width n
    let m ← getFsm n w x.1
    if m.size > 0 then do
      let r ← m.resolve opt
      .ok (some (r, x.2))
    else .ok none

/-- controlflow_analyzer.py:51-61: the loop over the signals. -/
def fsmLoop (words : List Str) (isReset : DF → Bool) (opt : DF → Py DF) (info : FlowInfo) (fuel : Nat) :
    List ScopeChain → Dict ScopeChain (Fsm × Nat) → Py (Dict ScopeChain (Fsm × Nat))
  | [], d => .ok d
  | n :: ns, d =>
    if isFsmVar words n then do
      let r ← fsmOne isReset opt info fuel n
      fsmLoop words isReset opt info fuel ns (match r with | some m => Dict.set d n m | none => d)
    else fsmLoop words isReset opt info fuel ns d

/-- controlflow_analyzer.py:49-62 `getFiniteStateMachines`: the machines with their delays. -/
def getFsms (words : List Str) (isReset : DF → Bool) (opt : DF → Py DF) (info : FlowInfo) (fuel : Nat) : Py (Dict ScopeChain (Fsm × Nat)) :=
  fsmLoop words isReset opt info fuel info.bound []

/-- controlflow_analyzer.py:40-46: the loop over the machines. -/
def loopsLoop : List (ScopeChain × (Fsm × Nat)) → Dict ScopeChain (List (List Int)) → Dict ScopeChain (List (List Int))
  | [], d => d
  | (n, m) :: ms, d =>
    loopsLoop ms (if m.1.getLoop.length = 0 then d else Dict.set d n (setUnion ((d.get? n).getD []) m.1.getLoop))

/-- controlflow_analyzer.py:37-47 `getLoops`. -/
def getLoops (words : List Str) (isReset : DF → Bool) (opt : DF → Py DF) (info : FlowInfo) (fuel : Nat) :
    Py (Dict ScopeChain (List (List Int)) × Dict ScopeChain (Fsm × Nat)) := do
  let ms ← getFsms words isReset opt info fuel
  .ok (loopsLoop ms [], ms)

end Pyv
