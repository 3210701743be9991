import Verif.SignalVisitor
/-
  Model of the resolution of hierarchical names, `a.b[2].x`: pyverilog/dataflow/visit.py:836-868 and
  pyverilog/dataflow/bindvisitor.py:715-742.
-/
namespace Pyv

/-- The loops over `getNext()` (visit.py:845-848, 857-860, 864-867): the first frame that matches, with the label `l` of
the frame above in front. -/
def firstMatch (search : ScopeChain → Py (Option ScopeChain)) (l : ScopeLabel) : List ScopeChain → Py (Option ScopeChain)
  | [] => .ok none
  | c :: cs => do
    let r ← search c
    match r with
    | some r => .ok (some (l :: r))
    | none => firstMatch search l cs

/-- visit.py:836-868 `searchMatchedScopeChain`: the labels of a frame below (and with) `cur` that the labels `target`
describe.  The first number bounds the depth of the tree of frames. -/
def searchMatched (fr : Dict ScopeChain SFrame) : Nat → ScopeChain → ScopeChain → Py (Option ScopeChain)
  | 0, _, _ => .error .recursion
  | k + 1, cur, target =>
    match cur.getLast?, target with
    | none, _ => .error .index
    | some l, [] => if l.isPrintable ∨ l.type = .for_ then .error .index else do
      let f ← fr.get cur
      firstMatch (fun c => searchMatched fr k c []) l f.next
    | some l, t :: ts =>
      if l.isPrintable then
        if l.pyEq t = false then .ok none
        else if ts = [] then .ok (some [t])
        else do
          let f ← fr.get cur
          firstMatch (fun c => searchMatched fr k c ts) l f.next
      else if l.type = .for_ ∧ t.type = .for_ then
        if l.loop ≠ t.loop then .ok none
        else if ts = [] then .ok (some [t])
        else do
          let f ← fr.get cur
          firstMatch (fun c => searchMatched fr k c ts) l f.next
      else do
        let f ← fr.get cur
        firstMatch (fun c => searchMatched fr k c (t :: ts)) l f.next

/-- bindvisitor.py:715-724 `toScopeChain`; the names of the scopes with their indices, `ev` is the conversion and
optimization of an index (719).  An index that is a constant but no integer is not modelled. -/
def toScopeChain (ev : Ex → Py DF) : List (Str × Option Ex) → Py ScopeChain
  | [] => .ok []
  | (n, i) :: rest => do
    let ls ← indexLabels ev i
    let r ← toScopeChain ev rest
    .ok (ls ++ ⟨n, .any, none⟩ :: r)
where
  /-- bindvisitor.py:718-722: the label of an index. -/
  indexLabels (ev : Ex → Py DF) : Option Ex → Py ScopeChain
    | none => .ok []
    | some e => do
      let d ← ev e
      match d with
      | .ev (.int v) _ _ _ => .ok [⟨"for".toList, .for_, some v⟩]
      | .ev _ _ _ _ => .error .unmodelled
      | _ => .error .format

/-- bindvisitor.py:726-733 `getModuleScopeChain`: up to the last label of a module. -/
def moduleChain : ScopeChain → Py ScopeChain
  | [] => .error .definition
  | l :: ls =>
    match moduleChain ls with
    | .ok c => .ok (l :: c)
    | .error e => if l.type = .module then .ok [l] else .error e

/-- `name in dict` for the dictionary of the terms: a key that is equal as Python compares chains (dataflow.py `hasTerm`;
C47 for the hash). -/
def hasTermPy (terms : Dict ScopeChain Term) (c : ScopeChain) : Bool := terms.any (fun e => ScopeChain.pyEq e.1 c)

/-- bindvisitor.py:735-742 `searchScopeTerminal`.  When no scope matches, `currentmodule[:-1] + None` raises the error of
scope.py:77, where `verror` is not defined: NameError. -/
def searchScopeTerminal (fr : Dict ScopeChain SFrame) (terms : Dict ScopeChain Term) (ev : Ex → Py DF) (fuel : Nat)
    (labels : List (Str × Option Ex)) (name : Str) (current : ScopeChain) : Py ScopeChain := do
  let m ← moduleChain current
  let t ← toScopeChain ev labels
  let r ← searchMatched fr fuel m (m.drop (m.length - 1) ++ t)
  match r with
  | none => .error .name
  | some r =>
    let v := m.dropLast ++ r ++ [⟨name, .signal, none⟩]
    if hasTermPy terms v then .ok v else .error .definition

end Pyv
