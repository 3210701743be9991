import Verif.Merge
/-
  Model of pyverilog/utils/util.py `dictlistmerge` and of pyverilog/dataflow/subset.py.
-/
namespace Pyv

section
variable {κ α : Type} [DecidableEq κ] [DecidableEq α]

/-- util.py:78-80: the inner loop `for bvv in bv: if bvv not in ret[bk]: ret[bk].append(bvv)`. -/
def appendMissing : List α → List α → List α
  | l, [] => l
  | l, x :: xs => appendMissing (if x ∈ l then l else l ++ [x]) xs

/-- util.py:76-82: the outer loop over `b.items()`. -/
def dictlistmergeLoop : Dict κ (List α) → Dict κ (List α) → Dict κ (List α)
  | ret, [] => ret
  | ret, (k, v) :: b =>
    match ret.get? k with
    | some l => dictlistmergeLoop (ret.set k (appendMissing l v)) b
    | none => dictlistmergeLoop (ret.set k v) b

/-- util.py:73-83 `dictlistmerge(a, b)`: the value returned. -/
def dictlistmerge (a b : Dict κ (List α)) : Dict κ (List α) := dictlistmergeLoop a b

/-- util.py:73-83 `dictlistmerge(a, b)`: what `a` is afterwards.  `ret.update(a)` copies the dictionary but shares its
lists, so the lists of `a` are the ones appended to; no key is added to `a`.  (`b` is left alone; its lists become
shared with the result, which only a later merge would show.) -/
def dictlistmergeLeft (a b : Dict κ (List α)) : Dict κ (List α) :=
  a.map (fun p => (p.1, ((dictlistmerge a b).get? p.1).getD p.2))

end

/-- visit.py:85-90 `AlwaysInfo.isClockEdge`: a missing clock name is None, never the empty string, so only the edge
decides. -/
def AlwaysInfo.isClockEdge (a : AlwaysInfo) : Bool := a.clockEdge = some "posedge".toList || a.clockEdge = some "negedge".toList

/-- dataflow.py:908-911 `Bind.isClockEdge`. -/
def Bind.isClockEdge (b : Bind) : Bool := match b.always with | none => false | some a => a.isClockEdge

/-- dataflow.py:913-916 `Bind.getClockName` (of a bind with clock edge). -/
def Bind.clockName (b : Bind) : Option ScopeChain := b.always.bind (·.clockName)

/-- subset.py:22-33 `VerilogSubset.__init__`, `set_clock_info`: the merge state, the top module, the name of its clock.
`order` is the order in which Python iterates over a set of names (any permutation; theorems quantify over it). -/
structure SubsetEnv where
  merge : MergeEnv
  top : Str
  clock : Str
  order : List ScopeChain → List ScopeChain

/-- subset.py:50-52: does `getBindSubset` follow the clock of this bind?  `clock_name != toTermname((top, clock))` is
`ScopeChain.__eq__` with its wildcard scope types (scope.py:43-49). -/
def SubsetEnv.foreignClock (S : SubsetEnv) (b : Bind) : Bool :=
  b.isClockEdge && !(match b.clockName with | none => false | some c => ScopeChain.pyEq c (toTermnameList [S.top, S.clock]))

/-- The binds and the names collected. -/
abbrev SubsetRes := Dict ScopeChain (List Bind) × List ScopeChain

/-- subset.py:46-55: the loop over the binds of `termname`. `rec` is `getBindSubset`. -/
def SubsetEnv.bindLoop (S : SubsetEnv) (rec : Option ScopeChain → List ScopeChain → Py SubsetRes) (n : ScopeChain) :
    List Bind → SubsetRes → Py SubsetRes
  | [], st => .ok st
  | b :: bs, st =>
    let st1 : SubsetRes := (st.1.set n ((st.1.get? n).getD [] ++ [b]), st.2)
    if S.foreignClock b then do
      let r ← rec b.clockName st1.2
      S.bindLoop rec n bs (dictlistmerge st1.1 r.1, setUnion st1.2 r.2)
    else S.bindLoop rec n bs st1

/-- subset.py:58-64: the loop over the sources; `V` is `visited_sources`. -/
def SubsetEnv.sourceLoop (S : SubsetEnv) (rec : Option ScopeChain → List ScopeChain → Py SubsetRes) (V : List ScopeChain) :
    List ScopeChain → SubsetRes → Py SubsetRes
  | [], st => .ok st
  | s :: ss, st =>
    if s ∈ V then S.sourceLoop rec V ss st
    else do
      let next := setUnion st.2 [s]
      let r ← rec (some s) next
      S.sourceLoop rec V ss (dictlistmerge st.1 r.1, setUnion next r.2)

/-- subset.py:39-65 `getBindSubset(termname, visited_sources)`; the name None (a missing clock) is no key of the terms.
The first argument is the recursion depth available. -/
def SubsetEnv.getBindSubset (S : SubsetEnv) : Nat → Option ScopeChain → List ScopeChain → Py SubsetRes
  | 0, _, _ => .error .recursion
  | f + 1, n?, V =>
    match n? with
    | none => .error .definition
    | some n =>
      match S.merge.terms.get? n with
      | none => .error .definition
      | some _ => do
        let st ← S.bindLoop (S.getBindSubset f) n (S.merge.bindlist n) ([], V)
        let sources ← S.merge.bindSources n
        S.sourceLoop (S.getBindSubset f) V (S.order sources) st

/-- subset.py:70-74: the loop over the targets.  A target is given by the analyzed name equal to `toTermname(target)`
(C01, C02: that is the dictionary key it finds). -/
def SubsetEnv.targetLoop (S : SubsetEnv) (fuel : Nat) : List ScopeChain → SubsetRes → Py SubsetRes
  | [], st => .ok st
  | t :: ts, st => do
    let r ← S.getBindSubset fuel (some t) st.2
    S.targetLoop fuel ts (dictlistmerge st.1 r.1, setUnion st.2 r.2)

/-- subset.py:67-75 `getBindSourceSubset`. -/
def SubsetEnv.getBindSourceSubset (S : SubsetEnv) (fuel : Nat) (targets : List ScopeChain) : Py SubsetRes :=
  S.targetLoop fuel targets ([], [])

/-! ### Classification of the assignments -/

/-- merge.py:68-99: the answers of `getAssignType`. -/
inductive AssignType where
  | assign | clockedge | combination | parameter | localparam | genvar
  deriving DecidableEq, Repr

/-- merge.py:68-99 `getAssignType`.  `signaltype.isWireArray` (merge.py:72) does not exist in signaltype.py: everything
after the first test raises AttributeError. -/
def MergeEnv.assignType (S : MergeEnv) (n : ScopeChain) (_b : Bind) : Py AssignType :=
  match S.terms.get? n with
  | none => .error .definition
  | some t => if t.types.contains .wire then .ok .assign else .error .attribute

/-- subset.py:86-91: the five dictionaries of `_discretion`.  The values of the last three are Python sets. -/
structure Discretion where
  terms : Dict ScopeChain Term := []
  parameter : Dict ScopeChain Bind := []
  assign : Dict ScopeChain (List Bind) := []
  clockedge : Dict ScopeChain (List Bind) := []
  combination : Dict ScopeChain (List Bind) := []

/-- `if not left in d: d[left] = set([])` and `d[left].add(right)`. -/
def addToSet (d : Dict ScopeChain (List Bind)) (l : ScopeChain) (r : Bind) : Dict ScopeChain (List Bind) :=
  d.set l (setUnion ((d.get? l).getD []) [r])

/-- subset.py:94-100: the loop over the names. -/
def MergeEnv.discTerms (S : MergeEnv) : List ScopeChain → Dict ScopeChain Term → Py (Dict ScopeChain Term)
  | [], d => .ok d
  | n :: ns, d =>
    match S.terms.get? n with
    | none => .error .definition
    | some t => if t.isParam then S.discTerms ns d else S.discTerms ns (d.set n t)

/-- subset.py:104-124: one assignment. -/
def MergeEnv.discBind (S : MergeEnv) (d : Discretion) (l : ScopeChain) (r : Bind) : Py Discretion := do
  let addTerm (d : Discretion) : Py Discretion :=
    if d.terms.has l then .ok d
    else match S.terms.get? l with
      | some t => .ok { d with terms := d.terms.set l t }
      | none => .error .key
  match ← S.assignType l r with
  | .clockedge => addTerm { d with clockedge := addToSet d.clockedge l r }
  | .combination => addTerm { d with combination := addToSet d.combination l r }
  | .assign => addTerm { d with assign := addToSet d.assign l r }
  | .parameter => .ok { d with parameter := d.parameter.set l r }
  | .localparam => .ok { d with parameter := d.parameter.set l r }
  | .genvar => addTerm d

/-- subset.py:103-124: the assignments of one name. -/
def MergeEnv.discBinds (S : MergeEnv) (l : ScopeChain) : List Bind → Discretion → Py Discretion
  | [], d => .ok d
  | r :: rs, d => do
    let d' ← S.discBind d l r
    S.discBinds l rs d'

/-- subset.py:102-124: all assignments. -/
def MergeEnv.discAll (S : MergeEnv) : Dict ScopeChain (List Bind) → Discretion → Py Discretion
  | [], d => .ok d
  | (l, rs) :: bs, d => do
    let d' ← S.discBinds l rs d
    S.discAll bs d'

/-- subset.py:86-125 `_discretion`. -/
def MergeEnv.discretion (S : MergeEnv) (binds : Dict ScopeChain (List Bind)) (names : List ScopeChain) : Py Discretion := do
  let ts ← S.discTerms names []
  S.discAll binds { terms := ts }

/-- subset.py:77-80 `getEntire`. -/
def MergeEnv.getEntire (S : MergeEnv) : Py Discretion := S.discretion S.rbinds (S.terms.map (·.1))

/-- subset.py:82-84 `getSubset`. -/
def SubsetEnv.getSubset (S : SubsetEnv) (fuel : Nat) (targets : List ScopeChain) : Py Discretion := do
  let r ← S.getBindSourceSubset fuel targets
  S.merge.discretion r.1 (S.order r.2)

end Pyv
