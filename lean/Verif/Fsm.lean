import Verif.Dict
import Verif.Transition
import Verif.Splitter
/-
  Model of pyverilog/controlflow/controlflow_analyzer.py: `getFiniteStateMachine` and `class FiniteStateMachine`.
-/
namespace Pyv

/-- The transitions of one state: condition ↦ next state (`none` is Python's None: unconditional). -/
abbrev DstDict := Dict (Option DF) Int

/-- controlflow_analyzer.py:121-126 `class FiniteStateMachine` (name and delay count are not modelled; state labels
are ints). -/
structure Fsm where
  fsm : Dict Int DstDict := []
  any : DstDict := []

/-- `range(sb, se + 1)`. -/
def intRange (sb se : Int) : List Int := (List.range (se + 1 - sb).toNat).map (fun (i : Nat) => sb + (i : Int))

/-- controlflow_analyzer.py:178-180: one round of `add`. -/
def Fsm.addOne (d : Dict Int DstDict) (src dst : Int) (cond : Option DF) : Dict Int DstDict :=
  Dict.set d src (Dict.set ((d.get? src).getD []) cond dst)

/-- controlflow_analyzer.py:175-180 `add`. -/
def Fsm.add (m : Fsm) (srcs : Int × Int) (dst : Int) (cond : Option DF) : Fsm :=
  { m with fsm := (intRange srcs.1 srcs.2).foldl (fun d src => Fsm.addOne d src dst cond) m.fsm }

/-- controlflow_analyzer.py:172-173 `add_any`. -/
def Fsm.addAny (m : Fsm) (dst : Int) (cond : Option DF) : Fsm := { m with any := Dict.set m.any cond dst }

/-- controlflow_analyzer.py:162-170 `construct`, on a StateNode. -/
def Fsm.construct (m : Fsm) (dst : Int) (n : SNode) : Fsm :=
  let m := if n.isany then m.addAny dst n.tc else m
  n.ranges.foldl (fun m rp => m.add rp dst n.tc) m

/-- Stable insertion sort: `sorted(l, key=key)`. -/
def insertOn {α : Type} (key : α → Int) (x : α) : List α → List α
  | [] => [x]
  | y :: ys => if key x ≤ key y then x :: y :: ys else y :: insertOn key x ys
def sortOn {α : Type} (key : α → Int) (l : List α) : List α := l.foldr (insertOn key) []

/-- controlflow_analyzer.py:71-79: one entry of the function dictionary. -/
def Fsm.addEntry (name : ScopeChain) (width : Nat) (m : Fsm) (e : List DF × DF) : Py Fsm :=
  match e.2 with
  | .ev (.int v) _ _ _ => do
    let r ← walkCondlist e.1 name width
    match r with
    | none => .ok m
    | some (.one n) => .ok (m.construct v n)
    | some (.many ns) => .ok (ns.foldl (fun m n => m.construct v n) m)
  | .ev .. => .error .unmodelled
  | _ => .ok m

/-- controlflow_analyzer.py:64-80 `getFiniteStateMachine`. -/
def getFsm (name : ScopeChain) (width : Nat) (fd : FuncDict) : Py Fsm :=
  (sortOn (fun e => (e.1.length : Int)) fd).foldlM (Fsm.addEntry name width) {}

/-- What `getFuncdict` looks up about a term: whether its bindings are clocked (`isClockEdge`), whether it is a renamed
term (`signaltype.isRename(getTermtype(...))`), and its tree (`makeTree`); each look-up may raise. -/
structure TermInfo where
  isRename : ScopeChain → Py Bool
  isClock : ScopeChain → Py Bool
  tree : ScopeChain → Py DF

/-- controlflow_analyzer.py:86-99 `getFuncdict`; the first argument bounds the depth of the recursion (reaching it is
RecursionError). -/
def getFuncdict (isReset : DF → Bool) (info : TermInfo) : Nat → ScopeChain → Nat → Py (FuncDict × Nat)
  | 0, _, _ => .error .recursion
  | fuel + 1, name, cnt => do
    let ren ← info.isRename name
    let clk ← info.isClock name
    if clk = false then .ok ([], 0)
    else if ren then .ok ([], 0)
    else do
      let t ← info.tree name
      let fd ← split t
      match removeResetCondition isReset fd with
      | [([], .term n)] => getFuncdict isReset info fuel n (cnt + 1)
      | fd => .ok (fd, cnt)

/-- controlflow_analyzer.py:131-137 `size`. -/
def Fsm.size (m : Fsm) : Nat := m.fsm.foldl (fun n p => n + p.2.length) 0 + m.fsm.length * m.any.length

/-- controlflow_analyzer.py:143-146 / 152-155: update of the minimum. -/
def updMin (m : Option Int) (x : Int) : Option Int :=
  match m with
  | none => some x
  | some y => if x < y then some x else some y
/-- controlflow_analyzer.py:147-150 / 156-159: update of the maximum. -/
def updMax (m : Option Int) (x : Int) : Option Int :=
  match m with
  | none => some x
  | some y => if x > y then some x else some y
/-- controlflow_analyzer.py:139-160 `label_range`. -/
def Fsm.labelRange (m : Fsm) : Option Int × Option Int :=
  m.fsm.foldl (fun r p =>
    p.2.foldl (fun r e => (updMin r.1 e.2, updMax r.2 e.2)) (updMin r.1 p.1, updMax r.2 p.1)) (none, none)

/-- controlflow_analyzer.py:186-196: conditions joined per destination. -/
def joinConds (opt : DF → Py DF) : List (Option DF × Int) → Dict Int (Option DF) → Py (Dict Int (Option DF))
  | [], d => .ok d
  | (cond, dst) :: rest, d =>
    match d.get? dst with
    | none => joinConds opt rest (d.set dst cond)
    | some none => joinConds opt rest d
    | some (some cur) =>
      match cond with
      | none => joinConds opt rest (d.set dst none)
      | some c => do
        let o ← DF.mkOp .lor [cur, c]
        let r ← opt o
        joinConds opt rest (d.set dst (some r))

/-- controlflow_analyzer.py:199: the condition is a positive constant (int values; others are outside the model). -/
def constTrue : Option DF → Py Bool
  | some (.ev (.int v) _ _ _) => .ok (decide (v > 0))
  | some (.ev ..) => .error .unmodelled
  | _ => .ok false

/-- controlflow_analyzer.py:197-202: the new table of one state. -/
def newDst : Dict Int (Option DF) → DstDict → Py DstDict
  | [], n => .ok n
  | (dst, cond) :: rest, n => do
    let b ← constTrue cond
    newDst rest (Dict.set n (if b then none else cond) dst)

/-- controlflow_analyzer.py:185-202: one state. -/
def resolveState (opt : DF → Py DF) (d : DstDict) : Py DstDict := do
  let j ← joinConds opt (sortOn (fun e => e.2) d) []
  newDst j []

/-- controlflow_analyzer.py:184-203: the loop of `resolve`. -/
def resolveLoop (opt : DF → Py DF) : List (Int × DstDict) → Dict Int DstDict → Py (Dict Int DstDict)
  | [], n => .ok n
  | (src, d) :: rest, n => do
    let d' ← resolveState opt d
    resolveLoop opt rest (n.set src d')

/-- controlflow_analyzer.py:182-204 `resolve`; `opt` is `evaluate.optimize`. -/
def Fsm.resolve (opt : DF → Py DF) (m : Fsm) : Py Fsm := do
  let n ← resolveLoop opt (sortOn (fun p => p.1) m.fsm) []
  .ok { m with fsm := n }

/-- The transition targets `self.fsm[k].values()`. -/
def Fsm.dsts (m : Fsm) (k : Int) : Option (List Int) := (m.fsm.get? k).map (·.map (·.2))

/-- controlflow_analyzer.py:289-304 `_looppath`; the first argument is `51 - cnt`.  Sets are lists without repetition
(their order is unspecified in Python). -/
def Fsm.looppath (m : Fsm) (src : Int) : Nat → Int → List Int → List (List Int)
  | 0, _, _ => []
  | fuel + 1, node, visited =>
    if src = node then [[src]]
    else
      match m.dsts node with
      | none => []
      | some next =>
        (next.eraseDups.filter (fun n => !visited.contains n)).flatMap
          (fun n => (m.looppath src fuel n (node :: visited)).map (fun p => node :: p))

/-- controlflow_analyzer.py:278-287 `get_looppath`. -/
def Fsm.getLooppath (m : Fsm) (src : Int) : List (List Int) :=
  match m.dsts src with
  | none => []
  | some next => (next.eraseDups.flatMap (fun n => m.looppath src 51 n [n])).eraseDups

/-- `min(path)` (of a nonempty path). -/
def minOf : List Int → Int
  | [] => 0
  | [x] => x
  | x :: xs => min x (minOf xs)

/-- controlflow_analyzer.py:273-276 `rotate`. -/
def rotateLoop (path : List Int) : List Int :=
  let pos := path.idxOf (minOf path)
  path.drop pos ++ path.take pos

/-- controlflow_analyzer.py:267-270: count the states of a loop. -/
def countNodes (cnt : Dict Int Nat) (loop : List Int) : Dict Int Nat :=
  loop.foldl (fun cnt r => Dict.set cnt r ((cnt.get? r).getD 0 + 1)) cnt

/-- controlflow_analyzer.py:263-270: record the new loops among the given paths. -/
def recordLoops : List (List Int) → List (List Int) × Dict Int Nat → List (List Int) × Dict Int Nat
  | [], st => st
  | p :: ps, (loops, cnt) =>
    let r := rotateLoop p
    recordLoops ps (if loops.contains r then (loops, cnt) else (loops ++ [r], countNodes cnt r))

/-- controlflow_analyzer.py:255-270: one round of `get_loop`. -/
def Fsm.loopRound (m : Fsm) (st : List (List Int) × Dict Int Nat) (k : Int) : List (List Int) × Dict Int Nat :=
  match m.dsts k with
  | none => st
  | some next =>
    if (st.2.get? k).getD 0 ≥ next.length then st
    else recordLoops (m.getLooppath k) st

/-- controlflow_analyzer.py:252-271 `get_loop`. -/
def Fsm.getLoop (m : Fsm) : List (List Int) :=
  ((sortOn id (m.fsm.map (·.1))).foldl m.loopRound ([], [])).1

end Pyv
