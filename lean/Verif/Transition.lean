import Verif.DF
/-
  Model of pyverilog/utils/inference.py and pyverilog/controlflow/transition.py.
-/
namespace Pyv

/-- inference.py:86-90 `class InferredValue`. -/
structure Inferred where
  minval : Option Int
  maxval : Option Int
  inv : Bool := false
  deriving DecidableEq, Repr

/-- inference.py:19-83 `infer` and the functions `op_*`.  There is an `op_LassEq` (misspelt) but no `op_LessEq`:
FormatError.  Non-int values are outside the model. -/
def infer (o : Op) (node : DF) : Py Inferred :=
  match node with
  | .ev (.int val) _ _ _ =>
    match o with
    | .lessThan => .ok (if val - 1 < 0 then ⟨none, none, false⟩ else ⟨some 0, some (val - 1), false⟩)
    | .greaterThan => .ok ⟨some (val + 1), none, false⟩
    | .greaterEq => .ok ⟨some val, none, false⟩
    | .eq => .ok ⟨some val, some val, false⟩
    | .notEq => .ok ⟨some val, some val, true⟩
    | .eql => .ok ⟨some val, some val, false⟩
    | .notEql => .ok ⟨some val, some val, true⟩
    | _ => .error .format
  | .ev .. => .error .unmodelled
  | _ => .error .format

/-- transition.py:291-297 `class StateNode`. -/
structure SNode where
  ranges : List (Int × Int) := []
  minv : Int := 0
  maxv : Int := 0
  tc : Option DF := none
  isany : Bool := false
  deriving DecidableEq

/-- What the walking functions return besides None: a StateNode, or a StateNodeList (transition.py:314-316). -/
inductive SN where
  | one (n : SNode)
  | many (ns : List SNode)
  deriving DecidableEq

/-- Stable insertion into a list sorted by first component. -/
def insertAsc (x : Int × Int) : List (Int × Int) → List (Int × Int)
  | [] => [x]
  | y :: ys => if x.1 ≤ y.1 then x :: y :: ys else y :: insertAsc x ys

/-- `sorted(range_pairs, key=lambda x: x[0])`. -/
def sortPairs (l : List (Int × Int)) : List (Int × Int) := l.foldr insertAsc []

/-- transition.py:250-253: the loop of `_not_range_pairs`, returning the new pairs and `cur_min`. -/
def notRangeLoop : Int → List (Int × Int) → List (Int × Int) × Int
  | cur, [] => ([], cur)
  | cur, (rmin, rmax) :: rest =>
    let r := notRangeLoop (max (rmax + 1) cur) rest
    (if rmin - 1 ≥ cur then (cur, rmin - 1) :: r.1 else r.1, r.2)

/-- transition.py:247-256 `_not_range_pairs`. -/
def notRangePairs (n : SNode) : List (Int × Int) :=
  let r := notRangeLoop n.minv (sortPairs n.ranges)
  if r.2 ≤ n.maxv then r.1 ++ [(r.2, n.maxv)] else r.1

/-- transition.py:226-231: the overlap of two pairs, if any. -/
def overlap (a b : Int × Int) : List (Int × Int) :=
  if b.2 < a.1 ∨ b.1 > a.2 then [] else [(max a.1 b.1, min a.2 b.2)]

/-- transition.py:225-241: the loop of `_and_range_pairs`, on the remaining pairs (the current one first).  Each
round records the overlap of the two current pairs and advances one of the pointers; when neither pointer can
advance the loop ends (one round later, recording the same overlap again). -/
def andRangeLoop (a : Int × Int) (as : List (Int × Int)) (b : Int × Int) (bs : List (Int × Int)) : List (Int × Int) :=
  match bs with
  | b' :: bs' =>
    if a.2 ≥ b.2 then overlap a b ++ andRangeLoop a as b' bs'
    else match as with
      | a' :: as' => overlap a b ++ andRangeLoop a' as' b (b' :: bs')
      | [] => overlap a b
  | [] =>
    if a.2 ≤ b.2 then
      match as with
      | a' :: as' => overlap a b ++ andRangeLoop a' as' b []
      | [] => overlap a b
    else overlap a b
termination_by as.length + bs.length

/-- transition.py:215-244 `_and_range_pairs`, called with two nonempty lists.  The code passes the result through a
set: duplicates are dropped (their order in the result is unspecified in Python, here it is the order of first
occurrence). -/
def andRangePairs (a b : List (Int × Int)) : List (Int × Int) :=
  match sortPairs a, sortPairs b with
  | a :: as, b :: bs => (andRangeLoop a as b bs).eraseDups
  | _, _ => []

/-- transition.py:259-266 `_not_transcond`. -/
def notTranscond : Option DF → Py (Option DF)
  | none => .ok none
  | some (.op .ulnot (x :: _)) => .ok (some x)
  | some (.op .ulnot []) => .error .index
  | some (.op .unot (x :: _)) => .ok (some x)
  | some (.op .unot []) => .error .index
  | some t => do let r ← DF.mkOp .ulnot [t]; .ok (some r)

/-- transition.py:168-178 `notStateNode`. -/
def notStateNode (n : SNode) : Py SN :=
  if n.isany then do
    let tc ← notTranscond n.tc
    .ok (.one { maxv := n.maxv, tc := tc, isany := true })
  else
    let a : SNode := { ranges := notRangePairs n, maxv := n.maxv }
    match n.tc with
    | none => .ok (.one a)
    | some t => do
      let tc ← notTranscond (some t)
      .ok (.many [a, { ranges := n.ranges, tc := tc, maxv := n.maxv }])

/-- transition.py:203-209: the conjunction of the transition conditions. -/
def andTranscond : Option DF → Option DF → Py (Option DF)
  | some a, some b => do let r ← DF.mkOp .land [a, b]; .ok (some r)
  | some a, none => .ok (some a)
  | none, some b => .ok (some b)
  | none, none => .ok none

/-- transition.py:191-201: the state part of a conjunction: `isany` and the ranges. -/
def andRanges (a b : SNode) : Bool × List (Int × Int) :=
  if a.isany ∧ b.isany then (true, [])
  else if a.isany then (false, b.ranges)
  else if b.isany then (false, a.ranges)
  else if a.ranges.length > 0 ∧ b.ranges.length > 0 then (false, andRangePairs a.ranges b.ranges)
  else (false, [])

/-- transition.py:181-212 `andStateNode` (on two StateNodes). -/
def andStateNode (a b : SNode) : Py (Option SNode) :=
  let (isany, ranges) := andRanges a b
  if isany = false ∧ ranges.length = 0 then .ok none
  else do
    let tc ← andTranscond a.tc b.tc
    .ok (some { ranges := ranges, maxv := max a.maxv b.maxv, tc := tc, isany := isany })

/-- The pairwise conjunctions of transition.py:139-143, 149-152, 158-161: those that are not None. -/
def andProduct : List (SNode × SNode) → Py (List SNode)
  | [] => .ok []
  | (l, r) :: rest => do
    let v ← andStateNode l r
    let vs ← andProduct rest
    match v with
    | some x => .ok (x :: vs)
    | none => .ok vs

/-- `None` when there is no node left, a StateNodeList otherwise. -/
def manyOpt : List SNode → Option SN
  | [] => none
  | ns => some (.many ns)

/-- All pairs, the left one varying slowest. -/
def allPairs (ls rs : List SNode) : List (SNode × SNode) := ls.flatMap (fun l => rs.map (fun r => (l, r)))

/-- transition.py:127-165 `andStateNodeList`. -/
def andStateNodeList : Option SN → Option SN → Py (Option SN)
  | none, none => .ok none
  | none, some r => .ok (some r)
  | some l, none => .ok (some l)
  | some (.one l), some (.one r) => do let v ← andStateNode l r; .ok (v.map .one)
  | some (.many ls), some (.many rs) => do let vs ← andProduct (allPairs ls rs); .ok (manyOpt vs)
  | some (.many ls), some (.one r) => do let vs ← andProduct (allPairs ls [r]); .ok (manyOpt vs)
  | some (.one l), some (.many rs) => do let vs ← andProduct (allPairs [l] rs); .ok (manyOpt vs)

/-- transition.py:106-124 `orStateNodeList`. -/
def orStateNodeList : Option SN → Option SN → Option SN
  | some (.one l), some (.one r) => some (.many [l, r])
  | some (.many ls), some (.many rs) => some (.many (ls ++ rs))
  | some (.many ls), some (.one r) => some (.many (ls ++ [r]))
  | some (.one l), some (.many rs) => some (.many (l :: rs))
  | _, _ => none

/-- transition.py:97-102: conjunction of the complements; `None` starts anew. -/
def notFold : Option SN → List SN → Py (Option SN)
  | ret, [] => .ok ret
  | none, n :: ns => notFold (some n) ns
  | some r, n :: ns => do
    let x ← andStateNodeList (some r) (some n)
    notFold x ns

/-- transition.py:89-103 `notStateNodeList`. -/
def notStateNodeList : Option SN → Py (Option SN)
  | some (.one n) => do let x ← notStateNode n; .ok (some x)
  | some (.many ns) => do
    let xs ← ns.mapM notStateNode
    notFold none xs
  | none => .ok none

/-- util.py:86-87 `maxValue` (for a non-negative width). -/
def maxVal (width : Nat) : Int := 2 ^ width - 1

/-- transition.py:269-281 `createStateNode`. -/
def createStateNode (i : Inferred) (width : Nat) : Py (Option SN) :=
  let ret : SNode := { ranges := [(i.minval.getD 0, i.maxval.getD (maxVal width))], minv := 0, maxv := maxVal width }
  if i.inv then notStateNodeList (some (.one ret)) else .ok (some (.one ret))

/-- A condition as `transcond` attribute: Python's None is no condition. -/
def tcOf : DF → Option DF
  | .none => none
  | t => some t

/-- A node that constrains the transition condition only: transition.py:43-44, 57, 85-86. -/
def anyNode (cond : DF) (width : Nat) : SN := .one { tc := tcOf cond, maxv := maxVal width, isany := true }

/-- signaltype.py:91 `non_condition_ops` membership, negated: `isNonConditionOp`. -/
def Op.nonCondition (o : Op) : Bool :=
  !(o.compare || o = .ulnot || o = .unot || o = .and || o = .land || o = .or || o = .lor)

/-- transition.py:79-81: the operator with its operands swapped. -/
def Op.swapped : Op → Op
  | .greaterThan => .lessThan
  | .greaterEq => .lessEq
  | .lessThan => .greaterThan
  | .lessEq => .greaterEq
  | o => o

/-- transition.py:72-86: the end of `_walkCond_DFOperator_dual`. -/
def walkCompare (o : Op) (l r : DF) (name : ScopeChain) (width : Nat) : Py (Option SN) :=
  if l = .term name then do
    let i ← infer o r
    createStateNode i width
  else if r = .term name then do
    let i ← infer o.swapped l
    createStateNode i width
  else .ok (some (anyNode (.op o [l, r]) width))

/-- transition.py:34-44 `walkCond`, 47-51 `_walkCond_DFOperator_unary`, 54-86 `_walkCond_DFOperator_dual`. -/
def walkCond (name : ScopeChain) (width : Nat) : DF → Py (Option SN)
  | .op o [x] => do
    let n ← walkCond name width x
    if o = .ulnot ∨ o = .unot then notStateNodeList n else .ok n
  | .op o [l, r] =>
    if o.nonCondition then .ok (some (anyNode (.op o [l, r]) width))
    else if o = .or ∨ o = .lor then do
      let ln ← walkCond name width l
      let rn ← walkCond name width r
      match orStateNodeList ln rn with
      | some x => .ok (some x)
      | none => walkCompare o l r name width
    else if o = .and ∨ o = .land then do
      let ln ← walkCond name width l
      let rn ← walkCond name width r
      let x ← andStateNodeList ln rn
      match x with
      | some x => .ok (some x)
      | none => walkCompare o l r name width
    else walkCompare o l r name width
  | .term n => walkCompare .greaterThan (.term n) (.evi 0 (some 32)) name width
  | c => .ok (some (anyNode c width))

/-- transition.py:25-31: the loop of `walkCondlist`. -/
def walkCondLoop (name : ScopeChain) (width : Nat) : Option SN → List DF → Py (Option SN)
  | node, [] => .ok node
  | node, c :: cs => do
    let r ← walkCond name width c
    match node, r with
    | some n, some r => do
      let x ← andStateNodeList (some n) (some r)
      walkCondLoop name width x cs
    | none, some r => walkCondLoop name width (some r) cs
    | node, none => walkCondLoop name width node cs

/-- transition.py:20-31 `walkCondlist`. -/
def walkCondlist (conds : List DF) (name : ScopeChain) (width : Nat) : Py (Option SN) :=
  if conds.length = 0 then .ok (some (.one { maxv := maxVal width, isany := true }))
  else walkCondLoop name width none conds

end Pyv
