import Verif.DF
import Verif.Dict
/-
  Model of pyverilog/dataflow/dataflow.py: comparison and hashing of dataflow nodes, as the code does it.  (`DF.beq` in DF.lean is the
  structural equality that the rest of the model uses; Props/NodeEqProps relates the two.)
-/
namespace Pyv

/-- Python's `x and y` on comparisons. -/
def andThen (x y : Py Bool) : Py Bool := do
  let r ← x
  if r then y else .ok false

mutual
/-- `a == b` for two nodes, where `none` is `None`: dataflow.py:63-66 (types differ), 107-110, 136-139, 257-260, 306-309, 345-348, 385-388,
471-476, 529-535, 567-570, 602-605, 678-683; 636-639: a DFDelay has no attribute `nextnodes`.  Simplifications: the operands of operators,
concatenations and calls are tuples, as everywhere in the code; values of different Python types are different; two nodes that are the same
object are compared like equal ones (CPython skips the comparison of elements of a tuple that are the same object). -/
def DF.pyEq : DF → DF → Py Bool
  | .none, .none => .ok true
  | .term a, .term b => .ok (ScopeChain.pyEq a b)
  | .intc a, .intc b => .ok (decide (a = b))
  | .fltc a, .fltc b => .ok (decide (a = b))
  | .strc a, .strc b => .ok (decide (a = b))
  | .ev v w a b, .ev v' w' a' b' => .ok (decide (v = v') && decide (w = w') && decide (a = a') && decide (b = b'))
  | .undef a, .undef b => .ok (decide (a = b))
  | .hiz a, .hiz b => .ok (decide (a = b))
  | .op o ns, .op o' ns' => andThen (.ok (decide (o = o'))) (DF.pyEqs ns ns')
  | .psel v m l, .psel v' m' l' => andThen (andThen (DF.pyEq v v') (DF.pyEq m m')) (DF.pyEq l l')
  | .ptr v p, .ptr v' p' => andThen (DF.pyEq v v') (DF.pyEq p p')
  | .concat ns, .concat ns' => DF.pyEqs ns ns'
  | .branch c t f, .branch c' t' f' => andThen (andThen (DF.pyEq c c') (DF.pyEq t t')) (DF.pyEq f f')
  | .delay _, .delay _ => .error .attribute
  | .sys s ns, .sys s' ns' => andThen (.ok (decide (s = s'))) (DF.pyEqs ns ns')
  | _, _ => .ok false
/-- Tuple equality: the elements from the left up to the first difference, then the lengths. -/
def DF.pyEqs : List DF → List DF → Py Bool
  | [], [] => .ok true
  | a :: as, b :: bs => andThen (DF.pyEq a b) (DF.pyEqs as bs)
  | _, _ => .ok false
end

/-- Hash functions for what a node is made of; `tup` is the hash of a tuple as a function of the hashes of its elements.  Nothing is
assumed about them: different things may have the same hash. -/
structure Hashing (H : Type) where
  name : List (Str × Option Int) → H
  str : Str → H
  val : PyVal → H
  width : Option Int → H
  bool : Bool → H
  op : Op → H
  tup : List H → H
  none : H

mutual
/-- `hash(node)`: dataflow.py:112-113, 141-142, 262-263, 311-312, 350-351, 390-391, 478-479, 537-538, 572-573, 607-608, 685-686 (without the
name of the call), 641-642 (AttributeError); `hash(None)`.  The hash of a name is a function of `ScopeChain.hashKey`. -/
def DF.hash {H : Type} (K : Hashing H) : DF → Py H
  | .none => .ok K.none
  | .term n => .ok (K.name (ScopeChain.hashKey n))
  | .intc s => .ok (K.str s)
  | .fltc s => .ok (K.str s)
  | .strc s => .ok (K.str s)
  | .ev v w a b => .ok (K.tup [K.val v, K.width w, K.bool a, K.bool b])
  | .undef w => .ok (K.width w)
  | .hiz w => .ok (K.width w)
  | .op o ns => do
    let hs ← DF.hashes K ns
    .ok (K.tup [K.op o, K.tup hs])
  | .psel v m l => do
    let a ← v.hash K
    let b ← m.hash K
    let c ← l.hash K
    .ok (K.tup [a, b, c])
  | .ptr v p => do
    let a ← v.hash K
    let b ← p.hash K
    .ok (K.tup [a, b])
  | .concat ns => do
    let hs ← DF.hashes K ns
    .ok (K.tup hs)
  | .branch c t f => do
    let a ← c.hash K
    let b ← t.hash K
    let d ← f.hash K
    .ok (K.tup [a, b, d])
  | .delay _ => .error .attribute
  | .sys _ ns => do
    let hs ← DF.hashes K ns
    .ok (K.tup hs)
/-- The hashes of the elements of a tuple. -/
def DF.hashes {H : Type} (K : Hashing H) : List DF → Py (List H)
  | [] => .ok []
  | n :: ns => do
    let a ← n.hash K
    let hs ← DF.hashes K ns
    .ok (a :: hs)
end

/-- `d.get(k)` of CPython's dictionaries with nodes as keys (e.g. controlflow_analyzer.py:176, 179 `self.fsm[src][cond] = dst`): among the
keys with the hash of `k` the one that compares equal.  Simplification: the keys are tried in the order of insertion (the real order depends
on the table). -/
def nodeGet {H α : Type} [DecidableEq H] (K : Hashing H) (d : Dict DF α) (k : DF) : Py (Option α) := do
  let h ← k.hash K
  let rec go : List (DF × α) → Py (Option α)
    | [] => .ok Option.none
    | (x, v) :: r => do
      let hx ← x.hash K
      if hx = h then do
        let e ← x.pyEq k
        if e then .ok (some v) else go r
      else go r
  go d

end Pyv
