import Verif.DF
import Verif.Dict
import Verif.IntConst
/-
  Model of pyverilog/dataflow/optimizer.py.
-/
namespace Pyv

/-- The signal types that occur in `Term.termtype` (class names of the declarations,
pyverilog/utils/signaltype.py:22-63). -/
inductive TermType where
  | input | output | inout | wire | reg | integer | genvar | parameter | localparam | function | rename | real | tri | supply
  deriving DecidableEq, Repr

/-- dataflow.py:689-695 `class Term`: `termtype` is a Python set of type names. -/
structure Term where
  name : ScopeChain
  types : List TermType
  msb : DF
  lsb : DF
  dims : Option (List (DF × DF))

/-- optimizer.py:20-28 `VerilogOptimizer.__init__`: the state of an optimizer.  `log2 v` abstracts
`p = math.log(v, 2)`: it is `some (int(p))` when `p % 1.0 == 0` and `none` otherwise (optimizer.py:517-518). -/
structure OptCtx where
  terms : Dict ScopeChain Term
  consts : Dict ScopeChain DF
  defaultWidth : Int
  log2 : Int → Option Int

/-- Reading attribute `.value` of a node after constant folding: only DFEvalValue has one there. -/
def DF.valueAttr : DF → Py PyVal
  | .ev v _ _ _ => .ok v
  | _ => .error .attribute

/-- An operand that must be an int; other Python values are outside the model, None raises TypeError. -/
def PyVal.toInt : PyVal → Py Int
  | .int n => .ok n
  | .none => .error .type
  | _ => .error .unmodelled

/-- `.value` read as an int. -/
def DF.intAttr (t : DF) : Py Int := do let v ← t.valueAttr; v.toInt

/-- `value & (1 << i) == 0`. -/
def bitZero (v : Int) (i : Nat) : Bool := pyAnd v (2 ^ i) == 0

/-- optimizer.py:184-279 `_evalOperator` on int operands.  The loops `for i in range(width)` run over
`range(width)` = `List.range width.toNat`; loops that return early are written with `any`.  The result is
`PyVal.none` for operators without a case (Sla). -/
def evalOpInt (o : Op) (vs : List Int) (width : Int) : Py PyVal :=
  let r := List.range width.toNat
  let b (x : Bool) : Py PyVal := .ok (.int (if x then 1 else 0))
  match o, vs with
  | .sla, _ => .ok .none
  | .uminus, v :: _ => .ok (.int (-1 * v))
  | .ulnot, v :: _ => b (v == 0)
  | .unot, v :: _ => .ok (.int (r.foldl (fun ret i => if bitZero v i then pyOr ret (2 ^ i) else ret) 0))
  | .uand, v :: _ => b (!(r.any (bitZero v)))
  | .unand, v :: _ => b (r.any (bitZero v))
  | .uor, v :: _ => b (r.any (fun i => !bitZero v i))
  | .unor, v :: _ => b (!(r.any (fun i => !bitZero v i)))
  | .uxor, v :: _ => .ok (.int (r.foldl (fun s i => if !bitZero v i then (if s == 0 then 1 else 0) else s) 0))
  | .uxnor, v :: _ => .ok (.int (r.foldl (fun s i => if !bitZero v i then (if s == 0 then 1 else 0) else s) 1))
  | .power, x :: y :: _ => do let z ← pyPow x y; .ok (.int z)
  | .times, x :: y :: _ => .ok (.int (x * y))
  | .divide, x :: y :: _ => do let z ← pyDivTrunc x y; .ok (.int z)
  | .mod, x :: y :: _ => do let z ← pyMod x y; .ok (.int z)
  | .plus, x :: y :: _ => .ok (.int (x + y))
  | .minus, x :: y :: _ => .ok (.int (x - y))
  | .sll, x :: y :: _ => do let z ← pyShl x y; .ok (.int z)
  | .srl, x :: y :: _ => do let z ← pyShr x y; .ok (.int z)
  | .sra, x :: y :: _ => do let z ← pyShr x y; .ok (.int z)
  | .lessThan, x :: y :: _ => b (decide (x < y))
  | .greaterThan, x :: y :: _ => b (decide (x > y))
  | .lessEq, x :: y :: _ => b (decide (x ≤ y))
  | .greaterEq, x :: y :: _ => b (decide (x ≥ y))
  | .eq, x :: y :: _ => b (x == y)
  | .notEq, x :: y :: _ => b (x != y)
  | .eql, x :: y :: _ => b (x == y)
  | .notEql, x :: y :: _ => b (x != y)
  | .and, x :: y :: _ => .ok (.int (pyAnd x y))
  | .xor, x :: y :: _ => .ok (.int (pyXor x y))
  | .xnor, x :: y :: _ => .ok (.int (pyNot (pyXor x y)))
  | .or, x :: y :: _ => .ok (.int (pyOr x y))
  | .land, x :: y :: _ => b (x != 0 && y != 0)
  | .lor, x :: y :: _ => b (x != 0 || y != 0)
  | _, _ => .error .index

/-- The operands of `evalOperator` as ints. -/
def evInts : List DF → Py (List Int)
  | [] => .ok []
  | n :: ns => do let v ← n.intAttr; let vs ← evInts ns; .ok (v :: vs)

/-- optimizer.py:175-180: the largest operand width; comparing a None width raises TypeError. -/
def evMaxWidth : Int → List DF → Py Int
  | w, [] => .ok w
  | w, .ev _ (some x) _ _ :: ns => evMaxWidth (if x > w then x else w) ns
  | _, _ => .error .type

/-- optimizer.py:172-182 `evalOperator`, called only when all operands are DFEvalValues. -/
def evalOperator (o : Op) (ns : List DF) : Py DF := do
  let w ← evMaxWidth 0 ns
  let vs ← evInts ns
  let r ← evalOpInt o vs w
  .ok (.ev r (some w) false false)

/-- optimizer.py:296-299: `getWidth` of a DFEvalValue. -/
def OptCtx.evWidth (ctx : OptCtx) : DF → Int
  | .ev _ (some w) _ _ => w
  | _ => ctx.defaultWidth

/-- optimizer.py:349-356 `evalConcat`, on a list of DFEvalValues: `acc` and `sum` are `concatval` and
`sum_width`. -/
def OptCtx.evalConcatAux (ctx : OptCtx) : Int → Int → List DF → Py DF
  | acc, sum, [] => .ok (.evi acc (some sum))
  | acc, sum, n :: ns => do
    let w := ctx.evWidth n
    let sh ← pyShl acc w
    let v ← n.intAttr
    ctx.evalConcatAux (pyOr sh v) (sum + w) ns

/-- optimizer.py:349-356 `evalConcat`. -/
def OptCtx.evalConcat (ctx : OptCtx) (ns : List DF) : Py DF := ctx.evalConcatAux 0 0 ns

/-- optimizer.py:358-363 `isCondTrue` on a DFEvalValue (a string or None differs from 0). -/
def isCondTrue : DF → Py Bool
  | .ev (.int n) _ _ _ => .ok (n != 0)
  | .ev (.flt _) _ _ _ => .error .unmodelled
  | .ev _ _ _ _ => .ok true
  | _ => .error .name

/-- optimizer.py:365-370 `evalPartselect`.  For a negative width, `2 ** width` is a float: not modelled. -/
def evalPartselect (v m l : DF) : Py DF := do
  let mv ← m.intAttr
  let lv ← l.intAttr
  let w := mv - lv + 1
  let vv ← v.intAttr
  let p ← pyShr vv lv
  if w < 0 then .error .unmodelled
  else .ok (.evi (if p ≥ 2 ^ w.toNat then Int.fmod p (2 ^ w.toNat) else p) (some w))

/-- The test of optimizer.py:88-91. -/
def hasXZ (s : Str) : Bool := s.any (fun c => c = 'x' ∨ c = 'z' ∨ c = 'X' ∨ c = 'Z')

/-- optimizer.py:64-160 `optimizeConstant`, with 162-170 `evalNextnodes` inlined.  `fuel` bounds Python's
recursion depth (the function also recurses into declared bounds of terms). -/
def OptCtx.optConst (ctx : OptCtx) : Nat → DF → Py DF
  | 0, _ => .error .recursion
  | k + 1, t =>
    match t with
    | .none => .ok .none
    | .branch c a b => do
      let c' ← ctx.optConst k c
      let a' ← ctx.optConst k a
      let b' ← ctx.optConst k b
      if c'.isEv then do
        let x ← isCondTrue c'
        .ok (if x then a' else b')
      else .ok (.branch c' a' b')
    | .ev .. => .ok t
    | .undef _ => .ok t
    | .hiz _ => .ok t
    | .delay _ => .error .name
    | .intc s =>
      if hasXZ s then do
        let w ← intConstWidth s
        .ok (.undef (some w))
      else do
        let v ← intConstEval s
        let w ← intConstWidth s
        .ok (.evi v (some w))
    | .fltc s => .ok (.ev (.flt s) (some ctx.defaultWidth) true false)
    | .strc s => .ok (.ev (.str s) Option.none false true)
    | .op o ns => do
      let rs ← ns.mapM (ctx.optConst k)
      if rs.all DF.isEv then evalOperator o rs else DF.mkOp o rs
    | .term n =>
      match ctx.consts.get? n with
      | Option.none => .ok t
      | some c => do
        let tm ← ctx.terms.get n
        match c with
        | .ev v w _ _ =>
          if tm.msb ≠ .none ∧ tm.lsb ≠ .none then do
            let m ← ctx.optConst k tm.msb
            let l ← ctx.optConst k tm.lsb
            if m.isEv ∧ l.isEv then do
              let mv ← m.intAttr
              let lv ← l.intAttr
              .ok (.ev v (some (mv - lv + 1)) false false)
            else .ok (.ev v w false false)
          else .ok (.ev v w false false)
        | _ => .error .attribute
    | .concat ns => do
      let rs ← ns.mapM (ctx.optConst k)
      if rs.all DF.isEv then ctx.evalConcat rs else .ok (.concat rs)
    | .psel v m l => do
      let v' ← ctx.optConst k v
      let m' ← ctx.optConst k m
      let l' ← ctx.optConst k l
      if v'.isEv ∧ m'.isEv then evalPartselect v' m' l' else .ok (.psel v' m' l')
    | .ptr v p =>
      match v with
      | .term n => do
        let tm ← ctx.terms.get n
        let v' ← ctx.optConst k v
        let p' ← ctx.optConst k p
        match tm.dims with
        | some _ => .ok (.ptr v' p')
        | Option.none => if v'.isEv ∧ p'.isEv then .error .type else .ok (.ptr v' p')
      | _ => .ok t
    | .sys s ns => do
      let rs ← ns.mapM (ctx.optConst k)
      .ok (.sys s rs)

/-- optimizer.py:301-305: width of a signal from its folded bounds. -/
def OptCtx.boundsWidth (ctx : OptCtx) (fuel : Nat) (m l : DF) : Py Int := do
  let m' ← ctx.optConst fuel m
  let mv ← m'.intAttr
  let l' ← ctx.optConst fuel l
  let lv ← l'.intAttr
  .ok (((mv - lv).natAbs : Int) + 1)

mutual
/-- optimizer.py:281-347 `getWidth`.  (Lines 344-347 use the undefined names `tree` and `FormatError`:
NameError for DFDelay and DFSyscall.) -/
def OptCtx.getWidth (ctx : OptCtx) (fuel : Nat) : DF → Py Int
  | .none => .ok ctx.defaultWidth
  | .undef w => .ok (w.getD ctx.defaultWidth)
  | .hiz w => .ok (w.getD ctx.defaultWidth)
  | .intc s => intConstWidth s
  | .fltc _ => .ok ctx.defaultWidth
  | .strc _ => .ok ctx.defaultWidth
  | .ev _ w _ _ => .ok (w.getD ctx.defaultWidth)
  | .term n => do
    let tm ← ctx.terms.get n
    ctx.boundsWidth fuel tm.msb tm.lsb
  | .branch _ t f => do
    let a ← ctx.getWidth fuel t
    let b ← ctx.getWidth fuel f
    .ok (max a b)
  | .psel _ m l => ctx.boundsWidth fuel m l
  | .op o ns =>
    if o.compare then .ok 1
    else if o = .land ∨ o = .lor then .ok 1
    else do
      let ws ← ctx.getWidths fuel ns
      .ok (ws.foldl (fun m w => if m < w then w else m) 0)
  | .concat ns => do
    let ws ← ctx.getWidths fuel ns
    .ok ws.sum
  | .ptr v _ =>
    match v with
    | .term n => do
      let tm ← ctx.terms.get n
      match tm.dims with
      | some _ => ctx.boundsWidth fuel tm.msb tm.lsb
      | Option.none => .ok 1
    | _ => .ok 1
  | .delay _ => .error .name
  | .sys _ _ => .error .name
/-- `getWidth` of each node of a tuple. -/
def OptCtx.getWidths (ctx : OptCtx) (fuel : Nat) : List DF → Py (List Int)
  | [] => .ok []
  | n :: ns => do
    let w ← ctx.getWidth fuel n
    let ws ← ctx.getWidths fuel ns
    .ok (w :: ws)
end

/-- State of the scanning loop of takePart, optimizer.py:453-461. -/
structure TakeSt where
  widsum : Int := 0
  offset : Int := 0
  used : List DF := []        -- most significant first (the code appends and reverses, line 477)
  lsb : Int := -1
  msb : Int := -1
  lsboff : Int := -1
  msboff : Int := -1
  use : Bool := false

/-- optimizer.py:464-468: start using operands at the one that contains the lower cut. -/
def TakeSt.enter (st : TakeSt) (lsbcut w : Int) : TakeSt :=
  if lsbcut ≥ st.offset ∧ lsbcut < st.offset + w then
    { st with lsb := st.offset, lsboff := lsbcut - st.offset, use := true } else st

/-- optimizer.py:469-471: use the (folded) operand. -/
def OptCtx.takeUse (ctx : OptCtx) (fuel : Nat) (w : Int) (n : DF) (st : TakeSt) : Py TakeSt :=
  if st.use then do
    let n' ← ctx.optConst fuel n
    .ok { st with widsum := st.widsum + w, used := n' :: st.used }
  else .ok st

/-- optimizer.py:462-475: the loop over (width, node) pairs from the least significant operand. -/
def OptCtx.takeLoop (ctx : OptCtx) (fuel : Nat) (lsbcut msbcut : Int) : List (Int × DF) → TakeSt → Py TakeSt
  | [], st => .ok st
  | (w, n) :: rest, st => do
    let st ← ctx.takeUse fuel w n (st.enter lsbcut w)
    if msbcut ≥ st.offset ∧ msbcut < st.offset + w then
      .ok { st with msb := st.offset + w - 1, msboff := st.offset + w - 1 - msbcut }
    else ctx.takeLoop fuel lsbcut msbcut rest { st with offset := st.offset + w }

/-- optimizer.py:497-508: the cut of one used operand of width `w` with index `cnt`. -/
def takeCutTree (lsboff msboff : Int) (total cnt : Nat) (w : Int) (n : DF) : DF :=
  if cnt = 0 ∧ lsboff > 0 then .psel n (.evi (w - 1) (some 32)) (.evi lsboff (some 32))
  else if cnt = total - 1 ∧ msboff > 0 then .psel n (.evi (w - msboff - 1) (some 32)) (.evi 0 (some 32))
  else n

/-- `widlist[usednodes_cnt]`. -/
def headIdx : List Int → Py Int
  | w :: _ => .ok w
  | [] => .error .index

/-- optimizer.py:495-511: second loop of takePart, over the used operands from the least significant one;
`cnt` is `usednodes_cnt`, `wids` the tail of `widlist` at that index (the code indexes `widlist` from 0 although
the used operands need not start at operand 0). -/
def OptCtx.takeCut (ctx : OptCtx) (fuel : Nat) (lsboff msboff : Int) (total : Nat) :
    Nat → List Int → List DF → Py (List DF)
  | _, _, [] => .ok []
  | cnt, wids, n :: rest => do
    let w ← headIdx wids
    let x ← ctx.optConst fuel (takeCutTree lsboff msboff total cnt w n)
    let xs ← ctx.takeCut fuel lsboff msboff total (cnt + 1) wids.tail rest
    .ok (x :: xs)

/-- optimizer.py:445-512 `takePart`. -/
def OptCtx.takePart (ctx : OptCtx) (fuel : Nat) (ns : List DF) (m l : DF) : Py DF := do
  let wids ← ctx.getWidths fuel ns.reverse
  let mv ← m.intAttr
  let lv ← l.intAttr
  let lsbcut := min mv lv
  let msbcut := max mv lv
  let cutwidth := msbcut - lsbcut + 1
  let st ← ctx.takeLoop fuel lsbcut msbcut (wids.zip ns.reverse) {}
  let e (n : Int) : DF := .evi n (some 32)
  match st.used with
  | [] => .ok (.undef (some cutwidth))
  | u :: us =>
    if st.msboff < 0 then
      if st.lsboff = 0 then .ok (.concat (.undef (some (cutwidth - st.widsum)) :: st.used))
      else if us = [] then
        .ok (.concat [.undef (some (cutwidth - st.widsum + st.lsboff)),
          .psel u (e (st.widsum - 1)) (e (st.lsb + st.lsboff))])
      else .ok (.concat [.undef (some (cutwidth - st.widsum + st.lsboff)),
          .psel (.concat st.used) (e (st.widsum - 1)) (e (st.lsb + st.lsboff))])
    else if st.lsboff = 0 ∧ st.msboff = 0 then
      if us = [] then .ok u else .ok (.concat st.used)
    else if us = [] then .ok (.psel u (e (st.msb - st.msboff)) (e (st.lsb + st.lsboff)))
    else do
      let cut ← ctx.takeCut fuel st.lsboff st.msboff st.used.length 0 wids st.used.reverse
      .ok (.psel (.concat cut.reverse) (e (st.msb - st.msboff)) (e (st.lsb + st.lsboff)))

/-- optimizer.py:514-520 `_isPowerOf2` together with `int(math.log(value, 2))`. -/
def OptCtx.powerOf2 (ctx : OptCtx) : DF → Option Int
  | .ev (.int v) _ _ _ => if v ≤ 0 then Option.none else ctx.log2 v
  | _ => Option.none

/-- optimizer.py:522-540 `replaceOperator`. -/
def OptCtx.replaceOperator (ctx : OptCtx) : DF → Py DF
  | .op .times (a :: b :: r) =>
    match ctx.powerOf2 b with
    | some p => DF.mkOp .sll [a, .evi p (some 32)]
    | Option.none =>
      match ctx.powerOf2 a with
      | some p => DF.mkOp .sll [b, .evi p (some 32)]
      | Option.none => .ok (.op .times (a :: b :: r))
  | .op .times _ => .error .index
  | .op .divide (a :: b :: r) =>
    match ctx.powerOf2 b with
    | some p => DF.mkOp .sra [a, .evi p (some 32)]
    | Option.none => .ok (.op .divide (a :: b :: r))
  | .op .divide _ => .error .index
  | n => .ok n

/-- optimizer.py:657-688 `mergeIdenticalNodes`. -/
def mergeIdenticalNodes : DF → Py DF
  | .op _ [] => .error .index
  | .op o [a] => .ok (.op o [a])
  | .op o (a :: b :: r) =>
    if a ≠ b then .ok (.op o (a :: b :: r))
    else match o with
      | .and | .or | .land | .lor => .ok a
      | .lessThan | .greaterThan | .notEq | .notEql => .ok (.evi 0 (some 1))
      | .lessEq | .greaterEq | .eq | .eql => .ok (.evi 1 (some 1))
      | _ => .ok (.op o (a :: b :: r))
  | n => .ok n

/-- `isinstance(n, DFEvalValue) and n.value == 0` (int values; a float 0.0 is not modelled). -/
def isZero : DF → Bool
  | .ev (.int 0) _ _ _ => true
  | _ => false

/-- `isinstance(n, DFEvalValue) and n.value > 0` (ints only). -/
def isPos : DF → Bool
  | .ev (.int v) _ _ _ => decide (v > 0)
  | _ => false

/-- `isinstance(n, DFOperator) and n.operator == o and n.nextnodes[0] == x`. -/
def isUn (o : Op) (n x : DF) : Bool :=
  match n with
  | .op o' (a :: _) => decide (o' = o ∧ a = x)
  | _ => false

/-- `a.value != b.value` for two DFEvalValues; false if one of them is not a DFEvalValue. -/
def evDiffer : DF → DF → Bool
  | .ev v _ _ _, .ev v' _ _ _ => decide (v ≠ v')
  | _, _ => false

/-- The operands of an `Eq` node. -/
def asEq : DF → Option (DF × DF)
  | .op .eq (a :: b :: _) => some (a, b)
  | _ => Option.none

/-- The operands of an `Eq` node below a logical not. -/
def asNotEq : DF → Option (DF × DF)
  | .op .ulnot (n :: _) => asEq n
  | _ => Option.none

/-- The operands of a `Land` node. -/
def asLand : DF → Option (DF × DF)
  | .op .land (a :: b :: _) => some (a, b)
  | _ => Option.none

/-- The operand of a logical not. -/
def asUlnot : DF → Option DF
  | .op .ulnot (n :: _) => some n
  | _ => Option.none

/-- optimizer.py:774-801: two equalities of one operand with different constants. -/
def eqEqConflict (l r : DF) : Bool :=
  match asEq l, asEq r with
  | some (l0, l1), some (r0, r1) =>
    (decide (l0 = r0) && evDiffer l1 r1) || (decide (l1 = r1) && evDiffer l0 r0) ||
    (decide (l0 = r1) && evDiffer l1 r0) || (decide (l1 = r0) && evDiffer l0 r1)
  | _, _ => false

/-- optimizer.py:802-817 (and 818-833 with the roles swapped): `!(x == c)` beside `x == d` with `c ≠ d`. -/
def notEqImplied (l r : DF) : Bool :=
  match asNotEq l, asEq r with
  | some (l0, l1), some (r0, r1) =>
    (decide (l0 = r0) && evDiffer l1 r1) || (decide (l1 = r0) && evDiffer l0 r1)
  | _, _ => false

/-- optimizer.py:856-861 / 868-873: `(!a && b) || (a && b)`. -/
def landLorFirst (l r : DF) : Option DF :=
  match asLand l, asLand r with
  | some (l0, l1), some (r0, r1) => if asUlnot l0 = some r0 ∧ l1 = r1 then some l1 else Option.none
  | _, _ => Option.none

/-- optimizer.py:862-867 / 874-879: `(b && !a) || (a && b)`. -/
def landLorSecond (l r : DF) : Option DF :=
  match asLand l, asLand r with
  | some (l0, l1), some (r0, r1) => if asUlnot l1 = some r0 ∧ l0 = r1 then some l0 else Option.none
  | _, _ => Option.none

/-- optimizer.py:690-881 `mergeStaticNodes`. -/
def OptCtx.mergeStaticNodes (ctx : OptCtx) (fuel : Nat) (node : DF) : Py DF :=
  match node with
  | .op .and (l :: r :: _) =>
    if isZero l || isZero r || isUn .unot l r || isUn .unot r l then do
      let w ← ctx.getWidth fuel node
      .ok (.evi 0 (some w))
    else if isUn .ulnot l r || isUn .ulnot r l then do
      let w ← ctx.getWidth fuel node
      if w = 1 then .ok (.evi 0 (some 1)) else .ok node
    else .ok node
  | .op .or (l :: r :: _) =>
    if isZero l then .ok r
    else if isZero r then .ok l
    else if isUn .unot l r || isUn .unot r l then do
      let w ← ctx.getWidth fuel node
      let v ← evalOpInt .unot [0] w
      .ok (.ev v (some w) false false)
    else if isUn .ulnot l r || isUn .ulnot r l then do
      let w ← ctx.getWidth fuel node
      if w = 1 then .ok (.evi 1 (some 1)) else .ok node
    else .ok node
  | .op .land (l :: r :: _) =>
    if isZero l || isZero r then .ok (.evi 0 (some 1))
    else if isPos l then .ok r
    else if isPos r then .ok l
    else if isUn .unot l r || isUn .unot r l then do
      let w ← ctx.getWidth fuel node
      if w = 1 then .ok (.evi 0 (some 1)) else .ok node
    else if isUn .ulnot l r || isUn .ulnot r l then .ok (.evi 0 (some 1))
    else if eqEqConflict l r then .ok (.evi 0 (some 1))
    else if notEqImplied l r then .ok r
    else if notEqImplied r l then .ok l
    else .ok node
  | .op .lor (l :: r :: _) =>
    if isZero l then .ok r
    else if isZero r then .ok l
    else if isPos l || isPos r then .ok (.evi 1 (some 1))
    else if isUn .unot l r || isUn .unot r l then .ok (.evi 1 (some 1))
    else if isUn .ulnot l r || isUn .ulnot r l then .ok (.evi 1 (some 1))
    else match landLorFirst l r with
    | some x => .ok x
    | Option.none =>
    match landLorSecond l r with
    | some x => .ok x
    | Option.none =>
    match landLorFirst r l with
    | some x => .ok x
    | Option.none =>
    match landLorSecond r l with
    | some x => .ok x
    | Option.none => .ok node
  | .op _ [] => .error .index
  | n => .ok n

/-- Lexicographic `≤` on text (Python string comparison by code point). -/
def strLe : Str → Str → Bool
  | [], _ => true
  | _ :: _, [] => false
  | a :: as, b :: bs => if a.toNat < b.toNat then true else if b.toNat < a.toNat then false else strLe as bs

/-- Stable insertion into a list sorted by descending key. -/
def insertDesc (x : Str × DF) : List (Str × DF) → List (Str × DF)
  | [] => [x]
  | y :: ys => if strLe y.1 x.1 then x :: y :: ys else y :: insertDesc x ys

/-- `sorted(l, key=lambda x: x.tocode(), reverse=True)` (stable), optimizer.py:925, 968. -/
def sortByCode (ns : List DF) : Py (List DF) := do
  let keyed ← ns.mapM (fun n => do let c ← n.tocode "dest".toList; .ok (c, n))
  .ok ((keyed.foldr insertDesc []).map (·.2))

/-- optimizer.py:918-919: the logical complement looked for by _mergeLand/_mergeLor. -/
def notOf : DF → Py DF
  | .op .ulnot (n :: _) => .ok n
  | .op .ulnot [] => .error .index
  | n => DF.mkOp .ulnot [n]

/-- optimizer.py:914-924 (959-967): drop duplicates; `none` when a term and its complement both occur. -/
def dedupe : List DF → List DF → Py (Option (List DF))
  | ret, [] => .ok (some ret)
  | ret, l :: ls => do
    let nl ← notOf l
    if nl ∈ ret then .ok Option.none
    else if l ∈ ret then dedupe ret ls
    else dedupe (ret ++ [l]) ls

/-- Result of `_mergeLand`/`_mergeLor`: a node or a tuple of nodes. -/
inductive Flat where
  | node (n : DF)
  | tup (ns : List DF)

/-- optimizer.py:905-913: a result as list. -/
def Flat.list : Flat → List DF
  | .node n => [n]
  | .tup ns => ns

/-- optimizer.py:898-925 `_mergeLand`. -/
def mergeLandAux : DF → Py Flat
  | .op .land (a :: b :: _) => do
    let l ← mergeLandAux a
    let r ← mergeLandAux b
    let d ← dedupe [] (l.list ++ r.list)
    match d with
    | Option.none => .ok (.tup [.evi 0 (some 1)])
    | some ns => do
      let s ← sortByCode ns
      .ok (.tup s)
  | .op .land _ => .error .index
  | n => .ok (.node n)

/-- optimizer.py:889-895 / 930-936: rebuild a left-leaning chain. -/
def rebuild (o : Op) : List DF → Py DF
  | [] => .ok .none
  | n :: ns => ns.foldlM (fun acc r => DF.mkOp o [acc, r]) n

/-- optimizer.py:886-896 `mergeLand`. -/
def mergeLand (n : DF) : Py DF := do
  match ← mergeLandAux n with
  | .node m => .ok m
  | .tup ns => rebuild .land ns

/-- optimizer.py:939-968 `_mergeLor`. -/
def mergeLorAux : DF → Py Flat
  | .op .land ns => do
    let m ← mergeLand (.op .land ns)
    .ok (.node m)
  | .op .lor (a :: b :: _) => do
    let l ← mergeLorAux a
    let r ← mergeLorAux b
    let d ← dedupe [] (l.list ++ r.list)
    match d with
    | Option.none => .ok (.tup [.evi 1 (some 1)])
    | some ns => do
      let s ← sortByCode ns
      .ok (.tup s)
  | .op .lor _ => .error .index
  | n => .ok (.node n)

/-- optimizer.py:883-884 `mergeLandLor`, 927-937 `mergeLor`. -/
def mergeLandLor (n : DF) : Py DF := do
  match ← mergeLorAux n with
  | .node m => .ok m
  | .tup ns => rebuild .lor ns

/-- optimizer.py:554-568 `mergeConcat_constant`: `run` is `constvallist`, `ret` is `ret_nodes` reversed. -/
def OptCtx.mergeConcatConst (ctx : OptCtx) : List DF → List DF → List DF → Py (List DF)
  | ret, _, [] => .ok ret.reverse
  | ret, run, n :: ns =>
    if n.isEv then do
      let run' := run ++ [n]
      let c ← ctx.evalConcat run'
      let ret := if run'.length > 1 then ret.tail else ret
      ctx.mergeConcatConst (c :: ret) run' ns
    else ctx.mergeConcatConst (n :: ret) [] ns

/-- optimizer.py:570-582 `mergeConcat_undefined`. -/
def OptCtx.mergeConcatUndef (ctx : OptCtx) : List DF → Int → List DF → Py (List DF)
  | ret, _, [] => .ok ret.reverse
  | ret, width, n :: ns =>
    match n with
    | .undef w =>
      let ret := if width > 0 then ret.tail else ret
      let width := width + w.getD ctx.defaultWidth
      ctx.mergeConcatUndef (.undef (some width) :: ret) width ns
    | _ => ctx.mergeConcatUndef (n :: ret) 0 ns

/-- The test of optimizer.py:588-599: two part-selects of one signal. -/
def sameVarPsel : Option DF → DF → Option (ScopeChain × DF × DF × DF × DF)
  | some (.psel (.term a) m l), .psel (.term b) m' l' =>
    if a = b then some (a, m, l, m', l') else Option.none
  | _, _ => Option.none

/-- optimizer.py:584-609 `mergeConcat_partselect` (loop). -/
def OptCtx.mergeConcatPsel (ctx : OptCtx) (fuel : Nat) : List DF → Option DF → List DF → Py (List DF)
  | ret, _, [] => .ok ret.reverse
  | ret, last, n :: ns =>
    match sameVarPsel last n with
    | some (a, m, l, m', l') => do
      let lv ← l.intAttr
      let mv' ← m'.intAttr
      if lv = mv' + 1 then do
        let w ← ctx.getWidth fuel (.term a)
        let mv ← m.intAttr
        let lv' ← l'.intAttr
        let new : DF := if w = mv - lv' + 1 then .term a else .psel (.term a) m l'
        ctx.mergeConcatPsel fuel (new :: ret.tail) (some new) ns
      else ctx.mergeConcatPsel fuel (n :: ret) (some n) ns
    | Option.none => ctx.mergeConcatPsel fuel (n :: ret) (some n) ns

/-- optimizer.py:627-643: fill a missing branch by an undefined of the other branch's width. -/
def OptCtx.fillNone (ctx : OptCtx) (fuel : Nat) (a b : DF) : Py DF :=
  match a with
  | .none => do let w ← ctx.getWidth fuel b; .ok (.undef (some w))
  | a => .ok a

/-- optimizer.py:614-652 `mergeConcat_branch` (loop). -/
def OptCtx.mergeConcatBranch (ctx : OptCtx) (fuel : Nat) : List DF → Option DF → List DF → Py (List DF)
  | ret, _, [] => .ok ret.reverse
  | ret, last, n :: ns =>
    match last, n with
    | some (.branch c t f), .branch c' t' f' =>
      if c = c' then do
        let a ← ctx.fillNone fuel t f
        let a' ← ctx.fillNone fuel t' f'
        let b ← ctx.fillNone fuel f t
        let b' ← ctx.fillNone fuel f' t'
        let new : DF := .branch c (.concat [a, a']) (.concat [b, b'])
        ctx.mergeConcatBranch fuel (new :: ret.tail) (some new) ns
      else ctx.mergeConcatBranch fuel (n :: ret) (some n) ns
    | _, _ => ctx.mergeConcatBranch fuel (n :: ret) (some n) ns

/-- optimizer.py:610-612, 653-655: a single remaining operand replaces the concatenation. -/
def unwrapConcat : List DF → DF
  | [n] => n
  | ns => .concat ns

/-- optimizer.py:542-552 `mergeConcat`. -/
def OptCtx.mergeConcat (ctx : OptCtx) (fuel : Nat) (ns : List DF) : Py DF := do
  let a ← ctx.mergeConcatConst [] [] ns
  let b ← ctx.mergeConcatUndef [] 0 a
  let c ← ctx.mergeConcatPsel fuel [] Option.none b
  match unwrapConcat c with
  | .concat ms => do
    let d ← ctx.mergeConcatBranch fuel [] Option.none ms
    .ok (unwrapConcat d)
  | n => .ok n

/-- `isinstance(n, DFConcat)`. -/
def asConcat : DF → Option (List DF)
  | .concat ns => some ns
  | _ => Option.none

mutual
/-- optimizer.py:376-440 `optimizeHierarchy`. -/
def OptCtx.optHier (ctx : OptCtx) (fuel : Nat) : DF → Py DF
  | .none => .ok .none
  | .intc s => .ok (.intc s)
  | .fltc s => .ok (.fltc s)
  | .strc s => .ok (.strc s)
  | .ev v w a b => .ok (.ev v w a b)
  | .undef w => .ok (.undef w)
  | .hiz w => .ok (.hiz w)
  | .term n => .ok (.term n)
  | .branch c t f => do
    let c' ← ctx.optHier fuel c
    let t' ← ctx.optHier fuel t
    let f' ← ctx.optHier fuel f
    if c'.isEv then do
      let x ← isCondTrue c'
      .ok (if x then t' else f')
    else if t' = f' then .ok t'
    else .ok (.branch c' t' f')
  | .op o ns => do
    let ns' ← ctx.optHierList fuel ns
    let r ← DF.mkOp o ns'
    let r ← ctx.replaceOperator r
    let r ← mergeIdenticalNodes r
    let r ← ctx.mergeStaticNodes fuel r
    mergeLandLor r
  | .psel v m l => do
    let m' ← ctx.optHier fuel m
    let l' ← ctx.optHier fuel l
    let v' ← ctx.optHier fuel v
    if m'.isEv ∧ l'.isEv then
      match asConcat v' with
      | some ns => ctx.takePart fuel ns m' l'
      | Option.none =>
        if isZero l' then do
          let w ← ctx.getWidth fuel v'
          let mv ← m'.intAttr
          if w = mv + 1 then .ok v' else .ok (.psel v' m' l')
        else .ok (.psel v' m' l')
    else .ok (.psel v' m' l')
  | .ptr v p => do
    let p' ← ctx.optHier fuel p
    let v' ← ctx.optHier fuel v
    match asConcat v' with
    | some ns => if p'.isEv then ctx.takePart fuel ns p' p' else .ok (.ptr v' p')
    | Option.none => .ok (.ptr v' p')
  | .concat ns => do
    let ns' ← ctx.optHierConcat fuel ns
    ctx.mergeConcat fuel ns'
  | .delay _ => .error .name
  | .sys s ns => do
    let ns' ← ctx.optHierList fuel ns
    .ok (.sys s ns')
/-- `optimizeHierarchy` of each child. -/
def OptCtx.optHierList (ctx : OptCtx) (fuel : Nat) : List DF → Py (List DF)
  | [] => .ok []
  | n :: ns => do
    let x ← ctx.optHier fuel n
    let xs ← ctx.optHierList fuel ns
    .ok (x :: xs)
/-- optimizer.py:430-435: children of a concatenation; nested concatenations are spliced in unoptimized. -/
def OptCtx.optHierConcat (ctx : OptCtx) (fuel : Nat) : List DF → Py (List DF)
  | [] => .ok []
  | n :: ns =>
    match n with
    | .concat ms => do
      let xs ← ctx.optHierConcat fuel ns
      .ok (ms ++ xs)
    | n => do
      let x ← ctx.optHier fuel n
      let xs ← ctx.optHierConcat fuel ns
      .ok (x :: xs)
end

/-- optimizer.py:57-62 `optimize` with `level` rounds. -/
def OptCtx.optimize (ctx : OptCtx) (fuel : Nat) : Nat → DF → Py DF
  | 0, t => .ok t
  | n + 1, t => do
    let a ← ctx.optConst fuel t
    let b ← ctx.optHier fuel a
    ctx.optimize fuel n b

/-! ### VerilogDataflowOptimizer -/

/-- visit.py:56-65 `class AlwaysInfo`: the clock and reset of an always block (bindvisitor.py:243-280 gives None for
the missing ones).  The sensitivity list `senslist` is left out. -/
structure AlwaysInfo where
  clockName : Option ScopeChain := none
  clockEdge : Option Str := none
  clockBit : Option Int := none
  resetName : Option ScopeChain := none
  resetEdge : Option Str := none
  resetBit : Option Int := none
  deriving DecidableEq

/-- dataflow.py:778-789 `class Bind`. -/
structure Bind where
  tree : DF
  dest : ScopeChain
  msb : DF
  lsb : DF
  ptr : DF
  param : Str := []
  always : Option AlwaysInfo := none
  deriving DecidableEq

/-- signaltype.py:50-55 with isType: Parameter or Localparam. -/
def Term.isParam (t : Term) : Bool := t.types.contains .parameter || t.types.contains .localparam

/-- Stable insertion by ascending key. -/
def insertByLen {α : Type} (x : ScopeChain × α) : List (ScopeChain × α) → List (ScopeChain × α)
  | [] => [x]
  | y :: ys => if x.1.length ≤ y.1.length then x :: y :: ys else y :: insertByLen x ys

/-- `sorted(d.items(), key=lambda x: len(x[0]))`. -/
def sortByLen {α : Type} (d : List (ScopeChain × α)) : List (ScopeChain × α) := d.foldr insertByLen []

/-- One step of a resolving pass, optimizer.py:994-999. -/
def resolveStep (terms : Dict ScopeChain Term) (dw : Int) (lg : Int → Option Int) (fuel : Nat)
    (consts : Dict ScopeChain DF) (kv : ScopeChain × List Bind) : Py (Dict ScopeChain DF) := do
  let tm ← terms.get kv.1
  if tm.isParam then
    match kv.2 with
    | [] => .error .index
    | b :: _ => do
      let r ← (OptCtx.mk terms consts dw lg).optConst fuel b.tree
      if r.isEv then .ok (consts.set kv.1 r) else .ok consts
  else .ok consts

/-- One pass, optimizer.py:994-999 / 1001-1006. -/
def resolvePass (terms : Dict ScopeChain Term) (dw : Int) (lg : Int → Option Int) (fuel : Nat)
    (binds : Dict ScopeChain (List Bind)) (consts : Dict ScopeChain DF) : Py (Dict ScopeChain DF) :=
  (sortByLen binds).foldlM (resolveStep terms dw lg fuel) consts

/-- optimizer.py:992-1006: the constant list computed by `resolveConstant` (two passes). -/
def resolveConsts (terms : Dict ScopeChain Term) (dw : Int) (lg : Int → Option Int) (fuel : Nat)
    (binds : Dict ScopeChain (List Bind)) : Py (Dict ScopeChain DF) := do
  let c1 ← resolvePass terms dw lg fuel binds []
  resolvePass terms dw lg fuel binds c1

/-- optimizer.py:1008-1016: the resolved bind dictionary. -/
def resolvedBinds (binds : Dict ScopeChain (List Bind)) (consts : Dict ScopeChain DF) :
    Dict ScopeChain (List Bind) :=
  binds.map (fun kv => (kv.1, kv.2.map (fun b =>
    match consts.get? kv.1 with
    | some c => { b with tree := c }
    | Option.none => b)))

end Pyv
