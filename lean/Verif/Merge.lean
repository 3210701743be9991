import Verif.Optimizer
import Verif.Reorder
import Verif.Fsm
/-
  Model of pyverilog/dataflow/merge.py.
-/
namespace Pyv

/-- merge.py:23-30 `VerilogDataflowMerge.__init__`.  `opt`, `optc` and `reo` are `self.optimizer.optimize`,
`self.optimizer.optimizeConstant` and `reorder.reorder`; `mergeEnvOf` gives the modelled ones. -/
structure MergeEnv where
  terms : Dict ScopeChain Term
  binds : Dict ScopeChain (List Bind)
  rbinds : Dict ScopeChain (List Bind)
  opt : DF → Py DF
  optc : DF → Py DF
  reo : DF → Py DF

/-- The environment with the modelled optimizer (`level` rounds) and reordering. -/
def mergeEnvOf (ctx : OptCtx) (fuel level : Nat) (binds rbinds : Dict ScopeChain (List Bind)) : MergeEnv :=
  ⟨ctx.terms, binds, rbinds, ctx.optimize fuel level, ctx.optConst fuel, reorder fuel⟩

/-- Set union (lists without repetition). -/
def setUnion {α : Type} [DecidableEq α] (a b : List α) : List α := a ++ b.filter (fun x => decide (x ∉ a))

mutual
/-- merge.py:240-278 `getTreeSources` (`delays = false`) and 167-209 `getSources` (`delays = true`, which accepts
DFDelay).  DFHighImpedance and DFSyscall (and DFDelay in the first) raise DefinitionError. -/
def treeSources (delays : Bool) : DF → Py (List ScopeChain)
  | .none => .ok []
  | .intc _ => .ok []
  | .fltc _ => .ok []
  | .strc _ => .ok []
  | .undef _ => .ok []
  | .ev .. => .ok []
  | .term n => .ok [n]
  | .branch c t f => do
    let a ← treeSources delays c
    let b ← treeSources delays t
    let d ← treeSources delays f
    .ok (setUnion (setUnion a b) d)
  | .op _ ns => treeSourcesList delays ns
  | .psel v m l => do
    let a ← treeSources delays v
    let b ← treeSources delays m
    let d ← treeSources delays l
    .ok (setUnion (setUnion a b) d)
  | .ptr v p => do
    let a ← treeSources delays v
    let b ← treeSources delays p
    .ok (setUnion a b)
  | .concat ns => treeSourcesList delays ns
  | .delay n => if delays then treeSources delays n else .error .definition
  | .hiz _ => .error .definition
  | .sys _ _ => .error .definition
/-- The union over the operands. -/
def treeSourcesList (delays : Bool) : List DF → Py (List ScopeChain)
  | [] => .ok []
  | n :: ns => do
    let a ← treeSources delays n
    let b ← treeSourcesList delays ns
    .ok (setUnion a b)
end

/-- The union of the sources of several trees. -/
def unionSources (ts : List DF) : Py (List ScopeChain) := treeSourcesList false ts

/-- merge.py:217-228 `getTermSources`. -/
def MergeEnv.termSources (S : MergeEnv) (n : ScopeChain) : Py (List ScopeChain) :=
  match S.terms.get? n with
  | none => .ok []
  | some t => unionSources ([t.msb, t.lsb] ++ (t.dims.getD []).flatMap (fun d => [d.1, d.2]))

/-- merge.py:41-44 `getBindlist`. -/
def MergeEnv.bindlist (S : MergeEnv) (n : ScopeChain) : List Bind := (S.binds.get? n).getD []

/-- merge.py:230-238 `getBindinfoSources`. -/
def MergeEnv.bindinfoSources (S : MergeEnv) (n : ScopeChain) : Py (List ScopeChain) :=
  unionSources ((S.bindlist n).flatMap (fun b => [b.msb, b.lsb, b.ptr, b.tree]))

/-- merge.py:211-215 `getBindSources`. -/
def MergeEnv.bindSources (S : MergeEnv) (n : ScopeChain) : Py (List ScopeChain) := do
  let a ← S.termSources n
  let b ← S.bindinfoSources n
  .ok (setUnion a b)

/-! ### Merging assignment trees -/

/-- merge.py:392-397 `appendTail`. -/
def appendTail (appended : DF) : DF → DF
  | .none => appended
  | .branch c t f => .branch c (appendTail appended t) (appendTail appended f)
  | target => target

/-- merge.py:359-390 `mergeTree`. -/
def mergeTree (opt : DF → Py DF) : DF → DF → Py DF
  | .branch c1 t1 f1, .branch c2 t2 f2 => do
    let a ← opt c1
    let b ← opt c2
    if a = b then do
      let t ← mergeTree opt t1 t2
      let f ← mergeTree opt f1 f2
      .ok (.branch a t f)
    else .ok (.branch b (appendTail (.branch c1 t1 f1) t2) (appendTail (.branch c1 t1 f1) f2))
  | first, .none => .ok first
  | .none, second => .ok second
  | .branch c1 t1 f1, second => do
    let a ← opt c1
    .ok (.branch a (appendTail second t1) (appendTail second f1))
  | first, .branch c2 t2 f2 => do
    let b ← opt c2
    .ok (.branch b (appendTail first t2) (appendTail first f2))
  | _, second => .ok second

/-! ### Splitting binds -/

/-- merge.py:62-66 `getTermDims` (as: are there dimensions). -/
def MergeEnv.hasDims (S : MergeEnv) (n : ScopeChain) : Py Bool :=
  match S.terms.get? n with
  | none => .error .definition
  | some t => .ok t.dims.isSome

/-- merge.py:418-424: the first completion of a missing range; `term` is not yet bound there (UnboundLocalError, a
NameError). -/
def MergeEnv.rangeA (S : MergeEnv) (dest : ScopeChain) (msb lsb ptr : DF) : Py (DF × DF) :=
  if (ptr ≠ .none ∧ msb = .none) ∨ lsb = .none then do
    let d ← S.hasDims dest
    if d then .error .name else .ok (ptr, ptr)
  else .ok (msb, lsb)

/-- The declared range of a signal, folded; a missing term raises AttributeError. -/
def MergeEnv.termRange (S : MergeEnv) (dest : ScopeChain) : Py (DF × DF) :=
  match S.terms.get? dest with
  | none => .error .attribute
  | some t => do
    let m ← S.optc t.msb
    let l ← S.optc t.lsb
    .ok (m, l)

/-- merge.py:425-428: the second completion. -/
def MergeEnv.rangeB (S : MergeEnv) (dest : ScopeChain) (msb lsb ptr : DF) : Py (DF × DF) :=
  if (ptr = .none ∧ msb = .none) ∨ lsb = .none then S.termRange dest else .ok (msb, lsb)

/-- merge.py:413-451 `splitBind`: the left piece and, when the bind was split, the right one. -/
def MergeEnv.splitBind (S : MergeEnv) (b : Bind) (pos : Int) : Py (Bind × Option Bind) := do
  let msb ← S.optc b.msb
  let lsb ← S.optc b.lsb
  let ptr ← S.optc b.ptr
  let (msb, lsb) ← S.rangeA b.dest msb lsb ptr
  let (msb, lsb) ← S.rangeB b.dest msb lsb ptr
  let lv ← lsb.intAttr
  if pos > lv then do
    let mv ← msb.intAttr
    if pos ≤ mv then do
      let right ← S.reo (.psel b.tree (.evi (pos - lv - 1) (some 32)) (.evi 0 (some 32)))
      let left ← S.reo (.psel b.tree (.evi mv (some 32)) (.evi (mv - (mv - pos + 1) + 1) (some 32)))
      let right ← S.opt right
      let left ← S.opt left
      .ok ({ b with tree := left, msb := .evi mv (some 32), lsb := .evi pos (some 32) },
        some { b with tree := right, msb := .evi (pos - 1) (some 32), lsb := .evi lv (some 32) })
    else .ok (b, none)
  else .ok (b, none)

/-- merge.py:404-411 `splitBindPositions`. -/
def MergeEnv.splitBindPositions (S : MergeEnv) (b : Bind) : List Int → Py (List Bind)
  | [] => .ok [b]
  | p :: ps => do
    let (left, right) ← S.splitBind b p
    let rest ← S.splitBindPositions left ps
    .ok (right.toList ++ rest)

/-- merge.py:399-402 `splitBindlist`. -/
def MergeEnv.splitBindlist (S : MergeEnv) (ps : List Int) : List Bind → Py (List Bind)
  | [] => .ok []
  | b :: bs => do
    let x ← S.splitBindPositions b ps
    let y ← S.splitBindlist ps bs
    .ok (x ++ y)

/-- An assigned range: msb, lsb and array index. -/
abbrev Rng := Int × Int × Option Int

/-- merge.py:490-505: the part of one assigned range that is matched. -/
def matchOne (sm sl : Int) (sp : Option Int) (r : Rng) : List Rng :=
  let (msb, lsb, ptr) := r
  if sp ≠ none ∧ ptr ≠ sp then []
  else
    let inl := decide (lsb ≤ sl ∧ sl ≤ msb)
    let inm := decide (lsb ≤ sm ∧ sm ≤ msb)
    if inl || inm then [(if inm then sm else msb, if inl then sl else lsb, sp)] else []

/-- merge.py:488-506 `matchedRange`. -/
def matchedRange (assigned : List Rng) (sm sl : Int) (sp : Option Int) : List Rng := assigned.flatMap (matchOne sm sl sp)

/-- The variables of the loop of `unmatchedRange`: minval, maxval, last_msb, unmatched_range. -/
structure UnSt where
  minv : Option Int := none
  maxv : Option Int := none
  last : Option Int := none
  out : List Rng := []

/-- merge.py:513-522: one round of the loop of `unmatchedRange`. -/
def unmatchedStep (sp : Option Int) (st : UnSt) (r : Rng) : UnSt :=
  let (msb, lsb, ptr) := r
  if sp ≠ none ∧ ptr ≠ sp then st
  else
    { minv := updMin st.minv lsb
      maxv := updMax st.maxv msb
      out := match st.last with
        | none => st.out
        | some lm => if lm + 1 > lsb then st.out ++ [(lm + 1, lsb - 1, ptr)] else st.out
      last := some msb }

/-- merge.py:508-529 `unmatchedRange`. -/
def unmatchedRange (matched : List Rng) (sm sl : Int) (sp : Option Int) : List Rng :=
  let st := (sortOn (fun r => r.1) matched).foldl (unmatchedStep sp) {}
  match st.minv, st.maxv with
  | some mn, some mx =>
    st.out ++ (if sl < mn then [(sl, mn - 1, sp)] else []) ++ (if mx < sm then [(mx + 1, sm, sp)] else [])
  | _, _ => [(sm, sl, sp)]

/-- merge.py:479-486 `getPositionsFromRange`; line 482 names an undefined variable when an index is searched. -/
def positionsFromRange (matched : List Rng) (sp : Option Int) : Py (List Int) :=
  if sp ≠ none ∧ matched ≠ [] then .error .name
  else .ok (matched.flatMap (fun r => [r.2.1, r.1 + 1]))

/-- merge.py:459-466: the constant range of a bind; line 466 names an exception that is not imported. -/
def MergeEnv.constRange (S : MergeEnv) (b : Bind) (msb lsb : DF) : Py (DF × DF) :=
  if msb = .none ∧ lsb = .none then S.termRange b.dest
  else if msb.isEv && lsb.isEv then .ok (msb, lsb) else .error .name

/-- merge.py:468-475: the effect of one bind with a constant range and index. -/
def splitStep (mv lv : Int) (sp : Option Int) (st : List Int × List Rng) : Py (List Int × List Rng) := do
  let matched := matchedRange st.2 mv lv sp
  let un := unmatchedRange matched mv lv sp
  let ps ← positionsFromRange matched sp
  .ok (setUnion st.1 ps.eraseDups, st.2 ++ (matched ++ un))

/-- merge.py:457-475: one round of `splitPositions`. -/
def MergeEnv.splitRound (S : MergeEnv) (st : List Int × List Rng) (b : Bind) : Py (List Int × List Rng) := do
  let ptr ← S.optc b.ptr
  let msb ← S.optc b.msb
  let lsb ← S.optc b.lsb
  let (msb, lsb) ← S.constRange b msb lsb
  match ptr with
  | .none => do
    let mv ← msb.intAttr
    let lv ← lsb.intAttr
    splitStep mv lv none st
  | .ev v _ _ _ => do
    let mv ← msb.intAttr
    let lv ← lsb.intAttr
    let pv ← v.toInt
    splitStep mv lv (some pv) st
  | _ => .ok st

/-- merge.py:453-477 `splitPositions`. -/
def MergeEnv.splitPositions (S : MergeEnv) (bs : List Bind) : Py (List Int) := do
  let st ← bs.foldlM S.splitRound ([], [])
  .ok (sortOn id st.1)

/-! ### Merging binds -/

/-- The constant index of a bind, if any. -/
def Bind.constPtr (b : Bind) : Py (Option Int) :=
  match b.ptr with
  | .ev v _ _ _ => do let n ← v.toInt; .ok (some n)
  | _ => .ok none

/-- merge.py:285-291 / 328-334 `bindkey`. -/
def MergeEnv.bindKey (S : MergeEnv) (b : Bind) : Py Int := do
  let lsb ← (if b.lsb = .none then .ok 0 else b.lsb.intAttr)
  let ptr ← b.constPtr
  match S.terms.get? b.dest with
  | none => .error .attribute
  | some t => do
    let m ← S.opt t.msb
    let mv ← m.intAttr
    let l ← S.opt t.lsb
    let lv ← l.intAttr
    .ok (ptr.getD 0 * (((mv - lv).natAbs : Int) + 1) + lsb)

/-- `sorted(bindlist, key=bindkey)`. -/
def MergeEnv.sortBinds (S : MergeEnv) (bs : List Bind) : Py (List Bind) := do
  let ks ← bs.mapM S.bindKey
  .ok ((sortOn (fun p => p.1) (ks.zip bs)).map (·.2))

/-- merge.py:340-346: does the new bind assign the range of the last one? -/
def sameRange (last b : Bind) : Py Bool :=
  match last.ptr, b.ptr with
  | .ev v _ _ _, .ev v' _ _ _ => if v ≠ v' then .ok false else go
  | _, _ => go
where
  /-- The comparison of the ranges. -/
  go : Py Bool :=
    if last.lsb = .none ∨ b.lsb = .none ∨ b.msb = .none then .ok false
    else do
      let a ← last.lsb.valueAttr
      let a' ← b.lsb.valueAttr
      if a = a' then do
        let c ← last.msb.valueAttr
        let c' ← b.msb.valueAttr
        .ok (decide (c = c'))
      else .ok false

/-- merge.py:336-356: the loop of `mergeBindlist`; `acc` is the merged list so far (its last element is
`last_bind`). -/
def MergeEnv.mergeLoop (S : MergeEnv) : List Bind → Option Bind → List Bind → Py (List Bind)
  | acc, last, [] => .ok (acc ++ last.toList)
  | acc, none, b :: bs => S.mergeLoop acc (some b) bs
  | acc, some last, b :: bs => do
    let same ← sameRange last b
    if same then do
      let t ← mergeTree S.opt last.tree b.tree
      let t ← S.opt t
      S.mergeLoop acc (some { b with tree := t }) bs
    else S.mergeLoop (acc ++ [last]) (some b) bs

/-- merge.py:324-357 `mergeBindlist`. -/
def MergeEnv.mergeBindlist (S : MergeEnv) (bs : List Bind) : Py (List Bind) := do
  let sorted ← S.sortBinds bs
  S.mergeLoop [] none sorted

/-- merge.py:307-316: one simplified bind. -/
def MergeEnv.optBind (S : MergeEnv) (b : Bind) : Py Bind := do
  let tree ← S.opt b.tree
  let msb ← S.opt b.msb
  let lsb ← S.opt b.lsb
  let ptr ← S.opt b.ptr
  .ok { b with tree := tree, msb := msb, lsb := lsb, ptr := ptr }

/-- merge.py:303-322 `getOptimizedBindlist`. -/
def MergeEnv.optimizedBindlist (S : MergeEnv) (bs : List Bind) : Py (List Bind) :=
  if bs = [] then .ok []
  else do
    let ns ← bs.mapM S.optBind
    if ns.length = 1 then .ok ns
    else do
      let ps ← S.splitPositions ns
      let ss ← S.splitBindlist ps ns
      S.mergeBindlist ss

/-- merge.py:292-300: the loop of `getMergedTree`, on the sorted binds; arguments `last_msb`, `last_ptr` and the list
of operands so far. -/
def mergedLoop : List Bind → Int → Int → List DF → Py (List DF)
  | [], _, _, out => .ok out
  | b :: bs, lastMsb, lastPtr, out => do
    let lsb ← (if b.lsb = .none then .ok 0 else b.lsb.intAttr)
    let p ← b.constPtr
    if lastPtr ≠ p.getD (-1) then mergedLoop bs lastMsb lastPtr out
    else do
      let m ← (if b.msb = .none then .ok (-1) else b.msb.intAttr)
      mergedLoop bs m (p.getD (-1))
        (out ++ (if lastMsb + 1 < lsb then [.undef (some (lastMsb - lsb - 1))] else []) ++ [b.tree])

/-- merge.py:280-301 `getMergedTree`. -/
def MergeEnv.mergedTree (S : MergeEnv) (bs : List Bind) : Py DF := do
  let sorted ← S.sortBinds bs
  let out ← mergedLoop sorted (-1) (-1) []
  .ok (.concat out.reverse)

/-- merge.py:118-128: binds by index; `none` is the key 'any'. -/
def discrete : List Bind → Dict (Option PyVal) (List Bind) → Dict (Option PyVal) (List Bind)
  | [], d => d
  | b :: bs, d =>
    let k := match b.ptr with | .ev v _ _ _ => some v | _ => none
    discrete bs (Dict.set d k ((d.get? k).getD [] ++ [b]))

/-- merge.py:134-139 / 148-153: the tree of one array element; KeyError without binds. -/
def MergeEnv.elementTree (S : MergeEnv) (d : Dict (Option PyVal) (List Bind)) (v : PyVal) : Py DF :=
  match d.get? (some v) with
  | none => .error .key
  | some [b] => .ok b.tree
  | some bs => S.mergedTree bs

/-- merge.py:145-154: the chain of conditionals over the element indices. -/
def MergeEnv.elementChain (S : MergeEnv) (d : Dict (Option PyVal) (List Bind)) (ptr : DF) : List Int → DF → Py DF
  | [], ret => .ok ret
  | c :: cs, ret => do
    let t ← S.elementTree d (.int c)
    let o ← DF.mkOp .eq [.evi c (some 32), ptr]
    S.elementChain d ptr cs (.branch o t ret)

/-- A key of the dictionary of elements as a number (`min`/`max` of merge.py:141-142). -/
def keyInt : Option PyVal → Py Int
  | some v => v.toInt
  | none => .error .type

/-- merge.py:110-158 `getTree`. -/
def MergeEnv.getTree (S : MergeEnv) (n : ScopeChain) (ptr : DF) : Py DF := do
  let bs ← S.optimizedBindlist ((S.rbinds.get? n).getD [])
  if bs = [] then .ok .none
  else do
    let dims ← S.hasDims n
    if dims then
      let d := discrete bs []
      if d.has none then .ok (.term n)
      else match ptr with
        | .ev v _ _ _ => S.elementTree d v
        | _ => do
          let ks ← (d.map (·.1)).mapM keyInt
          S.elementChain d ptr (intRange (ks.foldl min (ks.headD 0)) (ks.foldl max (ks.headD 0))) .none
    else match bs with
      | [b] => .ok b.tree
      | bs => do
        let t ← S.mergedTree bs
        S.opt t

end Pyv
