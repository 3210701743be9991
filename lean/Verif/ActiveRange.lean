import Verif.Transition
import Verif.Splitter
/-
  Model of pyverilog/controlflow/active_range.py: the ranges of signal values under which a signal is active, changed or unchanged.

  ActiveTerm objects are changed in place and shared between conditions, so they live in a heap and are referred to by position.  An
  ActiveCondition (a dictionary from names to terms) is never shared by two results, so it is modelled by its dictionary.
-/
namespace Pyv

/-- One element of `range_pairs`: lower and upper bound, either may be None. -/
abbrev ARange := Option Int × Option Int

/-- active_range.py:453-458 `class ActiveTerm`. -/
structure ATerm where
  name : ScopeChain
  ranges : List ARange
  minv : Int
  maxv : Int
  deriving DecidableEq

/-- The ActiveTerm objects. -/
abbrev AHeap := List ATerm

/-- active_range.py:534-536 `class ActiveCondition`: `termdict`, with the positions of the terms. -/
abbrev ACond := Dict ScopeChain Nat

/-- What the walking functions return besides None: an ActiveTerm, an ActiveCondition or an ActiveConditionList. -/
inductive AC where
  | term (r : Nat)
  | cond (c : ACond)
  | list (cs : List ACond)
  deriving DecidableEq

/-- Stable insertion into a list sorted by lower bound. -/
def insertA (x : Int × Option Int) : List (Int × Option Int) → List (Int × Option Int)
  | [] => [x]
  | y :: ys => if x.1 ≤ y.1 then x :: y :: ys else y :: insertA x ys

/-- The pairs with a lower bound; a None raises TypeError where it is compared (with 0 or 1 pairs, `sorted` compares nothing: see the uses). -/
def lowers : List ARange → Py (List (Int × Option Int))
  | [] => .ok []
  | (some lo, hi) :: rs => do
    let r ← lowers rs
    .ok ((lo, hi) :: r)
  | (none, _) :: _ => .error .type

/-- Both bounds; a None raises TypeError. -/
def closed : List ARange → Py (List (Int × Int))
  | [] => .ok []
  | (some lo, some hi) :: rs => do
    let r ← closed rs
    .ok ((lo, hi) :: r)
  | _ :: _ => .error .type

/-- active_range.py:466-481 `opNot`, `_inv_range_pairs`: None as upper bound stands for `maxval`; None as lower bound raises TypeError in
`rmin - 1`.  The loop is that of transition.py (`notRangeLoop`). -/
def ATerm.opNot (t : ATerm) : Py ATerm :=
  if t.ranges.length > 0 then do
    let ps ← lowers t.ranges
    let r := notRangeLoop t.minv (sortPairs (ps.map (fun p => (p.1, p.2.getD t.maxv))))
    let ps := if r.2 ≤ t.maxv then r.1 ++ [(r.2, t.maxv)] else r.1
    .ok { t with ranges := ps.map (fun p => (some p.1, some p.2)) }
  else .ok t

/-- active_range.py:596-629 `_and_range_pairs`.  The loop is that of transition.py (`andRangeLoop`).  `max`, `min` and the comparisons raise
TypeError for None (simplified: also when the pair with None would not be reached; the analyzer makes None only in lists of one pair).
`tuple(set(…))`: the order of the pairs is not modelled (`andRangePairs` keeps the first occurrences). -/
def andARanges (a b : List ARange) : Py (List ARange) :=
  if a.length = 0 ∨ b.length = 0 then .ok []
  else do
    let a ← closed a
    let b ← closed b
    .ok ((andRangePairs a b).map (fun p => (some p.1, some p.2)))

/-- active_range.py:527-531 `ActiveTerm.satisfy`: the loop; `value <= None` raises TypeError. -/
def satLoop (value : Int) : List (Int × Option Int) → Py Bool
  | [] => .ok false
  | (lo, hi) :: rs =>
    if lo ≤ value then
      match hi with
      | some hi => if value ≤ hi then .ok true else satLoop value rs
      | none => .error .type
    else satLoop value rs

/-- active_range.py:527-531 `ActiveTerm.satisfy`. -/
def ATerm.satisfy (t : ATerm) (value : Int) : Py Bool := do
  let ps ← lowers t.ranges
  satLoop value (ps.foldr insertA [])

/-- active_range.py:504-520 `ActiveTerm.toTree`, one pair. -/
def pairTree (name : ScopeChain) : ARange → Py DF
  | (some lo, none) => .ok (.op .lessEq [.evi lo (some 32), .term name])
  | (some lo, some hi) =>
    .ok (.op .land [.op .lessEq [.evi lo (some 32), .term name], .op .greaterEq [.term name, .evi hi (some 32)]])
  | (none, _) => .error .unmodelled

/-- active_range.py:504-520 `ActiveTerm.toTree`. -/
def ATerm.toTree (t : ATerm) : Py DF := do
  let ts ← t.ranges.mapM (pairTree t.name)
  match ts with
  | [] => .ok .none
  | t :: ts => .ok (ts.foldl (fun a b => .op .lor [a, b]) t)

/-- `term.opNot()` on an object. -/
def AHeap.opNot (h : AHeap) (r : Nat) : Py AHeap :=
  match h[r]? with
  | some t => do
    let t' ← t.opNot
    .ok (h.set r t')
  | none => .error .unmodelled

/-- active_range.py:541-545 `ActiveCondition.set`, 591-594 `_andTerm`: the term already in the dictionary is changed in place. -/
def ACond.put (c : ACond) (h : AHeap) (n : ScopeChain) (r : Nat) : Py (ACond × AHeap) :=
  match c.get? n with
  | none => .ok (c.set n r, h)
  | some q =>
    match h[q]?, h[r]? with
    | some a, some b => do
      let rs ← andARanges a.ranges b.ranges
      .ok (c, h.set q { a with ranges := rs })
    | _, _ => .error .unmodelled

/-- active_range.py:326-340 `_activecond_opAnd_right_condition` on conditions: a copy of the left dictionary, in which the terms of the
right one are set. -/
def ACond.merge : ACond → AHeap → List (ScopeChain × Nat) → Py (ACond × AHeap)
  | c, h, [] => .ok (c, h)
  | c, h, (n, r) :: es => do
    let x ← ACond.put c h n r
    ACond.merge x.1 x.2 es

/-- A new condition with one term (`new_cond = ActiveCondition(); new_cond.set(term.name, term)`). -/
def single (h : AHeap) (r : Nat) : Py ACond :=
  match h[r]? with
  | some t => .ok [(t.name, r)]
  | none => .error .unmodelled

/-- A loop over conditions, each of which is the left side of a conjunction with `es`. -/
def mergeEach (h : AHeap) (es : ACond) : List ACond → Py (List ACond × AHeap)
  | [] => .ok ([], h)
  | c :: cs => do
    let x ← ACond.merge c h es
    let y ← mergeEach x.2 es cs
    .ok (x.1 :: y.1, y.2)

/-- A loop over conditions, each of which is the right side of a conjunction with `c`. -/
def mergeUnder (h : AHeap) (c : ACond) : List ACond → Py (List ACond × AHeap)
  | [] => .ok ([], h)
  | es :: rs => do
    let x ← ACond.merge c h es
    let y ← mergeUnder x.2 c rs
    .ok (x.1 :: y.1, y.2)

/-- active_range.py:362-368: every condition of the left list with every condition of the right one. -/
def mergeAll (h : AHeap) (ls : List ACond) : List ACond → Py (List ACond × AHeap)
  | [] => .ok ([], h)
  | es :: rs => do
    let x ← mergeEach h es ls
    let y ← mergeAll x.2 ls rs
    .ok (x.1 ++ y.1, y.2)

/-- active_range.py:296-303 `_activecond_opAnd`, 305-369 `_activecond_opAnd_right_*`. -/
def activeAnd (h : AHeap) : Option AC → Option AC → Py (Option AC × AHeap)
  | some (.term l), some (.term r) => do
    let c ← single h l
    let es ← single h r
    let x ← ACond.merge c h es
    .ok (some (.cond x.1), x.2)
  | some (.term l), some (.cond r) => do
    let c ← single h l
    let x ← ACond.merge c h r
    .ok (some (.cond x.1), x.2)
  | some (.term l), some (.list rs) => do
    let es ← single h l
    let x ← mergeEach h es rs
    .ok (some (.list x.1), x.2)
  | some (.cond l), some (.term r) => do
    let es ← single h r
    let x ← ACond.merge l h es
    .ok (some (.cond x.1), x.2)
  | some (.cond l), some (.cond r) => do
    let x ← ACond.merge l h r
    .ok (some (.cond x.1), x.2)
  | some (.cond l), some (.list rs) => do
    let x ← mergeUnder h l rs
    .ok (some (.list x.1), x.2)
  | some (.list ls), some (.term r) => do
    let es ← single h r
    let x ← mergeEach h es ls
    .ok (some (.list x.1), x.2)
  | some (.list ls), some (.cond r) => do
    let x ← mergeEach h r ls
    .ok (some (.list x.1), x.2)
  | some (.list ls), some (.list rs) => do
    let x ← mergeAll h ls rs
    .ok (some (.list x.1), x.2)
  | _, _ => .ok (none, h)

/-- The conditions of a result, a term being a condition of its own. -/
def AC.conds (h : AHeap) : AC → Py (List ACond)
  | .term r => do
    let c ← single h r
    .ok [c]
  | .cond c => .ok [c]
  | .list cs => .ok cs

/-- active_range.py:371-378 `_activecond_opOr`, 380-450 `_activecond_opOr_right_*`. -/
def activeOr (h : AHeap) : Option AC → Option AC → Py (Option AC)
  | some l, some r => do
    let a ← l.conds h
    let b ← r.conds h
    .ok (some (.list (a ++ b)))
  | _, _ => .ok none

/-- The terms at the given positions, negated one after the other. -/
def AHeap.notAll (h : AHeap) : List Nat → Py AHeap
  | [] => .ok h
  | r :: rs => do
    let h1 ← h.opNot r
    h1.notAll rs

/-- active_range.py:251-294 `_activecond_opNot`.  For a list, the terms of the first two conditions are negated, and None is returned,
because `ActiveTerm.opNot` returns None. -/
def activeNot (h : AHeap) : Option AC → Py (Option AC × AHeap)
  | some (.term r) => do
    let h1 ← h.opNot r
    .ok (some (.term r), h1)
  | some (.cond c) => do
    let h1 ← h.notAll (c.map (·.2))
    .ok (some (.list (c.map (fun p => [p]))), h1)
  | some (.list (l :: r :: _)) => do
    let h1 ← h.notAll (l.flatMap (fun p => p.2 :: r.map (·.2)))
    .ok (none, h1)
  | _ => .ok (none, h)

/-- active_range.py:207-212, 214-222: the term for the comparison of a signal with a node; `infval.inv` is not used. -/
def rangeTerm (width : ScopeChain → Py Nat) (o : Op) (n : ScopeChain) (node : DF) (h : AHeap) : Py (Option AC × AHeap) := do
  let i ← infer o node
  let w ← width n
  .ok (some (.term h.length), h ++ [⟨n, [(i.minval, i.maxval)], 0, maxVal w⟩])

/-- active_range.py:189-196: one side is None. -/
def orSkip (h : AHeap) : Option AC → Option AC → Py (Option AC × AHeap)
  | none, r => .ok (r, h)
  | l, none => .ok (l, h)
  | l, r => do
    let x ← activeOr h l r
    .ok (x, h)

/-- active_range.py:198-205. -/
def andSkip (h : AHeap) : Option AC → Option AC → Py (Option AC × AHeap)
  | none, r => .ok (r, h)
  | l, none => .ok (l, h)
  | l, r => activeAnd h l r

/-- A comparison with a constant (`yes`: the values for which the condition itself is returned, not its negation). -/
def sideOf (h : AHeap) (a : AC) (v : PyVal) (yes : Int → Bool) : Py (Option AC × AHeap) :=
  match v with
  | .int x => if yes x then .ok (some a, h) else activeNot h (some a)
  | _ => .error .unmodelled

/-- active_range.py:224-235, `Eq` of two conditions. -/
def activeEq (h : AHeap) (l r : DF) : Option AC → Option AC → Py (Option AC × AHeap)
  | some a, none =>
    match r with
    | .ev v _ _ _ => sideOf h a v (fun x => decide (x > 0))
    | _ => activeAnd h (some a) none
  | none, some b =>
    match l with
    | .ev v _ _ _ => sideOf h b v (fun x => decide (x > 0))
    | _ => activeAnd h none (some b)
  | a, b => activeAnd h a b

/-- active_range.py:237-248, `NotEq` of two conditions. -/
def activeNe (h : AHeap) (l r : DF) : Option AC → Option AC → Py (Option AC × AHeap)
  | some a, none =>
    match r with
    | .ev v _ _ _ => sideOf h a v (fun x => decide (x = 0))
    | _ => .ok (none, h)
  | none, some b =>
    match l with
    | .ev v _ _ _ => sideOf h b v (fun x => decide (x = 0))
    | _ => .ok (none, h)
  | _, _ => .ok (none, h)

/-- active_range.py:207-249: the comparisons; `wl` and `wr` are `walkActiveCond` of the operands. -/
def walkCmp (width : ScopeChain → Py Nat) (o : Op) (l r : DF) (wl wr : AHeap → Py (Option AC × AHeap)) (h : AHeap) : Py (Option AC × AHeap) :=
  match l, r with
  | .term n, _ => rangeTerm width o n r h
  | _, .term n => rangeTerm width o.swapped n l h
  | _, _ =>
    if o = .eq then do
      let a ← wl h
      let b ← wr a.2
      activeEq b.2 l r a.1 b.1
    else if o = .notEq then do
      let a ← wl h
      let b ← wr a.2
      activeNe b.2 l r a.1 b.1
    else .ok (none, h)

/-- active_range.py:166-169 `walkActiveCond`, 171-177 `_walkActiveCond`, 179-183 `_walkActiveCond_DFOperator_unary`, 185-249
`_walkActiveCond_DFOperator_dual`. -/
def walkActive (width : ScopeChain → Py Nat) : DF → AHeap → Py (Option AC × AHeap)
  | .term n, h => rangeTerm width .greaterThan n (.evi 0 (some 32)) h
  | .op o [x], h => do
    let a ← walkActive width x h
    if o = .ulnot ∨ o = .unot then activeNot a.2 a.1 else .ok (none, a.2)
  | .op o [l, r], h =>
    if o = .or ∨ o = .lor then do
      let a ← walkActive width l h
      let b ← walkActive width r a.2
      orSkip b.2 a.1 b.1
    else if o = .and ∨ o = .land then do
      let a ← walkActive width l h
      let b ← walkActive width r a.2
      andSkip b.2 a.1 b.1
    else walkCmp width o l r (walkActive width l) (walkActive width r) h
  | _, h => .ok (none, h)

/-- active_range.py:156-164 `inferActiveCondition`: the loop. -/
def inferActive (width : ScopeChain → Py Nat) (h : AHeap) : Option AC → List DF → Py (Option AC × AHeap)
  | a, [] => .ok (a, h)
  | a, c :: cs => do
    let b ← walkActive width c h
    let x ← (match a with | none => .ok b | some a => activeAnd b.2 (some a) b.1 : Py (Option AC × AHeap))
    inferActive width x.2 x.1 cs

/-- active_range.py:550-556 `resolve`: the terms without ranges are dropped. -/
def ACond.resolve (c : ACond) (h : AHeap) : ACond :=
  c.filter (fun p => match h[p.2]? with | some t => decide (t.ranges.length ≠ 0) | none => true)

/-- active_range.py:117-131: what one condition list adds to the result.  ActiveCondition has no `__eq__`, so `in` never finds one. -/
def AC.report (h : AHeap) : Option AC → Py (List ACond)
  | none => .ok []
  | some (.term r) => do
    let c ← single h r
    .ok [c]
  | some (.cond c) => .ok (if (c.resolve h).length > 0 then [c.resolve h] else [])
  | some (.list cs) => .ok (cs.map (fun c => c.resolve h))

/-- active_range.py:114-132 `inferActiveConditions`. -/
def inferConds (width : ScopeChain → Py Nat) (h : AHeap) : List (List DF) → Py (List ACond × AHeap)
  | [] => .ok ([], h)
  | l :: ls => do
    let a ← inferActive width h none l
    let cs ← AC.report a.2 a.1
    let x ← inferConds width a.2 ls
    .ok (cs ++ x.1, x.2)

/-- active_range.py:80-88 `getActiveFuncdictKeys`, 90-96 `getChangedFuncdictKeys`, 98-104 `getUnchangedFuncdictKeys`; `pick` is the test of
the function (`activeConstant`, `activeModify`, `activeUnmodify`: the same tests as in splitter.py). -/
def rangeKeys (isReset : DF → Bool) (pick : DF → Py Bool) : FuncDict → Py (List (List DF))
  | [] => .ok []
  | (k, f) :: fd => do
    let b ← pick f
    let ks ← rangeKeys isReset pick fd
    .ok (if b then removeResetCondlist isReset k :: ks else ks)

/-- active_range.py:28-35 `getActiveConditions`, 37-48 `getChangedConditions`, 63-74 `getUnchangedConditions`: `bound` says whether the term is
a key of `resolved_binddict`, `tree` is `makeTree(termname)`.  The result are the conditions, to be read in the heap. -/
def activeRanges (isReset : DF → Bool) (width : ScopeChain → Py Nat) (pick : DF → Py Bool) (bound : Bool) (tree : DF) :
    Py (List ACond × AHeap) :=
  if bound = false then .ok ([], [])
  else do
    let fd ← split tree
    let ks ← rangeKeys isReset pick fd
    inferConds width [] ks

/-- active_range.py:106-112 `getChangedFuncdict`: a condition list that occurs twice keeps its place and gets the later function. -/
def changedDict (isReset : DF → Bool) (name : ScopeChain) : FuncDict → FuncDict → FuncDict
  | [], d => d
  | (k, f) :: fd, d => changedDict isReset name fd (if f = .term name then d else Dict.set d (removeResetCondlist isReset k) f)

/-- active_range.py:136-153: what one condition list adds to the dictionary. -/
def AC.entries (h : AHeap) : Option AC → Py (List ACond)
  | some (.term r) =>
    match h[r]? with
    | some t => .ok (if t.ranges.length = 0 then [] else [[(t.name, r)]])
    | none => .error .unmodelled
  | a => AC.report h a

/-- active_range.py:134-154 `inferActiveConditionDict`.  The keys are objects without `__eq__`: no two of them are equal, so the dictionary is
a list of pairs. -/
def inferCondDict (width : ScopeChain → Py Nat) (h : AHeap) : FuncDict → Py (List (ACond × DF) × AHeap)
  | [] => .ok ([], h)
  | (l, f) :: ls => do
    let a ← inferActive width h none l
    let cs ← AC.entries a.2 a.1
    let x ← inferCondDict width a.2 ls
    .ok (cs.map (fun c => (c, f)) ++ x.1, x.2)

/-- active_range.py:50-61 `getChangedConditionsWithAssignments`; as `activeRanges`. -/
def changedAssignments (isReset : DF → Bool) (width : ScopeChain → Py Nat) (name : ScopeChain) (bound : Bool) (tree : DF) :
    Py (List (ACond × DF) × AHeap) :=
  if bound = false then .ok ([], [])
  else do
    let fd ← split tree
    inferCondDict width [] (changedDict isReset name fd [])

/-- active_range.py:651-657 `ActiveCondition.satisfy`; a value for a signal without a term is ignored. -/
def ACond.satisfy (c : ACond) (h : AHeap) : List (ScopeChain × Int) → Py Bool
  | [] => .ok true
  | (n, v) :: vs =>
    match c.get? n with
    | none => c.satisfy h vs
    | some r =>
      match h[r]? with
      | none => .error .unmodelled
      | some t => do
        let b ← t.satisfy v
        if b then c.satisfy h vs else .ok false

/-- active_range.py:565-577 `ActiveCondition.toTree`: the loop; a tree None is overwritten by the next one. -/
def condTreeLoop (h : AHeap) : DF → List (ScopeChain × Nat) → Py DF
  | acc, [] => .ok acc
  | acc, (_, r) :: es =>
    match h[r]? with
    | none => .error .unmodelled
    | some t => do
      let d ← t.toTree
      condTreeLoop h (if acc = .none then d else .op .land [acc, d]) es

/-- active_range.py:565-577 `ActiveCondition.toTree`. -/
def ACond.toTree (c : ACond) (h : AHeap) : Py DF :=
  if c.length = 0 then .ok (.evi 1 (some 32)) else condTreeLoop h .none c

/-- active_range.py:522-525 `ActiveTerm.include`, of a term in a dictionary. -/
def isTermOf (h : AHeap) (n : ScopeChain) (p : ScopeChain × Nat) : Bool :=
  match h[p.2]? with
  | some t => decide (n = t.name)
  | none => false

/-- active_range.py:631-635 `ActiveCondition.include`. -/
def ACond.include (c : ACond) (h : AHeap) (n : ScopeChain) : Bool :=
  c.any (isTermOf h n)

/-- active_range.py:637-649 `ActiveCondition.split`: the terms of the signal and the others. -/
def ACond.split (c : ACond) (h : AHeap) (n : ScopeChain) : ACond × ACond :=
  (c.filter (isTermOf h n), c.filter (fun p => !isTermOf h n p))

end Pyv
