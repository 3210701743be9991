import Verif.Props.NbTop
/-
  C74, specification: the values after an always block with blocking assignments.
-/
namespace Pyv

/-- The valuation after assigning a value (or an unknown one) to a signal. -/
def Env.set (η : Env) (x : ScopeChain) (v : Option (Int × Int)) : Env :=
  { η with sig := fun n => if n = x then v else η.sig n }

/-- The value a signal takes when `v` is assigned to it: `cut` fits a value to the declared bounds of the signal. -/
def fitTo (terms : Dict ScopeChain Term) (cut : DF → DF → Int × Int → Int × Int) (x : ScopeChain) (v : Int × Int) : Int × Int :=
  match terms.get? x with
  | some t => cut t.msb t.lsb v
  | none => v

mutual
/-- The valuation after executing a statement: assignments take effect in order.  Unknown (`none`) when a condition that is
reached is unknown, and for nonblocking assignments, loops, casez and unique case statements, assignments to parts, which
are outside of this specification.  `fit` is what a signal makes of a value assigned to it. -/
def baRun (fit : ScopeChain → Int × Int → Int × Int) (res : Str → Option ScopeChain) : Stmt → Env → Option Env
  | .skip, η => some η
  | .nb _ _, _ => none
  | .ba (.ident [] n) r, η => do
    let x ← res n
    some (η.set x ((exVal η res r).map (fit x)))
  | .ba _ _, _ => none
  | .ifs c t f, η => do
    let b ← exVal η res c
    if b.1 ≠ 0 then baRun fit res t η else baRun fit res f η
  | .cases k comp cs bs, η =>
    if k = .case_ ∨ k = .casex then do
      let v ← exVal η res comp
      let i ← chosen η res v.1 cs
      match i with
      | none => some η
      | some i => baRunNth fit res bs i η
    else none
  | .block _ ss, η => baRunList fit res ss η
  | .fors .., _ => none
  | .whiles .., _ => none
/-- The statements of a list in order. -/
def baRunList (fit : ScopeChain → Int × Int → Int × Int) (res : Str → Option ScopeChain) : List Stmt → Env → Option Env
  | [], η => some η
  | s :: ss, η => do
    let η' ← baRun fit res s η
    baRunList fit res ss η'
/-- The statement at a position of a list. -/
def baRunNth (fit : ScopeChain → Int × Int → Int × Int) (res : Str → Option ScopeChain) : List Stmt → Nat → Env → Option Env
  | [], _, _ => none
  | s :: _, 0, η => baRun fit res s η
  | _ :: ss, i + 1, η => baRunNth fit res ss i η
end

/-- The value of a signal after a block whose tree for the signal is `t`: what the tree assigns, or the value from before
where it assigns nothing. -/
def valOf (τ : Env) (x : ScopeChain) (t : DF) : Option (Int × Int) := do
  let o ← sched τ t
  match o with
  | some v => some v
  | none => τ.sig x

/-- In the valuation every signal that is in the tables of `s'` and not in those of `s` (an intermediate value of a blocking
assignment) has the value of its tree, fitted to its bounds. -/
def BV.Intermediate (s s' : BV) (cut : DF → DF → Int × Int → Int × Int) (τ : Env) : Prop :=
  ∀ n, s.terms.has n = false → ∀ b ∈ s'.getBindlist n, ∀ v, sem τ b.tree = some v → τ.sig n = some (fitTo s'.terms cut n v)

/-! ### The statements covered by the theorem -/

mutual
/-- All names of an expression satisfy `P`. -/
def Ex.allNames (P : Str → Bool) : Ex → Bool
  | .ident _ n => P n
  | .intc _ => true
  | .fltc _ => true
  | .strc _ => true
  | .cond c t f => c.allNames P && t.allNames P && f.allNames P
  | .uplus e => e.allNames P
  | .un _ e => e.allNames P
  | .bin _ a b => a.allNames P && b.allNames P
  | .psel v m l => v.allNames P && m.allNames P && l.allNames P
  | .ptr v p => v.allNames P && p.allNames P
  | .concat es => Ex.allNamesL P es
  | .rep t v => t.allNames P && v.allNames P
  | .call _ es => Ex.allNamesL P es
  | .sys _ es => Ex.allNamesL P es
/-- All names of a list of expressions satisfy `P`. -/
def Ex.allNamesL (P : Str → Bool) : List Ex → Bool
  | [] => true
  | e :: es => e.allNames P && Ex.allNamesL P es
end

/-- All names of the items of a case statement satisfy `P`. -/
def itemsNames (P : Str → Bool) : List (Option (List Ex)) → Bool
  | [] => true
  | none :: cs => itemsNames P cs
  | some es :: cs => Ex.allNamesL P es && itemsNames P cs

mutual
/-- The names assigned as a whole by blocking assignments. -/
def Stmt.baNames : Stmt → List Str
  | .ba (.ident [] n) _ => [n]
  | .ifs _ t f => t.baNames ++ f.baNames
  | .cases _ _ _ bs => Stmt.baNamesL bs
  | .block _ ss => Stmt.baNamesL ss
  | _ => []
/-- The names assigned in a list of statements. -/
def Stmt.baNamesL : List Stmt → List Str
  | [] => []
  | s :: ss => s.baNames ++ Stmt.baNamesL ss
end

/-- A declared signal that is no array. -/
def isScalar (terms : Dict ScopeChain Term) (mod : ScopeChain) (n : Str) : Bool :=
  match terms.get? (mod ++ [⟨n, .signal, none⟩]) with
  | some t => t.dims.isNone
  | none => false

mutual
/-- Blocking assignments to whole scalars under if, case, casex and begin-end only; no hierarchical names and no computed
replication counts; the names of conditions satisfy `Q`, those assigned `D`; conditions contain no conditional operator;
`default` items come last. -/
def Stmt.baPlain (Q D : Str → Bool) : Stmt → Bool
  | .skip => true
  | .ba (.ident [] n) r => D n && r.flat
  | .ifs c t f => c.flat && c.noCond && c.allNames Q && t.baPlain Q D && f.baPlain Q D
  | .cases k comp cs bs =>
    (k = .case_ || k = .casex) && comp.flat && comp.noCond && comp.allNames Q && itemsFlat cs && itemsNoCond cs && itemsNames Q cs &&
      defaultLast cs && cs.length = bs.length && Stmt.baPlainL Q D bs
  | .block _ ss => Stmt.baPlainL Q D ss
  | _ => false
/-- `Stmt.baPlain` of all. -/
def Stmt.baPlainL (Q D : Str → Bool) : List Stmt → Bool
  | [] => true
  | s :: ss => s.baPlain Q D && Stmt.baPlainL Q D ss
end

mutual
/-- Whether `x` is assigned somewhere in a statement. -/
def Stmt.baAssigns (res : Str → Option ScopeChain) (x : ScopeChain) : Stmt → Bool
  | .ba l _ => isWhole res x l
  | .ifs _ t f => t.baAssigns res x || f.baAssigns res x
  | .cases _ _ _ bs => Stmt.baAssignsL res x bs
  | .block _ ss => Stmt.baAssignsL res x ss
  | _ => false
/-- Whether `x` is assigned somewhere in a list of statements. -/
def Stmt.baAssignsL (res : Str → Option ScopeChain) (x : ScopeChain) : List Stmt → Bool
  | [] => false
  | s :: ss => s.baAssigns res x || Stmt.baAssignsL res x ss
end

mutual
/-- The orders of assignments to `x` for which its tree is right, as `Stmt.chk` for nonblocking ones: assigned two or more
conditions away from the last assignment, that assignment would be lost. -/
def Stmt.baChk (res : Str → Option ScopeChain) (x : ScopeChain) : Stmt → NbSt → Option NbSt
  | .ba l _, st => if isWhole res x l then (if st = .deep then none else some .matched) else some st
  | .ifs _ t f, st => do
    let e ← st.enter
    let _ ← t.baChk res x e
    let e2 ← (if t.baAssigns res x then st.other else st.enter)
    let _ ← f.baChk res x e2
    some (if t.baAssigns res x || f.baAssigns res x then st.after else st)
  | .cases _ _ _ bs, st =>
    if Stmt.baChkCases res x bs st then some (if Stmt.baAssignsL res x bs then st.after else st) else none
  | .block _ ss, st => do
    let _ ← Stmt.baChkList res x ss st
    some (if Stmt.baAssignsL res x ss then st.after else st)
  | _, st => some st
/-- The statements of a list. -/
def Stmt.baChkList (res : Str → Option ScopeChain) (x : ScopeChain) : List Stmt → NbSt → Option NbSt
  | [], st => some st
  | s :: ss, st => do
    let st' ← s.baChk res x st
    Stmt.baChkList res x ss st'
/-- The bodies of a case statement. -/
def Stmt.baChkCases (res : Str → Option ScopeChain) (x : ScopeChain) : List Stmt → NbSt → Bool
  | [], _ => true
  | b :: bs, st =>
    match st.enter with
    | none => false
    | some e =>
      (b.baChk res x e).isSome &&
      match (if b.baAssigns res x then st.other else st.enter) with
      | none => false
      | some e2 => Stmt.baChkCases res x bs e2
end

end Pyv
