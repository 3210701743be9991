import Verif.Props.ExprProps
/-
  C58, specification: what an always block with nonblocking assignments assigns to a signal.
-/
namespace Pyv

/-- Some expression of a case item equals the value; all of them must be known. -/
def itemHit (ρ : Env) (res : Str → Option ScopeChain) (v : Int) (es : List Ex) : Option Bool := do
  let xs ← exValL ρ res es
  some (xs.any (fun x => x.1 = v))

/-- The first item of a case statement with an expression equal to the value (`default` items aside), counted from `i`. -/
def firstHit (ρ : Env) (res : Str → Option ScopeChain) (v : Int) : List (Option (List Ex)) → Nat → Option (Option Nat)
  | [], _ => some none
  | none :: cs, i => firstHit ρ res v cs (i + 1)
  | some es :: cs, i => do
    let b ← itemHit ρ res v es
    if b then some (some i) else firstHit ρ res v cs (i + 1)

/-- The position of the first `default` item. -/
def defaultItem : List (Option (List Ex)) → Nat → Option Nat
  | [], _ => none
  | none :: _, i => some i
  | some _ :: cs, i => defaultItem cs (i + 1)

/-- The item that is executed: the first that matches, else the default one, else none. -/
def chosen (ρ : Env) (res : Str → Option ScopeChain) (v : Int) (cs : List (Option (List Ex))) : Option (Option Nat) := do
  let m ← firstHit ρ res v cs 0
  match m with
  | some i => some (some i)
  | none => some (defaultItem cs 0)

mutual
/-- The value scheduled for the signal `x` after executing a statement, from the one scheduled before (`none`: nothing
scheduled); unknown (outer `none`) when a condition that is reached or the value assigned last is unknown, and for blocking
assignments, loops, casez and unique case statements, which are outside of this specification. -/
def nbRun (ρ : Env) (res : Str → Option ScopeChain) (x : ScopeChain) :
    Stmt → Option (Int × Int) → Option (Option (Int × Int))
  | .skip, o => some o
  | .nb (.ident [] n) r, o => if res n = some x then (exVal ρ res r).map some else some o
  | .nb _ _, o => some o
  | .ba _ _, _ => none
  | .ifs c t f, o => do
    let b ← exVal ρ res c
    if b.1 ≠ 0 then nbRun ρ res x t o else nbRun ρ res x f o
  | .cases k comp cs bs, o =>
    if k = .case_ ∨ k = .casex then do
      let v ← exVal ρ res comp
      let i ← chosen ρ res v.1 cs
      match i with
      | none => some o
      | some i => nbRunNth ρ res x bs i o
    else none
  | .block _ ss, o => nbRunList ρ res x ss o
  | .fors .., _ => none
  | .whiles .., _ => none
/-- The statements of a list in order. -/
def nbRunList (ρ : Env) (res : Str → Option ScopeChain) (x : ScopeChain) :
    List Stmt → Option (Int × Int) → Option (Option (Int × Int))
  | [], o => some o
  | s :: ss, o => do
    let o' ← nbRun ρ res x s o
    nbRunList ρ res x ss o'
/-- The statement at a position of a list. -/
def nbRunNth (ρ : Env) (res : Str → Option ScopeChain) (x : ScopeChain) :
    List Stmt → Nat → Option (Int × Int) → Option (Option (Int × Int))
  | [], _, _ => none
  | s :: _, 0, o => nbRun ρ res x s o
  | _ :: ss, i + 1, o => nbRunNth ρ res x ss i o
end

/-! ### The statements covered by the theorem -/

mutual
/-- No conditional operator in an expression. -/
def Ex.noCond : Ex → Bool
  | .cond .. => false
  | .uplus e => e.noCond
  | .un _ e => e.noCond
  | .bin _ a b => a.noCond && b.noCond
  | .psel v m l => v.noCond && m.noCond && l.noCond
  | .ptr v p => v.noCond && p.noCond
  | .concat es => Ex.noCondL es
  | .rep t v => t.noCond && v.noCond
  | .call _ es => Ex.noCondL es
  | .sys _ es => Ex.noCondL es
  | _ => true
/-- No conditional operator in a list of expressions. -/
def Ex.noCondL : List Ex → Bool
  | [] => true
  | e :: es => e.noCond && Ex.noCondL es
end

/-- The name on the left of a destination. -/
def baseName : Ex → Option Str
  | .ident [] n => some n
  | .ptr v _ => baseName v
  | .psel v _ _ => baseName v
  | _ => none

/-- Whether a destination is the whole signal `x`. -/
def isWhole (res : Str → Option ScopeChain) (x : ScopeChain) : Ex → Bool
  | .ident [] n => res n = some x
  | _ => false

/-- A destination that is the whole signal `x`, or does not touch `x`: another declared signal, whole or in part. -/
def destOK (res : Str → Option ScopeChain) (x : ScopeChain) (l : Ex) : Bool :=
  isWhole res x l ||
  match baseName l with
  | some n => match res n with | some y => y ≠ x | none => false
  | none => false

/-- What is known about the tree of `x` at a point of the block: nothing assigned there (`fresh`); assigned there
(`matched`); assigned around it, one condition (`pend`) or more (`deep`) away; assigned there by an assignment the frame
still knows (`valid`), or knows but which was overwritten under a condition since (`stale`). -/
inductive NbSt where
  | fresh | matched | pend | deep | valid | stale
  deriving DecidableEq, Repr

/-- Entering a condition.  With an overwritten record the visitor writes the old value under the condition. -/
def NbSt.enter : NbSt → Option NbSt
  | .fresh => some .fresh
  | .matched => some .pend
  | .pend => some .deep
  | .deep => some .deep
  | .valid => some .valid
  | .stale => none

/-- Entering a block: the record is left behind. -/
def NbSt.enterBlock : NbSt → NbSt
  | .valid | .stale => .matched
  | s => s

/-- Assigning: two or more conditions away from the last assignment, that assignment would be lost. -/
def NbSt.assign : NbSt → Option NbSt
  | .deep => none
  | _ => some .valid

/-- After a compound statement that assigns `x`. -/
def NbSt.after : NbSt → NbSt
  | .valid | .stale => .stale
  | _ => .matched

/-- Entering the other side of a condition when the first one assigns `x`. -/
def NbSt.other : NbSt → Option NbSt
  | .fresh => some .fresh
  | .valid => some .valid
  | .stale => none
  | _ => some .matched

mutual
/-- Whether `x` is assigned (by a nonblocking assignment to the whole signal) somewhere in a statement. -/
def Stmt.assigns (res : Str → Option ScopeChain) (x : ScopeChain) : Stmt → Bool
  | .nb l _ => isWhole res x l
  | .ifs _ t f => t.assigns res x || f.assigns res x
  | .cases _ _ _ bs => Stmt.assignsL res x bs
  | .block _ ss => Stmt.assignsL res x ss
  | _ => false
/-- Whether `x` is assigned somewhere in a list of statements. -/
def Stmt.assignsL (res : Str → Option ScopeChain) (x : ScopeChain) : List Stmt → Bool
  | [] => false
  | s :: ss => s.assigns res x || Stmt.assignsL res x ss
end

/-- `default` only as the last item. -/
def defaultLast : List (Option (List Ex)) → Bool
  | [] => true
  | [_] => true
  | none :: _ :: _ => false
  | some _ :: cs => defaultLast cs

/-- No conditional operator in the items. -/
def itemsNoCond : List (Option (List Ex)) → Bool
  | [] => true
  | none :: cs => itemsNoCond cs
  | some es :: cs => Ex.noCondL es && itemsNoCond cs

mutual
/-- The statements for which the tree of `x` is right: what is known after the statement, from what is known before;
`none` for the statements not covered. -/
def Stmt.chk (res : Str → Option ScopeChain) (x : ScopeChain) : Stmt → NbSt → Option NbSt
  | .skip, st => some st
  | .nb l _, st => if destOK res x l then (if isWhole res x l then st.assign else some st) else none
  | .ifs c t f, st =>
    if t.isSkip && f.isSkip then some st
    else if c.noCond then do
      let e ← st.enter
      let _ ← t.chk res x e
      let e2 ← (if t.assigns res x then st.other else st.enter)
      let _ ← f.chk res x e2
      some (if t.assigns res x || f.assigns res x then st.after else st)
    else none
  | .cases k comp cs bs, st =>
    if (k = .case_ ∨ k = .casex) ∧ comp.noCond ∧ itemsNoCond cs ∧ defaultLast cs ∧ cs.length = bs.length then
      if Stmt.chkCases res x bs st then some (if Stmt.assignsL res x bs then st.after else st) else none
    else none
  | .block _ ss, st => do
    let _ ← Stmt.chkList res x ss st.enterBlock
    some (if Stmt.assignsL res x ss then st.after else st)
  | _, _ => none
/-- The statements of a list. -/
def Stmt.chkList (res : Str → Option ScopeChain) (x : ScopeChain) : List Stmt → NbSt → Option NbSt
  | [], st => some st
  | s :: ss, st => do
    let st' ← s.chk res x st
    Stmt.chkList res x ss st'
/-- The bodies of a case statement. -/
def Stmt.chkCases (res : Str → Option ScopeChain) (x : ScopeChain) : List Stmt → NbSt → Bool
  | [], _ => true
  | b :: bs, st =>
    match st.enter with
    | none => false
    | some e =>
      (b.chk res x e).isSome &&
      match (if b.assigns res x then st.other else st.enter) with
      | none => false
      | some e2 => Stmt.chkCases res x bs e2
end

end Pyv
