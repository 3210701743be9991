import Verif.Calls
import Verif.Props.BaConv
import Verif.Props.ElabInv
/-
  C91, specification: the value of an expression with function calls.
-/
namespace Pyv

/-- The values of names. -/
abbrev Vals := Str → Option (Int × Int)

/-- The value of an integer constant. -/
def constVal (s : Str) : Option (Int × Int) := sem ⟨fun _ => none, fun _ => none, 0⟩ (.intc s)

mutual
/-- The value and width of an expression, given the values of the names and of the function calls.  Unknown (`none`) for hierarchical
names, floats, strings and constants with x or z digits; there are no arrays. -/
def fxVal (look : Vals) (call : Str → List (Int × Int) → Option (Int × Int)) : Ex → Option (Int × Int)
  | .ident [] n => look n
  | .ident (_ :: _) _ => none
  | .intc s => constVal s
  | .fltc _ => none
  | .strc _ => none
  | .uplus e => fxVal look call e
  | .un o e => do
    let x ← fxVal look call e
    let v ← opSem o [x.1] (maxWidth [x.2]).toNat
    some (v, opWidth o [x.2])
  | .bin o a b => do
    let x ← fxVal look call a
    let y ← fxVal look call b
    let v ← opSem o [x.1, y.1] (maxWidth [x.2, y.2]).toNat
    some (v, opWidth o [x.2, y.2])
  | .cond c t f => do
    let b ← fxVal look call c
    if b.1 ≠ 0 then fxVal look call t else fxVal look call f
  | .psel v m l => do
    let x ← fxVal look call v
    let a ← fxVal look call m
    let b ← fxVal look call l
    pselVal x.1 a.1 b.1
  | .ptr v p => do
    let i ← fxVal look call p
    let x ← fxVal look call v
    bitVal x.1 i.1
  | .concat es => do
    let xs ← fxValL look call es
    concatVal xs
  | .rep t v => do
    let n ← fxVal look call t
    let x ← fxVal look call v
    concatVal (List.replicate n.1.toNat x)
  | .call f es => do
    let xs ← fxValL look call es
    call f xs
  | .sys f es =>
    if f = "unsigned".toList ∨ f = "signed".toList then
      match es with
      | [] => none
      | e :: _ => fxVal look call e
    else none
/-- The values of a list of expressions. -/
def fxValL (look : Vals) (call : Str → List (Int × Int) → Option (Int × Int)) : List Ex → Option (List (Int × Int))
  | [] => some []
  | e :: es => do
    let x ← fxVal look call e
    let xs ← fxValL look call es
    some (x :: xs)
end

/-- The value of an expression without calls. -/
def plainVal (look : Vals) (e : Ex) : Option (Int × Int) := fxVal look (fun _ _ => none) e

/-- A value as the variable with the bounds `m` and `l` holds it. -/
def fitR (m l : Int) (v : Int × Int) : Int × Int := (v.1 % 2 ^ (m - l + 1).toNat, m - l + 1)

/-- The bounds of a declared range; a variable without range has one bit. -/
def rangeVal (look : Vals) : Option WRange → Option (Int × Int)
  | none => some (0, 0)
  | some r => do
    let m ← plainVal look r.1
    let l ← plainVal look r.2
    some (m.1, l.1)

/-- The variables of a function with their ranges: its result, its inputs and its local variables. -/
def Func.vars (f : Func) : List (Str × Option WRange) :=
  (f.name, some f.ret) :: f.items.filterMap (fun d => match d with
    | .var v => some (v.name, v.width)
    | .int n _ => some (n, some (.intc "31".toList, .intc ['0']))
    | _ => none)

/-- The names of the variables. -/
def Func.names (f : Func) : List Str := f.vars.map (·.1)

/-- What the variable `x` of a function holds after `v` was assigned to it; `look` gives the values of the names around the function. -/
def Func.hold (f : Func) (look : Vals) (x : Str) (v : Int × Int) : Option (Int × Int) := do
  let w ← f.vars.lookup x
  let r ← rangeVal look w
  some (fitR r.1 r.2 v)

/-- The names as the body of a function sees them: its own variables, and the names around. -/
def Func.see (f : Func) (look η : Vals) : Vals := fun n => if n ∈ f.names then η n else look n

mutual
/-- The assignments of a statement without conditions and loops, in order. -/
def Stmt.steps : Stmt → Option (List (Str × Ex))
  | .skip => some []
  | .ba (.ident [] n) r => some [(n, r)]
  | .block _ ss => Stmt.stepsL ss
  | _ => none
/-- The assignments of a list of statements. -/
def Stmt.stepsL : List Stmt → Option (List (Str × Ex))
  | [] => some []
  | s :: ss => do
    let a ← s.steps
    let b ← Stmt.stepsL ss
    some (a ++ b)
end

/-- The values of the variables after the assignments. -/
def Func.run (f : Func) (look : Vals) : List (Str × Ex) → Vals → Vals
  | [], η => η
  | (x, e) :: as, η => f.run look as (fun n => if n = x then (plainVal (f.see look η) e).bind (f.hold look x) else η n)

/-- The names of the inputs, in the order of their declarations. -/
def Func.inputs (f : Func) : List Str := f.items.flatMap (fun d => match d with
  | .var v => if v.kind = .input then [v.name] else []
  | _ => [])

/-- The values of the variables at the beginning: the inputs hold the arguments. -/
def Func.start (f : Func) (look : Vals) (args : List (Int × Int)) : Vals := fun n =>
  ((f.inputs.zip args).lookup n).bind (f.hold look n)

/-- The value of a call. -/
def Func.value (f : Func) (look : Vals) (args : List (Int × Int)) : Option (Int × Int) := do
  let as ← f.body.steps
  f.run look as (f.start look args) f.name

/-- The value of a call in the module `mod`. -/
def FuncTable.callVal (FT : FuncTable) (mod : ScopeChain) (look : Vals) (n : Str) (args : List (Int × Int)) : Option (Int × Int) := do
  let f ← FT.get? (mod ++ [⟨n, .function, none⟩])
  f.value look args

/-- The values of the names of a module in a valuation. -/
def BV.valsAt (s : BV) (mod : ScopeChain) (τ : Env) : Vals := fun n => (resOf s.terms mod n).bind τ.sig

/-- The valuation satisfies the equations in the tables of `s'` for the signals that are not in those of `s`: such a signal holds
the value of its tree, if that belongs to the whole signal. -/
def BV.Solves (s s' : BV) (τ : Env) : Prop :=
  ∀ n t, s.terms.has n = false → s'.terms.get? n = some t → ∀ b ∈ s'.getBindlist n, b.whole → ∀ m l v,
    sem τ t.msb = some m → sem τ t.lsb = some l → sem τ b.tree = some v → τ.sig n = some (fitR m.1 l.1 v)

/-! ### The functions covered by the theorem -/

mutual
/-- No calls. -/
def Ex.callFree : Ex → Bool
  | .uplus e => e.callFree
  | .un _ e => e.callFree
  | .bin _ a b => a.callFree && b.callFree
  | .cond c t f => c.callFree && t.callFree && f.callFree
  | .psel v m l => v.callFree && m.callFree && l.callFree
  | .ptr v p => v.callFree && p.callFree
  | .concat es => Ex.callFreeL es
  | .rep t v => t.callFree && v.callFree
  | .call _ _ => false
  | .sys _ es => Ex.callFreeL es
  | _ => true
/-- No calls in any. -/
def Ex.callFreeL : List Ex → Bool
  | [] => true
  | e :: es => e.callFree && Ex.callFreeL es
end

/-- A name that the analysis does not make itself. -/
def userName (n : Str) : Bool := !("_rn".toList).isPrefixOf n

/-- The assigned variables are variables of the function and no inputs; a variable is read only after its last assignment; the names
around the function are no names made by the analysis. -/
def Func.stepsOK (f : Func) : List (Str × Ex) → Bool
  | [] => true
  | (x, e) :: as => decide (x ∈ f.names) && decide (x ∉ f.inputs) && e.flat &&
      e.allNames (fun n => if n ∈ f.names then decide (n ≠ x ∧ n ∉ as.map (·.1)) else userName n) && f.stepsOK as

/-- The ranges of the variables do not mention variables of the function, nor names made by the analysis. -/
def Func.rangeOK (f : Func) : Option WRange → Bool
  | none => true
  | some r => r.1.flat && r.2.flat && r.1.allNames (fun n => decide (n ∉ f.names) && userName n) &&
      r.2.allNames (fun n => decide (n ∉ f.names) && userName n)

/-- A function with scalar variables declared once each, whose body is a sequence of assignments to whole variables. -/
def Func.covered (f : Func) : Bool :=
  f.items.all (fun d => match d with | .var v => v.dims.isNone | .int _ _ => true | _ => false) &&
  decide f.names.Nodup && f.vars.all (fun v => f.rangeOK v.2) &&
  (match f.body.steps with | some as => f.stepsOK as | none => false)

/-! ### Modules -/

/-- The full name of a signal of the module. -/
def FModule.sig (m : FModule) (n : Str) : ScopeChain := [⟨m.name, .module, none⟩, ⟨n, .signal, none⟩]

/-- The values of the signals of the module. -/
def FModule.look (m : FModule) (τ : Env) : Vals := fun n => if n ∈ m.vars.map (·.name) then τ.sig (m.sig n) else none

/-- The values of the calls of its functions. -/
def FModule.callVal (m : FModule) (look : Vals) (n : Str) (args : List (Int × Int)) : Option (Int × Int) := do
  let f ← m.funcs.find? (fun f => f.name = n)
  f.value look args

/-- The valuation satisfies the equations that the analysis has recorded for the signals it has added: such a signal, if it has a tree as
a whole, holds the value of the tree. -/
def FModule.Solves (m : FModule) (s : BV) (τ : Env) : Prop :=
  ∀ n t, (∀ v ∈ m.vars, n ≠ m.sig v.name) → s.terms.get? n = some t → ∀ b ∈ s.getBindlist n, b.whole → ∀ hi lo v,
    sem τ t.msb = some hi → sem τ t.lsb = some lo → sem τ b.tree = some v → τ.sig n = some (fitR hi.1 lo.1 v)

/-- The target of an assignment to a whole signal. -/
def targetOf : Ex → Option Str
  | .ident [] y => some y
  | _ => none

/-- A module of scalar signals whose assignments are to different whole signals of the module and whose functions are covered. -/
def FModule.covered (m : FModule) : Bool :=
  m.vars.all (fun v => v.dims.isNone) && m.funcs.all Func.covered &&
  m.assigns.all (fun a => a.2.flat && (match targetOf a.1 with | some y => decide (y ∈ m.vars.map (·.name)) | none => false)) &&
  decide (m.assigns.filterMap (fun a => targetOf a.1)).Nodup

end Pyv
