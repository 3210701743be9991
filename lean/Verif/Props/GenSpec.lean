import Verif.SignalVisitor
import Verif.Props.ElabSpec
import Verif.Props.OperatorProps
/-
  Specification for C85: which scopes a design opens.  The elaboration of instances and generate constructs as the language
  defines it: constants have integer values, a conditional generate opens the selected alternative, a generate loop opens one
  scope for each value of the loop variable, an instance opens a scope in which the parameters have the given values.
-/
namespace Pyv

/-- The constants that are visible in a place, the innermost scope first, the module last. -/
abbrev GEnv := List (Dict Str Int)

/-- The value of a name: that of the innermost scope that defines it. -/
def GEnv.get : GEnv → Str → Option Int
  | [], _ => none
  | d :: σ, n =>
    match d.get? n with
    | some v => some v
    | none => GEnv.get σ n

/-- Give a new value to a name, in the innermost scope that defines it. -/
def GEnv.put : GEnv → Str → Int → Option GEnv
  | [], _, _ => none
  | d :: σ, n, v =>
    match d.get? n with
    | some _ => some (d.set n v :: σ)
    | none => (GEnv.put σ n v).map (d :: ·)

/-- The value of a constant expression: names, literals without x and z, operators whose value does not depend on a width
(and for which the evaluation is exact, C06). -/
inductive ConstVal (σ : GEnv) : Ex → Int → Prop
  | name {n v} : σ.get n = some v → ConstVal σ (.ident [] n) v
  | lit {s v} : hasXZ s = false → intConstEval s = .ok v → ConstVal σ (.intc s) v
  | un {o e x v} : ConstVal σ e x → FoldOK o [x] → (∀ w, opSem o [x] w = some v) → ConstVal σ (.un o e) v
  | bin {o a b x y v} : ConstVal σ a x → ConstVal σ b y → FoldOK o [x, y] → (∀ w, opSem o [x, y] w = some v) →
      ConstVal σ (.bin o a b) v

/-- The name a declaration gives to a constant. -/
def DItem.constName : DItem → Option Str
  | .genvar n => some n
  | .param _ p => some p.name
  | _ => none

/-- The name a declaration gives to a constant or a signal. -/
def DItem.declName : DItem → Option Str
  | .var v => some v.name
  | .int n _ => some n
  | .supply n _ _ _ => some n
  | .genvar n => some n
  | .param _ p => some p.name
  | _ => none

/-- Declarations in order: a loop variable starts with 0, a parameter or local parameter has the value of its expression;
a constant that has a value already keeps it. -/
inductive DeclVals : GEnv → List DItem → GEnv → Prop
  | nil {σ} : DeclVals σ [] σ
  | other {σ x ds σ'} : x.constName = none → DeclVals σ ds σ' → DeclVals σ (x :: ds) σ'
  | old {d σ x n v ds σ'} : x.constName = some n → d.get? n = some v → DeclVals (d :: σ) ds σ' → DeclVals (d :: σ) (x :: ds) σ'
  | genvar {d σ n ds σ'} : d.get? n = none → DeclVals (d.set n 0 :: σ) ds σ' → DeclVals (d :: σ) (.genvar n :: ds) σ'
  | param {d σ loc} {p : Param} {v ds σ'} : d.get? p.name = none → ConstVal (d :: σ) p.value v →
      DeclVals (d.set p.name v :: σ) ds σ' → DeclVals (d :: σ) (.param loc p :: ds) σ'

/-- The arguments for parameters, by name or by position, evaluated where the instance stands. -/
inductive Overrides (σ : GEnv) (names : List Str) : Nat → List PArg → Dict Str Int → Dict Str Int → Prop
  | nil {k d} : Overrides σ names k [] d d
  | named {k a n e v as d d'} : a.name = some n → n ∈ names → a.arg = some e → ConstVal σ e v →
      Overrides σ names (k + 1) as (d.set n v) d' → Overrides σ names k (a :: as) d d'
  | placed {k a n e v as d d'} : a.name = none → names[k]? = some n → a.arg = some e → ConstVal σ e v →
      Overrides σ names (k + 1) as (d.set n v) d' → Overrides σ names k (a :: as) d d'

/-- The parameters of a module: those that can be given to an instance. -/
def ModuleDef.parameters (m : ModuleDef) : List Param :=
  m.params.flatten ++
  (m.items.flatMap (fun i => match i with | .decl ds => ds | _ => [])).filterMap
    (fun d => match d with | .param false p => some p | _ => none)

/-- Parameters without an argument have the value of their expression, which uses the parameters before them. -/
inductive Defaults : Dict Str Int → List Param → Dict Str Int → Prop
  | nil {d} : Defaults d [] d
  | given {d v d'} {p : Param} {ps} : d.get? p.name = some v → Defaults d ps d' → Defaults d (p :: ps) d'
  | default {d v d'} {p : Param} {ps} : d.get? p.name = none → ConstVal [d] p.value v → Defaults (d.set p.name v) ps d' →
      Defaults d (p :: ps) d'

/-- The names of the instances of a list; an array has one for each index. -/
inductive InstNames (σ : GEnv) : List Inst → List Str → Prop
  | nil : InstNames σ [] []
  | one {i is ns} : i.array = none → InstNames σ is ns → InstNames σ (i :: is) (i.name :: ns)
  | array {i : Inst} {is ns me le hi lo} : i.array = some (me, le) → ConstVal σ me hi → ConstVal σ le lo → InstNames σ is ns →
      InstNames σ (i :: is) ((List.range (hi + 1 - lo).toNat).map (fun (k : Nat) => i.name ++ ['_'] ++ intStr (lo + k)) ++ ns)

/-- What opens a scope: a generate region, an alternative of a conditional generate, a turn of a generate loop, a block with
or without a name, an instance. -/
inductive Place where
  | gen | arm (first : Bool) | turn (v : Int) | block (n : Option Str) | inst (n : Str)

/-- A scope: the way to it, its declarations, the final values of its constants. -/
structure GScope where
  path : List Place
  decls : List DItem
  vals : Dict Str Int

/-- The scope seen from further out. -/
def GScope.under (p : Place) (x : GScope) : GScope := { x with path := p :: x.path }

/-- A new scope and what it contains. -/
def scopeTree (p : Place) (ds : List DItem) (d : Dict Str Int) (inner : List GScope) : List GScope :=
  ⟨[p], ds, d⟩ :: inner.map (GScope.under p)

/-- The declarations in the head of a module. -/
def ModuleDef.head (m : ModuleDef) : List DItem :=
  m.params.flatten.map (DItem.param false) ++
  m.ports.flatMap (fun p => match p with | .io f x => DItem.var f :: (x.map DItem.var).toList | _ => [])

/-- The body of a module with the declarations of its head. -/
def ModuleDef.all (m : ModuleDef) : List MItem := .decl m.head :: m.items

mutual
/-- No loop in a statement. -/
def Stmt.loopless : Stmt → Bool
  | .fors _ _ _ _ _ _ => false
  | .ifs _ t f => t.loopless && f.loopless
  | .cases _ _ _ bs => Stmt.looplessList bs
  | .block _ ss => Stmt.looplessList ss
  | _ => true
def Stmt.looplessList : List Stmt → Bool
  | [] => true
  | s :: ss => s.loopless && Stmt.looplessList ss
end

/-- A part of an elaboration: items, a loop at value `a` of its variable, instances of a module with these names. -/
inductive GWork where
  | items (is : List MItem)
  | loop (i : Str) (a : Int) (c next : Ex) (b : MItem)
  | copies (m : Str) (ps : List PArg) (ns : List Str)

/-- `Opens ms ok g σ w σ' ds sc`: with the constants `σ`, the elaboration of `w` declares `ds` in the scope it stands in, opens
the scopes `sc` (in this order, an outer scope before the inner ones) and leaves the constants `σ'`.  `g`: inside a generate
region.  `ok` restricts the values of conditions.  `ms` are the modules of the design.

Always and initial blocks and assignments open no scopes here; bodies of always blocks have no loops.  No functions, no
tasks, no `always_ff`, `always_comb`, `always_latch`. -/
inductive Opens (ms : List ModuleDef) (ok : Int → Prop) : Bool → GEnv → GWork → GEnv → List DItem → List GScope → Prop
  | nil {g σ} : Opens ms ok g σ (.items []) σ [] []
  | decl {g σ ds is σ1 σ2 ds2 sc} : DeclVals σ ds σ1 → Opens ms ok g σ1 (.items is) σ2 ds2 sc →
      Opens ms ok g σ (.items (.decl ds :: is)) σ2 (ds ++ ds2) sc
  | assign {g σ l r is σ2 ds2 sc} : Opens ms ok g σ (.items is) σ2 ds2 sc → Opens ms ok g σ (.items (.assign l r :: is)) σ2 ds2 sc
  | initial {g σ b is σ2 ds2 sc} : Opens ms ok g σ (.items is) σ2 ds2 sc → Opens ms ok g σ (.items (.initial b :: is)) σ2 ds2 sc
  | always {g σ se b is σ2 ds2 sc} : b.loopless = true → Opens ms ok g σ (.items is) σ2 ds2 sc →
      Opens ms ok g σ (.items (.always .always se b :: is)) σ2 ds2 sc
  | insts {g σ m ps l ns sc is σ2 ds2 sc2} : InstNames σ l ns → Opens ms ok g σ (.copies m ps ns) σ [] sc →
      Opens ms ok g σ (.items is) σ2 ds2 sc2 → Opens ms ok g σ (.items (.insts m ps l :: is)) σ2 ds2 (sc ++ sc2)
  | gen {g σ is' d σ1 ds sc is σ2 ds2 sc2} : Opens ms ok true ([] :: σ) (.items is') (d :: σ1) ds sc →
      Opens ms ok g σ1 (.items is) σ2 ds2 sc2 → Opens ms ok g σ (.items (.gen is' :: is)) σ2 ds2 (scopeTree .gen ds d sc ++ sc2)
  | gifTrue {σ c v t d σ1 ds sc is σ2 ds2 sc2} : ConstVal σ c v → v ≠ 0 → ok v →
      Opens ms ok true ([] :: σ) (.items [t]) (d :: σ1) ds sc → Opens ms ok true σ1 (.items is) σ2 ds2 sc2 →
      Opens ms ok true σ (.items (.gif c t :: is)) σ2 ds2 (scopeTree (.arm true) ds d sc ++ sc2)
  | gifFalse {σ c t is σ2 ds2 sc2} : ConstVal σ c 0 → Opens ms ok true σ (.items is) σ2 ds2 sc2 →
      Opens ms ok true σ (.items (.gif c t :: is)) σ2 ds2 sc2
  | gifeTrue {σ c v t f d σ1 ds sc is σ2 ds2 sc2} : ConstVal σ c v → v ≠ 0 → ok v →
      Opens ms ok true ([] :: σ) (.items [t]) (d :: σ1) ds sc → Opens ms ok true σ1 (.items is) σ2 ds2 sc2 →
      Opens ms ok true σ (.items (.gife c t f :: is)) σ2 ds2 (scopeTree (.arm true) ds d sc ++ sc2)
  | gifeFalse {σ c t f d σ1 ds sc is σ2 ds2 sc2} : ConstVal σ c 0 →
      Opens ms ok true ([] :: σ) (.items [f]) (d :: σ1) ds sc → Opens ms ok true σ1 (.items is) σ2 ds2 sc2 →
      Opens ms ok true σ (.items (.gife c t f :: is)) σ2 ds2 (scopeTree (.arm false) ds d sc ++ sc2)
  | gblock {g σ n is' d σ1 ds sc is σ2 ds2 sc2} : Opens ms ok g ([] :: σ) (.items is') (d :: σ1) ds sc →
      Opens ms ok g σ1 (.items is) σ2 ds2 sc2 →
      Opens ms ok g σ (.items (.gblock n is' :: is)) σ2 ds2 (scopeTree (.block n) ds d sc ++ sc2)
  | gfor {g σ i pr a σ1 c next b σ2 sc is σ3 ds3 sc3} : ConstVal σ pr a → GEnv.put σ i a = some σ1 →
      Opens ms ok g σ1 (.loop i a c next b) σ2 [] sc → Opens ms ok g σ2 (.items is) σ3 ds3 sc3 →
      Opens ms ok g σ (.items (.gfor (.ident [] i) pr c (.ident [] i) next b :: is)) σ3 ds3 (sc ++ sc3)
  | stop {g σ i a c next b} : ConstVal σ c 0 → Opens ms ok g σ (.loop i a c next b) σ [] []
  | turn {g σ i a c next b v d σ1 ds sc a' σ2 σ3 sc3} : ConstVal σ c v → v ≠ 0 → ok v →
      Opens ms ok g ([] :: σ) (.items [b]) (d :: σ1) ds sc → ConstVal σ1 next a' → GEnv.put σ1 i a' = some σ2 →
      Opens ms ok g σ2 (.loop i a' c next b) σ3 [] sc3 →
      Opens ms ok g σ (.loop i a c next b) σ3 [] (scopeTree (.turn a) ds d sc ++ sc3)
  | gate {g σ m ps ns} : (primitiveOf m).isSome = true → Opens ms ok g σ (.copies m ps ns) σ [] []
  | done {g σ m ps} : Opens ms ok g σ (.copies m ps []) σ [] []
  | inst {g σ m ps n ns M ov d0 d ds sc sc2} : primitiveOf m = none → findMod ms m = some M → M.paramNames.Nodup →
      Overrides σ M.paramNames 0 ps [] ov → Defaults ov M.parameters d0 → Opens ms ok false [d0] (.items M.all) [d] ds sc →
      Opens ms ok g σ (.copies m ps ns) σ [] sc2 → Opens ms ok g σ (.copies m ps (n :: ns)) σ [] (scopeTree (.inst n) ds d sc ++ sc2)

/-- A label of a scope stands for a place. -/
inductive LabelFor : ScopeLabel → Place → Prop
  | gen {n} : LabelFor ⟨n, .generate, none⟩ .gen
  | first {n} : LabelFor ⟨n, .if_, none⟩ (.arm true)
  | second {n} : LabelFor ⟨n ++ "_ELSE".toList, .if_, none⟩ (.arm false)
  | turn {n v} : LabelFor ⟨n, .for_, some v⟩ (.turn v)
  | named {n} : LabelFor ⟨n, .block, none⟩ (.block (some n))
  | unnamed {n} : LabelFor ⟨n, .block, none⟩ (.block none)
  | inst {n} : LabelFor ⟨n, .module, none⟩ (.inst n)

/-- An entry of the frame table shows a scope: its name follows the path, it has the declared constants and names and no
others, and the constant table (`values`) has the values. -/
structure ShowsScope (values : Dict ScopeChain DF) (base : ScopeChain) (e : ScopeChain × SFrame) (x : GScope) : Prop where
  name : ∃ ls, e.1 = base ++ ls ∧ List.Forall₂ LabelFor ls x.path
  consts : ∀ n, e.2.vars.const.has n = true ↔ ∃ d ∈ x.decls, d.constName = some n
  names : ∀ n, (e.2.vars.const.has n || e.2.vars.signal.has n) = true ↔ ∃ d ∈ x.decls, d.declName = some n
  vals : ∀ n v, x.vals.get? n = some v → ∃ w, values.get? (e.1 ++ [⟨n, .signal, none⟩]) = some (.evi v (some w))

end Pyv
