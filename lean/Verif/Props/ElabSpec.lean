import Verif.Elab
import Verif.Props.BinderLookup
/-
  C75, specification: the equations a design stands for, one for each driven signal, with hierarchical names.
-/
namespace Pyv

/-- What drives a signal: an expression, a gate with its inputs, or an always block with its events. -/
inductive Driver where
  | expr (e : Ex)
  | gate (name : Str) (ins : List Ex)
  | block (ls : List Sens) (body : Stmt)

/-- The names of the gate primitives. -/
def gateNames : List Str := ["and", "nand", "or", "nor", "xor", "xnor", "not", "buf"].map String.toList

/-- The output of a gate (IEEE 1364, 7.2 and 7.3). -/
def gateFn (name : Str) (bs : List Bool) : Bool :=
  if name = "and".toList then bs.all id
  else if name = "nand".toList then !bs.all id
  else if name = "or".toList then bs.any id
  else if name = "nor".toList then !bs.any id
  else if name = "xor".toList then bs.count true % 2 = 1
  else if name = "xnor".toList then bs.count true % 2 = 0
  else if name = "not".toList then !bs.headD false
  else bs.headD false

/-- An equation: the driven signal with its full name, and its driver, whose names are those of the module `mod` at the
place `scope`. -/
structure Eqn where
  target : ScopeChain
  scope : ScopeChain
  mod : ModuleDef
  drv : Driver

/-- The full name of a signal. -/
def sigAt (scope : ScopeChain) (n : Str) : ScopeChain := scope ++ [⟨n, .signal, none⟩]

/-- The declared names of a module. -/
def ModuleDef.names (m : ModuleDef) : List Str := m.termTypes.map (·.1)

/-- The declaration a name of the driver refers to. -/
def Eqn.res (q : Eqn) (n : Str) : Option ScopeChain := if n ∈ q.mod.names then some (sigAt q.scope n) else none

/-- The module of a name. -/
def findMod (ms : List ModuleDef) (n : Str) : Option ModuleDef := ms.find? (fun m => m.name = n)

/-- The parameters of a module, in order. -/
def ModuleDef.paramNames (m : ModuleDef) : List Str :=
  m.params.flatten.map (·.name) ++
  (m.items.flatMap (fun i => match i with | .decl ds => ds | _ => [])).filterMap
    (fun d => match d with | .param false p => some p.name | _ => none)

/-- The name of a port. -/
def PortD.pname : PortD → Option Str
  | .port n => some n
  | .io f _ => some f.name
  | .none_ => none

/-- The ports of a module, in order. -/
def ModuleDef.portNames (m : ModuleDef) : List Str := m.ports.filterMap PortD.pname

/-- The directions declared for a port. -/
def ModuleDef.dirs (m : ModuleDef) (n : Str) : List TermType :=
  (m.termTypes.filter (fun d => d.1 = n ∧ (d.2 = .input ∨ d.2 = .output ∨ d.2 = .inout))).map (·.2)

/-- The formal of an argument: by name, or by position. -/
def formal (names : List Str) (p : PArg × Nat) : Option Str := p.1.name <|> names[p.2]?

mutual
/-- The names assigned in a statement. -/
def Stmt.regs : Stmt → List Str
  | .nb (.ident _ n) _ => [n]
  | .ifs _ t f => t.regs ++ f.regs
  | .cases _ _ _ bs => Stmt.regsL bs
  | .block _ ss => Stmt.regsL ss
  | _ => []
/-- The names assigned in a list of statements. -/
def Stmt.regsL : List Stmt → List Str
  | [] => []
  | s :: ss => s.regs ++ Stmt.regsL ss
end

/-- The equations of a declaration; a parameter whose value is given by the instance has none. -/
def declEqns (m : ModuleDef) (sc : ScopeChain) (over : List Str) : DItem → List Eqn
  | .param loc p => if ¬ loc ∧ p.name ∈ over then [] else [⟨sigAt sc p.name, sc, m, .expr p.value⟩]
  | .supply n one _ _ => [⟨sigAt sc n, sc, m, .expr (.intc [if one then '1' else '0'])⟩]
  | .assign (.ident [] n) r => [⟨sigAt sc n, sc, m, .expr r⟩]
  | _ => []

/-- The equations of the arguments for the parameters of an instance. -/
def paramEqns (m : ModuleDef) (sc sub : ScopeChain) (names : List Str) (p : PArg × Nat) : List Eqn :=
  match formal names p, p.1.arg with
  | some n, some e => [⟨sigAt sub n, sc, m, .expr e⟩]
  | _, _ => []

/-- The equations of a connection: an input is driven by the connected expression, an output drives the connected signal. -/
def portEqns (m c : ModuleDef) (sc sub : ScopeChain) (p : PArg × Nat) : List Eqn :=
  match formal c.portNames p, p.1.arg with
  | some n, some e =>
    match c.dirs n, e with
    | [.input], e => [⟨sigAt sub n, sc, m, .expr e⟩]
    | [.output], .ident [] y => [⟨sigAt sc y, sub, c, .expr (.ident [] n)⟩]
    | [.inout], .ident [] y => [⟨sigAt sub n, sc, m, .expr e⟩, ⟨sigAt sc y, sub, c, .expr (.ident [] n)⟩]
    | _, _ => []
  | _, _ => []

/-- The equation of a gate: the first terminal is the output. -/
def gateEqns (m : ModuleDef) (sc : ScopeChain) (name : Str) (i : Inst) : List Eqn :=
  match i.ports with
  | ⟨_, some (.ident [] y)⟩ :: ins => [⟨sigAt sc y, sc, m, .gate name (ins.filterMap PArg.arg)⟩]
  | _ => []

/-- The scope of an instance. -/
def instScope (sc : ScopeChain) (n : Str) : ScopeChain := sc ++ [⟨n, .module, none⟩]

/-- The equations of a module at a place of the hierarchy, with those of its instances; `over` are the parameters whose
values are given from outside.  The first argument bounds the depth of the hierarchy. -/
def flattenMod (ms : List ModuleDef) : Nat → ScopeChain → List Str → ModuleDef → List Eqn
  | 0, _, _, _ => []
  | k + 1, sc, over, m =>
    (m.params.flatten.map (DItem.param false)).flatMap (declEqns m sc over) ++
    m.items.flatMap (fun i => match i with
      | .decl ds => ds.flatMap (declEqns m sc over)
      | .assign (.ident [] n) r => [⟨sigAt sc n, sc, m, .expr r⟩]
      | .always _ ss b => (b.regs.dedup).map (fun n => ⟨sigAt sc n, sc, m, .block (ss.map SensItem.sens) b⟩)
      | .insts md ps is =>
        if md ∈ gateNames then is.flatMap (gateEqns m sc md)
        else match findMod ms md with
        | none => []
        | some c => is.flatMap (fun i =>
          ps.zipIdx.flatMap (paramEqns m sc (instScope sc i.name) c.paramNames) ++
          i.ports.zipIdx.flatMap (portEqns m c sc (instScope sc i.name)) ++
          flattenMod ms k (instScope sc i.name) (ps.zipIdx.filterMap (formal c.paramNames)) c)
      | _ => [])

/-- The equations of the design with the given top module. -/
def flatten (ms : List ModuleDef) (depth : Nat) (top : Str) : List Eqn :=
  match findMod ms top with
  | none => []
  | some m => flattenMod ms depth [⟨top, .module, none⟩] [] m

/-! ### The designs covered by the theorem -/

/-- The declaration of a name in a module at a place. -/
def ModuleDef.resAt (m : ModuleDef) (sc : ScopeChain) (n : Str) : Option ScopeChain := if n ∈ m.names then some (sigAt sc n) else none

mutual
/-- Nonblocking assignments to whole declared signals, under if, case, casex and begin-end. -/
def Stmt.whole (ns : List Str) : Stmt → Bool
  | .skip => true
  | .nb (.ident [] n) r => n ∈ ns && r.flat
  | .ifs c t f => c.flat && t.whole ns && f.whole ns
  | .cases k comp cs bs => (k = .case_ || k = .casex) && comp.flat && itemsFlat cs && Stmt.wholeL ns bs
  | .block _ ss => Stmt.wholeL ns ss
  | _ => false
/-- `Stmt.whole` of all. -/
def Stmt.wholeL (ns : List Str) : List Stmt → Bool
  | [] => true
  | s :: ss => s.whole ns && Stmt.wholeL ns ss
end

/-- Declarations: no arrays, no genvars, no hierarchical names, whole declared signals. -/
def DItem.covered (ns : List Str) : DItem → Bool
  | .var v => v.dims.isNone
  | .genvar _ => false
  | .param _ p => p.value.flat
  | .assign (.ident [] n) r => n ∈ ns && r.flat
  | .assign _ _ => false
  | _ => true

/-- Connections: outputs to whole declared signals; a port has one direction. -/
def portCovered (ns : List Str) (c : ModuleDef) (p : PArg × Nat) : Bool :=
  match formal c.portNames p, p.1.arg with
  | some n, some e =>
    e.flat && (match c.dirs n, e with
      | [.input], _ => true
      | [.output], .ident [] y => y ∈ ns
      | [.inout], .ident [] y => y ∈ ns
      | _, _ => false)
  | _, _ => true

/-- Gates: the output is a whole declared signal; `not` and `buf` have one output. -/
def gateCovered (ns : List Str) (name : Str) (i : Inst) : Bool :=
  i.array.isNone && (match i.ports with
    | ⟨_, some (.ident [] y)⟩ :: ins => y ∈ ns && ins.all (fun p => match p.arg with | some e => e.flat | none => false) &&
        (!(name = "not".toList || name = "buf".toList) || ins.length = 1)
    | _ => false)

/-- Items: no functions, tasks and generate constructs, no instance arrays, no always_ff, always_comb, always_latch; always blocks as in C58. -/
def MItem.covered (ms : List ModuleDef) (m : ModuleDef) : MItem → Bool
  | .decl ds => ds.all (DItem.covered m.names)
  | .assign (.ident [] n) r => n ∈ m.names && r.flat
  | .assign _ _ => false
  | .always k _ b => k = .always && b.whole m.names &&
      b.regs.all (fun n => (b.chk (m.resAt []) (sigAt [] n) .fresh).isSome)
  | .initial _ => true
  | .insts md ps is =>
      if md ∈ gateNames then is.all (gateCovered m.names md) else
      ps.all (fun p => match p.arg with | some e => e.flat | none => false) &&
      is.all (fun i => i.array.isNone && (match findMod ms md with
        | none => true
        | some c => i.ports.zipIdx.all (portCovered m.names c)))
  | _ => false

/-- Modules: the instances have different names. -/
def ModuleDef.covered (ms : List ModuleDef) (m : ModuleDef) : Bool :=
  m.nodes.all (DItem.covered m.names) && m.items.all (MItem.covered ms m) && decide ((m.insts.map (·.2.name)).Nodup)

/-! ### The statement -/

/-- The recorded assignments agree with an equation: one assignment to the whole signal, whose tree has the value of the
expression, or of the gate on the least significant bits of its inputs; for a block, the value it schedules last, with its clock and reset. -/
def Eqn.Holds (s : BV) (q : Eqn) : Prop :=
  match q.drv with
  | .expr e => ∃ b, s.getBindlist q.target = [b] ∧ b.whole ∧ b.always = none ∧
      ∀ ρ : Env, (∀ c, ρ.arr c = none) → ∀ v, exVal ρ q.res e = some v → sem ρ b.tree = some v
  | .gate name ins => ∃ b, s.getBindlist q.target = [b] ∧ b.whole ∧ b.always = none ∧
      ∀ ρ : Env, (∀ c, ρ.arr c = none) → ∀ vs, exValL ρ q.res ins = some vs →
        sem ρ b.tree = some (b2i (gateFn name (vs.map (fun v => ibit v.1 0))), 1)
  | .block ls body =>
      (s.getBindlist q.target = [] ∧ ∀ ρ : Env, (∀ c, ρ.arr c = none) → ∀ v, nbRun ρ q.res q.target body none = some v → v = none) ∨
      ∃ b, s.getBindlist q.target = [b] ∧ b.whole ∧
        (∃ es info, eventsOf ls = .ok es ∧ b.always = some info ∧ Describes (fun n => .ok (q.res n)) es info) ∧
        ∀ ρ : Env, (∀ c, ρ.arr c = none) → ∀ v, nbRun ρ q.res q.target body none = some v → sched ρ b.tree = some v

end Pyv
