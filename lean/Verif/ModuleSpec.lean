import Verif.Module
import Verif.StmtSpec
/-
  Specification for the code generator: which modules are expected to survive a print and a parse, and how they come back.
-/
namespace Pyv

/-- A name that can be printed. -/
def NameOK (n : Str) : Prop := IsName n ∧ OneLine n

/-- The bounds of a range can be printed, also without spaces. -/
def RngOK (r : WRange) : Prop := (r.1.Printable ∧ r.1.Tight) ∧ r.2.Printable ∧ r.2.Tight

/-- A declared signal: a list of dimensions that exists is not empty. -/
def Var.OK (v : Var) : Prop :=
  NameOK v.name ∧ (∀ r, v.width = some r → RngOK r) ∧ ∀ ls, v.dims = some ls → ls ≠ [] ∧ ∀ r ∈ ls, RngOK r

/-- The text begins and ends with a quote. -/
def Quoted (s : Str) : Prop := s.head? = some '"' ∧ s.getLast? = some '"'

/-- A parameter: if it has a width, the text of its value does not begin and end with a quote. -/
def Param.OK (p : Param) : Prop :=
  NameOK p.name ∧ p.value.Printable ∧ ∀ r, p.width = some r → RngOK r ∧ ¬ Quoted p.value.rcode

/-- No name, number or string in the parameter contains a semicolon. -/
def Param.NoSemi (p : Param) : Prop :=
  ';' ∉ p.name ∧ p.value.Leaves (';' ∉ ·) ∧ ∀ r, p.width = some r → r.1.Leaves (';' ∉ ·) ∧ r.2.Leaves (';' ∉ ·)

/-- An assignment. -/
def AssignOK (l r : Ex) : Prop := l.Printable ∧ l.Assignable ∧ r.Printable

/-- The items of a declaration: integers have no value; there are no real variables and no supplies. -/
def DItem.OK : DItem → Prop
  | .var v => v.OK
  | .int n e => NameOK n ∧ e = none
  | .genvar n => NameOK n
  | .param _ p => p.OK
  | .assign l r => AssignOK l r
  | .real _ => False
  | .supply _ _ _ _ => False

/-- The signal of an edge: a name or an element. -/
def SensItem.EdgeOK : SensItem → Prop
  | .posedge e => e.Printable ∧ e.isBase = true
  | .negedge e => e.Printable ∧ e.isBase = true
  | _ => False

/-- A signal without an edge: a name, an element or a part. -/
def SensItem.LevelOK : SensItem → Prop
  | .level e => e.Printable ∧ (e.isBase = true ∨ ∃ v m l, e = .psel v m l)
  | _ => False

/-- A sensitivity list: everything, or edges, or signals without edges. -/
def SensOK (ss : List SensItem) : Prop :=
  ss = [.all] ∨ (ss ≠ [] ∧ ∀ s ∈ ss, s.EdgeOK) ∨ (ss ≠ [] ∧ ∀ s ∈ ss, s.LevelOK)

/-- The arguments of an instance: all of them have names, or none has; `opt`: a named one may be left open. -/
def ArgsOK (opt : Bool) (as : List PArg) : Prop :=
  (∀ a ∈ as, ∀ e, a.arg = some e → e.Printable) ∧
    ((∀ a ∈ as, (∃ n, a.name = some n ∧ NameOK n) ∧ (a.arg = none → opt = true)) ∨
      (∀ a ∈ as, a.name = none ∧ a.arg ≠ none))

/-- An instance with a name. -/
def Inst.OK (i : Inst) : Prop := NameOK i.name ∧ (∀ r, i.array = some r → RngOK r) ∧ ArgsOK true i.ports

/-- What a function or task declares: inputs, registers and integers. -/
def DItem.FnOK : DItem → Prop
  | .var v => v.kind = .input ∨ v.kind = .reg
  | .int _ _ => True
  | _ => False

/-- The body of a function or task is a single statement other than a nonblocking assignment. -/
def Stmt.FnOK : Stmt → Prop
  | .nb _ _ => False
  | _ => True

/-- The three parts of the head of a for loop can be printed without spaces, and the last one without semicolons. -/
def ForOK (pl pr c ql qr : Ex) : Prop :=
  pl.Assignable ∧ ql.Assignable ∧ (∀ e, e = pl ∨ e = pr ∨ e = c ∨ e = ql ∨ e = qr → e.Printable ∧ e.Tight) ∧
    ql.Leaves (';' ∉ ·) ∧ qr.Leaves (';' ∉ ·)

/-- The item ends with an if without else: an `else` after it would belong to that if. -/
def MItem.openEnd : MItem → Bool
  | .always _ _ s => s.openIf
  | .initial s => s.openIf
  | .gif _ _ => true
  | .gife _ _ f => f.openEnd
  | .gfor _ _ _ _ _ b => b.openEnd
  | _ => false

/-- The text of the item ends with the keyword `end`. -/
def MItem.endsBlock : MItem → Bool
  | .gife _ _ f => f.endsBlock
  | .gfor _ _ _ _ _ b => b.endsBlock
  | .gblock _ _ => true
  | _ => false

/-- The text of the item begins with a newline. -/
def MItem.newLine : MItem → Bool
  | .always .always _ _ | .initial _ | .insts _ _ _ | .func _ _ _ _ | .task _ _ _ => true
  | _ => false

/-- In a generate construct the items are printed without separators: after `end` a newline has to follow. -/
def Spaced : List MItem → Prop
  | [] => True
  | [_] => True
  | i :: j :: r => (i.endsBlock = true → j.newLine = true) ∧ Spaced (j :: r)

/-- The items of a module, but for generate constructs: always constructs are `always` and their statement is no bare loop; a list of instances is not empty, and
the instances have names, or none of them has and there are no parameters; a function declares something. -/
def MItem.Std : MItem → Prop
  | .decl ds => ∀ d ∈ ds, d.OK
  | .assign l r => AssignOK l r
  | .always k ss s => k = .always ∧ SensOK ss ∧ s.WF ∧ s.isLoop = false
  | .initial s => s.WF
  | .insts md ps is =>
    NameOK md ∧ ArgsOK false ps ∧ is ≠ [] ∧
      ((∀ i ∈ is, i.OK) ∨ (ps = [] ∧ ∀ i ∈ is, i.name = [] ∧ i.array = none ∧ ArgsOK true i.ports))
  | .func n ret ds s => NameOK n ∧ RngOK ret ∧ ds.flatten ≠ [] ∧ (∀ d ∈ ds.flatten, d.OK ∧ d.FnOK) ∧ s.WF ∧ s.FnOK
  | .task n ds s => NameOK n ∧ (∀ d ∈ ds.flatten, d.OK ∧ d.FnOK) ∧ s.WF ∧ s.FnOK
  | _ => False

/-- A declaration that is not a declaration of exactly one thing. -/
def MItem.manyDecl : MItem → Bool
  | .decl ds => ds.length != 1
  | _ => false

mutual
/-- The items of a generate construct; `br`: the item is a branch or the body of a loop, so it is a single item or a block.
A branch in front of an else does not end with an if without else. -/
def MItem.At (br : Bool) : MItem → Prop
  | .gif c t => c.Printable ∧ t.At true
  | .gife c t f => c.Printable ∧ t.At true ∧ f.At true ∧ t.openEnd = false
  | .gfor pl pr c ql qr b => ForOK pl pr c ql qr ∧ b.At true
  | .gblock name is => br = true ∧ (∀ n, name = some n → NameOK n) ∧ MItem.Ats is
  | .gen _ => False
  | i => i.Std ∧ (br = true → i.manyDecl = false)
/-- `MItem.At false` on lists. -/
def MItem.Ats : List MItem → Prop
  | [] => True
  | i :: is => i.At false ∧ MItem.Ats is
end

/-- The items of a module. -/
def MItem.OK : MItem → Prop
  | .gen is => Spaced is ∧ MItem.Ats is
  | i => i.Std

/-- The classes of a port and of its second declaration. -/
def IoKinds : SigKind → Option SigKind → Prop
  | .input, k => k = none ∨ k = some .wire
  | .output, k => k = none ∨ k = some .wire ∨ k = some .reg
  | .inout, k => k = none ∨ k = some .wire ∨ k = some .tri
  | _, _ => False

/-- A port with its declaration: both declarations are alike, and only a port with a width has dimensions. -/
def IoOK (f : Var) (s : Option Var) : Prop :=
  f.OK ∧ (f.dims ≠ none → f.width ≠ none) ∧ (∀ v, s = some v → v = { f with kind := v.kind }) ∧
    IoKinds f.kind (s.map Var.kind)

/-- The ports of a module: all of them are names, or all are declared. -/
def PortsOK (ps : List PortD) : Prop :=
  (∀ p ∈ ps, ∃ n, p = .port n ∧ NameOK n) ∨ (∀ p ∈ ps, ∃ f s, p = .io f s ∧ IoOK f s)

/-- The modules that are expected to survive: every declaration in the header declares one parameter, without semicolons
in it. -/
def ModuleDef.OK (m : ModuleDef) : Prop :=
  NameOK m.name ∧ (∀ d ∈ m.params, ∃ p, d = [p] ∧ p.OK ∧ p.NoSemi) ∧ PortsOK m.ports ∧ ∀ i ∈ m.items, i.OK

/-- A range without unary plus operators. -/
def rngErase (r : WRange) : WRange := (r.1.erase, r.2.erase)

/-- A signal without unary plus operators. -/
def Var.erase (v : Var) : Var := { v with width := v.width.map rngErase, dims := v.dims.map (List.map rngErase) }

/-- A parameter without unary plus operators. -/
def Param.erase (p : Param) : Param := { p with value := p.value.erase, width := p.width.map rngErase }

/-- An item of a declaration without unary plus operators. -/
def DItem.erase : DItem → DItem
  | .var v => .var v.erase
  | .int n e => .int n (e.map Ex.erase)
  | .real n => .real n
  | .genvar n => .genvar n
  | .param l p => .param l p.erase
  | .supply n o w s => .supply n o (w.map rngErase) s
  | .assign l r => .assign l.erase r.erase

/-- A signal of a sensitivity list without unary plus operators. -/
def SensItem.erase : SensItem → SensItem
  | .all => .all
  | .posedge e => .posedge e.erase
  | .negedge e => .negedge e.erase
  | .level e => .level e.erase

/-- An argument without unary plus operators. -/
def PArg.erase (a : PArg) : PArg := { a with arg := a.arg.map Ex.erase }

/-- An instance without unary plus operators. -/
def Inst.erase (i : Inst) : Inst := { i with array := i.array.map rngErase, ports := i.ports.map PArg.erase }

/-- How the declarations of a function or task come back: every item as a declaration of its own. -/
def fnNorm (ds : List (List DItem)) : List (List DItem) := ds.flatten.map (fun d => [d.erase])

mutual
/-- How an item comes back: every item of a declaration as a declaration of its own, and its assignment as an assignment. -/
def MItem.norm : MItem → List MItem
  | .decl ds => ds.map (fun d => match d with
    | .assign l r => .assign l.erase r.erase
    | d => .decl [d.erase])
  | .assign l r => [.assign l.erase r.erase]
  | .always k ss s => [.always k (ss.map SensItem.erase) s.erase]
  | .initial s => [.initial s.erase]
  | .insts md ps is => [.insts md (ps.map PArg.erase) (is.map Inst.erase)]
  | .func n ret ds s => [.func n (rngErase ret) (fnNorm ds) s.erase]
  | .task n ds s => [.task n (fnNorm ds) s.erase]
  | .gen is => [.gen (MItem.norms is)]
  | .gif c t => t.norm.map (.gif c.erase)
  | .gife c t f => t.norm.flatMap (fun t' => f.norm.map (.gife c.erase t'))
  | .gfor pl pr c ql qr b => b.norm.map (.gfor pl.erase pr.erase c.erase ql.erase qr.erase)
  | .gblock name is => [.gblock name (MItem.norms is)]
/-- `MItem.norm` on lists. -/
def MItem.norms : List MItem → List MItem
  | [] => []
  | i :: is => i.norm ++ MItem.norms is
end

/-- A port without unary plus operators. -/
def PortD.erase : PortD → PortD
  | .port n => .port n
  | .io f s => .io f.erase (s.map Var.erase)
  | .none_ => .none_

/-- How a module comes back. -/
def ModuleDef.norm (m : ModuleDef) : ModuleDef :=
  ⟨m.name, m.params.map (List.map Param.erase), m.ports.map PortD.erase, m.items.flatMap MItem.norm⟩

/-- The same port under another name. -/
def PortD.like (p : PortD) (n : Str) : PortD :=
  match p with
  | .io f s => .io { f with name := n } (s.map (fun v => { v with name := n }))
  | p => p

/-- `Abbrev ok p short full`: in the list of ports `short`, which follows the port `p`, a name without a type stands for a
port like the one in front of it (which is `ok`); `full` is the list with all types written out. -/
inductive Abbrev (ok : PortD → Prop) : Option PortD → List PortD → List PortD → Prop
  | nil (p) : Abbrev ok p [] []
  | full (p f s ps qs) : IoOK f s → Abbrev ok (some (.io f s)) ps qs → Abbrev ok p (.io f s :: ps) (.io f s :: qs)
  | short (p n ps qs) : NameOK n → ok p → Abbrev ok (some (p.like n)) ps qs → Abbrev ok (some p) (.port n :: ps) (p.like n :: qs)

/-- A port whose type is handed on: it is not signed, has no dimensions, and is not declared as a wire or tri as well. -/
def PortD.Inheritable : PortD → Prop
  | .io f s => f.signed = false ∧ f.dims = none ∧ (s = none ∨ ∃ v, s = some v ∧ v.kind = .reg)
  | _ => False

end Pyv
