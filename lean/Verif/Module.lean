import Verif.StmtCodegen
/-
  Modules: their abstract syntax (pyverilog/vparser/ast.py) and their code generation
  (pyverilog/ast_code_generator/codegen.py and its templates).
-/
namespace Pyv

/-- The classes of declared signals: ast.py:297-319. -/
inductive SigKind where
  | input | output | inout | wire | reg | tri
  deriving DecidableEq, Repr

/-- `Width` and `Length`: ast.py:179-198, the two bounds. -/
abbrev WRange := Ex × Ex

/-- A declared signal: ast.py:275-319 `Variable` with its class (the attribute `value`, which the parser only sets for
`integer`, is left out). -/
structure Var where
  kind : SigKind
  name : Str
  width : Option WRange := none
  signed : Bool := false
  dims : Option (List WRange) := none
  deriving Repr

/-- `Parameter` and `Localparam`: ast.py:350-372. -/
structure Param where
  name : Str
  value : Ex
  width : Option WRange := none
  signed : Bool := false
  deriving Repr

/-- What a `Decl` (ast.py:378-390) may list.  `integer` and `genvar` always have the width `[31:0]` (parser.py:636-646,
1967-1973), which is left out. -/
inductive DItem where
  | var (v : Var)
  | int (name : Str) (value : Option Ex)
  | real (name : Str)
  | genvar (name : Str)
  | param (loc : Bool) (p : Param)
  | supply (name : Str) (one : Bool) (width : Option WRange) (signed : Bool)
  | assign (l r : Ex)
  deriving Repr

/-- ast.py:721-748. -/
inductive AlwaysKind where
  | always | ff | comb | latch
  deriving DecidableEq, Repr

/-- `Sens`: ast.py:764-777. -/
inductive SensItem where
  | all
  | posedge (e : Ex)
  | negedge (e : Ex)
  | level (e : Ex)
  deriving Repr

/-- `ParamArg` and `PortArg`: ast.py:1044-1072. -/
structure PArg where
  name : Option Str
  arg : Option Ex
  deriving Repr

/-- `Instance`: ast.py:1022-1042.  Its module and its parameters are those of the `InstanceList`. -/
structure Inst where
  name : Str
  array : Option WRange
  ports : List PArg
  deriving Repr

/-- Module items.  `func` and `task` are `Function` and `Task` (ast.py:1074-1092, 1115-1128) whose `statement` is a tuple of `Decl`s and
one statement, as the parser makes it (parser.py:2089-2215).  `gen` is `GenerateStatement` (ast.py:1147-1159); in it an
`IfStatement` without and with an else (`gif`, `gife`), a `ForStatement` (`gfor`) and a `Block` (`gblock`) hold items instead
of statements (parser.py:1976-2060).  Not modelled: pragmas. -/
inductive MItem where
  | decl (ds : List DItem)
  | assign (l r : Ex)
  | always (k : AlwaysKind) (sens : List SensItem) (s : Stmt)
  | initial (s : Stmt)
  | insts (mod : Str) (params : List PArg) (is : List Inst)
  | func (name : Str) (ret : WRange) (ds : List (List DItem)) (body : Stmt)
  | task (name : Str) (ds : List (List DItem)) (body : Stmt)
  | gen (is : List MItem)
  | gif (c : Ex) (t : MItem)
  | gife (c : Ex) (t f : MItem)
  | gfor (pl pr c ql qr : Ex) (b : MItem)
  | gblock (name : Option Str) (is : List MItem)
  deriving Repr

/-- Structural induction over module items. -/
theorem MItem.ind {P : MItem → Prop} (decl : ∀ ds, P (.decl ds)) (assign : ∀ l r, P (.assign l r))
    (always : ∀ k ss s, P (.always k ss s)) (initial : ∀ s, P (.initial s)) (insts : ∀ m ps is, P (.insts m ps is))
    (func : ∀ n r ds s, P (.func n r ds s)) (task : ∀ n ds s, P (.task n ds s)) (gen : ∀ is, (∀ i ∈ is, P i) → P (.gen is))
    (gif : ∀ c t, P t → P (.gif c t)) (gife : ∀ c t f, P t → P f → P (.gife c t f))
    (gfor : ∀ pl pr c ql qr b, P b → P (.gfor pl pr c ql qr b)) (gblock : ∀ n is, (∀ i ∈ is, P i) → P (.gblock n is))
    (i : MItem) : P i :=
  MItem.rec (motive_1 := P) (motive_2 := fun is => ∀ i ∈ is, P i) decl assign always initial insts func task
    (fun is h => gen is h) (fun c t h => gif c t h) (fun c t f h1 h2 => gife c t f h1 h2)
    (fun a b c d e i h => gfor a b c d e i h) (fun n is h => gblock n is h) (by simp)
    (fun h t hh ht => by intro n hn; rcases List.mem_cons.mp hn with rfl | h'; exact hh; exact ht n h') i

/-- A port: ast.py:162-177 `Port`, 333-348 `Ioport`; `none_` is None, which parser.py:309-333 can leave in the list. -/
inductive PortD where
  | port (n : Str)
  | io (first : Var) (second : Option Var)
  | none_
  deriving Repr

/-- `ModuleDef` with its `Paramlist` (a tuple of `Decl`s of parameters) and its `Portlist`: ast.py:112-160. -/
structure ModuleDef where
  name : Str
  params : List (List Param)
  ports : List PortD
  items : List MItem
  deriving Repr

/-- The class name in lower case, which is also the keyword. -/
def SigKind.word : SigKind → Str
  | .input => "input".toList
  | .output => "output".toList
  | .inout => "inout".toList
  | .wire => "wire".toList
  | .reg => "reg".toList
  | .tri => "tri".toList

/-- codegen.py:179-197 visit_Width, visit_Length with template/width.txt, length.txt. -/
def rngCode (r : WRange) : Str := '[' :: delSpace r.1.rcode ++ [':'] ++ delSpace r.2.rcode ++ [']']

/-- `{% if width != '' %}{{ width }} {% endif %}`. -/
def widthCode : Option WRange → Str
  | none => []
  | some r => rngCode r ++ [' ']

/-- `Dimensions` has no visit method: `generic_visit` joins the code of its lengths; the template puts a space in front
of it if it is not empty. -/
def dimsCode : Option (List WRange) → Str
  | none => []
  | some ls => if ls.flatMap rngCode = [] then [] else ' ' :: ls.flatMap rngCode

/-- `{% if signed %}signed {% endif %}`. -/
def signedCode (b : Bool) : Str := if b then "signed ".toList else []

/-- codegen.py:266-337 visit_Input, visit_Output, visit_Inout, visit_Tri, visit_Wire, visit_Reg with their templates. -/
def Var.code (v : Var) : Str :=
  v.kind.word ++ [' '] ++ signedCode v.signed ++ widthCode v.width ++ escape v.name ++ dimsCode v.dims ++ [';']

/-- codegen.py:379-403 visit_Parameter, visit_Localparam with their templates: the width of a parameter whose value
begins and ends with a quote is not printed. -/
def Param.code (loc : Bool) (p : Param) : Str :=
  (if loc then "localparam ".toList else "parameter ".toList) ++ signedCode p.signed ++
    (if p.value.rcode.head? = some '"' ∧ p.value.rcode.getLast? = some '"' then [] else widthCode p.width) ++
    escape p.name ++ " = ".toList ++ p.value.rcode ++ [';']

/-- codegen.py:638-647 visit_Assign with template/assign.txt. -/
def assignItemCode (l r : Ex) : Str :=
  indentAssign ("assign ".toList ++ l.rcode ++ " = ".toList ++ r.rcode ++ ";".toList)

/-- The items of a `Decl`: visit_Integer (339-347), visit_Real (349-356), visit_Genvar (358-365) with their templates
(the value of an integer is not printed); `Supply` has no visit method, so its children are joined. -/
def DItem.code : DItem → Str
  | .var v => v.code
  | .int n _ => "integer ".toList ++ escape n ++ [';']
  | .real n => "real ".toList ++ escape n ++ [';']
  | .genvar n => "genvar ".toList ++ escape n ++ [';']
  | .param loc p => p.code loc
  | .supply _ one w _ => (if one then ['1'] else ['0']) ++ (match w with | none => [] | some r => rngCode r)
  | .assign l r => assignItemCode l r

/-- codegen.py:405-412 visit_Decl with template/decl.txt: the items one after the other. -/
def declCode (ds : List DItem) : Str := ds.flatMap DItem.code

/-- codegen.py:670-678 visit_Sens with template/sens.txt. -/
def SensItem.code : SensItem → Str
  | .all => ['*']
  | .posedge e => "posedge ".toList ++ e.code
  | .negedge e => "negedge ".toList ++ e.code
  | .level e => e.code

/-- codegen.py:659-668 visit_SensList with template/senslist.txt. -/
def sensCode : List SensItem → Str
  | [] => []
  | [s] => s.code
  | s :: t :: r => s.code ++ " or ".toList ++ sensCode (t :: r)

/-- codegen.py:649-657 visit_Always with template/always.txt; the other classes have no visit method, so the code of the
children is joined. -/
def alwaysCode (k : AlwaysKind) (sens : List SensItem) (s : Stmt) : Str :=
  match k with
  | .always => "\nalways @(".toList ++ sensCode sens ++ ") ".toList ++ s.code ++ ['\n']
  | _ => sensCode sens ++ s.code

/-- The text of an optional name and an optional expression. -/
def argCode : Option Ex → Str
  | none => []
  | some e => e.rcode

/-- codegen.py:873-889 visit_ParamArg, visit_PortArg with their templates. -/
def PArg.code (a : PArg) : Str :=
  match a.name with
  | none => argCode a.arg
  | some n => if escape n = [] then argCode a.arg else '.' :: escape n ++ ['('] ++ argCode a.arg ++ [')']

/-- Lines with commas at their ends, each after a newline (template/instance.txt, instancelist.txt). -/
def commaLines : List Str → Str
  | [] => []
  | [s] => '\n' :: s
  | s :: t :: r => '\n' :: s ++ [','] ++ commaLines (t :: r)

/-- codegen.py:859-871 visit_Instance with template/instance.txt. -/
def Inst.code (i : Inst) : Str :=
  escape i.name ++ (match i.array with | none => [] | some r => rngCode r) ++ "\n(".toList ++
    commaLines (i.ports.map (fun a => indentN 2 a.code)) ++ "\n)".toList

/-- codegen.py:844-857 visit_InstanceList with template/instancelist.txt. -/
def instsCode (mod : Str) (params : List PArg) (is : List Inst) : Str :=
  '\n' :: escape mod ++
    (if params.length > 0 then "\n#(".toList ++ commaLines (params.map (fun a => indentN 2 a.code)) ++ "\n)".toList else []) ++
    commaLines (is.map Inst.code) ++ ";\n".toList

/-- The statements of a function or task: the declarations and the body. -/
def fnLines (ds : List (List DItem)) (body : Stmt) : Str :=
  linesCode ((ds.map declCode ++ [body.code]).map (indentN 2))

/-- codegen.py:894-904 visit_Function with template/function.txt. -/
def funcCode (n : Str) (ret : WRange) (ds : List (List DItem)) (body : Stmt) : Str :=
  "\nfunction ".toList ++ rngCode ret ++ [' '] ++ escape n ++ [';'] ++ fnLines ds body ++ "\nendfunction\n".toList

/-- codegen.py:918-927 visit_Task with template/task.txt. -/
def taskCode (n : Str) (ds : List (List DItem)) (body : Stmt) : Str :=
  "\ntask ".toList ++ escape n ++ [';'] ++ fnLines ds body ++ "\nendtask\n".toList

mutual
/-- The module items: codegen.py visit_Decl, visit_Assign, visit_Always, visit_Initial (template/initial.txt),
visit_InstanceList, visit_Function, visit_Task, visit_GenerateStatement (941-948, template/generatestatement.txt: the items
one after the other), visit_IfStatement, visit_ForStatement, visit_Block.  A None statement, for which the code raises
AttributeError, is not modelled. -/
def MItem.code : MItem → Str
  | .decl ds => declCode ds
  | .assign l r => assignItemCode l r
  | .always k sens s => alwaysCode k sens s
  | .initial s => "\ninitial ".toList ++ s.code ++ ['\n']
  | .insts m ps is => instsCode m ps is
  | .func n ret ds s => funcCode n ret ds s
  | .task n ds s => taskCode n ds s
  | .gen is => "\ngenerate ".toList ++ (MItem.codes is).flatten ++ "\nendgenerate\n".toList
  | .gif c t => ifCode c.rcode t.code []
  | .gife c t f => ifCode c.rcode t.code f.code
  | .gfor pl pr c ql qr b => forCode (assignCode false pl pr) c.rcode (assignCode false ql qr) b.code
  | .gblock name is => blockCode name (MItem.codes is)
/-- `[self.visit(item) for item in ..]`. -/
def MItem.codes : List MItem → List Str
  | [] => []
  | i :: is => i.code :: MItem.codes is
end

/-- codegen.py:170-177 visit_Port, 367-377 visit_Ioport with their templates.  None (AttributeError) is not modelled. -/
def PortD.code : PortD → Str
  | .port n => escape n
  | .io f s =>
    f.kind.word ++ [' '] ++ (match s with | none => [] | some v => v.kind.word ++ [' ']) ++
      signedCode (f.signed || (match s with | none => false | some v => v.signed)) ++
      widthCode f.width ++ escape f.name ++ dimsCode f.dims
  | .none_ => []

/-- Lines separated by `,` and a newline (template/paramlist.txt, portlist.txt). -/
def commaNl : List Str → Str
  | [] => []
  | [s] => s
  | s :: t :: r => s ++ ",\n".toList ++ commaNl (t :: r)

/-- codegen.py:148-157 visit_Paramlist: every `;` is deleted. -/
def paramlistCode (ps : List (List Param)) : Str :=
  commaNl (ps.map (fun d => (d.flatMap (Param.code false)).filter (fun c => c != ';')))

/-- codegen.py:133-146 visit_ModuleDef with template/moduledef.txt. -/
def ModuleDef.code (m : ModuleDef) : Str :=
  "\nmodule ".toList ++ escape m.name ++
    (if indentN 2 (paramlistCode m.params) = [] then []
     else " #\n(\n".toList ++ indentN 2 (paramlistCode m.params) ++ "\n)".toList) ++
    "\n(\n".toList ++ indentN 2 (commaNl (m.ports.map PortD.code)) ++ "\n);\n\n".toList ++
    m.items.flatMap (fun i => indentN 2 i.code ++ ['\n']) ++ "\nendmodule\n".toList

/-- codegen.py:113-131 visit_Source, visit_Description with template/source.txt, description.txt. -/
def sourceCode (ms : List ModuleDef) : Str := ms.flatMap (fun m => '\n' :: m.code ++ ['\n'])

end Pyv
