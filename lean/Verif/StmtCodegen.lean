import Verif.Codegen
/-
  Code generation of procedural statements: pyverilog/ast_code_generator/codegen.py and its templates.
-/
namespace Pyv

/-- The line boundaries of Python's `str.splitlines`, which `textwrap.indent` uses. -/
def isBreak (c : Char) : Bool :=
  c == '\n' || c == '\r' || c.val == 0x0b || c.val == 0x0c || (0x1c ≤ c.val && c.val ≤ 0x1e) || c.val == 0x85 ||
    c.val == 0x2028 || c.val == 0x2029

/-- Python's `str.isspace` on one character. -/
def isPySpace (c : Char) : Bool :=
  isBreak c || c == ' ' || c == '\t' || c.val == 0x1f || c.val == 0xa0 || c.val == 0x1680 ||
    (0x2000 ≤ c.val && c.val ≤ 0x200a) || c.val == 0x202f || c.val == 0x205f || c.val == 0x3000

/-- `str.splitlines(True)`: the lines with their ends (`\r\n` is one end). -/
def splitLines : Str → List Str
  | [] => []
  | '\r' :: '\n' :: r => ['\r', '\n'] :: splitLines r
  | c :: r =>
    if isBreak c then [c] :: splitLines r
    else
      match splitLines r with
      | [] => [[c]]
      | l :: ls => (c :: l) :: ls

/-- `n` blanks. -/
def blanks (n : Nat) : Str := List.replicate n ' '

/-- codegen.py:36-38 `indent` = `textwrap.indent`: the prefix is put in front of every line that is not blank. -/
def indentN (n : Nat) (s : Str) : Str :=
  (splitLines s).flatMap (fun l => if l.all isPySpace then l else blanks n ++ l)

/-- The text before and after the first newline (`text.split('\n')`: the first item and the others joined again). -/
def cutLine : Str → Str × Option Str
  | [] => ([], none)
  | c :: r => if c = '\n' then ([], some r) else let x := cutLine r; (c :: x.1, x.2)

/-- codegen.py:52-65 `indent_multiline_assign`: the lines after the first are moved below the text after the first `=`
of the first line. -/
def indentAssign (s : Str) : Str :=
  match cutLine s with
  | (_, none) => s
  | (l, some r) => if '=' ∈ l then l ++ '\n' :: indentN (l.idxOf '=' + 2) r else s

/-- codegen.py:695-719 visit_BlockingSubstitution, visit_NonblockingSubstitution with their templates; both sides are
wrapped in `Lvalue` and `Rvalue` (467-484).  Simplification: no delays. -/
def assignCode (nb : Bool) (l r : Ex) : Str :=
  indentAssign (l.rcode ++ (if nb then " <= ".toList else " = ".toList) ++ r.rcode ++ ";".toList)

/-- template/ifstatement.txt. -/
def ifCode (c t f : Str) : Str :=
  "if(".toList ++ c ++ ") ".toList ++ t ++
    (if t.getLast? = some ' ' ∨ t.getLast? = some '\n' then [] else [' ']) ++
    (if '\n' ∉ t ∧ f ≠ [] then ['\n'] else []) ++
    (if f ≠ [] then "else ".toList ++ f else [])

/-- codegen.py:777-793 visit_Case up to the statement: the conditions, `default` for None. -/
def caseCondCode : Option (List Ex) → Str
  | none => "default".toList
  | some cs => commaSep (cs.map Ex.rcode)

/-- The items of template/casestatement.txt and template/block.txt, each on a line of its own. -/
def linesCode (ss : List Str) : Str := ss.flatMap (fun s => '\n' :: s)

/-- codegen.py:757-775 the names under which a case statement is printed; there is no `visit_CasezStatement` and no
`visit_UniqueCaseStatement`. -/
def CaseKind.word : CaseKind → Option Str
  | .case_ => some "case".toList
  | .casex => some "casex".toList
  | .casez => none
  | .unique => none

/-- template/casestatement.txt, template/casexstatement.txt. -/
def caseCode (w comp : Str) (items : List Str) : Str :=
  w ++ ['('] ++ comp ++ [')'] ++ linesCode (items.map (indentN 2)) ++ "\nendcase".toList

/-- template/case.txt. -/
def itemCode (c : Option (List Ex)) (s : Str) : Str := caseCondCode c ++ ": ".toList ++ s

/-- codegen.py:795-803 and template/block.txt: the scope is printed if it is not None. -/
def blockCode (name : Option Str) (ss : List Str) : Str :=
  "begin".toList ++ (match name with | none => [] | some n => " : ".toList ++ escape n) ++
    linesCode (ss.map (indentN 2)) ++ "\nend".toList

/-- codegen.py:734-744 and template/forstatement.txt. -/
def forCode (pre c post body : Str) : Str :=
  "for(".toList ++ delSpace pre ++ [' '] ++ delSpace c ++ "; ".toList ++
    delSpace (post.filter (fun c => c != ';')) ++ ") ".toList ++ body

/-- template/whilestatement.txt. -/
def whileCode (c body : Str) : Str := "while(".toList ++ c ++ ") ".toList ++ body

mutual
/-- codegen.py `ASTCodeGenerator.visit` on statements (indentation 2, the default): visit_IfStatement (721-732),
visit_ForStatement (734-744), visit_WhileStatement (746-754), visit_CaseStatement, visit_CasexStatement, visit_Case
(757-793), visit_Block (795-803) with their templates; casez and unique case statements go to
`ConvertVisitor.generic_visit` (72-76), which joins the code of the expression and of the items.  A `Case` here is its
conditions and its statement.  `skip` is None, printed as the empty text where the code tests for None (the branches of
an if, the body of a loop); elsewhere the code raises AttributeError, which is not modelled. -/
def Stmt.code : Stmt → Str
  | .skip => []
  | .nb l r => assignCode true l r
  | .ba l r => assignCode false l r
  | .ifs c t f => ifCode c.rcode t.code f.code
  | .cases k comp conds bodies =>
    match k.word with
    | some w => caseCode w comp.rcode (Stmt.items conds bodies)
    | none => comp.code ++ (Stmt.items conds bodies).flatten
  | .block name ss => blockCode name (Stmt.codes ss)
  | .fors pl pr c ql qr body => forCode (assignCode false pl pr) c.rcode (assignCode false ql qr) body.code
  | .whiles c body => whileCode c.rcode body.code
/-- The list comprehensions `[self.visit(statement) for statement in ..]`. -/
def Stmt.codes : List Stmt → List Str
  | [] => []
  | s :: ss => s.code :: Stmt.codes ss
/-- `[self.visit(case) for case in node.caselist]`. -/
def Stmt.items : List (Option (List Ex)) → List Stmt → List Str
  | c :: cs, s :: ss => itemCode c s.code :: Stmt.items cs ss
  | _, _ => []
end

end Pyv
