import Verif.Ast
/-
  Code generation of expressions: pyverilog/ast_code_generator/codegen.py and the jinja2 templates of
  pyverilog/ast_code_generator/template/.
-/
namespace Pyv

/-- codegen.py:84-88 `escape`: escaped identifiers are ended by a space. -/
def escape (s : Str) : Str := if s.head? = some '\\' then s ++ [' '] else s

/-- codegen.py:92-95 `del_paren`: drops a first `(` together with a last `)`, whether or not they match. -/
def delParen (s : Str) : Str :=
  if s.head? = some '(' ∧ s.getLast? = some ')' then (s.drop 1).dropLast else s

/-- codegen.py:98-99 `del_space`. -/
def delSpace (s : Str) : Str := s.filter (fun c => c != ' ')

/-- The class test of codegen.py:493-495 and 499-501: operands of these classes keep their parentheses. -/
def Op.keepParen : Op → Bool
  | .sll | .srl | .sra | .lessThan | .greaterThan | .lessEq | .greaterEq | .eq | .notEq | .eql | .notEql => true
  | _ => false

/-- `op2order(node.__class__.__name__)` (op2mark.py:46-49): None for every class that is not in the table. -/
def Ex.order? : Ex → Option Nat
  | .un o _ => some o.order
  | .bin o _ _ => some o.order
  | _ => none

/-- The `isinstance` test of codegen.py:493-495. -/
def Ex.keepParen : Ex → Bool
  | .bin o _ _ => o.keepParen
  | _ => false

/-- codegen.py:493-497: the left operand loses its outer parentheses. -/
def Ex.stripLeft (o : Op) (a : Ex) : Bool :=
  !a.keepParen && (match a.order? with | some lo => decide (lo ≤ o.order) | none => false)

/-- codegen.py:498-503: the right operand loses its outer parentheses. -/
def Ex.stripRight (o : Op) (b : Ex) : Bool :=
  !b.keepParen && (match b.order? with | some ro => decide (o.order > ro) | none => false)

/-- The test `isinstance(node.false_value, Cond)` of codegen.py:627. -/
def Ex.isCond : Ex → Bool
  | .cond _ _ _ => true
  | _ => false

/-- The items of a template's `{% for %}` loop, separated by `, ` (template/concat.txt, functioncall.txt,
systemcall.txt). -/
def commaSep : List Str → Str
  | [] => []
  | [s] => s
  | s :: t :: r => s ++ ", ".toList ++ commaSep (t :: r)

mutual
/-- codegen.py `ASTCodeGenerator.visit` on expressions: visit_Identifier (199-207, 962-980; the labels carry no loop
index, see `Ex`), visit_IntConst, visit_FloatConst, visit_StringConst (227-252), visit_Concat (415-424), visit_Repeat
(437-445), visit_Partselect (447-456), visit_Pointer (458-466), visit_Operator (486-512), visit_UnaryOperator (514-523),
visit_Cond (622-636), visit_FunctionCall (906-916), visit_SystemCall (950-960), with the templates of the same names.
template/uplus.txt prints no operator.  There is no visit_Sla, so `Sla` goes to `ConvertVisitor.generic_visit` (72-76),
which joins the children's code.  The name of a called function has no scope (see `Ex`). -/
def Ex.code : Ex → Str
  | .ident sc n => sc.flatMap (fun l => escape l ++ ['.']) ++ escape n
  | .intc s => s
  | .fltc s => s
  | .strc s => '"' :: s ++ ['"']
  | .uplus e => '(' :: e.code ++ [')']
  | .un o e => '(' :: o.mark ++ e.code ++ [')']
  | .bin o a b =>
    if o = .sla then a.code ++ b.code
    else
      '(' :: (if a.stripLeft o then delParen a.code else a.code) ++ [' '] ++ o.mark ++ [' '] ++
        (if b.stripRight o then delParen b.code else b.code) ++ [')']
  | .cond c t f =>
    "((".toList ++ delParen c.code ++ ")? ".toList ++ delParen t.code ++ " : ".toList ++
      ((if f.isCond then ['\n'] else []) ++ delParen f.code) ++ [')']
  | .psel v m l =>
    v.code ++ ['['] ++ delSpace (delParen m.code) ++ [':'] ++ delSpace (delParen l.code) ++ [']']
  | .ptr v p => v.code ++ ['['] ++ delParen p.code ++ [']']
  | .concat es => "{ ".toList ++ commaSep ((Ex.codes es).map delParen) ++ " }".toList
  | .rep times value => "{ ".toList ++ delParen times.code ++ delParen value.code ++ " }".toList
  | .call f args => escape f ++ ['('] ++ commaSep (Ex.codes args) ++ [')']
  | .sys f args =>
    '$' :: escape f ++ (if args.length > 0 then ['('] else []) ++ commaSep (Ex.codes args) ++
      (if args.length > 0 then [')'] else [])
/-- The list comprehensions `[self.visit(item) for item in ..]`. -/
def Ex.codes : List Ex → List Str
  | [] => []
  | e :: es => e.code :: Ex.codes es
end

/-- codegen.py:476-484 `visit_Rvalue` (and 467-475 `visit_Lvalue`): the code of an expression on its own. -/
def Ex.rcode (e : Ex) : Str := delParen e.code

end Pyv
