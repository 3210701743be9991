import Verif.Ident
import Verif.Graphgen
/-
  Model of pyverilog/vparser/ast.py `Node.show`: the dump of a syntax tree (what `parse` prints and `ast.show()` writes), and
  of `children()` and `attr_names` of the classes of expressions and procedural statements.
-/
namespace Pyv

/-- ast.py:84-1285 the class attribute `attr_names` (that of the nearest base class that sets it); classes that are not listed have
`()`. -/
def attrTable : List (Str × List Str) :=
  [("ModuleDef".toList, ["name".toList]), ("Identifier".toList, ["name".toList]), ("Function".toList, ["name".toList]),
   ("Task".toList, ["name".toList]), ("PragmaEntry".toList, ["name".toList]),
   ("Port".toList, ["name".toList, "type".toList]), ("Constant".toList, ["value".toList]),
   ("IntConst".toList, ["value".toList]), ("FloatConst".toList, ["value".toList]), ("StringConst".toList, ["value".toList]),
   ("Variable".toList, ["name".toList, "signed".toList]), ("Input".toList, ["name".toList, "signed".toList]),
   ("Output".toList, ["name".toList, "signed".toList]), ("Inout".toList, ["name".toList, "signed".toList]),
   ("Tri".toList, ["name".toList, "signed".toList]), ("Wire".toList, ["name".toList, "signed".toList]),
   ("Reg".toList, ["name".toList, "signed".toList]), ("Integer".toList, ["name".toList, "signed".toList]),
   ("Real".toList, ["name".toList, "signed".toList]), ("Genvar".toList, ["name".toList, "signed".toList]),
   ("Parameter".toList, ["name".toList, "signed".toList]), ("Localparam".toList, ["name".toList, "signed".toList]),
   ("Supply".toList, ["name".toList, "signed".toList]), ("Sens".toList, ["type".toList]),
   ("Block".toList, ["scope".toList]), ("ParallelBlock".toList, ["scope".toList]),
   ("InstanceList".toList, ["module".toList]), ("Instance".toList, ["name".toList, "module".toList]),
   ("ParamArg".toList, ["paramname".toList]), ("PortArg".toList, ["portname".toList]),
   ("SystemCall".toList, ["syscall".toList]), ("IdentifierScopeLabel".toList, ["name".toList, "loop".toList]),
   ("Disable".toList, ["dest".toList]), ("EmbeddedCode".toList, ["code".toList])]

/-- ast.py:35-41: `self.attr_names`. -/
def attrNames (cls : Str) : List Str := ((attrTable.find? fun r => r.1 == cls).map Prod.snd).getD []

/-- The line numbers of a node: `lineno`, and `end_lineno` where the parser has set it (ast.py:44-48; parser.py:131 and so on).
-/
inductive Lines where
  | at (n : Nat)
  | fromTo (a b : Nat)
  deriving DecidableEq, Repr

/-- ast.py:23-79 `class Node` seen by `show`: the class, the values of the attributes listed in `attr_names` (as the text `'%s'`
makes of them), the line numbers and `children()`. -/
inductive LNode where
  | nd (cls : Str) (vals : List Str) (lines : Lines) (kids : List LNode)
  deriving Repr

/-- Python's `', '.join`. -/
def attrJoin : List Str → Str
  | [] => []
  | [s] => s
  | s :: ss => s ++ ", ".toList ++ attrJoin ss

/-- ast.py:44-48: the line numbers at the end of a line of the dump. -/
def Lines.text : Lines → Str
  | .at n => " (at ".toList ++ natStr n ++ ")".toList
  | .fromTo a b => " (from ".toList ++ natStr a ++ " to ".toList ++ natStr b ++ ")".toList

/-- ast.py:31-48: what a line of the dump says about the node. -/
def showHead (attrnames showlineno : Bool) (cls : Str) (vals : List Str) (l : Lines) : Str :=
  cls ++ ": ".toList ++
    attrJoin (if attrnames then List.zipWith (fun n v => n ++ "=".toList ++ v) (attrNames cls) vals else vals) ++
    (if showlineno then l.text else [])

mutual
/-- ast.py:29-53 `Node.show(buf, offset, attrnames, showlineno)`: what is written to `buf`. -/
def LNode.show (attrnames showlineno : Bool) (offset : Nat) : LNode → Str
  | .nd c vs l ks =>
    List.replicate offset ' ' ++ showHead attrnames showlineno c vs l ++ "\n".toList ++
      LNode.showL attrnames showlineno (offset + 2) ks
/-- ast.py:52-53: the loop over the children. -/
def LNode.showL (attrnames showlineno : Bool) (offset : Nat) : List LNode → Str
  | [] => []
  | k :: ks => k.show attrnames showlineno offset ++ LNode.showL attrnames showlineno offset ks
end

mutual
/-- The node without its line numbers. -/
def LNode.erase : LNode → ANode
  | .nd c vs _ ks => .nd c vs (LNode.eraseL ks)
/-- The children without their line numbers. -/
def LNode.eraseL : List LNode → List ANode
  | [] => []
  | k :: ks => k.erase :: LNode.eraseL ks
end

/-! ### The nodes of expressions and statements -/

/-- ast.py:1187-1212, 214-228: the child of an identifier with a scope. -/
def scopeNodes : List Str → List ANode
  | [] => []
  | ls => [.nd "IdentifierScope".toList [] (ls.map fun l => .nd "IdentifierScopeLabel".toList [l, "None".toList] [])]

mutual
/-- The node of an expression: the classes of ast.py:214-273, 392-462, 493-696, 1095-1113, 1161-1177 with their `attr_names` and
`children()`. -/
def Ex.anode : Ex → ANode
  | .ident s n => .nd "Identifier".toList [n] (scopeNodes s)
  | .intc s => .nd "IntConst".toList [s] []
  | .fltc s => .nd "FloatConst".toList [s] []
  | .strc s => .nd "StringConst".toList [s] []
  | .uplus e => .nd "Uplus".toList [] [e.anode]
  | .un o e => .nd o.pyName [] [e.anode]
  | .bin o a b => .nd o.pyName [] [a.anode, b.anode]
  | .cond c t f => .nd "Cond".toList [] [c.anode, t.anode, f.anode]
  | .psel v m l => .nd "Partselect".toList [] [v.anode, m.anode, l.anode]
  | .ptr v p => .nd "Pointer".toList [] [v.anode, p.anode]
  | .concat es => .nd "Concat".toList [] (Ex.anodeL es)
  | .rep t v => .nd "Repeat".toList [] [v.anode, t.anode]
  | .call f es => .nd "FunctionCall".toList [] (.nd "Identifier".toList [f] [] :: Ex.anodeL es)
  | .sys f es => .nd "SystemCall".toList [f] (Ex.anodeL es)
/-- The nodes of a list of expressions. -/
def Ex.anodeL : List Ex → List ANode
  | [] => []
  | e :: es => e.anode :: Ex.anodeL es
end

mutual
/-- The node of what is assigned to: a concatenation there is an `LConcat` (ast.py:406, parser.py:887-921). -/
def Ex.lnode : Ex → ANode
  | .concat es => .nd "LConcat".toList [] (Ex.lnodeL es)
  | e => e.anode
/-- The nodes of the parts of an `LConcat`. -/
def Ex.lnodeL : List Ex → List ANode
  | [] => []
  | e :: es => e.lnode :: Ex.lnodeL es
end

/-- ast.py:464-490, 779-808: the node of an assignment; the delays are left out, as in `Stmt`. -/
def substNode (cls : Str) (l r : Ex) : ANode :=
  .nd cls [] [.nd "Lvalue".toList [] [l.lnode], .nd "Rvalue".toList [] [r.anode]]

/-- ast.py:870-897: the classes of case statements. -/
def CaseKind.cls : CaseKind → Str
  | .case_ => "CaseStatement".toList
  | .casex => "CasexStatement".toList
  | .casez => "CasezStatement".toList
  | .unique => "UniqueCaseStatement".toList

mutual
/-- The nodes of a statement: the classes of ast.py:779-929 with their `attr_names` and `children()`.  None in the place of a
statement is not among the children (ast.py:820-828, 841-851, 862-868, 908-914). -/
def Stmt.anode : Stmt → List ANode
  | .skip => []
  | .nb l r => [substNode "NonblockingSubstitution".toList l r]
  | .ba l r => [substNode "BlockingSubstitution".toList l r]
  | .ifs c t f => [.nd "IfStatement".toList [] (c.anode :: (t.anode ++ f.anode))]
  | .cases k comp cs bs => [.nd k.cls [] (comp.anode :: Stmt.anodeC cs bs)]
  | .block n ss => [.nd "Block".toList [n.getD "None".toList] (Stmt.anodeL ss)]
  | .fors pl pr c ql qr b =>
    [.nd "ForStatement".toList [] (substNode "BlockingSubstitution".toList pl pr :: c.anode ::
      substNode "BlockingSubstitution".toList ql qr :: b.anode)]
  | .whiles c b => [.nd "WhileStatement".toList [] (c.anode :: b.anode)]
/-- The nodes of the statements of a block. -/
def Stmt.anodeL : List Stmt → List ANode
  | [] => []
  | s :: ss => s.anode ++ Stmt.anodeL ss
/-- ast.py:899-914: the nodes of the items of a case statement. -/
def Stmt.anodeC : List (Option (List Ex)) → List Stmt → List ANode
  | c :: cs, s :: ss => .nd "Case".toList [] (Ex.anodeL (c.getD []) ++ s.anode) :: Stmt.anodeC cs ss
  | _, _ => []
end

end Pyv
