import Verif.Ast
import Verif.Dict
/-
  Model of pyverilog/utils/identifierreplace.py, pyverilog/utils/identifiervisitor.py and of the equality and hash of
  syntax tree nodes (pyverilog/vparser/ast.py:55-79).
-/
namespace Pyv

/-! ### Identifier replacement

identifierreplace.py:23-45 `children_items` visits every attribute of a node which is not one of its `attr_names`: for the
classes of `Ex` and `Stmt` these are the constructor arguments that hold nodes (and `lineno`, an integer, which is returned
as it is).  The visitor changes the nodes in place and returns them; modelled as a function, i.e. for trees no node object
of which occurs twice. -/

/-- identifierreplace.py:75-78 `visit_Identifier`. -/
def renameStr (ids : Dict Str Str) (n : Str) : Str := (ids.get? n).getD n

mutual
/-- identifierreplace.py:52-73 `visit`, `generic_visit`, 75-78 `visit_Identifier`: an identifier to be renamed becomes
`Identifier(new name)`, without scope. The name of a called function is an Identifier node (parser.py `p_functioncall`). -/
def Ex.replaceIds (ids : Dict Str Str) : Ex → Ex
  | .ident sc n => match ids.get? n with | some m => .ident [] m | none => .ident sc n
  | .intc s => .intc s
  | .fltc s => .fltc s
  | .strc s => .strc s
  | .uplus e => .uplus (e.replaceIds ids)
  | .un o e => .un o (e.replaceIds ids)
  | .bin o a b => .bin o (a.replaceIds ids) (b.replaceIds ids)
  | .cond c t f => .cond (c.replaceIds ids) (t.replaceIds ids) (f.replaceIds ids)
  | .psel v m l => .psel (v.replaceIds ids) (m.replaceIds ids) (l.replaceIds ids)
  | .ptr v p => .ptr (v.replaceIds ids) (p.replaceIds ids)
  | .concat es => .concat (Ex.replaceIdsL ids es)
  | .rep t v => .rep (t.replaceIds ids) (v.replaceIds ids)
  | .call f es => .call (renameStr ids f) (Ex.replaceIdsL ids es)
  | .sys f es => .sys f (Ex.replaceIdsL ids es)
/-- identifierreplace.py:65-69: a list or tuple of children. -/
def Ex.replaceIdsL (ids : Dict Str Str) : List Ex → List Ex
  | [] => []
  | e :: es => e.replaceIds ids :: Ex.replaceIdsL ids es
end

mutual
/-- identifierreplace.py:52-73 on statements. -/
def Stmt.replaceIds (ids : Dict Str Str) : Stmt → Stmt
  | .skip => .skip
  | .nb l r => .nb (l.replaceIds ids) (r.replaceIds ids)
  | .ba l r => .ba (l.replaceIds ids) (r.replaceIds ids)
  | .ifs c t f => .ifs (c.replaceIds ids) (t.replaceIds ids) (f.replaceIds ids)
  | .cases k c cs ss => .cases k (c.replaceIds ids) (cs.map (fun o => o.map (Ex.replaceIdsL ids))) (Stmt.replaceIdsL ids ss)
  | .block n ss => .block n (Stmt.replaceIdsL ids ss)
  | .fors a b c d e s =>
    .fors (a.replaceIds ids) (b.replaceIds ids) (c.replaceIds ids) (d.replaceIds ids) (e.replaceIds ids) (s.replaceIds ids)
  | .whiles c s => .whiles (c.replaceIds ids) (s.replaceIds ids)
/-- identifierreplace.py:65-69: a list or tuple of children. -/
def Stmt.replaceIdsL (ids : Dict Str Str) : List Stmt → List Stmt
  | [] => []
  | s :: ss => s.replaceIds ids :: Stmt.replaceIdsL ids ss
end

/-! ### Collecting identifiers -/

mutual
/-- identifiervisitor.py:18-35 with visit.py:44-52 `NodeVisitor`: the names of the Identifier nodes in the order of
`children()`; the scope of an identifier is not visited. -/
def Ex.idNames : Ex → List Str
  | .ident _ n => [n]
  | .intc _ | .fltc _ | .strc _ => []
  | .uplus e | .un _ e => e.idNames
  | .bin _ a b => a.idNames ++ b.idNames
  | .cond c t f => c.idNames ++ t.idNames ++ f.idNames
  | .psel v m l => v.idNames ++ m.idNames ++ l.idNames
  | .ptr v p => v.idNames ++ p.idNames
  | .concat es => Ex.idNamesL es
  | .rep t v => v.idNames ++ t.idNames
  | .call f es => f :: Ex.idNamesL es
  | .sys _ es => Ex.idNamesL es
/-- visit.py:50-52 `generic_visit`: the children in order. -/
def Ex.idNamesL : List Ex → List Str
  | [] => []
  | e :: es => e.idNames ++ Ex.idNamesL es
end

/-- ast.py:899-913: the conditions of a case item; None for `default`. -/
def condIdNames : Option (List Ex) → List Str
  | none => []
  | some es => Ex.idNamesL es

mutual
/-- identifiervisitor.py:18-35 on statements (ast.py: `children()` of the statement classes). -/
def Stmt.idNames : Stmt → List Str
  | .skip => []
  | .nb l r | .ba l r => l.idNames ++ r.idNames
  | .ifs c t f => c.idNames ++ t.idNames ++ f.idNames
  | .cases _ c cs ss => c.idNames ++ Stmt.idNamesC cs ss
  | .block _ ss => Stmt.idNamesL ss
  | .fors a b c d e s => (a.idNames ++ b.idNames) ++ c.idNames ++ (d.idNames ++ e.idNames) ++ s.idNames
  | .whiles c s => c.idNames ++ s.idNames
/-- visit.py:50-52 `generic_visit`: the children in order. -/
def Stmt.idNamesL : List Stmt → List Str
  | [] => []
  | s :: ss => s.idNames ++ Stmt.idNamesL ss
/-- ast.py:870-913: the items of a case statement, each with its conditions and its statement. -/
def Stmt.idNamesC : List (Option (List Ex)) → List Stmt → List Str
  | c :: cs, s :: ss => condIdNames c ++ s.idNames ++ Stmt.idNamesC cs ss
  | _, _ => []
end

/-! ### Equality of syntax trees -/

/-- ast.py:24-79 `class Node` seen by `__eq__` and `__hash__`: the class, the attributes listed in `attr_names` (as
strings) and `children()`. -/
inductive ANode where
  | nd (cls : Str) (attrs : List Str) (kids : List ANode)
  deriving Repr

mutual
/-- ast.py:55-71 `Node.__eq__`: `other_children[i]` raises IndexError when `other` has fewer children. -/
def ANode.pyEq : ANode → ANode → Py Bool
  | .nd c a ks, .nd c' a' ks' => if c ≠ c' then .ok false else if a ≠ a' then .ok false else ANode.pyEqL ks ks'
/-- ast.py:67-69: the loop over `enumerate(self.children())`. -/
def ANode.pyEqL : List ANode → List ANode → Py Bool
  | [], _ => .ok true
  | _ :: _, [] => .error .index
  | k :: ks, k' :: ks' => do
    let b ← k.pyEq k'
    if b then ANode.pyEqL ks ks' else .ok false
end

/-- ast.py:76-79 `Node.__hash__`: a function of the attributes and of the hashes of the children; the class is not part
of it. What is hashed: -/
inductive HashKey where
  | key (attrs : List Str) (kids : List HashKey)

mutual
/-- ast.py:76-79 `Node.__hash__`. -/
def ANode.hashKey : ANode → HashKey
  | .nd _ a ks => .key a (ANode.hashKeyL ks)
/-- The hashes of the children. -/
def ANode.hashKeyL : List ANode → List HashKey
  | [] => []
  | k :: ks => k.hashKey :: ANode.hashKeyL ks
end

end Pyv
