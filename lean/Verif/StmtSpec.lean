import Verif.StmtCodegen
import Verif.CodegenSpec
import Verif.StmtGrammar
/-
  Specification for the code generator: which statements are expected to survive a print and a parse.
-/
namespace Pyv

mutual
/-- `P` holds for every name, number and string spelt in the expression. -/
def Ex.Leaves (P : Str → Prop) : Ex → Prop
  | .ident sc n => ∀ l ∈ n :: sc, P l
  | .intc s => P s
  | .fltc s => P s
  | .strc s => P s
  | .uplus e => e.Leaves P
  | .un _ e => e.Leaves P
  | .bin _ a b => a.Leaves P ∧ b.Leaves P
  | .cond c t f => c.Leaves P ∧ t.Leaves P ∧ f.Leaves P
  | .psel v m l => v.Leaves P ∧ m.Leaves P ∧ l.Leaves P
  | .ptr v p => v.Leaves P ∧ p.Leaves P
  | .concat es => Ex.Leavess P es
  | .rep t v => t.Leaves P ∧ v.Leaves P
  | .call f es => P f ∧ Ex.Leavess P es
  | .sys f es => P f ∧ Ex.Leavess P es
/-- `Ex.Leaves` on lists. -/
def Ex.Leavess (P : Str → Prop) : List Ex → Prop
  | [] => True
  | e :: es => e.Leaves P ∧ Ex.Leavess P es
end

/-- A text on one line. -/
def OneLine (s : Str) : Prop := ∀ c ∈ s, isBreak c = false

/-- An expression that can be printed: Verilog (`Ex.WF`), and no name or string contains a line separator. -/
def Ex.Printable (e : Ex) : Prop := e.WF ∧ e.Leaves OneLine

/-- What may be assigned to: a name, an element, a part, or a concatenation of these. -/
inductive Ex.Assignable : Ex → Prop
  | base (e : Ex) : e.isBase = true → e.Assignable
  | part (v m l : Ex) : (Ex.psel v m l).Assignable
  | concat (es : List Ex) : (∀ e ∈ es, e.Assignable) → (Ex.concat es).Assignable

/-- None in the place of a statement. -/
def Stmt.isNull : Stmt → Bool
  | .skip => true
  | _ => false

/-- The statement ends with an if without else: an `else` after it would belong to that if. -/
def Stmt.openIf : Stmt → Bool
  | .ifs _ _ f => f.isNull || f.openIf
  | .fors _ _ _ _ _ s => s.openIf
  | .whiles _ s => s.openIf
  | _ => false

/-- The conditions of a case item. -/
def CondsOK : Option (List Ex) → Prop
  | none => True
  | some cs => cs ≠ [] ∧ ∀ c ∈ cs, c.Printable

mutual
/-- The statements that are expected to survive: sides, conditions and alternatives are expressions; only assignable
expressions are assigned to; a branch in front of an else does not end with an if without else, and the last branch is no bare loop (the parser fails
on it, `C65_fails_loop`); a case statement is
`case` or `casex` and has an item; the three parts of a for loop can be printed without spaces and the last one without
semicolons; None stands only for a missing else. -/
def Stmt.WF : Stmt → Prop
  | .skip => False
  | .nb l r => l.Printable ∧ l.Assignable ∧ r.Printable
  | .ba l r => l.Printable ∧ l.Assignable ∧ r.Printable
  | .ifs c t f => c.Printable ∧ t.WF ∧ ((f = .skip ∧ t.isLoop = false) ∨ (f.WF ∧ t.openIf = false ∧ f.isLoop = false))
  | .cases k comp conds bodies =>
    (k = .case_ ∨ k = .casex) ∧ comp.Printable ∧ conds ≠ [] ∧ conds.length = bodies.length ∧ (∀ c ∈ conds, CondsOK c) ∧
      Stmt.WFs bodies
  | .block name ss => (∀ n, name = some n → IsName n ∧ OneLine n) ∧ Stmt.WFs ss
  | .fors pl pr c ql qr body =>
    pl.Assignable ∧ ql.Assignable ∧
      (∀ e, e = pl ∨ e = pr ∨ e = c ∨ e = ql ∨ e = qr → e.Printable ∧ e.Tight) ∧
      ql.Leaves (';' ∉ ·) ∧ qr.Leaves (';' ∉ ·) ∧ body.WF
  | .whiles c body => c.Printable ∧ body.WF
/-- `Stmt.WF` on lists. -/
def Stmt.WFs : List Stmt → Prop
  | [] => True
  | s :: ss => s.WF ∧ Stmt.WFs ss
end

mutual
/-- The statement without the unary plus operators of its expressions (see `Ex.erase`). -/
def Stmt.erase : Stmt → Stmt
  | .skip => .skip
  | .nb l r => .nb l.erase r.erase
  | .ba l r => .ba l.erase r.erase
  | .ifs c t f => .ifs c.erase t.erase f.erase
  | .cases k comp conds bodies => .cases k comp.erase (conds.map (Option.map (List.map Ex.erase))) (Stmt.erases bodies)
  | .block name ss => .block name (Stmt.erases ss)
  | .fors pl pr c ql qr body => .fors pl.erase pr.erase c.erase ql.erase qr.erase body.erase
  | .whiles c body => .whiles c.erase body.erase
/-- `Stmt.erase` on lists. -/
def Stmt.erases : List Stmt → List Stmt
  | [] => []
  | s :: ss => s.erase :: Stmt.erases ss
end

end Pyv
