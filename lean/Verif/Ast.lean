import Verif.DF
/-
  Abstract syntax: the expressions and procedural statements of pyverilog/vparser/ast.py.
-/
namespace Pyv

/-- Expressions: ast.py:214-232 `Identifier`, 263-273 `IntConst`, `FloatConst`, `StringConst`, 392-404 `Concat`,
410-425 `Repeat`, 427-445 `Partselect`, 447-462 `Pointer`, 493-676 the operators (the class names are the operator names
of op2mark.py; `Uplus`, which op2mark.py does not list, has its own constructor), 678-696 `Cond`, 1095-1113
`FunctionCall`, 1161-1177 `SystemCall`.  `Lvalue` and `Rvalue` (464-490) only wrap an expression and `LConcat` (406) is
`Concat` on the left of an assignment; they are left out.  Simplification: the labels of a hierarchical name carry no loop
index. -/
inductive Ex where
  | ident (scope : List Str) (name : Str)
  | intc (s : Str)
  | fltc (s : Str)
  | strc (s : Str)
  | uplus (e : Ex)
  | un (o : Op) (e : Ex)
  | bin (o : Op) (a b : Ex)
  | cond (c t f : Ex)
  | psel (v m l : Ex)
  | ptr (v p : Ex)
  | concat (es : List Ex)
  | rep (times value : Ex)
  | call (f : Str) (args : List Ex)
  | sys (f : Str) (args : List Ex)
  deriving Repr

/-- Structural induction over expressions with the list cases stated by membership. -/
theorem Ex.ind {P : Ex → Prop}
    (ident : ∀ s n, P (.ident s n)) (intc : ∀ s, P (.intc s)) (fltc : ∀ s, P (.fltc s)) (strc : ∀ s, P (.strc s))
    (uplus : ∀ e, P e → P (.uplus e)) (un : ∀ o e, P e → P (.un o e)) (bin : ∀ o a b, P a → P b → P (.bin o a b))
    (cond : ∀ c t f, P c → P t → P f → P (.cond c t f)) (psel : ∀ v m l, P v → P m → P l → P (.psel v m l))
    (ptr : ∀ v p, P v → P p → P (.ptr v p)) (concat : ∀ es, (∀ e ∈ es, P e) → P (.concat es))
    (rep : ∀ t v, P t → P v → P (.rep t v)) (call : ∀ f es, (∀ e ∈ es, P e) → P (.call f es))
    (sys : ∀ f es, (∀ e ∈ es, P e) → P (.sys f es)) (e : Ex) : P e :=
  Ex.rec (motive_1 := P) (motive_2 := fun es => ∀ e ∈ es, P e)
    ident intc fltc strc uplus un bin cond psel ptr (fun es h => concat es h) rep (fun f es h => call f es h)
    (fun f es h => sys f es h) (by simp)
    (fun h t hh ht => by intro n hn; rcases List.mem_cons.mp hn with rfl | h'; exact hh; exact ht n h') e

/-- The class of a case statement: ast.py:870-897. -/
inductive CaseKind where
  | case_ | casex | casez | unique
  deriving DecidableEq, Repr

/-- Procedural statements: ast.py:779-808 the assignments, 810-828 `IfStatement`, 830-851 `ForStatement` (pre and post
are blocking assignments), 853-868 `WhileStatement`, 870-914 the case statements with their `Case` items (`none` is
`default`), 916-929 `Block`.  `skip` is None in the place of a statement. -/
inductive Stmt where
  | skip
  | nb (l r : Ex)
  | ba (l r : Ex)
  | ifs (c : Ex) (t f : Stmt)
  | cases (k : CaseKind) (comp : Ex) (conds : List (Option (List Ex))) (bodies : List Stmt)
  | block (name : Option Str) (ss : List Stmt)
  | fors (pl pr c ql qr : Ex) (body : Stmt)
  | whiles (c : Ex) (body : Stmt)
  deriving Repr

/-- Structural induction over statements. -/
theorem Stmt.ind {P : Stmt → Prop} (skip : P .skip) (nb : ∀ l r, P (.nb l r)) (ba : ∀ l r, P (.ba l r))
    (ifs : ∀ c t f, P t → P f → P (.ifs c t f))
    (cases : ∀ k c cs ss, (∀ s ∈ ss, P s) → P (.cases k c cs ss)) (block : ∀ n ss, (∀ s ∈ ss, P s) → P (.block n ss))
    (fors : ∀ a b c d e s, P s → P (.fors a b c d e s)) (whiles : ∀ c s, P s → P (.whiles c s)) (s : Stmt) : P s :=
  Stmt.rec (motive_1 := P) (motive_2 := fun ss => ∀ s ∈ ss, P s)
    skip nb ba (fun c t f h1 h2 => ifs c t f h1 h2) (fun k c cs ss h => cases k c cs ss h) (fun n ss h => block n ss h)
    (fun a b c d e s h => fors a b c d e s h) (fun c s h => whiles c s h) (by simp)
    (fun h t hh ht => by intro n hn; rcases List.mem_cons.mp hn with rfl | h'; exact hh; exact ht n h') s

end Pyv
