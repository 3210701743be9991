import Verif.ExprParser
/-
  The statement part of the parser: pyverilog/vparser/parser.py.
-/
namespace Pyv

/-- What the LALR parser has read of the statements around the current position (its stack below the expression being
read), innermost first. -/
inductive OSym where
  /-- `IF LPAREN`, `WHILE LPAREN`, `CASE LPAREN`, ... -/
  | head (w : Str)
  /-- `IF LPAREN cond RPAREN` -/
  | ifh (c : Ex)
  /-- `IF LPAREN cond RPAREN true_statement ELSE` -/
  | els (c : Ex) (t : Stmt)
  /-- `WHILE LPAREN cond RPAREN` -/
  | whileh (c : Ex)
  /-- `FOR LPAREN` -/
  | forP
  /-- `FOR LPAREN forpre` -/
  | forC (l r : Ex)
  /-- `FOR LPAREN forpre forcond` -/
  | forQ (l r c : Ex)
  /-- `FOR LPAREN forpre forcond forpost RPAREN` -/
  | forB (l r c ql qr : Ex)
  /-- `BEGIN block_statements` or `BEGIN COLON ID namedblock_statements` -/
  | blk (n : Option Str) (ss : List Stmt)
  /-- `CASE LPAREN case_comp RPAREN casecontent_statements` -/
  | caseh (k : CaseKind) (comp : Ex) (conds : List (Option (List Ex))) (bodies : List Stmt)
  /-- the conditions of a case item read so far, each with its COMMA -/
  | conds (cs : List Ex)
  /-- `casecontent_condition COLON` or `DEFAULT COLON` -/
  | item (cs : Option (List Ex))
  /-- the left side of an assignment, or an item of an `lconcat`, is being read -/
  | lhs
  /-- `LBRACE lconcatlist`: the items read so far, each with its COMMA -/
  | lcat (es : List Ex)
  /-- `lvalue` or `lconcat_one` -/
  | lv (l : Ex)
  /-- `lvalue EQUALS` or `lvalue LE` (`nb`) -/
  | asg (nb : Bool) (l : Ex)
  /-- `basic_statement` -/
  | st (s : Stmt)
  deriving Repr

/-- The symbols read so far are a name, a pointer or a part select: an `lvalue` or an `lconcat_one` without braces
(parser.py:852-886, 903-921, 923-941; the productions of `lpartselect` and `lpointer` are those of `partselect` and
`pointer`, so they are read as such). -/
def leftOf : List Sym → Option Ex
  | [.idn sc n] => some (.ident sc n)
  | [.ptr v p] => some (.ptr v p)
  | [.ex (.psel v m l)] => some (.psel v m l)
  | _ => none

/-- The tokens that can follow an `lvalue` or an `lconcat_one`. -/
def Tok.endsLeft : Tok → Bool
  | .p .equals => true
  | .p .le => true
  | .p .comma => true
  | .p .rbrace => true
  | _ => false

/-- The node has an attribute `end_lineno`: it is set at parser.py:1458, 1470 (assignments), 1504-1538 (blocks), 1583-1601
(if), 1679-1697 (case), but for no loop (1607-1668). -/
def Stmt.hasEnd : Stmt → Bool
  | .fors _ _ _ _ _ _ => false
  | .whiles _ _ => false
  | .skip => false
  | _ => true

/-- The words that begin a case statement: parser.py:1670-1692. -/
def caseWord (w : Str) : Option CaseKind :=
  if w = "case".toList then some .case_
  else if w = "casex".toList then some .casex
  else if w = "casez".toList then some .casez
  else none

/-- The keyword token of a text. -/
def kwt (s : String) : Tok := .kw s.toList

/-- The next action where a `basic_statement` begins (parser.py:1427-1446): the tokens up to the first expression or
statement of its production.  Not modelled (refused): delays, event, wait, forever, parallel blocks and single
statements. -/
def startStmt (o : List OSym) : List Tok → Option (List OSym × List Sym × List Tok)
  | .kw w :: ts =>
    if w = "begin".toList then
      match ts with
      | .p .colon :: .id n :: ts' => some (.blk (some n) [] :: o, [], ts')
      | _ => some (.blk none [] :: o, [], ts)
    else if w = "for".toList then
      match ts with
      | .p .lparen :: ts' => some (.lhs :: .forP :: o, [], ts')
      | _ => none
    else if w = "unique".toList then
      match ts with
      | .kw w' :: .p .lparen :: ts' => if w' = "case".toList then some (.head w :: o, [], ts') else none
      | _ => none
    else if w = "if".toList ∨ w = "while".toList ∨ (caseWord w).isSome then
      match ts with
      | .p .lparen :: ts' => some (.head w :: o, [], ts')
      | _ => none
    else none
  | .id n :: ts => some (.lhs :: o, [], .id n :: ts)
  | .p .lbrace :: ts => some (.lhs :: o, [], .p .lbrace :: ts)
  | _ => none

/-- The reductions after a complete `basic_statement`: parser.py:1499-1503 (block), 1552-1604 (if: with ELSE as lookahead
the conflict between the two productions is resolved by shifting; the action reads the `end_lineno` of the last branch, an
AttributeError if that is a loop), 1607-1657 (for), 1660-1668 (while), 1706-1718 (case
items). -/
def reduceStmt (s : Stmt) (o : List OSym) (ts : List Tok) : Option (List OSym × List Sym × List Tok) :=
  match o with
  | .ifh c :: o' =>
    match ts with
    | .kw w :: ts' =>
      if w = "else".toList then some (.els c s :: o', [], ts')
      else if s.hasEnd then some (.st (.ifs c s .skip) :: o', [], ts) else none
    | _ => if s.hasEnd then some (.st (.ifs c s .skip) :: o', [], ts) else none
  | .els c t :: o' => if s.hasEnd then some (.st (.ifs c t s) :: o', [], ts) else none
  | .whileh c :: o' => some (.st (.whiles c s) :: o', [], ts)
  | .forP :: o' => match s with | .ba l r => some (.forC l r :: o', [], ts) | _ => none
  | .forB l r c ql qr :: o' => some (.st (.fors l r c ql qr s) :: o', [], ts)
  | .blk n ss :: o' => some (.blk n (ss ++ [s]) :: o', [], ts)
  | .item cs :: .caseh k e conds bodies :: o' => some (.caseh k e (conds ++ [cs]) (bodies ++ [s]) :: o', [], ts)
  | _ => none

/-- An action of the parser inside an expression. -/
def innerStep (o : List OSym) (i : List Sym) (ts : List Tok) : Option (List OSym × List Sym × List Tok) :=
  (step i ts).map (fun x => (o, x.1, x.2))

/-- The head of an if, while or case statement after its `)`. -/
def headOf (w : Str) (e : Ex) : Option OSym :=
  if w = "if".toList then some (.ifh e)
  else if w = "while".toList then some (.whileh e)
  else if w = "unique".toList then some (.caseh .unique e [] [])
  else (caseWord w).map (fun k => .caseh k e [] [])

/-- Inside an `lvalue` or `lconcat_one` (parser.py:852-941): it begins with a name or with the brace of an `lconcat`. -/
def stepLhs (o' : List OSym) (i : List Sym) (ts : List Tok) : Option (List OSym × List Sym × List Tok) :=
  match i with
  | [] =>
    match ts with
    | .p .lbrace :: ts' => some (.lhs :: .lcat [] :: o', [], ts')
    | .id _ :: _ => innerStep (.lhs :: o') i ts
    | _ => none
  | _ =>
    match leftOf i, ts with
    | some l, t :: _ => if t.endsLeft then some (.lv l :: o', [], ts) else innerStep (.lhs :: o') i ts
    | _, _ => innerStep (.lhs :: o') i ts

/-- After an `lvalue` or `lconcat_one`: parser.py:888-901 (`lconcat`, `lconcatlist`), 1455-1472. -/
def stepLv (l : Ex) (o' : List OSym) (ts : List Tok) : Option (List OSym × List Sym × List Tok) :=
  match o' with
  | .lcat es :: o'' =>
    match ts with
    | .p .comma :: ts' => some (.lhs :: .lcat (es ++ [l]) :: o'', [], ts')
    | .p .rbrace :: ts' => some (.lv (.concat (es ++ [l])) :: o'', [], ts')
    | _ => none
  | _ =>
    match ts with
    | .p .equals :: ts' => some (.asg false l :: o', [], ts')
    | .p .le :: ts' => some (.asg true l :: o', [], ts')
    | _ => none

/-- One action of the LALR parser restricted to statements and expressions: `o` is the stack of the statements, `i` the
stack of the expression being read. -/
def sstep (o : List OSym) (i : List Sym) (ts : List Tok) : Option (List OSym × List Sym × List Tok) :=
  match o with
  | .st s :: o' => reduceStmt s o' ts
  | .lhs :: o' => stepLhs o' i ts
  | .lv l :: o' => stepLv l o' ts
  | .lcat _ :: _ => none
  | .asg nb l :: o' =>
    match i, ts with
    | [.ex e], .p .semicolon :: ts' => some (.st (if nb then .nb l e else .ba l e) :: o', [], ts')
    | [.ex e], .p .rparen :: ts' =>
      match nb, o' with
      | false, .forQ pl pr c :: o'' => some (.forB pl pr c l e :: o'', [], ts')
      | _, _ => none
    | _, _ => innerStep o i ts
  | .head w :: o' =>
    match i, ts with
    | [.ex e], .p .rparen :: ts' => (headOf w e).map (fun h => (h :: o', [], ts'))
    | _, _ => innerStep o i ts
  | .forC l r :: o' =>
    match i, ts with
    | [.ex e], .p .semicolon :: ts' => some (.lhs :: .forQ l r e :: o', [], ts')
    | _, _ => innerStep o i ts
  | .conds cs :: o' =>
    match i, ts with
    | [.ex e], .p .comma :: ts' => some (.conds (cs ++ [e]) :: o', [], ts')
    | [.ex e], .p .colon :: ts' => some (.item (some (cs ++ [e])) :: o', [], ts')
    | _, _ => innerStep o i ts
  | .caseh k e conds bodies :: o' =>
    match ts with
    | .kw w :: ts' =>
      if w = "default".toList then
        match ts' with
        | .p .colon :: ts'' => some (.item none :: o, [], ts'')
        | _ => none
      else if w = "endcase".toList ∧ conds ≠ [] then some (.st (.cases k e conds bodies) :: o', [], ts')
      else none
    | [] => none
    | _ => some (.conds [] :: o, [], ts)
  | .blk n ss :: o' =>
    match ts with
    | .kw w :: ts' =>
      if w = "end".toList then some (.st (.block n ss) :: o', [], ts') else startStmt o ts
    | _ => startStmt o ts
  | _ => startStmt o ts

/-- The parser's loop on the tokens of one statement. -/
def sparseN : Nat → List OSym → List Sym → List Tok → Option Stmt
  | 0, _, _, _ => none
  | n + 1, o, i, ts =>
    match o, i, ts with
    | [.st s], [], [] => some s
    | _, _, _ =>
      match sstep o i ts with
      | none => none
      | some (o', i', ts') => sparseN n o' i' ts'

/-- The text of a statement is parsed to `s`. -/
def StmtParsesTo (text : Str) (s : Stmt) : Prop := ∃ ts, lex text = some ts ∧ ∃ n, sparseN n [] [] ts = some s

end Pyv
