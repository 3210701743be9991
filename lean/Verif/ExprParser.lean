import Verif.Ast
import Verif.Lexer
/-
  The expression part of the parser: pyverilog/vparser/parser.py.
-/
namespace Pyv

/-- Stack symbols of the LALR parser: terminals, and the nonterminals `expression`, `identifier`, `pointer`,
`concatlist`, `concat`, `func_args`/`sysargs` and `scope` with their values. -/
inductive Sym where
  | tok (t : Tok)
  | ex (e : Ex)
  | idn (sc : List Str) (n : Str)
  | ptr (v p : Ex)
  | cl (es : List Ex)
  | cat (es : List Ex)
  | args (es : List Ex)
  | scope (sc : List Str)
  deriving Repr

/-- The productions `expression : expression OP expression` (parser.py:1001-1137): the class each operator token
builds. -/
def Pun.binOp : Pun → Option Op
  | .power => some .power | .times => some .times | .divide => some .divide | .mod => some .mod
  | .plus => some .plus | .minus => some .minus
  | .lshift => some .sll | .rshift => some .srl | .lshifta => some .sla | .rshifta => some .sra
  | .lt => some .lessThan | .gt => some .greaterThan | .le => some .lessEq | .ge => some .greaterEq
  | .eq => some .eq | .ne => some .notEq | .eql => some .eql | .nel => some .notEql
  | .and => some .and | .xor => some .xor | .xnor => some .xnor | .or => some .or
  | .land => some .land | .lor => some .lor
  | _ => none

/-- The productions `expression : OP expression` (parser.py:949-997): `+e` is `e` itself. -/
def Pun.unOp : Pun → Option (Ex → Ex)
  | .minus => some (.un .uminus) | .plus => some (fun e => e) | .lnot => some (.un .ulnot) | .not => some (.un .unot)
  | .and => some (.un .uand) | .nand => some (.un .unand) | .nor => some (.un .unor) | .or => some (.un .uor)
  | .xor => some (.un .uxor) | .xnor => some (.un .uxnor)
  | _ => none

/-- The precedence level of a token: parser.py:34-48; 0 for a token that is not listed (COND, COLON). -/
def Pun.level : Pun → Nat
  | .lor => 1 | .land => 2 | .or => 3 | .xor | .xnor => 4 | .and => 5
  | .eq | .ne | .eql | .nel => 6
  | .lt | .gt | .le | .ge => 7
  | .lshift | .rshift | .lshifta | .rshifta => 8
  | .plus | .minus => 9
  | .times | .divide | .mod => 10
  | .power => 11
  | _ => 0

/-- A lookahead that can be shifted after an expression because it goes on with that expression: the binary operators
and `?`. -/
def Tok.infix? : Option Tok → Option Nat
  | some (.p k) => if k.binOp.isSome ∨ k = .cond then some k.level else none
  | _ => none

/-- The resolution of a shift/reduce conflict by PLY (ply/yacc.py `lr_parse_table`) between a left associative
production of level `rl` and the lookahead: reduce if the lookahead's level is smaller or equal.  All binary operators
are left associative; the unary productions have level 12 (`%prec`), above every token.  Without a token to shift the
parser reduces. -/
def reduceLeft (rl : Nat) (la : Option Tok) : Bool :=
  match Tok.infix? la with
  | some sl => decide (sl ≤ rl)
  | none => true

/-- The same for `expression : expression COND expression COLON expression` (parser.py:1141-1144): its level is that of
COLON, which has none, so it is ('right', 0) and every operator token, and `?` too, is shifted. -/
def reduceCond (la : Option Tok) : Bool := (Tok.infix? la).isNone

/-- Is the stack below a `(` the beginning of a function or system call? -/
def callHead : List Sym → Bool
  | .idn _ _ :: _ => true
  | .tok (.id _) :: .tok (.p .doller) :: _ => true
  | .tok (.kw _) :: .tok (.p .doller) :: _ => true
  | _ => false

/-- Shift the next token. -/
def shift (st : List Sym) : List Tok → Option (List Sym × List Tok)
  | [] => none
  | t :: ts => some (.tok t :: st, ts)

/-- The actions with an expression on the top of the stack. -/
def stepEx (e : Ex) (st : List Sym) (ts : List Tok) : Option (List Sym × List Tok) :=
  match st with
  | .tok (.p .lbrace) :: _ =>
    if ts.head? = some (.p .rbrace) ∨ ts.head? = some (.p .comma) then some (.cl [e] :: st, ts)
    else shift (.ex e :: st) ts
  | .tok (.p .colon) :: .ex t :: .tok (.p .cond) :: .ex c :: st' =>
    if reduceCond ts.head? then some (.ex (.cond c t e) :: st', ts) else shift (.ex e :: st) ts
  | .tok (.p k) :: .ex a :: st' =>
    match k.binOp with
    | some o => if reduceLeft k.level ts.head? then some (.ex (.bin o a e) :: st', ts) else shift (.ex e :: st) ts
    | none => shift (.ex e :: st) ts
  | .tok (.p .comma) :: .args es :: .tok (.p .lparen) :: st' =>
    if (Tok.infix? ts.head?).isSome then shift (.ex e :: st) ts
    else some (.args (es ++ [e]) :: .tok (.p .lparen) :: st', ts)
  | .tok (.p .comma) :: .cl es :: .tok (.p .lbrace) :: st' =>
    if (Tok.infix? ts.head?).isSome then shift (.ex e :: st) ts
    else some (.cl (es ++ [e]) :: .tok (.p .lbrace) :: st', ts)
  | .tok (.p .lparen) :: st' =>
    if callHead st' ∧ (ts.head? = some (.p .rparen) ∨ ts.head? = some (.p .comma)) then
      some (.args [e] :: st, ts)
    else shift (.ex e :: st) ts
  | .tok (.p k) :: st' =>
    match k.unOp with
    | some f => some (.ex (f e) :: st', ts)
    | none => shift (.ex e :: st) ts
  | _ => shift (.ex e :: st) ts

/-- The actions after a `)`: parser.py:1147-1149, 2059-2066, 2156-2158. -/
def stepParen : List Sym → Option (List Sym)
  | .ex e :: .tok (.p .lparen) :: st => if callHead st then none else some (.ex e :: st)
  | .args es :: .tok (.p .lparen) :: .idn [] f :: st => some (.ex (.call f es) :: st)
  | .args es :: .tok (.p .lparen) :: .tok (.id f) :: .tok (.p .doller) :: st => some (.ex (.sys f es) :: st)
  | .args es :: .tok (.p .lparen) :: .tok (.kw f) :: .tok (.p .doller) :: st =>
    if f = "signed".toList then some (.ex (.sys f es) :: st) else none
  | _ => none

/-- `identifier` or `pointer` as a node: parser.py:2227-2236, 1247-1256. -/
def Sym.base? : Sym → Option Ex
  | .idn sc n => some (.ident sc n)
  | .ptr v p => some (.ptr v p)
  | _ => none

/-- The actions after a `]`: parser.py:1213-1255. -/
def stepBracket : List Sym → Option (List Sym)
  | .ex p :: .tok (.p .lbracket) :: b :: st => (b.base?).map (fun v => .ptr v p :: st)
  | .ex l :: .tok (.p .colon) :: .ex m :: .tok (.p .lbracket) :: b :: st =>
    (b.base?).map (fun v => .ex (.psel v m l) :: st)
  | .ex l :: .tok (.p .pluscolon) :: .ex m :: .tok (.p .lbracket) :: b :: st =>
    (b.base?).map (fun v => .ex (.psel v m (.bin .plus m l)) :: st)
  | .ex l :: .tok (.p .minuscolon) :: .ex m :: .tok (.p .lbracket) :: b :: st =>
    (b.base?).map (fun v => .ex (.psel v m (.bin .minus m l)) :: st)
  | _ => none

/-- The actions after a `}`: parser.py:1193-1211. -/
def stepBrace : List Sym → Option (List Sym)
  | .cat es :: .ex t :: .tok (.p .lbrace) :: st => some (.ex (.rep t (.concat es)) :: st)
  | .cl es :: .tok (.p .lbrace) :: st => some (.cat es :: st)
  | _ => none

/-- One action of the LALR parser restricted to the expression grammar (parser.py:949-1295, 2054-2084, 2156-2173,
2227-2248), the stack given top first.  `none`: no action.  Simplifications: the unit productions of constants
(`intnumber`, `const_expression`, ...) and `repeat`, `partselect`, `functioncall`, `systemcall` go to `expression` at
once, which no lookahead prevents; a token that cannot follow is shifted and the stack gets stuck later instead of an
immediate error; a scope label with an index (`a[1].b`) and a called function with a scope have no representation in
`Ex` and are refused. -/
def step (st : List Sym) (ts : List Tok) : Option (List Sym × List Tok) :=
  match st with
  | .ex e :: st' => stepEx e st' ts
  | .idn sc n :: st' =>
    match ts.head? with
    | some (.p .lbracket) | some (.p .dot) | some (.p .lparen) => shift st ts
    | _ => some (.ex (.ident sc n) :: st', ts)
  | .ptr v p :: st' =>
    match ts.head? with
    | some (.p .lbracket) | some (.p .dot) => shift st ts
    | _ => some (.ex (.ptr v p) :: st', ts)
  | .cat es :: st' =>
    match st' with
    | .ex _ :: _ => shift st ts
    | _ => some (.ex (.concat es) :: st', ts)
  | .tok (.int s) :: st' => some (.ex (.intc s) :: st', ts)
  | .tok (.flt s) :: st' => some (.ex (.fltc s) :: st', ts)
  | .tok (.str s) :: st' => some (.ex (.strc (s.drop 1).dropLast) :: st', ts)
  | .tok (.id n) :: .scope sc :: st' => some (.idn sc n :: st', ts)
  | .tok (.id n) :: .tok (.p .doller) :: st' =>
    if ts.head? = some (.p .lparen) then shift st ts else some (.ex (.sys n []) :: st', ts)
  | .tok (.id n) :: st' => some (.idn [] n :: st', ts)
  | .tok (.p .dot) :: .idn sc n :: st' => some (.scope (sc ++ [n]) :: st', ts)
  | .tok (.p .rparen) :: st' => (stepParen st').map (fun s => (s, ts))
  | .tok (.p .rbracket) :: st' => (stepBracket st').map (fun s => (s, ts))
  | .tok (.p .rbrace) :: st' => (stepBrace st').map (fun s => (s, ts))
  | .tok (.p .lparen) :: st' =>
    if callHead st' ∧ (ts.head? = some (.p .rparen) ∨ ts.head? = some (.p .comma)) then some (.args [] :: st, ts)
    else shift st ts
  | _ => shift st ts

/-- The parser's loop on the tokens of one expression (parser.py:71-79 `parse`, PLY's engine): actions until the whole
input has become one expression.  `fuel` bounds the number of actions. -/
def parseN : Nat → List Sym → List Tok → Option Ex
  | 0, _, _ => none
  | n + 1, st, ts =>
    match st, ts with
    | [.ex e], [] => some e
    | _, _ =>
      match step st ts with
      | none => none
      | some (st', ts') => parseN n st' ts'

/-- The text of an expression is parsed to `e`: it is cut into tokens, and the parser's loop ends with `e`. -/
def ParsesTo (text : Str) (e : Ex) : Prop := ∃ ts, lex text = some ts ∧ ∃ n, parseN n [] ts = some e

end Pyv
