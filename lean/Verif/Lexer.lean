import Verif.Util
/-
  The lexical analyser: pyverilog/vparser/lexer.py.
-/
namespace Pyv

/-- The operator and punctuation tokens: lexer.py:71-92. -/
inductive Pun where
  | plus | minus | power | times | divide | mod
  | not | or | nor | and | nand | xor | xnor
  | lor | land | lnot
  | lshifta | rshifta | lshift | rshift
  | lt | gt | le | ge | eq | ne | eql | nel
  | cond | equals
  | at | comma | colon | semicolon | dot
  | pluscolon | minuscolon
  | lparen | rparen | lbracket | rbracket | lbrace | rbrace
  | delay | doller
  deriving DecidableEq, Repr

/-- Tokens: type and value of a PLY token; `kw` is a reserved word, `int` any of the eight integer literal types (the
parser treats them alike, parser.py:1278-1290). -/
inductive Tok where
  | p (k : Pun)
  | id (s : Str)
  | kw (s : Str)
  | int (s : Str)
  | flt (s : Str)
  | str (s : Str)
  deriving DecidableEq, Repr

/-- lexer.py:123-182: the text of an operator or punctuation token. -/
def Pun.text : Pun → Str
  | .plus => "+".toList | .minus => "-".toList | .power => "**".toList | .times => "*".toList
  | .divide => "/".toList | .mod => "%".toList | .not => "~".toList | .or => "|".toList | .nor => "~|".toList
  | .and => "&".toList | .nand => "~&".toList | .xor => "^".toList | .xnor => "~^".toList | .lor => "||".toList
  | .land => "&&".toList | .lnot => "!".toList | .lshifta => "<<<".toList | .rshifta => ">>>".toList
  | .lshift => "<<".toList | .rshift => ">>".toList | .lt => "<".toList | .gt => ">".toList | .le => "<=".toList
  | .ge => ">=".toList | .eq => "==".toList | .ne => "!=".toList | .eql => "===".toList | .nel => "!==".toList
  | .cond => "?".toList | .equals => "=".toList | .at => "@".toList | .comma => ",".toList | .colon => ":".toList
  | .semicolon => ";".toList | .dot => ".".toList | .pluscolon => "+:".toList | .minuscolon => "-:".toList
  | .lparen => "(".toList | .rparen => ")".toList | .lbracket => "[".toList | .rbracket => "]".toList
  | .lbrace => "{".toList | .rbrace => "}".toList | .delay => "#".toList | .doller => "$".toList

/-- The rules given as strings in the order in which PLY tries them: by decreasing length of the regular expression
(ply/lex.py sorts them so; the backslashes of `\|\|` count).  Rules of the same length are never prefixes of each
other. -/
def Pun.rules : List Pun :=
  [.lor, .land, .power,
   .nor, .nand, .xnor, .lshifta, .rshifta, .eql, .nel, .pluscolon,
   .or, .and, .xor, .lshift, .rshift, .eq, .ne, .le, .ge, .plus, .times, .cond, .minuscolon, .dot,
   .lparen, .rparen, .lbracket, .rbracket, .lbrace, .rbrace, .delay, .doller,
   .lnot, .not, .lt, .gt, .minus, .divide, .mod, .equals, .at, .comma, .semicolon, .colon]

/-- lexer.py:55-69 `keywords`, `reserved`. -/
def reservedWords : List Str :=
  ["module", "endmodule", "begin", "end", "generate", "endgenerate", "genvar", "function", "endfunction", "task",
   "endtask", "input", "inout", "output", "tri", "reg", "logic", "wire", "integer", "real", "signed", "parameter",
   "localparam", "supply0", "supply1", "assign", "always", "always_ff", "always_comb", "always_latch", "or", "posedge",
   "negedge", "initial", "if", "else", "for", "while", "case", "casex", "casez", "unique", "endcase", "default",
   "wait", "forever", "disable", "fork", "join"].map String.toList

/-- `[0-9]`. -/
def isDig (c : Char) : Bool := decide ('0' ≤ c) && decide (c ≤ '9')
/-- `[a-zA-Z]`. -/
def isLet (c : Char) : Bool := (decide ('a' ≤ c) && decide (c ≤ 'z')) || (decide ('A' ≤ c) && decide (c ≤ 'Z'))
/-- `[a-zA-Z_]`. -/
def isIdStart (c : Char) : Bool := isLet c || c == '_'
/-- `[a-zA-Z_0-9$]`. -/
def isIdChar (c : Char) : Bool := isLet c || c == '_' || isDig c || c == '$'
/-- The complement of `\S`.  Simplification: only the ASCII white space characters. -/
def isSp (c : Char) : Bool :=
  c == ' ' || c == '\t' || c == '\n' || c == '\r' || c.val == 0x0b || c.val == 0x0c || (0x1c ≤ c.val && c.val ≤ 0x1f)

/-- `.*?\n` after the opening characters (lexer.py:103, 114): up to the first newline, which must exist. -/
def scanLine : Str → Option Str
  | [] => none
  | c :: r => if c = '\n' then some r else scanLine r

/-- `(.|\n)*?\*/` (lexer.py:115): up to the first `*/`, which must exist. -/
def scanComment : Str → Option Str
  | '*' :: '/' :: r => some r
  | _ :: r => scanComment r
  | [] => none

/-- What may follow a backslash in a string (lexer.py:202-205); the longer octal and hexadecimal escapes go on with
characters that are string characters anyway. -/
def isEscChar (c : Char) : Bool :=
  isLet c || c == '\\' || c == '?' || c == '\'' || c == '"' || (decide ('0' ≤ c) && decide (c ≤ '7'))

/-- lexer.py:202-207 `string_literal` after the opening quote: the characters up to the closing one. -/
def scanStr : Str → Option (Str × Str)
  | [] => none
  | '"' :: r => some ([], r)
  | '\n' :: _ => none
  | '\\' :: c :: r =>
    if isEscChar c then (scanStr r).map (fun x => ('\\' :: c :: x.1, x.2)) else none
  | ['\\'] => none
  | c :: r => (scanStr r).map (fun x => (c :: x.1, x.2))

/-- lexer.py:207 `string_literal`. -/
def scanQuoted : Str → Option (Str × Str)
  | '"' :: r => scanStr r
  | _ => none

/-- An optional character of a class. -/
def optChar (cl : Str) : Str → Str
  | c :: _ => if c ∈ cl then [c] else []
  | [] => []

/-- lexer.py:197 `exponent_part`. -/
def scanExp : Str → Option (Str × Str)
  | [] => none
  | e :: r =>
    if e = 'e' ∨ e = 'E' then
      let sg := optChar ['-', '+'] r
      let r' := r.drop sg.length
      let ds := r'.takeWhile isDig
      if ds = [] then none else some (e :: sg ++ ds, r'.dropWhile isDig)
    else none

/-- lexer.py:197-200 `float_number`. -/
def scanFloat (cs : Str) : Option (Str × Str) :=
  let d := cs.takeWhile isDig
  match cs.dropWhile isDig with
  | '.' :: r =>
    let f := r.takeWhile isDig
    if d = [] ∧ f = [] then none
    else
      match scanExp (r.dropWhile isDig) with
      | some (x, r') => some (d ++ '.' :: f ++ x, r')
      | none => some (d ++ '.' :: f, r.dropWhile isDig)
  | r => if d = [] then none else (scanExp r).map (fun x => (d ++ x.1, x.2))

/-- The based integer literals in the order of their rules (lexer.py:184-195, 216-249): signed or not, the base
letters, the class of the first digit and the class of the others.  The first digit class of signed binary literals is
spelt `[0-1xZzZ?]` in lexer.py:185, without `X`. -/
def intRules : List (Bool × Str × Str × Str) :=
  [(true, "bB".toList, "01xZz?".toList, "01xXzZ?_".toList),
   (false, "bB".toList, "01xXzZ?".toList, "01xXzZ?_".toList),
   (true, "oO".toList, "01234567xXzZ?".toList, "01234567xXzZ?_".toList),
   (false, "oO".toList, "01234567xXzZ?".toList, "01234567xXzZ?_".toList),
   (true, "hH".toList, "0123456789abcdefABCDEFxXzZ?".toList, "0123456789abcdefABCDEFxXzZ?_".toList),
   (false, "hH".toList, "0123456789abcdefABCDEFxXzZ?".toList, "0123456789abcdefABCDEFxXzZ?_".toList),
   (true, "dD".toList, "0123456789xXzZ?".toList, "0123456789xXzZ?_".toList),
   (false, "dD".toList, "0123456789xXzZ?".toList, "0123456789xXzZ?_".toList)]

/-- One rule of `intRules` on the text after the size and the quote. -/
def scanBase (ru : Bool × Str × Str × Str) (r : Str) : Option (Str × Str) :=
  let sg : Str := optChar (if ru.1 then ['s', 'S'] else []) r
  if ru.1 ∧ sg = [] then none
  else
    match r.drop sg.length with
    | b :: f :: r' =>
      if b ∈ ru.2.1 ∧ f ∈ ru.2.2.1 then
        some (sg ++ b :: f :: r'.takeWhile (fun c => decide (c ∈ ru.2.2.2)), r'.dropWhile (fun c => decide (c ∈ ru.2.2.2)))
      else none
    | _ => none

/-- lexer.py:184-195: the based literals; the size is `[0-9]*`. -/
def scanBased (cs : Str) : Option (Str × Str) :=
  match cs.dropWhile isDig with
  | '\'' :: r => (intRules.findSome? (fun ru => scanBase ru r)).map (fun x => (cs.takeWhile isDig ++ '\'' :: x.1, x.2))
  | _ => none

/-- lexer.py:184-195: the integer literals.  A plain decimal number is `[0-9][0-9_]*`, the last alternative tried
(lexer.py:193). -/
def scanInt (cs : Str) : Option (Str × Str) :=
  match scanBased cs with
  | some x => some x
  | none =>
    match cs with
    | c :: r =>
      if isDig c then some (c :: r.takeWhile (fun c => isDig c || c == '_'), r.dropWhile (fun c => isDig c || c == '_'))
      else none
    | [] => none

/-- lexer.py:209 `identifier`. -/
def scanId : Str → Option (Str × Str)
  | [] => none
  | c :: r =>
    if isIdStart c then some (c :: r.takeWhile isIdChar, r.dropWhile isIdChar)
    else if c = '\\' ∧ (r.takeWhile (fun c => !isSp c)) ≠ [] then
      some (c :: r.takeWhile (fun c => !isSp c), r.dropWhile (fun c => !isSp c))
    else none

/-- The string rules of lexer.py:123-182 tried in order. -/
def scanPun (cs : Str) : Option (Pun × Str) :=
  Pun.rules.findSome? (fun k => if k.text.isPrefixOf cs then some (k, cs.drop k.text.length) else none)

/-- lexer.py:107-121 t_DIRECTIVE, t_LINECOMMENT, t_COMMENTOUT: skipped text. -/
def scanSkip : Str → Option Str
  | '`' :: r => scanLine r
  | '/' :: '/' :: r => scanLine r
  | '/' :: '*' :: r => scanComment r
  | _ => none

/-- One step of the lexer at a character that is not ignored: the function rules in the order of their definition, then
the string rules.  The result is the token (None for skipped text) and the remaining text; `none` is t_error. -/
def lexTok (cs : Str) : Option (Option Tok × Str) :=
  match scanSkip cs with
  | some r => some (none, r)
  | none =>
  match scanQuoted cs with
  | some (s, r) => some (some (.str ('"' :: s ++ ['"'])), r)
  | none =>
  match scanFloat cs with
  | some (s, r) => some (some (.flt s), r)
  | none =>
  match scanInt cs with
  | some (s, r) => some (some (.int s), r)
  | none =>
  match scanId cs with
  | some (s, r) => some (some (if s ∈ reservedWords then .kw s else .id s), r)
  | none =>
  match cs with
  | '\n' :: r => some (none, r)
  | _ =>
  match scanPun cs with
  | some (k, r) => some (some (.p k), r)
  | none => none

/-- Repeated `VerilogLexer.token()` (lexer.py:50-51): white space (`t_ignore`) is passed over, the other text is cut into
tokens; `none` is a lexical error (`t_error` raises ParseError through parser.py:66-68). -/
def lexN : Nat → Str → Option (List Tok)
  | _, [] => some []
  | 0, _ => none
  | n + 1, c :: cs =>
    if c = ' ' ∨ c = '\t' then lexN n cs
    else
      match lexTok (c :: cs) with
      | none => none
      | some (none, r) => lexN n r
      | some (some t, r) => (lexN n r).map (t :: ·)

/-- All tokens of a text.  Every step consumes a character (`lexTok_shrinks`), so the length is fuel enough. -/
def lex (cs : Str) : Option (List Tok) := lexN cs.length cs

end Pyv
