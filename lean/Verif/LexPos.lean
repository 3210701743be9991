import Verif.Lexer
/-
  Lines and positions of tokens, compiler directives, lexical errors: pyverilog/vparser/lexer.py and the parts of
  vparser/parser.py that call the lexer.
-/
namespace Pyv

/-- The text of a token (`value` of a PLY token). -/
def Tok.text : Tok → Str
  | .p k => k.text
  | .id s => s
  | .kw s => s
  | .int s => s
  | .flt s => s
  | .str s => s

/-- A PLY token with its `lineno` and `lexpos`. -/
structure LTok where
  tok : Tok
  line : Nat
  pos : Nat
  deriving DecidableEq, Repr

/-- The state of a `VerilogLexer` that survives from one text to the next (lexer.py:29-33 and `lineno` of the PLY lexer,
which `input` does not reset; parser.py:76-77 `parse` does not call `reset_lineno`, lexer.py:41-42). -/
structure LexSt where
  line : Nat := 1
  directives : List (Nat × Str) := []
  nettype : Str := "wire".toList
  deriving DecidableEq, Repr

/-- A lexical error (lexer.py:257-264): the character, the line and the column of the message. -/
structure LexErr where
  char : Char
  line : Nat
  column : Nat
  pos : Nat
  deriving DecidableEq, Repr

/-- lexer.py:266-272 `_find_tok_column`: the loop, from position `i` down. -/
def lineStart (text : Str) : Nat → Nat
  | 0 => 0
  | i + 1 => if text[i + 1]? = some '\n' then i + 1 else lineStart text i

/-- lexer.py:266-272 `_find_tok_column`. -/
def findColumn (text : Str) (pos : Nat) : Nat := (pos - lineStart text pos) + 1

/-- lexer.py:107-109 `re.match("^`default_nettype\s+(.+)\n", t.value).group(1)` on a directive: the blanks after the word
are passed over, but one character is left for the group. -/
def nettypeOf (directive : Str) : Option Str :=
  let w := "`default_nettype".toList
  if w.isPrefixOf directive then
    let body := (directive.drop w.length).dropLast
    match body with
    | [] => none
    | c :: r =>
      if isSp c then
        match (c :: r).dropWhile isSp with
        | [] => if r = [] then none else r.getLast?.map (fun x => [x])
        | s => some s
      else none
  else none

/-- The effect of a piece of skipped text on the state of the lexer: lexer.py:103-110 t_DIRECTIVE, 116-124 the comments,
252-255 t_NEWLINE. -/
def LexSt.skip (st : LexSt) (s : Str) : LexSt :=
  match s with
  | '`' :: _ =>
    { line := st.line + s.count '\n', directives := st.directives ++ [(st.line, s)], nettype := (nettypeOf s).getD st.nettype }
  | _ => { st with line := st.line + s.count '\n' }

/-- Repeated `token()` with positions; `cs` is the rest of `text` from `pos` on.  Simplification: `t_NEWLINE` takes one
newline at a time.  Without fuel (which is never short, C79_total) the result is `none`. -/
def lexRun (text : Str) : Nat → Str → Nat → LexSt → Option (Except LexErr (List LTok × LexSt))
  | _, [], _, st => some (.ok ([], st))
  | 0, _ :: _, _, _ => none
  | n + 1, c :: cs, pos, st =>
    if c = ' ' ∨ c = '\t' then lexRun text n cs (pos + 1) st
    else
      match lexTok (c :: cs) with
      | none => some (.error ⟨c, st.line, findColumn text pos, pos⟩)
      | some (none, r) =>
        let used := (c :: cs).take ((c :: cs).length - r.length)
        lexRun text n r (pos + used.length) (st.skip used)
      | some (some t, r) => do
        let res ← lexRun text n r (pos + ((c :: cs).length - r.length)) st
        match res with
        | .error e => some (.error e)
        | .ok (ts, st') => some (.ok (⟨t, st.line, pos⟩ :: ts, st'))

/-- `input(text)` and `token()` until the end of the text, from the state of the lexer. -/
def lexText (text : Str) (st : LexSt) : Option (Except LexErr (List LTok × LexSt)) := lexRun text text.length text 0 st

end Pyv
