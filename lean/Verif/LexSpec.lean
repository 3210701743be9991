import Verif.Lexer
/-
  Specification: the literals and names of Verilog that lexer.py accepts as single tokens, written as a grammar of
  texts (not as a scanner).
-/
namespace Pyv

/-- A name written with letters, digits, `_` and `$` that is not a reserved word. -/
def PlainId (n : Str) : Prop :=
  (∃ c r, n = c :: r ∧ isIdStart c = true ∧ ∀ x ∈ r, isIdChar x = true) ∧ n ∉ reservedWords

/-- An escaped name: a backslash and at least one character that is not white space. -/
def EscId (n : Str) : Prop := ∃ r, n = '\\' :: r ∧ r ≠ [] ∧ ∀ x ∈ r, isSp x = false

/-- An identifier as the AST stores it. -/
def IsName (n : Str) : Prop := PlainId n ∨ EscId n

/-- The reserved words of the language Pyverilog reads, by what they are for (kept apart from the table of the lexer,
`reservedWords`, so that the two can be compared). -/
inductive Keyword : String → Prop
  | unit (w) : w = "module" ∨ w = "endmodule" ∨ w = "function" ∨ w = "endfunction" ∨ w = "task" ∨ w = "endtask" ∨
      w = "generate" ∨ w = "endgenerate" → Keyword w
  | declare (w) : w = "genvar" ∨ w = "input" ∨ w = "output" ∨ w = "inout" ∨ w = "tri" ∨ w = "reg" ∨ w = "logic" ∨
      w = "wire" ∨ w = "integer" ∨ w = "real" ∨ w = "signed" ∨ w = "parameter" ∨ w = "localparam" ∨ w = "supply0" ∨
      w = "supply1" → Keyword w
  | process (w) : w = "assign" ∨ w = "always" ∨ w = "always_ff" ∨ w = "always_comb" ∨ w = "always_latch" ∨
      w = "initial" ∨ w = "or" ∨ w = "posedge" ∨ w = "negedge" → Keyword w
  | choose (w) : w = "if" ∨ w = "else" ∨ w = "case" ∨ w = "casex" ∨ w = "casez" ∨ w = "unique" ∨ w = "endcase" ∨
      w = "default" → Keyword w
  | flow (w) : w = "begin" ∨ w = "end" ∨ w = "fork" ∨ w = "join" ∨ w = "for" ∨ w = "while" ∨ w = "forever" ∨
      w = "wait" ∨ w = "disable" → Keyword w

/-- `c` is a digit of base `b` (with the unknown and high-impedance digits). -/
def baseDigit (b c : Char) : Prop :=
  (b ∈ ['b', 'B'] ∧ c ∈ "01xXzZ?".toList) ∨
  (b ∈ ['o', 'O'] ∧ c ∈ "01234567xXzZ?".toList) ∨
  (b ∈ ['h', 'H'] ∧ c ∈ "0123456789abcdefABCDEFxXzZ?".toList) ∨
  (b ∈ ['d', 'D'] ∧ c ∈ "0123456789xXzZ?".toList)

/-- Integer literals: `123`, `8'hff`, `'b1_0`, `4'sd3`, ...  (a signed binary literal does not begin with `X`: see
`intRules`). -/
inductive IntLit : Str → Prop
  | dec (d : Char) (ds : Str) : isDig d = true → (∀ c ∈ ds, isDig c = true ∨ c = '_') → IntLit (d :: ds)
  | based (size sg : Str) (b f : Char) (ds : Str) :
      (∀ c ∈ size, isDig c = true) → (sg = [] ∨ sg = ['s'] ∨ sg = ['S']) →
      baseDigit b f → (∀ c ∈ ds, baseDigit b c ∨ c = '_') →
      ¬ (sg ≠ [] ∧ b ∈ ['b', 'B'] ∧ f = 'X') →
      IntLit (size ++ '\'' :: (sg ++ b :: f :: ds))

/-- The exponent of a real literal. -/
def ExpPart (x : Str) : Prop :=
  ∃ e sg ds, x = e :: (sg ++ ds) ∧ (e = 'e' ∨ e = 'E') ∧ (sg = [] ∨ sg = ['-'] ∨ sg = ['+']) ∧ ds ≠ [] ∧
    ∀ c ∈ ds, isDig c = true

/-- Real literals: `1.5`, `.5`, `1.`, `1.5e-3`, `1e9`. -/
inductive FloatLit : Str → Prop
  | frac (d f x : Str) : (∀ c ∈ d, isDig c = true) → (∀ c ∈ f, isDig c = true) → ¬ (d = [] ∧ f = []) →
      (x = [] ∨ ExpPart x) → FloatLit (d ++ '.' :: (f ++ x))
  | expo (d x : Str) : (∀ c ∈ d, isDig c = true) → d ≠ [] → ExpPart x → FloatLit (d ++ x)

/-- The text between the quotes of a string literal. -/
inductive StrBody : Str → Prop
  | nil : StrBody []
  | chr (c : Char) (s : Str) : c ≠ '"' → c ≠ '\\' → c ≠ '\n' → StrBody s → StrBody (c :: s)
  | esc (c : Char) (s : Str) : isEscChar c = true → StrBody s → StrBody ('\\' :: c :: s)

end Pyv
