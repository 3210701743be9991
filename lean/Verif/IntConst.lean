import Verif.DF
/-
  Integer literals: pyverilog/dataflow/dataflow.py:145-187 (`DFIntConst.eval`, `DFIntConst.width`).
-/
namespace Pyv

/-- The value of a digit character in bases up to 16 (Python's `int(text, base)`; Unicode digits, which the
lexer cannot produce, are not modelled). -/
def digitVal (c : Char) : Option Nat :=
  if '0' ≤ c ∧ c ≤ '9' then some (c.toNat - '0'.toNat)
  else if 'a' ≤ c ∧ c ≤ 'f' then some (c.toNat - 'a'.toNat + 10)
  else if 'A' ≤ c ∧ c ≤ 'F' then some (c.toNat - 'A'.toNat + 10)
  else none

/-- Accumulate digits in a base; ValueError on a character that is not a digit of the base. -/
def digitsVal (base : Nat) : Nat → Str → Py Nat
  | acc, [] => .ok acc
  | acc, c :: cs =>
    match digitVal c with
    | some d => if d < base then digitsVal base (acc * base + d) cs else .error .value
    | none => .error .value

/-- The optional base prefix accepted by `int(text, base)`: 0x for 16, 0o for 8, 0b for 2. -/
def stripPrefix (base : Nat) (s : Str) : Str :=
  match s with
  | '0' :: c :: rest =>
    if rest ≠ [] ∧ ((base = 16 ∧ (c = 'x' ∨ c = 'X')) ∨ (base = 8 ∧ (c = 'o' ∨ c = 'O')) ∨
        (base = 2 ∧ (c = 'b' ∨ c = 'B'))) then rest else s
  | _ => s

/-- Python's `int(text, base)` for text without blanks and underscores. -/
def pyIntOf (base : Nat) (s : Str) : Py Int :=
  let body (t : Str) : Py Nat := if t = [] then .error .value else digitsVal base 0 (stripPrefix base t)
  match s with
  | '-' :: t => do let n ← body t; .ok (-(n : Int))
  | '+' :: t => do let n ← body t; .ok n
  | t => do let n ← body t; .ok n

/-- `re.search(r'[Cc](.+)', s).group(1)`: the text after the first occurrence of one of the characters that
is followed by something. -/
def searchAfter (p : Char → Bool) : Str → Option Str
  | [] => none
  | c :: cs => if p c ∧ cs ≠ [] then some cs else searchAfter p cs

/-- `re.search(r"(.+)'[Cc].+", s).group(1)`: the (greedy, hence longest) nonempty prefix that is followed by a
quote, one of the characters, and at least one more character. -/
def searchSize (p : Char → Bool) (s : Str) : Option Str :=
  let rec go (pre : Str) : Str → Option Str
    | [] => none
    | c :: cs =>
      match go (pre ++ [c]) cs with
      | some r => some r
      | none =>
        match c, cs with
        | '\'', b :: rest => if pre ≠ [] ∧ p b ∧ rest ≠ [] then some pre else none
        | _, _ => none
  go [] s

/-- `targ = self.value.replace('_', '')`. -/
def stripUs (s : Str) : Str := s.filter (· ≠ '_')

def isH (c : Char) : Bool := c = 'H' ∨ c = 'h'
def isD (c : Char) : Bool := c = 'D' ∨ c = 'd'
def isO (c : Char) : Bool := c = 'O' ∨ c = 'o'
def isB (c : Char) : Bool := c = 'B' ∨ c = 'b'

/-- dataflow.py:153-171 `DFIntConst.eval` (the local `signed` is computed but never used there). -/
def intConstEval (value : Str) : Py Int :=
  let targ := stripUs value
  match searchAfter isH targ with
  | some g => pyIntOf 16 g
  | none =>
  match searchAfter isD targ with
  | some g => pyIntOf 10 g
  | none =>
  match searchAfter isO targ with
  | some g => pyIntOf 8 g
  | none =>
  match searchAfter isB targ with
  | some g => pyIntOf 2 g
  | none => pyIntOf 10 targ

/-- dataflow.py:173-187 `DFIntConst.width`. -/
def intConstWidth (value : Str) : Py Int :=
  let targ := stripUs value
  match searchSize isH targ with
  | some g => pyIntOf 10 g
  | none =>
  match searchSize isD targ with
  | some g => pyIntOf 10 g
  | none =>
  match searchSize isO targ with
  | some g => pyIntOf 10 g
  | none =>
  match searchSize isB targ with
  | some g => pyIntOf 10 g
  | none => .ok 32

end Pyv
