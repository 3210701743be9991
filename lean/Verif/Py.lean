/-
  Python primitives used by the model: exceptions as values, and the integer arithmetic of CPython.
-/
namespace Pyv

/-- Text. Python `str` is modelled as its list of characters. -/
abbrev Str := List Char

/-- The Python exception classes that occur in the modelled code.
`definition`, `format` : pyverilog/utils/verror.py:9-14.  `recursion` : CPython's RecursionError, produced
here by exhausted fuel.  `unmodelled` marks code paths the model does not cover (float/str arithmetic). -/
inductive PyErr where
  | definition | format | type | attribute | name | key | index | value | zeroDiv | overflow
  | recursion | unmodelled
  deriving DecidableEq, Repr

/-- A Python computation: a value or a raised exception. -/
abbrev Py (α : Type) := Except PyErr α

instance {α : Type} [DecidableEq α] : DecidableEq (Py α) := fun a b =>
  match a, b with
  | .ok x, .ok y => if h : x = y then isTrue (by rw [h]) else isFalse (by simp [h])
  | .error x, .error y => if h : x = y then isTrue (by rw [h]) else isFalse (by simp [h])
  | .ok _, .error _ => isFalse (by simp)
  | .error _, .ok _ => isFalse (by simp)

/-- Values held by `DFEvalValue.value` (pyverilog/dataflow/dataflow.py:482-489): an int, a float (kept as
its source text; float arithmetic is not modelled), a string, or `None` (see `_evalOperator`, which returns
`None` for an unknown operator, optimizer.py:279). -/
inductive PyVal where
  | int (n : Int)
  | flt (s : Str)
  | str (s : Str)
  | none
  deriving DecidableEq, Repr

/-- Python `a // b`-style floor modulo `a % b` for ints; ZeroDivisionError on 0. -/
def pyMod (a b : Int) : Py Int := if b = 0 then .error .zeroDiv else .ok (Int.fmod a b)

/-- Python `a << b` for ints; ValueError on a negative shift count. -/
def pyShl (a b : Int) : Py Int := if b < 0 then .error .value else .ok (a * 2 ^ b.toNat)

/-- Python `a >> b` for ints (floor division by 2^b); ValueError on a negative shift count. -/
def pyShr (a b : Int) : Py Int := if b < 0 then .error .value else .ok (Int.fdiv a (2 ^ b.toNat))

/-- Bitwise operation on two's complement integers of unbounded size, from a Boolean function with
`f false false = false`-normalised sign handling: the two operands are encoded as (sign, magnitude)
where a negative `n` is the complement of the natural `-n-1`. -/
def signBit (a : Int) : Bool := decide (a < 0)
/-- The natural number whose bits are the bits of `a` if `a ≥ 0`, and the complemented bits of `a` otherwise. -/
def magBits (a : Int) : Nat := if a < 0 then (-a - 1).toNat else a.toNat
/-- Bit `i` of the two's complement representation of `a`. -/
def tbit (a : Int) (i : Nat) : Bool := (magBits a).testBit i != signBit a

/-- Python `a & b`. -/
def pyAnd (a b : Int) : Int :=
  match a, b with
  | .ofNat m, .ofNat n => ((m &&& n : Nat) : Int)
  | .ofNat m, .negSucc n => ((m ^^^ (m &&& n) : Nat) : Int)
  | .negSucc m, .ofNat n => ((n ^^^ (n &&& m) : Nat) : Int)
  | .negSucc m, .negSucc n => Int.negSucc (m ||| n)
/-- Python `~a`. -/
def pyNot (a : Int) : Int := -a - 1
/-- Python `a | b`. -/
def pyOr (a b : Int) : Int := pyNot (pyAnd (pyNot a) (pyNot b))
/-- Python `a ^ b`. -/
def pyXor (a b : Int) : Int :=
  match a, b with
  | .ofNat m, .ofNat n => ((m ^^^ n : Nat) : Int)
  | .ofNat m, .negSucc n => Int.negSucc (m ^^^ n)
  | .negSucc m, .ofNat n => Int.negSucc (m ^^^ n)
  | .negSucc m, .negSucc n => ((m ^^^ n : Nat) : Int)

/-- Python `a ** b` for ints: a negative exponent gives a float (not modelled), except that a zero base
raises ZeroDivisionError. -/
def pyPow (a b : Int) : Py Int :=
  if b < 0 then (if a = 0 then .error .zeroDiv else .error .unmodelled) else .ok (a ^ b.toNat)

/-! ### Python true division of ints followed by `int()`

`a / b` on ints is the IEEE double nearest to the rational `a/b`, ties to even (CPython long_true_divide);
it raises OverflowError when the result is too large.  `int(x)` truncates. -/

/-- Round the positive rational `n / d` (`d > 0`) to a multiple of `2^e` scaled by `2^e`: the nearest integer
to `n / (d * 2^e)`, ties to even. -/
def roundHalfEven (n d : Nat) : Nat :=
  let q := n / d
  let r := n % d
  if 2 * r < d then q else if 2 * r > d then q + 1 else if q % 2 = 0 then q else q + 1

/-- Significand and exponent of the double nearest to `n/d`, for a quotient ≥ 1 (subnormals play no role for
`int()`, which maps every quotient below 1 to 0 unless it rounds to 1):
with `k = log2 (n/d)`, the double is `roundHalfEven (n/d / 2^(k-52)) * 2^(k-52)`. -/
def truncDivNat (n d : Nat) : Py Nat :=
  if n < d then
    -- 0 ≤ n/d < 1: rounds to a double ≤ 1; it is 1.0 exactly when n/d > 1 - 2^-54 (tie at 1-2^-54 is to even = 1.0)
    if 2 ^ 54 * (d - n) ≤ d then .ok 1 else .ok 0
  else
    let k := Nat.log2 (n / d)
    if k ≤ 52 then
      -- unit in the last place is 2^(k-52) ≤ 1: round n*2^(52-k)/d, then drop the fractional bits
      .ok (roundHalfEven (n * 2 ^ (52 - k)) d / 2 ^ (52 - k))
    else
      let m := roundHalfEven n (d * 2 ^ (k - 52))
      if m * 2 ^ (k - 52) ≥ 2 ^ 1024 then .error .overflow else .ok (m * 2 ^ (k - 52))

/-- `int(a / b)` for Python ints. -/
def pyDivTrunc (a b : Int) : Py Int :=
  if b = 0 then .error .zeroDiv
  else do
    let q ← truncDivNat a.natAbs b.natAbs
    .ok (if (a < 0) = (b < 0) then (q : Int) else -(q : Int))

end Pyv
