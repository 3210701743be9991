import Verif.DF
import Verif.IntConst
/-
  SPECIFICATION (not a model of code): the value of a dataflow tree.

  The value of a tree under a valuation of the signals is an integer together with a bit width, or unknown
  (`none`).  Arithmetic is on the integers (Verilog's truncation to the context width is not applied);
  operators whose definition depends on a number of bits use the operands' width; widths are Verilog's
  self-determined widths: 1 for comparisons, logical operators and reductions, the left operand's for shifts and
  powers, the maximum for the others, the sum for concatenations.
-/
namespace Pyv

/-- Bit `i` of the (infinite two's complement) integer `v`. -/
def ibit (v : Int) (i : Nat) : Bool := v / 2 ^ i % 2 = 1

/-- The number of set bits of `v` among its `w` least significant ones. -/
def popcount (v : Int) (w : Nat) : Nat := (List.range w).countP (ibit v)

/-- The truth value as a number. -/
def b2i (b : Bool) : Int := if b then 1 else 0

/-- The value of an operator on integer operands of (maximal) width `w`; `none` when undefined: wrong number of
operands, division by zero, negative exponent or shift count. -/
def opSem (o : Op) (vs : List Int) (w : Nat) : Option Int :=
  match o, vs with
  | .uminus, [x] => some (-x)
  | .ulnot, [x] => some (b2i (x = 0))
  | .unot, [x] => some (2 ^ w - 1 - x % 2 ^ w)
  | .uand, [x] => some (b2i (∀ i < w, ibit x i))
  | .unand, [x] => some (b2i (¬ ∀ i < w, ibit x i))
  | .uor, [x] => some (b2i (∃ i < w, ibit x i))
  | .unor, [x] => some (b2i (¬ ∃ i < w, ibit x i))
  | .uxor, [x] => some (b2i (popcount x w % 2 = 1))
  | .uxnor, [x] => some (b2i (popcount x w % 2 = 0))
  | .power, [x, y] => if y < 0 then none else some (x ^ y.toNat)
  | .times, [x, y] => some (x * y)
  | .divide, [x, y] => if y = 0 then none else some (Int.tdiv x y)
  | .mod, [x, y] => if y = 0 then none else some (Int.tmod x y)
  | .plus, [x, y] => some (x + y)
  | .minus, [x, y] => some (x - y)
  | .sll, [x, y] => if y < 0 then none else some (x * 2 ^ y.toNat)
  | .sla, [x, y] => if y < 0 then none else some (x * 2 ^ y.toNat)
  | .srl, [x, y] => if y < 0 then none else some ((if x < 0 then x % 2 ^ w else x) / 2 ^ y.toNat)
  | .sra, [x, y] => if y < 0 then none else some (x / 2 ^ y.toNat)
  | .lessThan, [x, y] => some (b2i (x < y))
  | .greaterThan, [x, y] => some (b2i (y < x))
  | .lessEq, [x, y] => some (b2i (x ≤ y))
  | .greaterEq, [x, y] => some (b2i (y ≤ x))
  | .eq, [x, y] => some (b2i (x = y))
  | .notEq, [x, y] => some (b2i (x ≠ y))
  | .eql, [x, y] => some (b2i (x = y))
  | .notEql, [x, y] => some (b2i (x ≠ y))
  | .and, [x, y] => some (pyAnd x y)
  | .or, [x, y] => some (pyOr x y)
  | .xor, [x, y] => some (pyXor x y)
  | .xnor, [x, y] => some (2 ^ w - 1 - pyXor x y % 2 ^ w)
  | .land, [x, y] => some (b2i (x ≠ 0 ∧ y ≠ 0))
  | .lor, [x, y] => some (b2i (x ≠ 0 ∨ y ≠ 0))
  | _, _ => none

/-- Operators whose result has the maximal operand width. -/
def Op.maxRule : Op → Bool
  | .uminus | .unot | .times | .divide | .mod | .plus | .minus | .and | .or | .xor | .xnor => true
  | _ => false

/-- Operators whose result has the width of the left operand. -/
def Op.leftRule : Op → Bool
  | .power | .sll | .srl | .sla | .sra => true
  | _ => false

/-- The maximum of the operand widths. -/
def maxWidth (ws : List Int) : Int := ws.foldl max 0

/-- The width of the result of an operator. -/
def opWidth (o : Op) (ws : List Int) : Int :=
  if o.maxRule then maxWidth ws else if o.leftRule then ws.headD 0 else 1

/-- A valuation of the signals: plain signals have a value and a width, arrays a value and width per index.
`dw` is the width given to constants without one. -/
structure Env where
  sig : ScopeChain → Option (Int × Int)
  arr : ScopeChain → Option (Int → Option (Int × Int))
  dw : Int

/-- Concatenation of (value, width) pairs, most significant first: value and total width. -/
def concatVal : List (Int × Int) → Option (Int × Int)
  | xs => xs.foldl (fun acc x => do
      let a ← acc
      if x.2 < 0 then none else some (a.1 * 2 ^ x.2.toNat + x.1 % 2 ^ x.2.toNat, a.2 + x.2)) (some (0, 0))

/-- Bits `m` down to `l` of `v`. -/
def pselVal (v m l : Int) : Option (Int × Int) :=
  if l < 0 ∨ m < l then none else some (v / 2 ^ l.toNat % 2 ^ (m - l + 1).toNat, m - l + 1)

/-- Bit `p` of `v`. -/
def bitVal (v p : Int) : Option (Int × Int) :=
  if p < 0 then none else some (v / 2 ^ p.toNat % 2, 1)

mutual
/-- The value and width of a tree under a valuation; `none` = unknown. -/
def sem (ρ : Env) : DF → Option (Int × Int)
  | .term n => ρ.sig n
  | .intc s =>
    if s.any (fun c => c = 'x' ∨ c = 'z' ∨ c = 'X' ∨ c = 'Z') then none
    else match intConstEval s, intConstWidth s with
      | .ok v, .ok w => some (v, w)
      | _, _ => none
  | .ev (.int v) w _ _ => some (v, w.getD ρ.dw)
  | .op o ns => do
    let xs ← semList ρ ns
    let v ← opSem o (xs.map (·.1)) (maxWidth (xs.map (·.2))).toNat
    some (v, opWidth o (xs.map (·.2)))
  | .psel v m l => do
    let v ← sem ρ v
    let m ← sem ρ m
    let l ← sem ρ l
    pselVal v.1 m.1 l.1
  | .ptr v p => do
    let i ← sem ρ p
    match v with
    | .term n =>
      match ρ.arr n with
      | some f => f i.1
      | none => do let x ← ρ.sig n; bitVal x.1 i.1
    | v => do let x ← sem ρ v; bitVal x.1 i.1
  | .concat ns => do
    let xs ← semList ρ ns
    concatVal xs
  | .branch c t f => do
    let b ← sem ρ c
    if b.1 ≠ 0 then sem ρ t else sem ρ f
  | _ => none
/-- The values of a list of trees; unknown if one of them is. -/
def semList (ρ : Env) : List DF → Option (List (Int × Int))
  | [] => some []
  | n :: ns => do
    let x ← sem ρ n
    let xs ← semList ρ ns
    some (x :: xs)
end

end Pyv
