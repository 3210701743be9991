import Verif.Ast
import Verif.Sem
/-
  Specification: what the left side of an assignment designates.
-/
namespace Pyv

/-- Bits of a signal, or of an element of an array; `bits = none`: the whole signal or element. -/
structure Target where
  sig : ScopeChain
  elem : Option Int
  bits : Option (Int × Int)
  deriving DecidableEq

mutual
/-- The targets of a left side, the most significant first: a name is the whole signal; `x[i]` is element `i` of an array
and bit `i` of any other signal; `x[m:l]` are the bits from `m` to `l`; of an element of an array a bit or a part can be
selected; a concatenation designates the targets of its items in turn.  `val` gives the value of an index, `res` what a
name refers to. -/
def targets (val : Ex → Option Int) (res : Str → Option ScopeChain) (isArr : ScopeChain → Bool) : Ex → Option (List Target)
  | .ident [] n => do
    let c ← res n
    some [⟨c, none, none⟩]
  | .ptr (.ident [] n) p => do
    let c ← res n
    let i ← val p
    some [if isArr c then ⟨c, some i, none⟩ else ⟨c, none, some (i, i)⟩]
  | .ptr (.ptr (.ident [] n) p) q => do
    let c ← res n
    let i ← val p
    let j ← val q
    if isArr c then some [⟨c, some i, some (j, j)⟩] else none
  | .psel (.ident [] n) m l => do
    let c ← res n
    let a ← val m
    let b ← val l
    some [⟨c, none, some (a, b)⟩]
  | .psel (.ptr (.ident [] n) p) m l => do
    let c ← res n
    let i ← val p
    let a ← val m
    let b ← val l
    if isArr c then some [⟨c, some i, some (a, b)⟩] else none
  | .concat es => targetsL val res isArr es
  | _ => none
/-- The targets of the items of a concatenation. -/
def targetsL (val : Ex → Option Int) (res : Str → Option ScopeChain) (isArr : ScopeChain → Bool) : List Ex → Option (List Target)
  | [] => some []
  | e :: es => do
    let ts ← targets val res isArr e
    let us ← targetsL val res isArr es
    some (ts ++ us)
end

/-- The most and least significant bit of a target in a design with the declared ranges `decl`. -/
def Target.range (decl : ScopeChain → Option (Int × Int)) (t : Target) : Option (Int × Int) :=
  match t.bits with
  | some r => some r
  | none => decl t.sig

/-- The slices of the right side that go to targets with the given ranges (the least significant first) when the next free
bit is `off`: each target takes as many bits as it has. -/
def slices (off : Int) : List (Int × Int) → List (Int × Int)
  | [] => []
  | (m, l) :: rs => (off + (m - l), off) :: slices (off + (m - l) + 1) rs

/-- What the targets with the given ranges (the least significant first) receive of the value `v` of the right side: a
single target takes the value, several take their slices. -/
def shares (v : Int × Int) (rs : List (Int × Int)) : List (Option (Int × Int)) :=
  match rs with
  | [_] => [some v]
  | rs => (slices 0 rs).map (fun r => pselVal v.1 r.1 r.2)

/-- Put shares together, the least significant first. -/
def assemble : List (Option (Int × Int)) → Option Int
  | [] => some 0
  | x :: xs => do
    let a ← x
    let b ← assemble xs
    some (a.1 + 2 ^ a.2.toNat * b)

/-- The number of bits of targets. -/
def totalBits (rs : List (Int × Int)) : Nat := (rs.map (fun r => (r.1 - r.2 + 1).toNat)).sum

end Pyv
