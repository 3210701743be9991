import Verif.Sem
/-
  SPECIFICATION (not a model of code): the bits of a tree, least significant first, where single bits may be
  unknown.  Used for concatenations and part selects (C11, C12, C30, C32).
-/
namespace Pyv

/-- A bit: known or unknown (`x`). -/
abbrev Bit := Option Bool

/-- The `w` least significant bits of `v`. -/
def bitsOf (v w : Int) : List Bit := (List.range w.toNat).map (fun i => some (ibit v i))

/-- Bits `m` down to `l` of a bit vector; bits above the vector are unknown. -/
def bslice (b : List Bit) (m l : Int) : Option (List Bit) :=
  if l < 0 ∨ m < l then none
  else some ((List.range (m - l + 1).toNat).map (fun i => (b[l.toNat + i]?).getD none))

mutual
/-- The bits of a tree. -/
def bits (ρ : Env) : DF → Option (List Bit)
  | .undef w => some (List.replicate (w.getD ρ.dw).toNat none)
  | .concat ns => bitsL ρ ns
  | .branch c t f => do
    let b ← sem ρ c
    if b.1 ≠ 0 then bits ρ t else bits ρ f
  | .psel v m l => do
    let b ← bits ρ v
    let m ← sem ρ m
    let l ← sem ρ l
    bslice b m.1 l.1
  | .term n => do
    let x ← ρ.sig n
    some (bitsOf x.1 x.2)
  | .ev (.int v) w _ _ => some (bitsOf v (w.getD ρ.dw))
  | .none => none
  | .hiz _ => none
  | t => do
    let x ← sem ρ t
    some (bitsOf x.1 x.2)
/-- The bits of a concatenation of trees given most significant first. -/
def bitsL (ρ : Env) : List DF → Option (List Bit)
  | [] => some []
  | n :: ns => do
    let hi ← bits ρ n
    let lo ← bitsL ρ ns
    some (lo ++ hi)
end

end Pyv
