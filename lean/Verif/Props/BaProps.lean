import Verif.Props.BaSpec
import Verif.Props.NbModule
/-
  C74: blocking assignments, counterexamples.
-/
namespace Pyv

/-- `n = v;` -/
def c74a (n v : String) : Stmt := .ba (c58i n) (.intc v.toList)

/-- A valuation. -/
def c74τ (vs : List (String × Int × Int)) : Env :=
  ⟨fun n => match vs.find? (fun v => c58n v.1 = n) with | some v => some v.2 | none => none, fun _ => none, 32⟩

/-- For an always block in the module of C58 and a valuation: whether the intermediate values have the values of their trees
in it, the value that the tree of `x` gives, and the value of `x` after the block. -/
def c74cmp (body : Stmt) (vs : List (String × Int × Int)) : Option (Bool × Option (Int × Int) × Option (Int × Int)) :=
  match c58s.visitAlways [] body with
  | .error _ => none
  | .ok s =>
    match s.getBindlist (c58n "x") with
    | [b] => some (s.binds.all (fun e => c58s.terms.has e.1 || (s.getBindlist e.1).all (fun b => sem (c74τ vs) b.tree = (c74τ vs).sig e.1)),
        valOf (c74τ vs) (c58n "x") b.tree,
        (baRun (fun _ v => v) (resOf c58s.terms c58m) body (c74τ vs)).bind (fun η => η.sig (c58n "x")))
    | _ => none

/-- A block where they agree: `c = a; x = c + b; c = x;` -/
example : c74cmp (.block none [.ba (c58i "c") (c58i "a"), .ba (c58i "x") (.bin .plus (c58i "c") (c58i "b")), .ba (c58i "c") (c58i "x")])
    [("a", 3, 8), ("b", 4, 8), ("_rn0_c", 3, 8), ("_rn1_x", 7, 8), ("_rn2_c", 7, 8)] = some (true, some (7, 8), some (7, 8)) := by decide +kernel

/-- **C74** fails for a default in front of two nested conditions: after `x = 0; if (a) if (b) x = 1;` with `a = 0` the value
of `x` is 0, but its tree keeps the value from before the block. -/
theorem C74_fails_default :
    c74cmp (.block none [c74a "x" "0", .ifs (c58i "a") (.ifs (c58i "b") (c74a "x" "1") .skip) .skip])
      [("a", 0, 1), ("b", 1, 1), ("x", 5, 32), ("_rn0_x", 0, 32), ("_rn1_x", 1, 32)] = some (true, some (5, 32), some (0, 32)) := by decide +kernel

/-- **C74** fails for a default in front of a case statement that does not assign the signal in every item:
`x = 0; case (a) 0: x = 1; 1: y = 1; 2: x = 2; endcase` with `a = 1`. -/
theorem C74_fails_case :
    c74cmp (.block none [c74a "x" "0", .cases .case_ (c58i "a") [some [.intc ['0']], some [.intc ['1']], some [.intc ['2']]]
        [c74a "x" "1", c74a "y" "1", c74a "x" "2"]])
      [("a", 1, 2), ("x", 5, 32), ("_rn0_x", 0, 32), ("_rn1_x", 1, 32), ("_rn2_y", 1, 32), ("_rn3_x", 2, 32)] =
      some (true, some (5, 32), some (0, 32)) := by decide +kernel

/-- **C74** fails for a condition that is assigned in its own branch: after `c = a; if (c) begin c = 0; x = 1; end` with
`a = 1` the value of `x` is 1, but its tree asks for the later value of `c` and keeps the value from before the block. -/
theorem C74_fails_condition :
    c74cmp (.block none [.ba (c58i "c") (c58i "a"), .ifs (c58i "c") (.block none [c74a "c" "0", c74a "x" "1"]) .skip])
      [("a", 1, 1), ("x", 5, 32), ("_rn0_c", 1, 1), ("_rn1_c", 0, 32), ("_rn2_x", 1, 32)] = some (true, some (5, 32), some (1, 32)) := by
  decide +kernel

end Pyv
