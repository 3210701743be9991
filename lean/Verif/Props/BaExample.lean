import Verif.Props.BaTop
/-
  C74: an always block that meets the hypotheses.
-/
namespace Pyv

/-- `begin y = b; if (a) begin x = y; y = c; end else x = c; case (b) 1: x = x + y; default: ; endcase y = x; end` -/
def c74good : Stmt := .block none
  [.ba (c58i "y") (c58i "b"),
   .ifs (c58i "a") (.block none [.ba (c58i "x") (c58i "y"), .ba (c58i "y") (c58i "c")]) (.ba (c58i "x") (c58i "c")),
   .cases .case_ (c58i "b") [some [.intc ['1']], none] [.ba (c58i "x") (.bin .plus (c58i "x") (c58i "y")), .skip],
   .ba (c58i "y") (c58i "x")]

/-- The names of its conditions. -/
def c74Q (n : Str) : Bool := n = "a".toList || n = "b".toList

theorem c74good_assigns (x : ScopeChain) (h : c74good.baAssigns (resOf c58s.terms c58m) x = true) : x = c58n "x" ∨ x = c58n "y" := by
  have e1 : resOf c58s.terms c58m "x".toList = some (c58n "x") := by decide +kernel
  have e2 : resOf c58s.terms c58m "y".toList = some (c58n "y") := by decide +kernel
  simp only [c74good, c58i, Stmt.baAssigns, Stmt.baAssignsL, isWhole, e1, e2, Option.some.injEq, Bool.or_eq_true, decide_eq_true_eq, Bool.false_eq_true, or_false] at h
  rcases h with h | (h | h) | h | h <;> first
    | exact .inl h.symm
    | exact .inr h.symm
    | (rcases h with h | h <;> first | exact .inl h.symm | exact .inr h.symm)

/-- The hypotheses of C74 are met by it, and the visitor accepts it. -/
theorem c74good_meets : c58s.AtModule c58m ∧ (∀ n ids, c58s.binds.get? n = some ids → c58s.terms.has n = true) ∧
    c74good.baPlain c74Q (isScalar c58s.terms c58m) = true ∧
    (∀ x, c74good.baAssigns (resOf c58s.terms c58m) x = true → c58s.binds.get? x = none ∧ (c74good.baChk (resOf c58s.terms c58m) x .fresh).isSome = true) ∧
    (∀ n, c74Q n = true → ∃ x, resOf c58s.terms c58m n = some x ∧ c74good.baAssigns (resOf c58s.terms c58m) x = false) ∧
    (c58s.visitAlways c58clk c74good).toOption.isSome = true := by
  refine ⟨c58s_module, ?_, by decide +kernel, ?_, ?_, by decide +kernel⟩
  · intro n ids h; cases h
  · intro x h
    rcases c74good_assigns x h with rfl | rfl
    · exact ⟨rfl, by decide +kernel⟩
    · exact ⟨rfl, by decide +kernel⟩
  · intro n h
    simp only [c74Q, Bool.or_eq_true, decide_eq_true_eq] at h
    rcases h with rfl | rfl
    · exact ⟨c58n "a", by decide +kernel, by decide +kernel⟩
    · exact ⟨c58n "b", by decide +kernel, by decide +kernel⟩

/-- With `a = 1`, `b = 1`, `c = 5`: the intermediate values are those of their trees, and `x` becomes 1 + 5. -/
example : c74cmp c74good [("a", 1, 1), ("b", 1, 8), ("c", 5, 8), ("_rn0_y", 1, 8), ("_rn1_x", 1, 8), ("_rn2_y", 5, 8), ("_rn3_x", 5, 8), ("_rn4_x", 6, 8), ("_rn5_y", 6, 8)] =
    some (true, some (6, 8), some (6, 8)) := by decide +kernel

/-- What the theorem says of it. -/
example : ∃ s' b, c58s.visitAlways c58clk c74good = .ok s' ∧ s'.getBindlist (c58n "x") = [b] ∧ b.whole ∧ ∀ cut τ, s'.ArraysAgree τ → c58s.Intermediate s' cut τ →
    ∀ η' v, baRun (fitTo c58s.terms cut) (resOf c58s.terms c58m) c74good τ = some η' → η'.sig (c58n "x") = some v → valOf τ (c58n "x") b.tree = some v := by
  obtain ⟨h1, h2, h3, h4, h5, h6⟩ := c74good_meets
  cases h : c58s.visitAlways c58clk c74good with
  | error e => rw [h] at h6; cases h6
  | ok s' =>
    obtain ⟨b, k1, k2, -, k3⟩ := (C74_blocking_partial c58s s' c58m c58clk c74good c74Q h1 h2 h3 h4 h5 h).1 (c58n "x") (by decide +kernel)
    exact ⟨s', b, rfl, k1, k2, fun cut τ g1 g2 η' v g3 g4 => k3 cut τ g1 g2 η' g3 v g4⟩

end Pyv
