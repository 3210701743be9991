import Verif.Props.CallTop
import Verif.Props.ElabProps
/-
  C91: examples and failures.
-/
namespace Pyv

/-- A check of the equations. -/
def FModule.solvesB (m : FModule) (s : BV) (τ : Env) : Bool :=
  s.terms.all (fun e => m.vars.any (fun v => decide (e.1 = m.sig v.name)) || (s.getBindlist e.1).all (fun b =>
    match sem τ e.2.msb, sem τ e.2.lsb, sem τ b.tree with
    | some hi, some lo, some v => decide (τ.sig e.1 = some (fitR hi.1 lo.1 v))
    | _, _, _ => true))

theorem solvesB_ok {m : FModule} {s : BV} {τ : Env} (h : m.solvesB s τ = true) : m.Solves s τ := by
  intro n t hn ht b hb _ hi lo v h1 h2 h3
  have hmem : (n, t) ∈ s.terms := Dict.mem_of_get? ht
  simp only [FModule.solvesB, List.all_eq_true, Bool.or_eq_true, List.any_eq_true, decide_eq_true_eq] at h
  rcases h _ hmem with ⟨v', hv', e⟩ | h
  · exact absurd e (hn v' hv')
  · have := h b hb
    simpa [h1, h2, h3] using this

/-- The values of signals as a table. -/
def c91env (l : List (ScopeChain × Int × Int)) : Env := ⟨fun n => l.lookup n, fun _ => none, 0⟩

def c91id (n : Str) : Ex := .ident [] n
def c91v (k : SigKind) (n : Str) : Var := ⟨k, n, some (.intc ['3'], .intc ['0']), false, none⟩
def c91c (l n : Str) : ScopeChain := [⟨['m'], .module, none⟩, ⟨l, .functioncall, none⟩, ⟨n, .signal, none⟩]
def c91s (n : Str) : ScopeChain := [⟨['m'], .module, none⟩, ⟨n, .signal, none⟩]

/-- `function [3:0] f; input [3:0] p, q; reg [3:0] t; begin t = p + q; f = t ^ b; end endfunction` -/
def c91f : Func := ⟨['f'], (.intc ['3'], .intc ['0']), [.var (c91v .input ['p']), .var (c91v .input ['q']), .var (c91v .reg ['t'])],
  .block none [.ba (c91id ['t']) (.bin .plus (c91id ['p']) (c91id ['q'])), .ba (c91id ['f']) (.bin .xor (c91id ['t']) (c91id ['b']))]⟩

/-- `assign y = f(f(a, b), 4'd9);` -/
def c91m : FModule := ⟨['m'], [c91v .input ['a'], c91v .input ['b'], c91v .output ['y']], [c91f],
  [(c91id ['y'], .call ['f'] [.call ['f'] [c91id ['a'], c91id ['b']], .intc ['9']])]⟩

/-- With a = 5 and b = 3: the inner call has the value (5 + 3) ^ 3 = 11, the outer one (11 + 9) % 16 ^ 3 = 7. -/
def c91τ : Env := c91env [(c91s ['a'], 5, 4), (c91s ['b'], 3, 4), (c91s ['y'], 7, 4),
  (c91c "fc_functioncall0".toList ['p'], 5, 4), (c91c "fc_functioncall0".toList ['q'], 3, 4), (c91c "fc_functioncall0".toList "_rn0_t".toList, 8, 4),
  (c91c "fc_functioncall0".toList ['t'], 8, 4), (c91c "fc_functioncall0".toList "_rn1_f".toList, 11, 4), (c91c "fc_functioncall0".toList ['f'], 11, 4),
  (c91c "md_functioncall0".toList ['p'], 11, 4), (c91c "md_functioncall0".toList ['q'], 9, 4), (c91c "md_functioncall0".toList "_rn2_t".toList, 4, 4),
  (c91c "md_functioncall0".toList ['t'], 4, 4), (c91c "md_functioncall0".toList "_rn3_f".toList, 7, 4), (c91c "md_functioncall0".toList ['f'], 7, 4)]

/-- The analysis succeeds, the module is covered, the valuation satisfies the equations, and the calls have values. -/
example : (match c91m.analyse c75ctx 30 5 with
    | .ok s => c91m.covered && c91m.solvesB s c91τ && decide (fxVal (c91m.look c91τ) (c91m.callVal (c91m.look c91τ)) (.call ['f'] [.call ['f'] [c91id ['a'], c91id ['b']], .intc ['9']]) = some (7, 4))
    | .error _ => false) = true := by decide +kernel

/-! ### Failures -/

/-- The tree of `y`, whether `τ` satisfies the equations, and the values of the tree and of the assigned expression. -/
def c91run (m : FModule) (τ : Env) : Option (Bool × Option (Int × Int) × Option (Int × Int)) :=
  match m.analyse c75ctx 30 5 with
  | .error _ => none
  | .ok s =>
    match m.assigns, s.getBindlist (m.sig ['y']) with
    | [a], [b] => some (m.solvesB s τ, sem τ b.tree, fxVal (m.look τ) (m.callVal (m.look τ)) a.2)
    | _, _ => none

/-- `function [3:0] f; input [3:0] p, q; reg [3:0] t; begin t = p; f = t; t = q; end endfunction` -/
def c91g : Func := ⟨['f'], (.intc ['3'], .intc ['0']), [.var (c91v .input ['p']), .var (c91v .input ['q']), .var (c91v .reg ['t'])],
  .block none [.ba (c91id ['t']) (c91id ['p']), .ba (c91id ['f']) (c91id ['t']), .ba (c91id ['t']) (c91id ['q'])]⟩

/-- `function [3:0] f; input [3:0] p, q; begin f = p; f = f & q; end endfunction` -/
def c91k : Func := ⟨['f'], (.intc ['3'], .intc ['0']), [.var (c91v .input ['p']), .var (c91v .input ['q'])],
  .block none [.ba (c91id ['f']) (c91id ['p']), .ba (c91id ['f']) (.bin .and (c91id ['f']) (c91id ['q']))]⟩

/-- `assign y = f(a, b);` -/
def c91of (f : Func) : FModule := ⟨['m'], [c91v .input ['a'], c91v .input ['b'], c91v .output ['y']], [f],
  [(c91id ['y'], .call ['f'] [c91id ['a'], c91id ['b']])]⟩

def c91w (y f t r0 r1 r2 : Int) : Env := c91env [(c91s ['a'], 5, 4), (c91s ['b'], 3, 4), (c91s ['y'], y, 4),
  (c91c "md_functioncall0".toList ['p'], 5, 4), (c91c "md_functioncall0".toList ['q'], 3, 4), (c91c "md_functioncall0".toList ['t'], t, 4),
  (c91c "md_functioncall0".toList ['f'], f, 4), (c91c "md_functioncall0".toList "_rn0_t".toList, r0, 4), (c91c "md_functioncall0".toList "_rn0_f".toList, r0, 4),
  (c91c "md_functioncall0".toList "_rn1_f".toList, r1, 4), (c91c "md_functioncall0".toList "_rn2_t".toList, r2, 4)]

/-- **C91** fails when a variable is assigned again after it was read: the earlier reading gets the later value, here f(5, 3) = 3 instead of 5. -/
theorem C91_fails_overwritten : c91run (c91of c91g) (c91w 3 3 3 5 3 3) = some (true, some (3, 4), some (5, 4)) := by decide +kernel

/-- **C91** fails when a variable is read in its own assignment: the recorded equations are circular and do not determine the value, which
is f(5, 3) = 1 by the assignments. -/
theorem C91_fails_circular : c91run (c91of c91k) (c91w 0 0 0 5 0 0) = some (true, some (0, 4), some (1, 4)) ∧
    c91run (c91of c91k) (c91w 2 2 0 5 2 0) = some (true, some (2, 4), some (1, 4)) := by decide +kernel

/-- **C91** A call with a wrong number of arguments is refused. -/
theorem C91_arguments (FT : FuncTable) (scope : ScopeChain) (s : BV) (n : Str) (es : List Ex) (f : Func) (hf : s.searchFunction FT n scope = .ok (some f))
    (hk : f.inputs.length ≠ es.length) : ¬ (BV.makeDFC FT scope (.call n es) s).isOk := by
  have : ∀ s', s.openCall f es.length scope ≠ .ok s' := by
    intro s' h
    simp only [BV.openCall, bind_ok] at h
    obtain ⟨x, _, fr, _, s2, _, s3, _, h⟩ := h
    rw [if_pos (by simpa [inputs_eq] using hk)] at h
    cases h
  simp only [BV.makeDFC, hf, ok_bind]
  cases h : s.openCall f es.length scope with
  | ok s' => exact absurd h (this s')
  | error e => exact fun h => by cases h

/-- **C91** fails in the error for a wrong number of arguments: making the message raises AttributeError. -/
theorem C91_fails_message : (match (FModule.mk ['m'] [c91v .input ['a'], c91v .output ['y']] [c91f]
    [(c91id ['y'], .call ['f'] [c91id ['a']])]).analyse c75ctx 30 5 with | .error .attribute => true | _ => false) = true := by decide +kernel

example : c91f.inputs.length ≠ [c91id ['a']].length := by decide

end Pyv
