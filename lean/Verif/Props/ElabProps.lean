import Verif.Props.ElabDesign
/-
  C75, C76, C77: examples and counterexamples, and the values of parameters.
-/
namespace Pyv

/-! ### C76: parameters -/

/-- The modules of a design with their places, with `k` levels left; `over` are the parameters given by the instance. -/
inductive InDesign (ms : List ModuleDef) (depth : Nat) (top : Str) : Nat → ScopeChain → List Str → ModuleDef → Prop
  | root {m} (h : findMod ms top = some m) : InDesign ms depth top depth [⟨top, .module, none⟩] [] m
  | inst {k sc over m md ps is i c} (h : InDesign ms depth top (k + 1) sc over m) (hit : MItem.insts md ps is ∈ m.items)
      (hg : md ∉ gateNames) (hc : findMod ms md = some c) (hi : i ∈ is) :
      InDesign ms depth top k (instScope sc i.name) (ps.zipIdx.filterMap (formal c.paramNames)) c

theorem InDesign.sub {ms depth top k sc over m} (h : InDesign ms depth top k sc over m) :
    ∀ q ∈ flattenMod ms k sc over m, q ∈ flatten ms depth top := by
  induction h with
  | root h => intro q hq; simpa only [flatten, h] using hq
  | inst h hit hg hc hi ih =>
    intro q hq
    refine ih q ?_
    simp only [flattenMod, List.mem_append]
    right
    refine List.mem_flatMap.mpr ⟨_, hit, ?_⟩
    simp only [if_neg hg, hc]
    exact List.mem_flatMap.mpr ⟨_, hi, by simp only [List.mem_append]; exact .inr hq⟩

/-- There is one recorded assignment to `x`, to the whole signal, and it has the value of `e` with the names of the module `m`
at `sc`. -/
def DefinedBy (s : BV) (x : ScopeChain) (m : ModuleDef) (sc : ScopeChain) (e : Ex) : Prop :=
  ∃ b, s.getBindlist x = [b] ∧ b.whole ∧ ∀ ρ : Env, (∀ c, ρ.arr c = none) → ∀ v, exVal ρ (m.resAt sc) e = some v → sem ρ b.tree = some v

/-- **C76** (partial): in every instance, a parameter with an argument has the value of the argument in the instantiating
module, a parameter without argument the value of its default in the instance, a localparam its value in the instance.  The
constants that the analyzer computes on the way are not meant (see `C76_fails_localparam`). -/
theorem C76_parameters_partial (ctx : OptCtx) (fuel loops depth : Nat) (ms : List ModuleDef) (top : Str) (s : BV)
    (h : generate ctx fuel loops depth ms top = .ok s) (hcov : ∀ m ∈ ms, m.covered ms = true)
    (hone : ((flatten ms depth top).map Eqn.target).Nodup)
    {k : Nat} {sc : ScopeChain} {over : List Str} {m : ModuleDef} (hm : InDesign ms depth top (k + 1) sc over m) :
    (∀ md ps is, MItem.insts md ps is ∈ m.items → md ∉ gateNames → ∀ c, findMod ms md = some c → ∀ i ∈ is, ∀ p ∈ ps.zipIdx, ∀ n e,
      formal c.paramNames p = some n → p.1.arg = some e → DefinedBy s (sigAt (instScope sc i.name) n) m sc e) ∧
    (∀ p ∈ m.params.flatten, p.name ∉ over → DefinedBy s (sigAt sc p.name) m sc p.value) ∧
    (∀ ds, MItem.decl ds ∈ m.items → ∀ p loc, DItem.param loc p ∈ ds → (loc = true ∨ p.name ∉ over) → DefinedBy s (sigAt sc p.name) m sc p.value) := by
  have hall := (C75_flatten_partial ctx fuel loops depth ms top s h hcov hone).1
  have def_of : ∀ x sc' m' e, ⟨x, sc', m', .expr e⟩ ∈ flattenMod ms (k + 1) sc over m → DefinedBy s x m' sc' e := by
    intro x sc' m' e hq
    obtain ⟨b, b1, b2, -, b4⟩ := hall _ (hm.sub _ hq)
    exact ⟨b, b1, b2, b4⟩
  have decl : ∀ p loc, (loc = true ∨ p.name ∉ over) → (⟨sigAt sc p.name, sc, m, .expr p.value⟩ : Eqn) ∈ declEqns m sc over (.param loc p) := by
    intro p loc hp
    simp only [declEqns]
    rw [if_neg]
    · simp
    · rintro ⟨h1, h2⟩
      rcases hp with hp | hp
      · exact h1 hp
      · exact hp h2
  refine ⟨?_, ?_, ?_⟩
  · intro md ps is hit hg c hc i hi p hp n e hf he
    apply def_of
    simp only [flattenMod, List.mem_append]
    right
    refine List.mem_flatMap.mpr ⟨_, hit, ?_⟩
    simp only [if_neg hg, hc]
    refine List.mem_flatMap.mpr ⟨_, hi, ?_⟩
    simp only [List.mem_append]
    exact .inl (.inl (List.mem_flatMap.mpr ⟨p, hp, by simp [paramEqns, hf, he]⟩))
  · intro p hp hn
    apply def_of
    simp only [flattenMod, List.mem_append]
    exact .inl (List.mem_flatMap.mpr ⟨_, List.mem_map_of_mem hp, decl p false (.inr hn)⟩)
  · intro ds hit p loc hp hn
    apply def_of
    simp only [flattenMod, List.mem_append]
    exact .inr (List.mem_flatMap.mpr ⟨_, hit, List.mem_flatMap.mpr ⟨_, hp, decl p loc hn⟩⟩)

/-- **C77** (partial): the output of a gate has, in every instance, the value of the gate on the least significant bits of
its inputs.  Missing: `not` and `buf` with several outputs (see `C77_fails_outputs`), gate arrays, outputs that are no whole
signals. -/
theorem C77_gates_partial (ctx : OptCtx) (fuel loops depth : Nat) (ms : List ModuleDef) (top : Str) (s : BV)
    (h : generate ctx fuel loops depth ms top = .ok s) (hcov : ∀ m ∈ ms, m.covered ms = true)
    (hone : ((flatten ms depth top).map Eqn.target).Nodup)
    {k : Nat} {sc : ScopeChain} {over : List Str} {m : ModuleDef} (hm : InDesign ms depth top (k + 1) sc over m)
    {gate : Str} {ps : List PArg} {is : List Inst} (hit : MItem.insts gate ps is ∈ m.items) (hg : gate ∈ gateNames)
    {i : Inst} (hi : i ∈ is) {pn : Option Str} {y : Str} {ins : List PArg} (hp : i.ports = ⟨pn, some (.ident [] y)⟩ :: ins) :
    ∃ b, s.getBindlist (sigAt sc y) = [b] ∧ b.whole ∧ ∀ ρ : Env, (∀ c, ρ.arr c = none) → ∀ vs,
      exValL ρ (m.resAt sc) (ins.filterMap PArg.arg) = some vs →
      sem ρ b.tree = some (b2i (gateFn gate (vs.map (fun v => ibit v.1 0))), 1) := by
  have hall := (C75_flatten_partial ctx fuel loops depth ms top s h hcov hone).1
  have hq : (⟨sigAt sc y, sc, m, .gate gate (ins.filterMap PArg.arg)⟩ : Eqn) ∈ flattenMod ms (k + 1) sc over m := by
    simp only [flattenMod, List.mem_append]
    right
    refine List.mem_flatMap.mpr ⟨_, hit, ?_⟩
    simp only [if_pos hg]
    exact List.mem_flatMap.mpr ⟨i, hi, by simp [gateEqns, hp]⟩
  obtain ⟨b, b1, b2, -, b4⟩ := hall _ (hm.sub _ hq)
  exact ⟨b, b1, b2, b4⟩

/-! ### Examples -/

def c75id (n : Str) : Ex := .ident [] n
def c75i (n : Str) : Ex := .intc n
def c75v (k : SigKind) (n : Str) : Var := ⟨k, n, some (c75i ['7'], c75i ['0']), false, none⟩
def c75ctx : OptCtx := ⟨[], [], 32, fun _ => none⟩
def c75at (ls : List Str) (n : Str) : ScopeChain := sigAt (ls.map (fun l => ⟨l, .module, none⟩)) n

/-- `module s #(parameter W = 8) (input [7:0] a, output [7:0] y); localparam D = W * 2; assign y = a + D; endmodule` -/
def c75sub : ModuleDef :=
  ⟨['s'], [[⟨['W'], c75i ['8'], none, false⟩]], [.io (c75v .input ['a']) none, .io (c75v .output ['y']) none],
   [.decl [.param true ⟨['D'], .bin .times (c75id ['W']) (c75i ['2']), none, false⟩],
    .assign (c75id ['y']) (.bin .plus (c75id ['a']) (c75id ['D']))]⟩

/-- `module t(input c, input [7:0] x); wire [7:0] z; reg [7:0] r; wire [7:0] g; s #(4) u (.y(z), .a(x));
nand (g, x, z, r); always @(posedge c) r <= z; endmodule` -/
def c75top : ModuleDef :=
  ⟨['t'], [], [.io ⟨.input, ['c'], none, false, none⟩ none, .io (c75v .input ['x']) none],
   [.decl [.var (c75v .wire ['z'])], .decl [.var (c75v .reg ['r'])], .decl [.var (c75v .wire ['g'])],
    .insts ['s'] [⟨none, some (c75i ['4'])⟩] [⟨['u'], none, [⟨some ['y'], some (c75id ['z'])⟩, ⟨some ['a'], some (c75id ['x'])⟩]⟩],
    .insts ['n', 'a', 'n', 'd'] [] [⟨[], none, [⟨none, some (c75id ['g'])⟩, ⟨none, some (c75id ['x'])⟩, ⟨none, some (c75id ['z'])⟩, ⟨none, some (c75id ['r'])⟩]⟩],
    .always .always [.posedge (c75id ['c'])] (.nb (c75id ['r']) (c75id ['z']))]⟩

/-- The design meets the hypotheses of `C75_flatten_partial`, is analyzed, and has seven equations. -/
example : (generate c75ctx 15 3 3 [c75top, c75sub] ['t']).isOk = true ∧
    (∀ m ∈ [c75top, c75sub], m.covered [c75top, c75sub] = true) ∧
    ((flatten [c75top, c75sub] 3 ['t']).map Eqn.target).Nodup ∧
    (flatten [c75top, c75sub] 3 ['t']).map Eqn.target =
      [c75at [['t'], ['u']] ['W'], c75at [['t']] ['z'], c75at [['t'], ['u']] ['a'], c75at [['t'], ['u']] ['D'], c75at [['t'], ['u']] ['y'],
       c75at [['t']] ['g'], c75at [['t']] ['r']] := by decide +kernel

/-- The instance is a place of the design, whose parameter is given. -/
example : InDesign [c75top, c75sub] 3 ['t'] 2 (instScope [⟨['t'], .module, none⟩] ['u']) [['W']] c75sub :=
  .inst (k := 2) (md := ['s']) (ps := [⟨none, some (c75i ['4'])⟩]) (c := c75sub)
    (.root (m := c75top) rfl) (List.mem_cons_of_mem _ (List.mem_cons_of_mem _ (List.mem_cons_of_mem _ (List.mem_cons_self)))) (by decide) rfl
    (i := ⟨['u'], none, [⟨some ['y'], some (c75id ['z'])⟩, ⟨some ['a'], some (c75id ['x'])⟩]⟩) (List.mem_cons_self)

/-! ### Counterexamples -/

/-- The recorded trees of a signal. -/
def c75trees (ms : List ModuleDef) (x : ScopeChain) : Option (List DF) :=
  match generate c75ctx 15 3 3 ms ['t'] with
  | .ok s => some ((s.getBindlist x).map (·.tree))
  | .error _ => none

/-- `module s #(parameter W = 1) (input a, output [7:0] y); localparam D = W; assign y = {D{a}}; endmodule` -/
def c76sub : ModuleDef :=
  ⟨['s'], [[⟨['W'], c75i ['1'], none, false⟩]], [.io ⟨.input, ['a'], none, false, none⟩ none, .io (c75v .output ['y']) none],
   [.decl [.param true ⟨['D'], c75id ['W'], none, false⟩], .assign (c75id ['y']) (.rep (c75id ['D']) (c75id ['a']))]⟩

/-- `module t(input x, output [7:0] z); s #(4) u (.a(x), .y(z)); endmodule` -/
def c76top : ModuleDef :=
  ⟨['t'], [], [.io ⟨.input, ['x'], none, false, none⟩ none, .io (c75v .output ['z']) none],
   [.insts ['s'] [⟨none, some (c75i ['4'])⟩] [⟨['u'], none, [⟨some ['a'], some (c75id ['x'])⟩, ⟨some ['y'], some (c75id ['z'])⟩]⟩]]⟩

/-- A valuation with `W = D = 4` and `a = 1`. -/
def c76ρ : Env :=
  ⟨fun c => if c = c75at [['t'], ['u']] ['W'] ∨ c = c75at [['t'], ['u']] ['D'] then some (4, 32)
    else if c = c75at [['t'], ['u']] ['a'] then some (1, 1) else none, fun _ => none, 32⟩

/-- **C76** fails for the constants computed during the analysis: the value of `localparam D = W` is computed before the
argument `#(4)` is known and never again, so `{D{a}}` in the instance is recorded as one copy of `a`, although the recorded
value of `D` is that of `W`, which is 4. -/
theorem C76_fails_localparam :
    c75trees [c76top, c76sub] (c75at [['t'], ['u']] ['W']) = some [.intc ['4']] ∧
    c75trees [c76top, c76sub] (c75at [['t'], ['u']] ['D']) = some [.term (c75at [['t'], ['u']] ['W'])] ∧
    c75trees [c76top, c76sub] (c75at [['t'], ['u']] ['y']) = some [.concat [.term (c75at [['t'], ['u']] ['a'])]] ∧
    exVal c76ρ (c76sub.resAt (c75at [['t'], ['u']] ['a']).dropLast) (.rep (c75id ['D']) (c75id ['a'])) = some (15, 4) ∧
    sem c76ρ (.concat [.term (c75at [['t'], ['u']] ['a'])]) = some (1, 1) := by decide +kernel

/-- The gate `not (p, q, x);` has two outputs. -/
def c77top : ModuleDef :=
  ⟨['t'], [], [.io ⟨.input, ['x'], none, false, none⟩ none, .io ⟨.output, ['p'], none, false, none⟩ none, .io ⟨.output, ['q'], none, false, none⟩ none],
   [.insts ['n', 'o', 't'] [] [⟨[], none, [⟨none, some (c75id ['p'])⟩, ⟨none, some (c75id ['q'])⟩, ⟨none, some (c75id ['x'])⟩]⟩]]⟩

/-- **C77** fails for `not` and `buf` with several outputs: `not (p, q, x)` makes `p` the negation of one other connection, and
`q`, although it is an output of the gate, has no driver. -/
theorem C77_fails_outputs : c75trees [c77top] (c75at [['t']] ['q']) = some [] ∧
    ∃ e, c75trees [c77top] (c75at [['t']] ['p']) = some [.op .ulnot [e]] := by
  refine ⟨by decide +kernel, ?_⟩
  have h : (match c75trees [c77top] (c75at [['t']] ['p']) with | some [.op .ulnot [_]] => true | _ => false) = true := by decide +kernel
  split at h
  · rename_i e he; exact ⟨e, he⟩
  · cases h

/-- The output connected to a concatenation: `s u (.a(x), .y({p, q}))`. -/
def c75cat : ModuleDef :=
  ⟨['t'], [], [.io (c75v .input ['x']) none, .io (c75v .output ['p']) none, .io (c75v .output ['q']) none],
   [.insts ['s'] [] [⟨['u'], none, [⟨some ['a'], some (c75id ['x'])⟩, ⟨some ['y'], some (.concat [c75id ['p'], c75id ['q']])⟩]⟩]]⟩

/-- **C75** fails for an output connected to a concatenation: the analysis ends with an error. -/
theorem C75_fails_concat : c75trees [c75cat, c75sub] (c75at [['t']] ['p']) = none := by decide +kernel

/-- `always_ff @(posedge c) q <= x;` -/
def c75ff : ModuleDef :=
  ⟨['t'], [], [.io ⟨.input, ['c'], none, false, none⟩ none, .io (c75v .input ['x']) none, .io (c75v .output ['q']) (some (c75v .reg ['q']))],
   [.always .ff [.posedge (c75id ['c'])] (.nb (c75id ['q']) (c75id ['x']))]⟩

/-- **C75** fails for `always_ff`: the assignment is recorded without clock, like a continuous one. -/
theorem C75_fails_always_ff : ∃ s b, generate c75ctx 15 3 3 [c75ff] ['t'] = .ok s ∧
    s.getBindlist (c75at [['t']] ['q']) = [b] ∧ b.tree = .term (c75at [['t']] ['x']) ∧ b.always = none := by
  have h : (match generate c75ctx 15 3 3 [c75ff] ['t'] with
    | .ok s => (match s.getBindlist (c75at [['t']] ['q']) with
      | [b] => decide (b.tree = .term (c75at [['t']] ['x'])) && b.always.isNone
      | _ => false)
    | .error _ => false) = true := by decide +kernel
  split at h
  · rename_i s hs
    split at h
    · rename_i b hb
      simp only [Bool.and_eq_true, decide_eq_true_eq, Option.isNone_iff_eq_none] at h
      exact ⟨s, b, hs, hb, h.1, h.2⟩
    · cases h
  · cases h

end Pyv
