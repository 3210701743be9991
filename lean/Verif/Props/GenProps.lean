import Verif.Props.GenTop
/-
  C85: scopes of instances and generate constructs (signalvisitor.py).
-/
namespace Pyv

/-- What C85 demands: the scopes of the frame table that do not belong to always blocks are those of the specification, in
its order, under different names, with the declared names and with the values of the constants.  `ok` restricts the values of
conditions. -/
def ScopesRight (ok : Int → Prop) : Prop :=
  ∀ (ctx : OptCtx) (fuel loops depth : Nat) (ms : List ModuleDef) (top : Str) (M : ModuleDef) d ds sc s,
    ctx.consts = [] → findMod ms top = some M → M.paramNames.Nodup → Opens ms ok false [[]] (.items M.all) [d] ds sc →
    signalPass ctx fuel loops depth ms top = .ok s →
    List.Forall₂ (ShowsScope s.octx.consts []) (s.frames.filter (fun e => !e.2.isAlways)) (scopeTree (.inst top) ds d sc) ∧
      (s.frames.map (·.1)).Nodup

/-- **C85 (partial)** For every design whose conditions have no negative values: if the pass succeeds, the frame table has
exactly the scopes of the design.  Missing: negative conditions (`C85_negative_false`); functions, tasks, `always_ff`,
`always_comb`, `always_latch`, loops in always blocks (not in `Opens`); constant expressions outside `ConstVal`. -/
theorem C85_scopes_partial : ScopesRight (0 ≤ ·) :=
  fun _ _ _ _ _ _ _ _ _ _ _ h1 h2 h3 h4 h5 => signalPass_shows h1 h2 h3 h4 h5

/-! ### A design -/

private abbrev num (n : Nat) : Ex := .intc (natStr n)

/-- `module sub #(parameter W = 8) (input [W-1:0] a); localparam D = W * 2; endmodule` -/
def c85sub : ModuleDef where
  name := "sub".toList
  params := [[{ name := "W".toList, value := num 8 }]]
  ports := [.io { kind := .input, name := "a".toList, width := some (.bin .minus (.ident [] "W".toList) (num 1), num 0) } none]
  items := [.decl [.param true { name := "D".toList, value := .bin .times (.ident [] "W".toList) (num 2) }]]

/-- A generate loop with a local constant, in it an instance for the first turn and a named block for the others. -/
def c85top : ModuleDef where
  name := "top".toList
  params := []
  ports := []
  items := [
    .decl [.param false { name := "N".toList, value := num 2 }],
    .decl [.genvar "i".toList],
    .gen [.gfor (.ident [] "i".toList) (num 0) (.bin .lessThan (.ident [] "i".toList) (.ident [] "N".toList))
        (.ident [] "i".toList) (.bin .plus (.ident [] "i".toList) (num 1))
      (.gblock (some "g".toList) [
        .decl [.param true { name := "K".toList, value := .bin .plus (.ident [] "i".toList) (num 10) }],
        .decl [.var { kind := .wire, name := "w".toList, width := some (.ident [] "K".toList, num 0) }],
        .gife (.bin .eq (.ident [] "i".toList) (num 0))
          (.insts "sub".toList [⟨some "W".toList, some (.ident [] "K".toList)⟩] [⟨"u".toList, none, []⟩])
          (.gblock (some "h".toList) [.decl [.var { kind := .wire, name := "v".toList }]])])]]

def c85ctx : OptCtx := ⟨[], [], 32, fun _ => none⟩

private theorem cname {σ : GEnv} {n : Str} (v : Int) (h : σ.get n = some v) : ConstVal σ (.ident [] n) v := .name h

private theorem cbin {σ : GEnv} {o a b} (x y v : Int) (h1 : ConstVal σ a x) (h2 : ConstVal σ b y) (hf : FoldOK o [x, y])
    (h : ∀ w, opSem o [x, y] w = some v) : ConstVal σ (.bin o a b) v := .bin h1 h2 hf h

section
variable {ms : List ModuleDef} {ok : Int → Prop} {g : Bool} {σ σ1 σ2 : GEnv} {d : Dict Str Int} {ds : List DItem} {sc : List GScope}

private theorem gen1 {is} (h : Opens ms ok true ([] :: σ) (.items is) (d :: σ1) ds sc) :
    Opens ms ok g σ (.items [.gen is]) σ1 [] (scopeTree .gen ds d sc) := by simpa using Opens.gen h .nil

private theorem block1 {n is} (h : Opens ms ok g ([] :: σ) (.items is) (d :: σ1) ds sc) :
    Opens ms ok g σ (.items [.gblock n is]) σ1 [] (scopeTree (.block n) ds d sc) := by simpa using Opens.gblock h .nil

private theorem first1 {c v t f} (hc : ConstVal σ c v) (hv : v ≠ 0) (ho : ok v) (h : Opens ms ok true ([] :: σ) (.items [t]) (d :: σ1) ds sc) :
    Opens ms ok true σ (.items [.gife c t f]) σ1 [] (scopeTree (.arm true) ds d sc) := by simpa using Opens.gifeTrue hc hv ho h .nil

private theorem second1 {c t f} (hc : ConstVal σ c 0) (h : Opens ms ok true ([] :: σ) (.items [f]) (d :: σ1) ds sc) :
    Opens ms ok true σ (.items [.gife c t f]) σ1 [] (scopeTree (.arm false) ds d sc) := by simpa using Opens.gifeFalse hc h .nil

private theorem for1 {i pr a c next b} (h1 : ConstVal σ pr a) (h2 : GEnv.put σ i a = some σ1) (h : Opens ms ok g σ1 (.loop i a c next b) σ2 [] sc) :
    Opens ms ok g σ (.items [.gfor (.ident [] i) pr c (.ident [] i) next b]) σ2 [] sc := by simpa using Opens.gfor h1 h2 h .nil

private theorem decl1 {xs} (h : DeclVals σ xs σ1) : Opens ms ok g σ (.items [.decl xs]) σ1 xs [] := by
  simpa using Opens.decl (ms := ms) (ok := ok) (g := g) h .nil

private theorem inst1 {m ps} {i : Inst} {M ov d0} (ha : i.array = none) (h1 : primitiveOf m = none) (h2 : findMod ms m = some M)
    (h3 : M.paramNames.Nodup) (h4 : Overrides σ M.paramNames 0 ps [] ov) (h5 : Defaults ov M.parameters d0)
    (h : Opens ms ok false [d0] (.items M.all) [d] ds sc) :
    Opens ms ok g σ (.items [.insts m ps [i]]) σ [] (scopeTree (.inst i.name) ds d sc) := by
  simpa using Opens.insts (.one ha .nil) (.inst h1 h2 h3 h4 h5 h .done) .nil
end

/-- A turn of the loop of the design. -/
def c85turn (a : Int) (arm : List GScope) : List GScope :=
  scopeTree (.turn a) [] [] (scopeTree (.block (some "g".toList))
    [.param true { name := "K".toList, value := .bin .plus (.ident [] "i".toList) (num 10) },
      .var { kind := .wire, name := "w".toList, width := some (.ident [] "K".toList, num 0) }] [("K".toList, a + 10)] arm)

/-- The scopes of the design: the generate region, two turns with their blocks, the instance in the first, the block in
the second. -/
def c85scopes : List GScope :=
  scopeTree .gen [] []
    (c85turn 0 (scopeTree (.arm true) [] [] (scopeTree (.inst "u".toList)
      (c85sub.head ++ [.param true { name := "D".toList, value := .bin .times (.ident [] "W".toList) (num 2) }])
      [("W".toList, 10), ("D".toList, 20)] [])) ++
    (c85turn 1 (scopeTree (.arm false) [] [] (scopeTree (.block (some "h".toList)) [.var { kind := .wire, name := "v".toList }] [] [])) ++ []))

theorem c85opens : Opens [c85top, c85sub] (0 ≤ ·) false [[]] (.items c85top.all) [[("N".toList, 2), ("i".toList, 2)]]
    [.param false { name := "N".toList, value := num 2 }, .genvar "i".toList] c85scopes := by
  have l (σ : GEnv) (n : Nat) (h : hasXZ (natStr n) = false) (h' : intConstEval (natStr n) = .ok n) : ConstVal σ (num n) n := .lit h h'
  have sub : Opens [c85top, c85sub] (0 ≤ ·) false [[("W".toList, 10)]] (.items c85sub.all) [[("W".toList, 10), ("D".toList, 20)]]
      (c85sub.head ++ [.param true { name := "D".toList, value := .bin .times (.ident [] "W".toList) (num 2) }]) [] := by
    refine .decl (σ1 := [[("W".toList, 10)]]) (.old (n := "W".toList) (v := 10) rfl rfl (.other rfl .nil)) ?_
    exact decl1 (.param rfl (cbin 10 2 20 (cname _ rfl) (l _ 2 rfl rfl) trivial (fun _ => rfl)) .nil)
  have arm0 (σ : GEnv) (hi : σ.get "i".toList = some 0) (hK : σ.get "K".toList = some 10) :
      Opens [c85top, c85sub] (0 ≤ ·) true σ (.items [.gife (.bin .eq (.ident [] "i".toList) (num 0))
          (.insts "sub".toList [⟨some "W".toList, some (.ident [] "K".toList)⟩] [⟨"u".toList, none, []⟩])
          (.gblock (some "h".toList) [.decl [.var { kind := .wire, name := "v".toList }]])]) σ [] _ :=
    first1 (v := 1) (d := []) (cbin 0 0 1 (cname _ hi) (l _ 0 rfl rfl) trivial (fun _ => rfl)) (by decide) (by decide)
      (inst1 (ov := [("W".toList, 10)]) rfl rfl rfl (by decide) (.named rfl (by decide) rfl (cname 10 hK) .nil) (.given rfl .nil) sub)
  have arm1 (σ : GEnv) (hi : σ.get "i".toList = some 1) :
      Opens [c85top, c85sub] (0 ≤ ·) true σ (.items [.gife (.bin .eq (.ident [] "i".toList) (num 0))
          (.insts "sub".toList [⟨some "W".toList, some (.ident [] "K".toList)⟩] [⟨"u".toList, none, []⟩])
          (.gblock (some "h".toList) [.decl [.var { kind := .wire, name := "v".toList }]])]) σ [] _ :=
    second1 (d := []) (cbin 1 0 0 (cname _ hi) (l _ 0 rfl rfl) trivial (fun _ => rfl)) (block1 (decl1 (.other rfl .nil)))
  refine .decl (ds := []) (ds2 := [.param false { name := "N".toList, value := num 2 }, .genvar "i".toList]) (σ1 := [[]]) .nil ?_
  refine .decl (ds2 := [.genvar "i".toList]) (.param (v := 2) rfl (l _ 2 rfl rfl) .nil) ?_
  refine .decl (ds2 := []) (.genvar rfl .nil) ?_
  refine gen1 (for1 (a := 0) (l _ 0 rfl rfl) rfl ?_)
  refine .turn (v := 1) (a' := 1) (σ1 := [[], [("N".toList, 2), ("i".toList, 0)]]) (cbin 0 2 1 (cname _ rfl) (cname _ rfl) trivial (fun _ => rfl)) (by decide) (by decide) ?_
    (cbin 0 1 1 (cname _ rfl) (l _ 1 rfl rfl) trivial (fun _ => rfl)) rfl ?_
  · refine block1 (.decl (σ1 := [[("K".toList, 10)], [], [], [("N".toList, 2), ("i".toList, 0)]])
      (.param (v := 10) rfl (cbin 0 10 10 (cname _ rfl) (l _ 10 rfl rfl) trivial (fun _ => rfl)) .nil)
      (.decl (ds2 := []) (.other rfl .nil) (arm0 _ rfl rfl)))
  · refine .turn (v := 1) (a' := 2) (sc3 := []) (σ1 := [[], [("N".toList, 2), ("i".toList, 1)]]) (cbin 1 2 1 (cname _ rfl) (cname _ rfl) trivial (fun _ => rfl)) (by decide) (by decide) ?_
      (cbin 1 1 2 (cname _ rfl) (l _ 1 rfl rfl) trivial (fun _ => rfl)) rfl ?_
    · refine block1 (.decl (σ1 := [[("K".toList, 11)], [], [], [("N".toList, 2), ("i".toList, 1)]])
        (.param (v := 11) rfl (cbin 1 10 11 (cname _ rfl) (l _ 10 rfl rfl) trivial (fun _ => rfl)) .nil)
        (.decl (ds2 := []) (.other rfl .nil) (arm1 _ rfl)))
    · exact .stop (cbin 2 2 0 (cname _ rfl) (cname _ rfl) trivial (fun _ => rfl))

/-- The hypotheses of `C85_scopes_partial` hold for this design: it has ten scopes. -/
example : findMod [c85top, c85sub] "top".toList = some c85top ∧ c85top.paramNames.Nodup ∧
    (signalPass c85ctx 100 100 10 [c85top, c85sub] "top".toList).isOk = true ∧ c85scopes.length = 9 :=
  ⟨rfl, by decide, by decide +kernel, rfl⟩

/-! ### Where the pass is wrong -/

/-- `generate if (0 - 1) wire a; else wire b; endgenerate` -/
def c85neg : ModuleDef where
  name := "top".toList
  params := []
  ports := []
  items := [.gen [.gife (.bin .minus (num 0) (num 1)) (.decl [.var { kind := .wire, name := "a".toList }])
    (.decl [.var { kind := .wire, name := "b".toList }])]]

/-- **C85, refuted in general**: a condition with a negative value, which is true, counts as false. -/
theorem C85_negative_false : ¬ ScopesRight (fun _ => True) := by
  intro h
  have l (σ : GEnv) (n : Nat) (h : hasXZ (natStr n) = false) (h' : intConstEval (natStr n) = .ok n) : ConstVal σ (num n) n := .lit h h'
  have hO : Opens [c85neg] (fun _ => True) false [[]] (.items c85neg.all) [[]] []
      (scopeTree .gen [] [] (scopeTree (.arm true) [.var { kind := .wire, name := "a".toList }] [] [])) := by
    refine .decl (ds := []) (ds2 := []) (σ1 := [[]]) .nil (gen1 (first1 (v := -1) ?_ (by decide) trivial (decl1 (.other rfl .nil))))
    exact cbin 0 1 (-1) (l _ 0 rfl rfl) (l _ 1 rfl rfl) trivial (fun _ => rfl)
  have hp : (match signalPass c85ctx 100 100 10 [c85neg] "top".toList with
      | .ok s => ((s.frames : List _).filter (fun e => !e.2.isAlways)).map (fun e => (Dict.has e.2.vars.const "a".toList || Dict.has e.2.vars.signal "a".toList))
      | .error _ => []) = [false, false, false] := by decide +kernel
  cases hs : signalPass c85ctx 100 100 10 [c85neg] "top".toList with
  | error e => rw [hs] at hp; simp at hp
  | ok s =>
    rw [hs] at hp
    simp only at hp
    have F := (h c85ctx 100 100 10 [c85neg] "top".toList c85neg _ _ _ s rfl rfl (by decide) hO hs).1
    generalize List.filter _ _ = fs at hp F
    cases F with
    | cons _ F => cases F with
      | cons _ F => cases F with
        | @cons e _ _ _ h3 _ =>
          have := (h3.names "a".toList).mpr ⟨_, List.mem_singleton.mpr rfl, rfl⟩
          simp only [List.map_cons, List.cons.injEq] at hp
          rw [hp.2.2.1] at this
          simp at this

/-- A generate-if with a negative condition opens the second alternative, whatever it is. -/
theorem C85_negative_condition {s s' : SV} {σ c v} {vt vf : SV → Py SV} (hr : s.Ready true σ) (hc : ConstVal σ c v) (hv : v < 0)
    (h : SV.visitIf c false vt false vf s = .ok s') :
    ∃ r, s.label "if".toList = .ok r ∧ r.2.side (toELSE r.1) c true vf = .ok s' := by
  have h := visitIf_cond hr hc h
  rw [if_neg (by omega)] at h
  obtain ⟨r, h1, h⟩ := bind_ok.mp h
  exact ⟨r, h1, by simpa using h⟩

/-- **C85**: a module that has a parameter with a range cannot be instantiated: whatever the arguments, FormatError. -/
theorem C85_ranged_parameter {ms : List ModuleDef} {T : ModTable} (hT : modTable ms = .ok T) {m n : Str} {M : ModuleDef} {s s1 : SV} {g σ}
    (rec : SV → Str → Py SV) (ps : List PArg) (hr : s.Ready g σ) (hm : primitiveOf m = none) (hM : findMod ms m = some M) (hnd : M.paramNames.Nodup)
    (hn : n ≠ []) (hs : s.stackInstance T n m = .ok s1) {p : Param} (hp : p ∈ M.parameters) (hw : p.width.isSome = true) :
    s.visitInstBody T rec m ps n = .error .format := by
  obtain ⟨_, _, hcs, _⟩ := table_module (modTable_ok hT) (modTable_vars hT) hM
  obtain ⟨sg, f1, _, hfc, _, P⟩ := stack_phase hr.fresh (hcs hnd) hs
  have hfr : ∃ f, s1.frame s1.current = .ok f ∧ f.vars.const = M.parameters.map paramEntry := by
    have h1 := P.get
    rw [← P.cur] at h1
    unfold SV.view at h1
    rw [Dict.get?_map, Option.map_eq_some_iff] at h1
    obtain ⟨f, h1, h2⟩ := h1
    exact ⟨f, Dict.get_ok.mpr h1, by rw [← hfc, ← h2]; rfl⟩
  obtain ⟨f, hf, hc⟩ := hfr
  have hcd : s1.consts = .ok (M.parameters.map Param.constDef) := by
    unfold SV.consts
    rw [hf]
    simp only [ok_bind, hc]
    rw [List.filterMap_map]
    have : ((fun e : Str × List DItem => e.2.head?.bind DItem.const) ∘ paramEntry) = fun p => some (Param.constDef p) := by
      funext p; rfl
    rw [this, List.filterMap_eq_map']
  have hst : s1.simpleTerms = .error .format := by
    unfold SV.simpleTerms
    rw [hcd, ok_bind]
    generalize M.parameters = pl at hp
    clear hcd hf hc P hs
    induction pl generalizing s1 with
    | nil => simp at hp
    | cons q pl ih =>
      rw [List.map_cons, List.foldlM_cons]
      cases hq : q.width with
      | some r => simp only [Param.constDef, hq]; rfl
      | none =>
        simp only [Param.constDef, hq, SV.constTerm, ok_bind]
        rcases List.mem_cons.mp hp with e | hp
        · rw [e, hq] at hw; simp at hw
        · exact ih hp
  unfold SV.visitInstBody
  rw [hm]
  simp only
  rw [if_neg hn, hs]
  simp only [ok_bind, hst]
  rfl

/-- **C85**: names with a scope, `$signed`, `$unsigned` cannot be used in a constant expression. -/
theorem C85_unsupported (s : SV) (c : ScopeChain) : (∀ x xs n, s.eval (.ident (x :: xs) n) c = .error .attribute) ∧
    ∀ e es, s.eval (.sys "signed".toList (e :: es)) c = .error .type ∧ s.eval (.sys "unsigned".toList (e :: es)) c = .error .type := by
  refine ⟨fun x xs n => rfl, fun e es => ⟨?_, ?_⟩⟩
  · simp only [SV.eval, SV.getTree, constDF, or_true, if_true]; rfl
  · simp only [SV.eval, SV.getTree, constDF, true_or, if_true]; rfl

/-- An instance of a module with a ranged parameter: `module sub #(parameter [3:0] W = 8) ();` in `top`. -/
example : (match signalPass c85ctx 100 100 10
    [{ name := "top".toList, params := [], ports := [], items := [.insts "sub".toList [] [⟨"u".toList, none, []⟩]] },
     { name := "sub".toList, params := [[{ name := "W".toList, value := num 8, width := some (num 3, num 0) }]], ports := [], items := [] }]
    "top".toList with | .error .format => true | _ => false) = true := by decide +kernel

end Pyv
