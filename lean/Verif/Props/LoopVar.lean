import Verif.Props.C97
import Verif.Props.BaTop
/-
  C97: what the variable of a loop in an always block reads as.
-/
namespace Pyv

section
variable {K : BaEnv} {s s' s1 : BV} {c d : ScopeChain} {p : ExPath} {P : ScopeChain → Prop}

/-- The frame knows an assignment of the signal, whose intermediate value is this number. -/
def BV.Fixed (s : BV) (K : BaEnv) (c x : ScopeChain) (v : Int) : Prop :=
  ∃ rn j b w a1 a2, s.ent c x = some j ∧ s.objs[j]? = some b ∧ b.whole ∧ b.tree = .term rn ∧ s.octx.consts.get? rn = some (.ev (.int v) w a1 a2) ∧
    b.dest = x ∧ s.terms.has rn = true ∧ ¬ K.X rn

theorem intAttr_ev {t : DF} {v : Int} (h : t.intAttr = .ok v) : ∃ w a1 a2, t = .ev (.int v) w a1 a2 := by
  unfold DF.intAttr at h
  obtain ⟨u, hu, h⟩ := bind_ok.mp h
  cases t <;> simp only [DF.valueAttr] at hu <;> try (cases hu; done)
  rename_i x w a1 a2
  rw [ok_inj] at hu; subst hu
  cases x <;> simp only [PyVal.toInt] at h <;> try (cases h; done)
  rw [ok_inj] at h; subst h
  exact ⟨w, a1, a2, rfl⟩

/-- Constant folding gives a constant signal its value. -/
theorem optConst_const {rn : ScopeChain} {v : Int} {w a1 a2} (hc : s.octx.consts.get? rn = some (.ev (.int v) w a1 a2)) :
    ∀ k r, s.octx.optConst k (.term rn) = .ok r → ∃ w' b1 b2, r = .ev (.int v) w' b1 b2 := by
  intro k r h
  cases k with
  | zero => simp [OptCtx.optConst] at h
  | succ k =>
    simp only [OptCtx.optConst, hc] at h
    obtain ⟨tm, -, h⟩ := bind_ok.mp h
    split at h
    · obtain ⟨m, -, h⟩ := bind_ok.mp h
      obtain ⟨l, -, h⟩ := bind_ok.mp h
      split at h
      · obtain ⟨mv, -, h⟩ := bind_ok.mp h
        obtain ⟨lv, -, h⟩ := bind_ok.mp h
        rw [ok_inj] at h; exact ⟨_, _, _, h.symm⟩
      · rw [ok_inj] at h; exact ⟨_, _, _, h.symm⟩
    · rw [ok_inj] at h; exact ⟨_, _, _, h.symm⟩

/-! ### Counting expressions -/

/-- The expression is built from the variable `i`, constants `cs` and integer literals with arithmetic and comparisons; where `i` is
`v`, it is `n`. -/
inductive CountEx (cs : Str → Option Int) (i : Str) (v : Int) : Ex → Int → Prop
  | var : CountEx cs i v (.ident [] i) v
  | con {p n} : cs p = some n → CountEx cs i v (.ident [] p) n
  | lit {ds n} : hasXZ ds = false → intConstEval ds = .ok n → CountEx cs i v (.intc ds) n
  | plus {a b x y} : CountEx cs i v a x → CountEx cs i v b y → CountEx cs i v (.bin .plus a b) (x + y)
  | minus {a b x y} : CountEx cs i v a x → CountEx cs i v b y → CountEx cs i v (.bin .minus a b) (x - y)
  | times {a b x y} : CountEx cs i v a x → CountEx cs i v b y → CountEx cs i v (.bin .times a b) (x * y)
  | lt {a b x y} : CountEx cs i v a x → CountEx cs i v b y → CountEx cs i v (.bin .lessThan a b) (if x < y then 1 else 0)
  | le {a b x y} : CountEx cs i v a x → CountEx cs i v b y → CountEx cs i v (.bin .lessEq a b) (if x ≤ y then 1 else 0)
  | gt {a b x y} : CountEx cs i v a x → CountEx cs i v b y → CountEx cs i v (.bin .greaterThan a b) (if x > y then 1 else 0)
  | ge {a b x y} : CountEx cs i v a x → CountEx cs i v b y → CountEx cs i v (.bin .greaterEq a b) (if x ≥ y then 1 else 0)
  | eq {a b x y} : CountEx cs i v a x → CountEx cs i v b y → CountEx cs i v (.bin .eq a b) (if x = y then 1 else 0)
  | ne {a b x y} : CountEx cs i v a x → CountEx cs i v b y → CountEx cs i v (.bin .notEq a b) (if x = y then 0 else 1)

/-- The tree of such an expression, over signals with these values. -/
inductive NumT (T : ScopeChain → Int → Prop) : DF → Int → Prop
  | var {x v} : T x v → NumT T (.term x) v
  | lit {ds n} : hasXZ ds = false → intConstEval ds = .ok n → NumT T (.intc ds) n
  | op {o a b y z n} : (∀ w, evalOpInt o [y, z] w = .ok (.int n)) → NumT T a y → NumT T b z → NumT T (.op o [a, b]) n

theorem NumT.plain {T : ScopeChain → Int → Prop} {n : Int} {t : DF} (h : NumT T t n) : t.isBranch = false ∧ t ≠ .none := by
  cases h <;> simp [DF.isBranch]

theorem mkOp_two {o : Op} {a b t : DF} (h : DF.mkOp o [a, b] = .ok t) : t = .op o [a, b] := by
  unfold DF.mkOp at h
  split at h
  · cases h
  · rw [ok_inj] at h; exact h.symm

theorem hoistNode_plain {k : DF → Py DF} {t : DF} (h : t.isBranch = false) : hoistNode k t = k t := by
  cases t <;> simp_all [hoistNode, DF.isBranch]

theorem insertOpList_two {o : Op} {a b t : DF} (ha : a.isBranch = false) (hb : b.isBranch = false) (h : insertOpList [a, b] o = .ok t) : t = .op o [a, b] := by
  simp only [insertOpList, hoistList, hoistNode_plain ha, hoistNode_plain hb, List.nil_append, List.cons_append] at h
  exact mkOp_two h

theorem count_num {E : ExprEnv} {cs : Str → Option Int} {i : Str} {T : ScopeChain → Int → Prop} {v n : Int}
    (hx : ∀ t, E.makeDF (.ident [] i) = .ok t → ∃ x, t = .term x ∧ T x v)
    (hp : ∀ p m, cs p = some m → ∀ t, E.makeDF (.ident [] p) = .ok t → ∃ x, t = .term x ∧ T x m) {e : Ex} (h : CountEx cs i v e n) :
    ∀ t, E.makeDF e = .ok t → NumT T t n := by
  have bin : ∀ {o a b y z m}, (∀ w, evalOpInt o [y, z] w = .ok (.int m)) → (∀ t, E.makeDF a = .ok t → NumT T t y) → (∀ t, E.makeDF b = .ok t → NumT T t z) →
      ∀ t, E.makeDF (.bin o a b) = .ok t → NumT T t m := by
    intro o a b y z m ho ha hb t h
    simp only [ExprEnv.makeDF, bind_ok] at h
    obtain ⟨a', h1, b', h2, h3⟩ := h
    have := insertOpList_two (ha a' h1).plain.1 (hb b' h2).plain.1 h3
    subst this
    exact .op ho (ha a' h1) (hb b' h2)
  induction h with
  | var => intro t ht; obtain ⟨x, rfl, h⟩ := hx t ht; exact .var h
  | con h1 => intro t ht; obtain ⟨x, rfl, h⟩ := hp _ _ h1 t ht; exact .var h
  | lit h1 h2 => intro t ht; simp only [ExprEnv.makeDF, ok_inj] at ht; subst ht; exact .lit h1 h2
  | plus _ _ iha ihb => exact bin (fun w => by simp [evalOpInt]) iha ihb
  | minus _ _ iha ihb => exact bin (fun w => by simp [evalOpInt]) iha ihb
  | times _ _ iha ihb => exact bin (fun w => by simp [evalOpInt]) iha ihb
  | lt _ _ iha ihb => exact bin (fun w => by simp [evalOpInt]) iha ihb
  | le _ _ iha ihb => exact bin (fun w => by simp [evalOpInt]) iha ihb
  | gt _ _ iha ihb => exact bin (fun w => by simp [evalOpInt]) iha ihb
  | ge _ _ iha ihb => exact bin (fun w => by simp [evalOpInt]) iha ihb
  | eq _ _ iha ihb => exact bin (fun w => by simp [evalOpInt]) iha ihb
  | @ne _ _ x y _ _ iha ihb => exact bin (fun w => by simp only [evalOpInt]; by_cases h : x = y <;> simp [h]) iha ihb

theorem num_resolve {R : ResEnv} {T U : ScopeChain → Int → Prop} (hx : ∀ x v, T x v → ∀ t, R.look x = .ok t → ∃ y, t = .term y ∧ U y v) {n : Int} {t : DF} (h : NumT T t n) :
    ∀ t', R.resolve t = .ok t' → NumT U t' n := by
  induction h with
  | var hT => intro t' ht; simp only [ResEnv.resolve] at ht; obtain ⟨y, rfl, h⟩ := hx _ _ hT _ ht; exact .var h
  | lit h1 h2 => intro t' ht; simp only [ResEnv.resolve, ok_inj] at ht; subst ht; exact .lit h1 h2
  | op ho _ _ iha ihb =>
    intro t' ht
    simp only [ResEnv.resolve, ResEnv.resolveList, bind_ok, ok_inj] at ht
    obtain ⟨rs, ⟨a', h1, l, ⟨b', h2, l2, rfl, rfl⟩, rfl⟩, h3⟩ := ht
    have ga := iha a' h1
    have gb := ihb b' h2
    simp only [List.any_cons, List.any_nil, ga.plain.1, gb.plain.1, Bool.or_self, Bool.false_eq_true, if_false] at h3
    have := mkOp_two h3
    subst this
    exact .op ho ga gb

theorem num_reorder {T : ScopeChain → Int → Prop} {n : Int} {t : DF} (h : NumT T t n) : ∀ k t', reorder k t = .ok t' → t' = t := by
  induction h with
  | var =>
    intro k t' ht
    cases k with
    | zero => simp [reorder] at ht
    | succ k => simp only [reorder, ok_inj] at ht; exact ht.symm
  | lit h1 h2 =>
    intro k t' ht
    cases k with
    | zero => simp [reorder] at ht
    | succ k => simp only [reorder, ok_inj] at ht; exact ht.symm
  | op ho ga gb iha ihb =>
    intro k t' ht
    cases k with
    | zero => simp [reorder] at ht
    | succ k =>
      simp only [reorder, List.mapM_cons, List.mapM_nil, bind_ok, py_pure, ok_inj] at ht
      obtain ⟨rs, ⟨a', h1, l, ⟨b', h2, l2, rfl, rfl⟩, rfl⟩, h3⟩ := ht
      have := iha _ _ h1; subst this
      have := ihb _ _ h2; subst this
      simp only [List.any_cons, List.any_nil, ga.plain.1, gb.plain.1, Bool.or_self, Bool.false_eq_true, if_false] at h3
      exact mkOp_two h3

theorem num_optConst {ctx : OptCtx} {T : ScopeChain → Int → Prop} {n : Int}
    (hx : ∀ x v, T x v → ∀ k r, ctx.optConst k (.term x) = .ok r → ∃ w a1 a2, r = .ev (.int v) w a1 a2) {t : DF} (h : NumT T t n) : ∀ k r, ctx.optConst k t = .ok r → ∃ w a1 a2, r = .ev (.int n) w a1 a2 := by
  induction h with
  | var hT => exact hx _ _ hT
  | lit h1 h2 =>
    intro k r hr
    cases k with
    | zero => simp [OptCtx.optConst] at hr
    | succ k =>
      simp only [OptCtx.optConst, h1, h2, Bool.false_eq_true, if_false, ok_bind, bind_ok, ok_inj] at hr
      obtain ⟨w, -, rfl⟩ := hr
      exact ⟨_, _, _, rfl⟩
  | op ho _ _ iha ihb =>
    intro k r hr
    cases k with
    | zero => simp [OptCtx.optConst] at hr
    | succ k =>
      simp only [OptCtx.optConst, List.mapM_cons, List.mapM_nil, bind_ok, py_pure, ok_inj] at hr
      obtain ⟨rs, ⟨a', h1, l, ⟨b', h2, l2, rfl, rfl⟩, rfl⟩, h3⟩ := hr
      obtain ⟨w1, p1, q1, rfl⟩ := iha _ _ h1
      obtain ⟨w2, p2, q2, rfl⟩ := ihb _ _ h2
      simp only [List.all_cons, List.all_nil, DF.isEv, Bool.and_self, if_true, evalOperator, bind_ok, ok_inj] at h3
      obtain ⟨w, -, vs, hvs, z, hz, rfl⟩ := h3
      simp only [evInts, DF.intAttr, DF.valueAttr, PyVal.toInt, ok_bind, ok_inj] at hvs
      subst hvs
      rw [ho, ok_inj] at hz
      subst hz
      exact ⟨_, _, _, rfl⟩

/-- The optimizer folds such a tree. -/
theorem num_opt {T : ScopeChain → Int → Prop} {n : Int} (hx : ∀ x v, T x v → ∀ k r, s.octx.optConst k (.term x) = .ok r → ∃ w a1 a2, r = .ev (.int v) w a1 a2)
    {t r : DF} (h : NumT T t n) (hr : s.opt t = .ok r) : ∃ w a1 a2, r = .ev (.int n) w a1 a2 := by
  have two : ∀ k r w b1 b2, s.octx.optConst k (.ev (.int n) w b1 b2) = .ok r → r = .ev (.int n) w b1 b2 := by
    intro k r w b1 b2 h
    cases k with
    | zero => simp [OptCtx.optConst] at h
    | succ k => simp only [OptCtx.optConst, ok_inj] at h; exact h.symm
  simp only [BV.opt, OptCtx.optimize] at hr
  obtain ⟨a, ha, hr⟩ := bind_ok.mp hr
  obtain ⟨w1, b1, b2, rfl⟩ := num_optConst hx h _ _ ha
  obtain ⟨a, ha', hr⟩ := bind_ok.mp hr
  simp only [OptCtx.optHier, ok_inj] at ha'; subst ha'
  obtain ⟨a, ha', hr⟩ := bind_ok.mp hr
  have := two _ _ _ _ _ ha'; subst this
  obtain ⟨a, ha', hr⟩ := bind_ok.mp hr
  simp only [OptCtx.optHier, ok_inj] at ha'; subst ha'
  rw [ok_inj] at hr
  exact ⟨_, _, _, hr.symm⟩

theorem reo_term {rn : ScopeChain} {r : DF} (h : s.reo (.term rn) = .ok r) : r = .term rn := by
  unfold BV.reo at h
  cases hf : s.fuel with
  | zero => rw [hf] at h; simp [reorder] at h
  | succ k => rw [hf] at h; simp only [reorder, ok_inj] at h; exact h.symm

theorem diff_term {rn : ScopeChain} (q : CondPath) : (diffBranchTree (.term rn) q).1 = .term rn := by
  cases q with
  | nil => simp [diffBranchTree]
  | cons a q => simp [diffBranchTree]

/-- These names denote signals that the block does not assign, and that the optimizer maps to these numbers. -/
def BV.ConstsAt (s : BV) (K : BaEnv) (cs : Str → Option Int) : Prop :=
  ∀ p n, cs p = some n → ∃ y w a1 a2, K.res p = some y ∧ ¬ K.X y ∧ s.terms.has y = true ∧ s.octx.consts.get? y = some (.ev (.int n) w a1 a2)

/-- Where the innermost known assignment of a signal is a number, the expressions over this signal have the values they have at
this number. -/
theorem read_ev (hw : BaWF K s) (hc : BaChain K s.frames c p) {n : Str} {x : ScopeChain} (hx : K.res n = some x) {v : Int}
    {c0 : ScopeChain} (h0 : s.Fixed K c0 x v) (hr : K.root <+: c0) (h1 : c0 <+: c) (h2 : ∀ d, c0 <+: d → d <+: c → d ≠ c0 → s.ent d x = none)
    {cs : Str → Option Int} (hcs : s.ConstsAt K cs) {e : Ex} {m : Int} (he : CountEx cs n v e m)
    {t r : DF} (ht : s.getTree e c = .ok t) (hr' : s.opt t = .ok r) : ∃ w a1 a2, r = .ev (.int m) w a1 a2 := by
  obtain ⟨rn, j, b, w, a1, a2, e1, e2, e3, e4, e5, -⟩ := h0
  simp only [BV.getTree, hw.nore, Bool.false_eq_true, if_false, bind_ok] at ht
  obtain ⟨y, hy, z, hz, ht⟩ := ht
  have hy := count_num (T := fun y m => (y = x ∧ m = v) ∨ (¬ K.X y ∧ ∃ w a1 a2, s.octx.consts.get? y = some (.ev (.int m) w a1 a2))) (by
    intro t ht
    simp only [ExprEnv.makeDF, BV.exprEnv, search_ba hc hw.flat, hw.res_mono hx, ok_bind, ok_inj] at ht
    exact ⟨x, ht.symm, .inl ⟨rfl, rfl⟩⟩) (by
    intro p m hm t ht
    obtain ⟨y, w, a1, a2, h1, h2, -, h3⟩ := hcs p m hm
    simp only [ExprEnv.makeDF, BV.exprEnv, search_ba hc hw.flat, hw.res_mono h1, ok_bind, ok_inj] at ht
    exact ⟨y, ht.symm, .inr ⟨h2, w, a1, a2, h3⟩⟩) he y hy
  have hz := num_resolve (U := fun y m => ∃ w a1 a2, s.octx.consts.get? y = some (.ev (.int m) w a1 a2)) (by
    intro x' m hT z hz
    simp only [BV.resEnv, bind_ok] at hz
    obtain ⟨g, hg, hz⟩ := hz
    have : g = false := by
      simp only [BV.isGenvar] at hg
      split at hg
      · cases hg
      · rename_i t ht; cases hg; exact hw.flat.2 _ _ ht
    subst this
    simp only [Bool.false_eq_true, if_false, bind_ok] at hz
    obtain ⟨bs, hbs, hz⟩ := hz
    rcases hT with ⟨rfl, rfl⟩ | ⟨hX, hT⟩
    swap
    · have : bs = [] := by
        rcases getBlocking_ba hc x' _ _ hbs with ⟨c', i, -, -, -, k4, -⟩ | ⟨k1, -⟩
        · exact absurd k4 hX
        · exact k1
      subst this
      simp only [if_true, ok_inj] at hz
      exact ⟨x', hz.symm, hT⟩
    rcases getBlocking_ba hc x' _ _ hbs with ⟨c', i, k1, k2, k3, -, k5, k6⟩ | ⟨-, k2⟩
    · have hcc : c' = c0 := by
        rcases List.prefix_or_prefix_of_prefix k2 h1 with q | q
        · by_contra hne
          rw [k6 c0 q h1 (fun e => hne e.symm)] at e1; cases e1
        · by_contra hne
          rw [h2 c' q k2 hne] at k3; cases k3
      subst hcc
      rw [e1] at k3; cases k3
      have : bs = [b] := by rw [k5]; simp [BV.deref, e2]
      subst this
      simp only [List.cons_ne_nil, if_false, bind_ok] at hz
      obtain ⟨p', -, hz⟩ := hz
      have hz := fit_whole e3 hz
      rw [e4, diff_term] at hz
      simp only [replaceUndefined, ok_inj] at hz
      exact ⟨rn, hz.symm, w, a1, a2, e5⟩
    · rw [k2 c0 hr h1] at e1; cases e1) hy z hz
  have ht := num_reorder hz _ _ ht
  subst ht
  exact num_opt (fun x v h => by obtain ⟨w, a1, a2, h⟩ := h; exact optConst_const h) hz hr'

theorem read_fixed (hw : BaWF K s) (hc : BaChain K s.frames c p) {n : Str} {x : ScopeChain} (hx : K.res n = some x) {v : Int}
    {c0 : ScopeChain} (h0 : s.Fixed K c0 x v) (hr : K.root <+: c0) (h1 : c0 <+: c) (h2 : ∀ d, c0 <+: d → d <+: c → d ≠ c0 → s.ent d x = none)
    {cs : Str → Option Int} (hcs : s.ConstsAt K cs) {e : Ex} {m : Int} (he : CountEx cs n v e m)
    {t r : DF} (ht : s.getTree e c = .ok t) (hr' : s.opt t = .ok r) {u : Int} (hu : r.intAttr = .ok u) : u = m := by
  obtain ⟨w', b1, b2, rfl⟩ := read_ev hw hc hx h0 hr h1 h2 hcs he ht hr'
  simp only [DF.intAttr, DF.valueAttr, PyVal.toInt, ok_bind, ok_inj] at hu
  exact hu.symm

theorem addBindObj_octx {n : ScopeChain} {i : Nat} {b : Bind} : (s.addBindObj n i b).octx = s.octx := by
  unfold BV.addBindObj
  split
  · rfl
  · split
    · simp [BV.setTree]
    · rfl

theorem addBindObj_fuel {n : ScopeChain} {i : Nat} {b : Bind} : (s.addBindObj n i b).fuel = s.fuel := by
  unfold BV.addBindObj
  split
  · rfl
  · split
    · simp [BV.setTree]
    · rfl

theorem setBlocking_octx {q n : ScopeChain} {i : Nat} {b : Bind} (h : s.setBlocking q n i b = .ok s') : s'.octx = s.octx := by
  unfold BV.setBlocking at h
  obtain ⟨f, -, h⟩ := bind_ok.mp h
  split at h
  · rw [ok_inj] at h; subst h; rfl
  · split at h
    · rw [ok_inj] at h; subst h; simp [BV.setTree]
    · rw [ok_inj] at h; subst h; rfl

/-- The constants of signals that are not assigned in the block stay. -/
def KeepC (K : BaEnv) (s s' : BV) : Prop := ∀ n, s.terms.has n = true → ¬ K.X n → s'.octx.consts.get? n = s.octx.consts.get? n

theorem KeepC.refl : KeepC K s s := fun _ _ _ => rfl

theorem KeepC.of_octx (h : s'.octx = s.octx) : KeepC K s s' := fun _ _ _ => by rw [h]

theorem KeepC.consts {cs : Str → Option Int} (h : KeepC K s s') (ht : ∀ n t, s.terms.get? n = some t → s'.terms.get? n = some t) (hc : s.ConstsAt K cs) :
    s'.ConstsAt K cs := by
  intro p n hp
  obtain ⟨y, w, a1, a2, h1, h2, h3, h4⟩ := hc p n hp
  refine ⟨y, w, a1, a2, h1, h2, ?_, by rw [h y h3 h2]; exact h4⟩
  rw [Dict.has_eq] at h3 ⊢
  obtain ⟨t, e⟩ := Option.isSome_iff_exists.mp h3
  rw [ht y t e]; rfl

theorem KeepC.trans {s'' : BV} (h : KeepC K s s') (ht : ∀ n t, s.terms.get? n = some t → s'.terms.get? n = some t) (g : KeepC K s' s'') : KeepC K s s'' := by
  intro n hn hX
  rw [g n ?_ hX, h n hn hX]
  rw [Dict.has_eq] at hn ⊢
  obtain ⟨t, e⟩ := Option.isSome_iff_exists.mp hn
  rw [ht n t e]; rfl

/-- What an assignment does to the table of constants. -/
theorem assign_consts (hw : BaWF K s) (hf : BaFr K s c) (hK : K.OK) (hc : BaChain K s.frames c p) (hcur : s.current = c) {n : Str} {r : Ex}
    {x : ScopeChain} (hx : K.res n = some x) (hX : K.X x) (h : s.Assigns (.ident [] n) r s') :
    ∃ p' raw rn dd, K.A.path p = .ok p' ∧ s.getTree r c = .ok raw ∧ s.opt raw = .ok dd ∧ s.terms.has rn = false ∧ ¬ K.X rn ∧ s'.terms.has rn = true ∧
      bindTree s.reo (s.treeOf x) p' (.term rn) = .ok (s'.treeOf x) ∧ (dd.isEv = true → s'.octx.consts.get? rn = some dd) ∧
      ∀ m, m ≠ x → m ≠ rn → s'.octx.consts.get? m = s.octx.consts.get? m := by
  simp only [BV.Assigns, Stmt.visit, bind_ok] at h
  obtain ⟨a, ha, h⟩ := h
  rw [hcur] at ha
  have := alwaysStatus_ba hc _ _ ha
  subst this
  simp only [BV.addBindBlocking, bind_ok] at h
  obtain ⟨⟨ds, s0⟩, hds, h⟩ := h
  rw [hcur] at hds
  obtain ⟨rfl, rfl⟩ := getDestinations_ba hc hw.flat (hw.res_mono hx) hds
  simp only [BV.addBlocking, hcur, bind_ok, BV.renameDsts] at h
  obtain ⟨p', hp', raw, hraw, ⟨rd, s1⟩, ⟨⟨d, s1'⟩, hren, ⟨ds', s1''⟩, hnil, hrd⟩, s2, h2, s3, h3, h⟩ := h
  simp only [ok_inj, Prod.mk.injEq] at hnil hrd
  obtain ⟨rfl, rfl⟩ := hnil
  obtain ⟨rfl, rfl⟩ := hrd
  simp only [List.foldlM_cons, List.foldlM_nil, bind_ok, py_pure, ok_inj, List.length_cons, List.length_nil, Nat.zero_add, List.zip_cons_cons, List.zip_nil_left] at h2 h3
  obtain ⟨s2', h2, e2⟩ := h2
  obtain ⟨s3', h3, e3⟩ := h3
  subst s2' s3'
  have hxm : x = K.mod ++ [⟨n, .signal, none⟩] := by
    simp only [BaEnv.res, resOf] at hx
    split at hx
    · cases hx; rfl
    · cases hx
  obtain ⟨rn, t', r1, r2, r3, r4, r5, ⟨b', r6, r7⟩, r8, r9⟩ := rename_ba hw hK hc hX hxm hren h2
  have hc2 : BaChain K s2.frames c p := r5.chain hc
  obtain ⟨f1, f2⟩ := flow_ba r5.keeps.wf (r5.fr hf) hK hc2 hX r1 h3
  have e1 : s2.reo = s0.reo := by funext z; simp only [BV.reo, r5.keeps.wf.fuel, hw.fuel]
  have e2 : s2.treeOf x = s0.treeOf x := r5.keeps.tree0 hw hX (fun h => h)
  rw [e1, e2] at f2
  have hs' : s'.treeOf x = s3.treeOf x ∧ s'.terms = s3.terms ∧
      (s'.octx.consts = Dict.set s3.octx.consts x (s'.octx.consts.get? x |>.getD .none) ∨ s'.octx.consts = Dict.del s3.octx.consts x) := by
    simp only [BV.setLoopConst, bind_ok, ok_inj] at h
    obtain ⟨g, -, v', -, rfl⟩ := h
    refine ⟨rfl, rfl, ?_⟩
    by_cases hg : (g || v'.isEv) = true
    · left; simp only [hg, if_true, Dict.get?_set, Option.getD_some]
    · right; simp only [hg, if_false, Bool.false_eq_true]
  obtain ⟨hs1, hs3, hs2⟩ := hs'
  have hne : x ≠ rn := fun e => r9 (e ▸ hX)
  have q3 : ∀ m, m ≠ x → s'.octx.consts.get? m = s3.octx.consts.get? m := by
    intro m hm
    rcases hs2 with e | e
    · rw [e, Dict.get?_set, if_neg hm.symm]
    · rw [e, Dict.get?_del, if_neg hm.symm]
  have q2 : s3.octx = s2.octx := by
    simp only [BV.setRenamedFlow1, r1, bind_ok] at h3
    obtain ⟨b3, -, h3⟩ := h3
    rw [setBlocking_octx h3, addBindObj_octx]; rfl
  simp only [BV.setRenamedTree1, r1, bind_ok] at h2
  obtain ⟨t2, ht2, v2, hv2, h2⟩ := h2
  simp only [gt_iff_lt, lt_self_iff_false, if_false, ok_inj] at ht2
  subst ht2
  have q1 : s1'.octx = s0.octx ∧ s1'.fuel = s0.fuel := by
    simp only [BV.renameDst, bind_ok] at hren
    obtain ⟨⟨c', r'⟩, -, hren⟩ := hren
    split at hren
    · cases hren
    · simp only [ok_inj, Prod.mk.injEq] at hren
      obtain ⟨-, rfl⟩ := hren
      exact ⟨rfl, rfl⟩
  have hv : s0.opt raw = .ok v2 := by
    simp only [BV.opt, addBindObj_octx, addBindObj_fuel] at hv2
    simp only [BV.opt]
    have hv2 : s1'.octx.optimize s1'.fuel 2 raw = .ok v2 := hv2
    rw [q1.1, q1.2] at hv2
    exact hv2
  have q0 : s2.octx.consts = if v2.isEv then Dict.set s0.octx.consts rn v2 else s0.octx.consts := by
    split at h2
    · cases h2
    · rw [ok_inj] at h2; subst h2
      simp only [addBindObj_octx]
      have : ∀ b, (s1'.alloc b).octx = s1'.octx := fun _ => rfl
      rw [this, q1.1]
  refine ⟨p', raw, rn, v2, condflow_ba hK hw hc hp', hraw, hv, r2, r9, ?_, by rw [hs1]; exact f2, ?_, ?_⟩
  · rw [hs3, Dict.has_eq, f1.keeps.term _ _ r4]; rfl
  · intro hev
    rw [q3 rn hne.symm, q2, q0, if_pos hev, Dict.get?_set, if_pos rfl]
  · intro m h1 h2
    rw [q3 m h1, q2, q0]
    split
    · rw [Dict.get?_set, if_neg h2.symm]
    · rfl

theorem assign_keep (hw : BaWF K s) (hf : BaFr K s c) (hK : K.OK) (hc : BaChain K s.frames c p) (hcur : s.current = c) {n : Str} {r : Ex}
    {x : ScopeChain} (hx : K.res n = some x) (hX : K.X x) (h : s.Assigns (.ident [] n) r s') : KeepC K s s' := by
  obtain ⟨p', raw, rn, dd, -, -, -, h1, -, -, -, -, h2⟩ := assign_consts hw hf hK hc hcur hx hX h
  intro m hm hmX
  refine h2 m (fun e => hmX (e ▸ hX)) ?_
  rintro rfl
  rw [h1] at hm; cases hm

/-- Behind an assignment of a number outside of conditions the signal is fixed. -/
theorem assign_fixed (hw : BaWF K s) (hf : BaFr K s c) (hK : K.OK) (hc : BaChain K s.frames c []) (hcur : s.current = c) {n : Str} {r : Ex}
    {x : ScopeChain} (hx : K.res n = some x) (hX : K.X x) {v : Int} (hv : s.Static r v) (h : s.Assigns (.ident [] n) r s') : s'.Fixed K c x v := by
  obtain ⟨st, -⟩ := assign_ba hw hf hK hc hcur hx hX h
  obtain ⟨p', raw, rn, dd, hp, hraw, hopt, -, h2, h3, hbt, hcon, -⟩ := assign_consts hw hf hK hc hcur hx hX h
  obtain ⟨raw', dd', g1, g2, g3⟩ := hv
  rw [hcur, hraw, ok_inj] at g1; subst g1
  rw [hopt, ok_inj] at g2; subst g2
  obtain ⟨w, a1, a2, rfl⟩ := intAttr_ev g3
  have hp' : p' = [] := by
    simp only [TEnv.path, ok_inj] at hp
    exact hp.symm
  subst hp'
  simp only [bindTree, diffBranchTree, addTree, makeBranchTree, appendBranchTree, ne_eq, not_true_eq_false, false_and, if_false, ok_bind] at hbt
  have htree := reo_term hbt
  obtain ⟨j, b, k1, k2, k3, k4, k5, -⟩ := st.ent1 x rfl
  exact ⟨rn, j, b, w, a1, a2, k1, k2, k4, by rw [k5, htree], hcon rfl, k3, h3, h2⟩

/-- Statements that do not assign the signal keep its value. -/
theorem Fixed.step {asg : ScopeChain → Prop} {x : ScopeChain} {v : Int} (h : s.Fixed K c x v) (g : BaStep K s s' c asg) (hk : KeepC K s s') (hx : ¬ asg x) :
    s'.Fixed K c x v := by
  obtain ⟨rn, j, b, w, a1, a2, e1, e2, e3, e4, e5, e6, e7, e8⟩ := h
  obtain ⟨t, k1, k2⟩ := g.keeps.obj j b e2
  have : t = b.tree := k2.resolve_right (fun h => hx (e6 ▸ h.1))
  subst this
  refine ⟨rn, j, b, w, a1, a2, by rw [g.ent0 x hx]; exact e1, k1, e3, e4, by rw [hk rn e7 e8]; exact e5, e6, ?_, e8⟩
  rw [Dict.has_eq] at e7 ⊢
  obtain ⟨t, e⟩ := Option.isSome_iff_exists.mp e7
  rw [g.keeps.term rn t e]; rfl

/-! ### Statements that only assign whole signals -/

/-- The statement only makes assignments to whole signals, among those of `P`, in its frame. -/
def BaMove (K : BaEnv) (P : ScopeChain → Prop) (vis : BV → Py BV) : Prop :=
  ∀ (s s' : BV) (c : ScopeChain) (p : ExPath), BaWF K s → BaFr K s c → BaChain K s.frames c p → s.current = c → vis s = .ok s' →
    ∃ asg : ScopeChain → Prop, BaStep K s s' c asg ∧ (∀ x, asg x → P x) ∧ KeepC K s s'

theorem move_ba (hK : K.OK) {n : Str} {r : Ex} {x : ScopeChain} (hx : K.res n = some x) (hX : K.X x) (hP : P x) : BaMove K P (Stmt.visit (.ba (.ident [] n) r)) := by
  intro s s' c p hw hf hc hcur h
  exact ⟨_, (assign_ba hw hf hK hc hcur hx hX h).1, fun y hy => hy ▸ hP, assign_keep hw hf hK hc hcur hx hX h⟩

theorem side_move {vis : BV → Py BV} {s2 : BV} {q : ExPath} (hg : BaMove K P vis) (hw : BaWF K s) (hf : BaFr K s c) (o : Opened K s s1 c d p q)
    (h : vis s1 = .ok s2) : ∃ asg : ScopeChain → Prop, BaStep K s1 s2 d asg ∧ SidesPost K s s2 c [d] asg ∧ (∀ x, asg x → P x) ∧ KeepC K s1 s2 := by
  obtain ⟨asg, h1, h2, h3⟩ := hg s1 s2 d q (o.tab.wf hw) (o.fr hf) o.inner o.cur h
  exact ⟨asg, h1, side_post o h1, h2, h3⟩

theorem none_P {P : ScopeChain → Prop} : ∀ x, (fun _ : ScopeChain => False) x → P x := fun _ h => h.elim

theorem or_P {P a1 a2 : ScopeChain → Prop} (h1 : ∀ x, a1 x → P x) (h2 : ∀ x, a2 x → P x) : ∀ x, (fun x => a1 x ∨ a2 x) x → P x :=
  fun x h => h.elim (h1 x) (h2 x)

theorem copyBlocking_octx {q1 q2 : ScopeChain} (h : s.copyBlocking q1 q2 = .ok s') : s'.octx = s.octx := by
  unfold BV.copyBlocking at h
  obtain ⟨f, -, h'⟩ := bind_ok.mp h
  clear h
  rename' h' => h
  generalize (f.blocking.flatMap (fun e => e.2.map (fun i => (e.1, i)))) = L at h
  induction L generalizing s with
  | nil => simp only [List.foldlM_nil, py_pure, ok_inj] at h; subst h; rfl
  | cons e L ih =>
    simp only [List.foldlM_cons, bind_ok] at h
    obtain ⟨t, ht, h⟩ := h
    rw [ih h]
    split at ht
    · exact setBlocking_octx ht
    · rw [ok_inj] at ht; subst ht; rfl

theorem enter_octx {l : ScopeLabel} {e : Option Ex} {b : Bool} (h : s.enter l e b = .ok s') : s'.octx = s.octx := by
  unfold BV.enter BV.push at h
  obtain ⟨f, -, h⟩ := bind_ok.mp h
  simp only at h
  split at h
  · cases h
  · rw [ok_inj] at h; subst h; rfl

theorem label_octx {n l : Str} (h : s.label n = .ok (l, s')) : s'.octx = s.octx := by
  unfold BV.label at h
  obtain ⟨f, -, h⟩ := bind_ok.mp h
  simp only [ok_inj, Prod.mk.injEq] at h
  obtain ⟨-, rfl⟩ := h
  rfl

theorem KeepC.mid {t1 t2 : BV} (h1 : t1.octx = s.octx) (ht : t1.terms = s.terms) (h : KeepC K t1 t2) (h2 : s'.octx = t2.octx) : KeepC K s s' := by
  intro n hn hX
  rw [h2, h n (by rw [ht]; exact hn) hX, h1]

theorem move_list : ∀ (ss : List Stmt), (∀ st ∈ ss, BaMove K P st.visit) → BaMove K P (Stmt.visitList ss)
  | [], _, s, s', c, p, hw, _, hc, _, h => by
    simp only [Stmt.visitList, ok_inj] at h
    subst h
    exact ⟨_, BaStep.refl hw hc, none_P, .refl⟩
  | st :: ss, hs, s, s', c, p, hw, hf, hc, hcur, h => by
    simp only [Stmt.visitList, bind_ok] at h
    obtain ⟨s1, h1, h2⟩ := h
    obtain ⟨a1, g1, p1, k1⟩ := hs st (by simp) s s1 c p hw hf hc hcur h1
    obtain ⟨a2, g2, p2, k2⟩ := move_list ss (fun t ht => hs t (by simp [ht])) s1 s' c p g1.keeps.wf (g1.fr hf) (g1.chain hc) (g1.cur.trans hcur) h2
    exact ⟨_, g1.trans g2, or_P p1 p2, k1.trans g1.keeps.term k2⟩

theorem setBlocking_current {q n : ScopeChain} {i : Nat} {b : Bind} (h : s.setBlocking q n i b = .ok s') (d : ScopeChain) :
    BV.setBlocking { s with current := d } q n i b = .ok { s' with current := d } := by
  unfold BV.setBlocking at h ⊢
  obtain ⟨f, hf, h⟩ := bind_ok.mp h
  have hf : BV.frame { s with current := d } q = .ok f := hf
  rw [hf, ok_bind]
  cases hb : f.blocking.get? n with
  | none =>
    simp only [hb, ok_inj] at h ⊢
    subst h; rfl
  | some ids =>
    simp only [hb] at h ⊢
    have e : BV.findObj { s with current := d } (fun c => c.msb = b.msb ∧ c.ptr = b.ptr) ids = s.findObj (fun c => c.msb = b.msb ∧ c.ptr = b.ptr) ids := rfl
    rw [e]
    cases hj : s.findObj (fun c => c.msb = b.msb ∧ c.ptr = b.ptr) ids with
    | none =>
      simp only [hj, ok_inj] at h ⊢
      subst h; rfl
    | some j =>
      simp only [hj, ok_inj] at h ⊢
      subst h
      simp only [BV.setTree]

theorem copyBlocking_current {q1 q2 : ScopeChain} (h : s.copyBlocking q1 q2 = .ok s') (d : ScopeChain) :
    BV.copyBlocking { s with current := d } q1 q2 = .ok { s' with current := d } := by
  unfold BV.copyBlocking at h ⊢
  obtain ⟨f, hf, h'⟩ := bind_ok.mp h
  clear h
  rename' h' => h
  have hf2 : BV.frame { s with current := d } q1 = .ok f := hf
  rw [hf2, ok_bind]
  generalize (f.blocking.flatMap (fun e => e.2.map (fun i => (e.1, i)))) = L at h ⊢
  clear hf hf2
  induction L generalizing s with
  | nil => simp only [List.foldlM_nil, py_pure, ok_inj] at h ⊢; subst h; rfl
  | cons e L ih =>
    simp only [List.foldlM_cons, bind_ok] at h ⊢
    obtain ⟨t, ht, h⟩ := h
    refine ⟨{ t with current := d }, ?_, ih h⟩
    show (match s.objs[e.2]? with
      | some b => BV.setBlocking { s with current := d } q2 e.1 e.2 b
      | none => .ok { s with current := d }) = _
    cases hb : s.objs[e.2]? with
    | none =>
      simp only [hb, ok_inj] at ht ⊢
      subst ht; rfl
    | some b =>
      simp only [hb] at ht ⊢
      exact setBlocking_current ht d

theorem iteration_move {vis : BV → Py BV} (hg : BaMove K P vis) {lab : ScopeLabel} (hl : lab.type ≠ .if_ ∧ lab.type ≠ .module) :
    BaMove K P (fun s => s.iteration lab vis) := by
  intro s s' c p hw hf hc hcur h
  simp only [BV.iteration, bind_ok, ok_inj] at h
  obtain ⟨s1, h1, s2, h2, s3, h3, rfl⟩ := h
  obtain ⟨o, -⟩ := enter_ba hc hcur (fun _ => hl) (fun a h => by cases h) h1
  simp only [pathStep, List.append_nil] at o
  obtain ⟨asg, g, pB, pP, kk⟩ := side_move hg hw hf o h2
  have hc2 : s2.current = c ++ [lab] := g.cur.trans o.cur
  rw [hc2, hcur] at h3
  have pB := pB.current s.current
  have hcop : BV.copyBlocking { s2 with current := s.current } (c ++ [lab]) c = .ok { s3 with current := s.current } := copyBlocking_current h3 _
  obtain ⟨q1, -⟩ := step_of_sides (s'' := { s3 with current := s.current }) hw hf hc pB rfl (by
    simp only [List.foldlM_cons, List.foldlM_nil, hcop]
    rfl)
  exact ⟨_, q1, pP, KeepC.mid (s' := { s3 with current := s.current }) (enter_octx h1) o.tab.terms kk (show s3.octx = s2.octx from copyBlocking_octx h3)⟩

theorem block_move {name : Option Str} {vis : BV → Py BV} (hg : BaMove K P vis) : BaMove K P (Stmt.visitBlock name vis) := by
  intro s s' c p hw hf hc hcur h
  simp only [Stmt.visitBlock, bind_ok] at h
  obtain ⟨⟨l, sl⟩, hl, s1, h1, s2, h2, f, hf3, h⟩ := h
  have hlab : (TabEq s sl ∧ sl.frames = s.frames ∧ sl.current = s.current) ∧ sl.octx = s.octx := by
    cases name with
    | some n =>
      simp only [BV.blockLabel, ok_inj, Prod.mk.injEq] at hl
      obtain ⟨-, rfl⟩ := hl
      exact ⟨⟨.refl, rfl, rfl⟩, rfl⟩
    | none => exact ⟨label_tab hl, label_octx hl⟩
  obtain ⟨⟨tl, fl, cl⟩, ol⟩ := hlab
  have hwl := tl.wf hw
  have hfl := BaFr.tab tl fl hf
  have hcl : BaChain K sl.frames c p := by rw [fl]; exact hc
  have hcurl : sl.current = c := cl.trans hcur
  obtain ⟨o, -⟩ := enter_ba hcl hcurl (fun _ => ⟨by simp, by simp⟩) (fun a h => by cases h) h1
  simp only [pathStep, List.append_nil] at o
  obtain ⟨asg, -, pB, pP, kk⟩ := side_move hg hwl hfl o h2
  have pB := pB.current s.current
  obtain ⟨g, hg1, hg2⟩ := (pB.chain hcl).frame
  have hf3 := frame_get hf3
  rw [hcur] at hf3
  rw [hcur] at hg1
  have : g = f := by
    rw [hf3] at hg1; exact (Option.some.inj hg1).symm
  subst this
  rw [if_pos hg2.always] at h
  obtain ⟨q1, -⟩ := step_of_sides (s'' := s') hwl hfl hcl pB cl.symm (by
    simp only [List.foldlM_cons, List.foldlM_nil]
    rw [← hcur, h]
    rfl)
  exact ⟨_, q1.labelled tl fl cl, pP, KeepC.mid ((enter_octx h1).trans ol) (o.tab.terms.trans tl.terms) kk (show s'.octx = s2.octx from (copyBlocking_octx h).trans rfl)⟩

theorem if_move {e : Ex} (he : e.flat = true ∧ e.noCond = true ∧ e.allNames K.Q = true) {noT noF : Bool} {vt vf : BV → Py BV}
    (hT : BaMove K P vt) (hF : BaMove K P vf) : BaMove K P (Stmt.visitIf e noT vt noF vf) := by
  intro s s' c p hw hf hc hcur h
  simp only [Stmt.visitIf] at h
  cases noT with
  | true =>
    simp only [if_true] at h
    cases noF with
    | false => simp at h
    | true =>
      simp only [if_true, ok_inj] at h
      subst h
      exact ⟨_, BaStep.refl hw hc, none_P, .refl⟩
  | false =>
    simp only [Bool.false_eq_true, if_false, bind_ok] at h
    obtain ⟨⟨l, sl⟩, hl, s1, h1, h⟩ := h
    obtain ⟨tl, fl, cl⟩ := label_tab hl
    have hwl := tl.wf hw
    have hfl := BaFr.tab tl fl hf
    have hcl : BaChain K sl.frames c p := by rw [fl]; exact hc
    have hcurl : sl.current = c := cl.trans hcur
    simp only [BV.side, bind_ok, ok_inj] at h1
    obtain ⟨a1, ha1, a2, ha2, a3, ha3, e1⟩ := h1
    have oT := openIf_ba hcl hcurl he ha1 ha2
    obtain ⟨asgT, -, pT, ppT, kT⟩ := side_move hT hwl hfl oT ha3
    obtain ⟨oE, hpE⟩ := enter_ba hcl hcurl (fun h => by cases h) (fun a h => by cases h; exact ⟨rfl, he⟩) ha1
    have ea : a2 = a1 := copyNonblocking_ba oE.outer hpE ha2
    have kT : KeepC K s s1 := by
      refine KeepC.mid (t1 := a2) (t2 := a3) ?_ (oT.tab.terms.trans tl.terms) kT (by rw [← e1])
      rw [ea, enter_octx ha1, label_octx hl]
    have pT := pT.current sl.current
    rw [e1] at pT
    have cur1 : s1.current = c := by rw [← e1]; exact hcurl
    cases noF with
    | true =>
      simp only [if_true] at h
      obtain ⟨q1, -⟩ := step_of_sides (s'' := s') hwl hfl hcl pT (cur1.trans hcurl.symm) (by
        simp only [List.foldlM_cons, List.foldlM_nil] at h ⊢
        rw [hcur] at h
        rw [h]
        rfl)
      exact ⟨_, q1.labelled tl fl cl, ppT, KeepC.mid (t1 := s) rfl rfl kT (copyBlocking_octx h)⟩
    | false =>
      simp only [Bool.false_eq_true, if_false, bind_ok] at h
      obtain ⟨s2, h2, s3, h3, h4⟩ := h
      simp only [BV.side, bind_ok, ok_inj] at h2
      obtain ⟨b1, hb1, b2, hb2, b3, hb3, e2⟩ := h2
      have oF := openIf_ba (pT.chain hcl) cur1 he hb1 hb2
      obtain ⟨asgF, -, pF, ppF, kF⟩ := side_move hF pT.keeps.wf (pT.fr hfl) oF hb3
      obtain ⟨oE, hpE⟩ := enter_ba (pT.chain hcl) cur1 (fun h => by cases h) (fun a h => by cases h; exact ⟨rfl, he⟩) hb1
      have eb : b2 = b1 := copyNonblocking_ba oE.outer hpE hb2
      have kF : KeepC K s1 s2 := by
        refine KeepC.mid (t1 := b2) (t2 := b3) ?_ oF.tab.terms kF (by rw [← e2])
        rw [eb, enter_octx hb1]
      have kTF : KeepC K s s2 := kT.trans (by intro n t ht; rw [← tl.terms] at ht; exact pT.keeps.term n t ht) kF
      have pF := pF.current s1.current
      rw [e2] at pF
      have cur2 : s2.current = c := by rw [← e2]; exact cur1
      have pTF := pT.trans pF (by
        intro d hd d' hd' hp
        simp only [List.mem_singleton] at hd hd'
        subst hd hd'
        have := hp.eq_of_length (by simp)
        simp [toELSE_ne] at this)
      obtain ⟨q1, -⟩ := step_of_sides (s'' := s') hwl hfl hcl pTF (cur2.trans hcurl.symm) (by
        simp only [List.cons_append, List.nil_append, List.foldlM_cons, List.foldlM_nil]
        rw [hcur] at h3 h4
        rw [h3, ok_bind, h4]
        rfl)
      exact ⟨_, q1.labelled tl fl cl, or_P ppT ppF, KeepC.mid (t1 := s) rfl rfl kTF ((copyBlocking_octx h4).trans (copyBlocking_octx h3))⟩

theorem forLoop_move {vis : BV → Py BV} (hg : BaMove K P vis) {l : Str} {e q : Ex} {ql : Ex} (hq : BaMove K P (Stmt.visit (.ba ql q))) :
    ∀ (k : Nat) (v : Int), BaMove K P (Stmt.forLoop l e ql q vis k v)
  | 0, v, s, s', c, p, hw, hf, hc, hcur, h => by simp [Stmt.forLoop] at h
  | k + 1, v, s, s', c, p, hw, hf, hc, hcur, h => by
    simp only [Stmt.forLoop] at h
    obtain ⟨go, -, h⟩ := bind_ok.mp h
    split at h
    · obtain ⟨s1, h1, h⟩ := bind_ok.mp h
      obtain ⟨n, -, h⟩ := bind_ok.mp h
      obtain ⟨ai, ha, h⟩ := bind_ok.mp h
      obtain ⟨s2, h2, h⟩ := bind_ok.mp h
      have h2 : Stmt.visit (.ba ql q) s1 = .ok s2 := by simp only [Stmt.visit, ha, ok_bind, h2]
      obtain ⟨a1, g1, p1, k1⟩ := iteration_move hg ⟨by simp, by simp⟩ s s1 c p hw hf hc hcur h1
      obtain ⟨a2, g2, p2, k2⟩ := hq s1 s2 c p g1.keeps.wf (g1.fr hf) (g1.chain hc) (g1.cur.trans hcur) h2
      have g := g1.trans g2
      have kg := k1.trans g1.keeps.term k2
      obtain ⟨a3, g3, p3, k3⟩ := forLoop_move hg hq k n s2 s' c p g.keeps.wf (g.fr hf) (g.chain hc) (g.cur.trans hcur) h
      exact ⟨_, g.trans g3, or_P (or_P p1 p2) p3, kg.trans g.keeps.term k3⟩
    · rw [ok_inj] at h; subst h
      exact ⟨_, BaStep.refl hw hc, none_P, .refl⟩

theorem whileLoop_move {vis : BV → Py BV} (hg : BaMove K P vis) {l : Str} {e : Ex} : ∀ (k : Nat) (v : Int), BaMove K P (Stmt.whileLoop l e vis k v)
  | 0, v, s, s', c, p, hw, hf, hc, hcur, h => by simp [Stmt.whileLoop] at h
  | k + 1, v, s, s', c, p, hw, hf, hc, hcur, h => by
    simp only [Stmt.whileLoop] at h
    obtain ⟨go, -, h⟩ := bind_ok.mp h
    split at h
    · obtain ⟨s1, h1, h⟩ := bind_ok.mp h
      obtain ⟨a1, g1, p1, k1⟩ := iteration_move hg ⟨by simp, by simp⟩ s s1 c p hw hf hc hcur h1
      obtain ⟨a3, g3, p3, k3⟩ := whileLoop_move hg k (v + 1) s1 s' c p g1.keeps.wf (g1.fr hf) (g1.chain hc) (g1.cur.trans hcur) h
      exact ⟨_, g1.trans g3, or_P p1 p3, k1.trans g1.keeps.term k3⟩
    · rw [ok_inj] at h; subst h
      exact ⟨_, BaStep.refl hw hc, none_P, .refl⟩

/-! ### Loops -/

/-- The statement is made of assignments to whole signals with the names `D`, ifs whose conditions read names of `Q` only,
blocks and loops. -/
inductive Stmt.LoopBody (Q D : Str → Prop) : Stmt → Prop
  | skip : LoopBody Q D .skip
  | ba {n r} : D n → LoopBody Q D (.ba (.ident [] n) r)
  | ifs {e t f} : e.flat = true → e.noCond = true → (∀ q : Str → Bool, (∀ n, Q n → q n = true) → e.allNames q = true) → LoopBody Q D t →
      LoopBody Q D f → LoopBody Q D (.ifs e t f)
  | block {n ss} : (∀ st ∈ ss, LoopBody Q D st) → LoopBody Q D (.block n ss)
  | fors {i e c j q b} : D i → D j → LoopBody Q D b → LoopBody Q D (.fors (.ident [] i) e c (.ident [] j) q b)
  | whiles {c b} : LoopBody Q D b → LoopBody Q D (.whiles c b)

theorem body_move (hK : K.OK) {D : Str → Prop} (hD : ∀ n, D n → ∃ x, K.res n = some x ∧ K.X x ∧ P x) {st : Stmt}
    (h : st.LoopBody (fun n => K.Q n = true) D) : BaMove K P st.visit := by
  induction h with
  | skip =>
    intro s s' c p hw hf hc hcur h
    simp only [Stmt.visit, ok_inj] at h
    subst h
    exact ⟨_, BaStep.refl hw hc, none_P, .refl⟩
  | ba hn =>
    obtain ⟨x, h1, h2, h3⟩ := hD _ hn
    exact move_ba hK h1 h2 h3
  | @ifs e t f h1 h2 h3 _ _ iht ihf =>
    have e0 : (Stmt.ifs e t f).visit = Stmt.visitIf e t.isSkip t.visit f.isSkip f.visit := by funext s; simp only [Stmt.visit]
    rw [e0]
    exact if_move ⟨h1, h2, h3 K.Q (fun _ h => h)⟩ iht ihf
  | @block n ss _ ih =>
    have e0 : (Stmt.block n ss).visit = Stmt.visitBlock n (Stmt.visitList ss) := by funext s; simp only [Stmt.visit]
    rw [e0]
    exact block_move (move_list ss ih)
  | @fors i e c j q b hi hj _ ih =>
    intro s s' c' p hw hf hc hcur h
    obtain ⟨x, h1, h2, hp1⟩ := hD _ hi
    obtain ⟨y, h3, h4, hp2⟩ := hD _ hj
    simp only [Stmt.visit, Stmt.visitFor, bind_ok] at h
    obtain ⟨v, -, ai, ha, s0, k1, ⟨l, s1⟩, k2, k3⟩ := h
    have k1 : Stmt.visit (.ba (.ident [] i) e) s = .ok s0 := by simp only [Stmt.visit, ha, ok_bind, k1]
    obtain ⟨a1, g1, p1, m1⟩ := move_ba hK h1 h2 hp1 s s0 c' p hw hf hc hcur k1
    obtain ⟨tl, fl, cl⟩ := label_tab k2
    have hw1 := tl.wf g1.keeps.wf
    obtain ⟨a2, g2, p2, m2⟩ := forLoop_move ih (move_ba hK h3 h4 hp2) _ _ s1 s' c' p hw1 (BaFr.tab tl fl (g1.fr hf)) (by rw [fl]; exact g1.chain hc)
      (cl.trans (g1.cur.trans hcur)) k3
    exact ⟨_, g1.trans (g2.labelled tl fl cl), or_P p1 p2, m1.trans g1.keeps.term (KeepC.mid (label_octx k2) tl.terms m2 rfl)⟩
  | @whiles e b _ ih =>
    intro s s' c' p hw hf hc hcur h
    simp only [Stmt.visit, Stmt.visitWhile, bind_ok] at h
    obtain ⟨⟨l, s1⟩, k2, k3⟩ := h
    obtain ⟨tl, fl, cl⟩ := label_tab k2
    obtain ⟨a2, g2, p2, m2⟩ := whileLoop_move ih _ _ s1 s' c' p (tl.wf hw) (BaFr.tab tl fl hf) (by rw [fl]; exact hc) (cl.trans hcur) k3
    exact ⟨_, g2.labelled tl fl cl, p2, KeepC.mid (label_octx k2) tl.terms m2 rfl⟩

/-- The variable reads as `v`: the expressions over it, constants `cs` and literals have no static value but the one that they have where it is `v`
(in particular the variable itself). -/
def BV.ReadsAs (s : BV) (cs : Str → Option Int) (i : Str) (v : Int) : Prop := ∀ e n, CountEx cs i v e n → ∀ u, s.Static e u → u = n

/-- One turn at whose beginning, in its own scope, the variable reads as `v`. -/
def TurnReading (cs : Str → Option Int) (i : Str) (v : Int) (b : Stmt) (lab : ScopeLabel) (s s' : BV) : Prop :=
  ∃ s1 s2, s.enter lab none false = .ok s1 ∧ s1.current = s.current ++ [lab] ∧ s1.ReadsAs cs i v ∧ b.visit s1 = .ok s2 ∧
    (∃ s3, s2.copyBlocking (s.current ++ [lab]) s.current = .ok s3 ∧ s' = { s3 with current := s.current })

/-- The turns of a for loop over `i`: the values that name the turns are those that `i` reads as, in front of the condition, and
inside the turns. -/
inductive ForReads (cs : Str → Option Int) (i : Str) (b : Stmt) (l : Str) (c qr : Ex) : Int → BV → List Int → BV → Prop
  | stop {v x s} : s.ReadsAs cs i v → s.Static c x → x ≤ 0 → ForReads cs i b l c qr v s [] s
  | turn {v x w s s1 s2 s' vs} : s.ReadsAs cs i v → s.Static c x → 0 < x → TurnReading cs i v b ⟨l, .for_, some v⟩ s s1 → s1.Static qr w →
      s1.Assigns (.ident [] i) qr s2 → ForReads cs i b l c qr w s2 vs s' → ForReads cs i b l c qr v s (v :: vs) s'

theorem Fixed_here {cs : Str → Option Int} (hcs : s.ConstsAt K cs) (hw : BaWF K s) (hc : BaChain K s.frames c p) (hcur : s.current = c) {i : Str} {x : ScopeChain} (hx : K.res i = some x) {v : Int}
    (h : s.Fixed K c x v) : s.ReadsAs cs i v := by
  rintro e n he u ⟨t, r, h1, h2, h3⟩
  rw [hcur] at h1
  exact read_fixed hw hc hx h hc.under (List.prefix_refl _)
    (fun d h1 h2 h3 => absurd (h2.eq_of_length (Nat.le_antisymm h2.length_le h1.length_le)) h3) hcs he h1 h2 h3

/-- In a scope entered next the signal reads the same. -/
theorem Fixed_inside {cs : Str → Option Int} (hcs : s.ConstsAt K cs) (hw : BaWF K s) (hc : BaChain K s.frames c p) (hcur : s.current = c) {i : Str} {x : ScopeChain} (hx : K.res i = some x) {v : Int}
    (h : s.Fixed K c x v) {lab : ScopeLabel} (hl : lab.type ≠ .if_ ∧ lab.type ≠ .module) (h1 : s.enter lab none false = .ok s1) : s1.ReadsAs cs i v := by
  obtain ⟨o, -⟩ := enter_ba hc hcur (fun _ => hl) (fun a h => by cases h) h1
  simp only [pathStep, List.append_nil] at o
  rintro e n he u ⟨t, r, k1, k2, k3⟩
  rw [o.cur] at k1
  have hF : s1.Fixed K c x v := by
    obtain ⟨rn, j, b, w, a1, a2, e1, e2, e3, e4, e5, e6, e7, e8⟩ := h
    refine ⟨rn, j, b, w, a1, a2, ?_, by rw [o.tab.objs]; exact e2, e3, e4, by rw [enter_octx h1]; exact e5, e6, by rw [o.tab.terms]; exact e7, e8⟩
    simpa only [BV.ent, o.prefixFrm (List.prefix_refl _)] using e1
  have hcs1 : s1.ConstsAt K cs := by
    intro p n hp
    rw [o.tab.terms, enter_octx h1]
    exact hcs p n hp
  refine read_fixed (o.tab.wf hw) o.inner hx hF hc.under (List.prefix_append _ _) ?_ hcs1 he k1 k2 k3
  intro d h1 h2 h3
  rcases List.prefix_concat_iff.mp h2 with rfl | h2
  · exact o.ent x
  · exact absurd (h2.eq_of_length (Nat.le_antisymm h2.length_le h1.length_le)) h3

/-- The values of `i` in `for (i = v; c; i = q)`, where nothing else changes it. -/
inductive CountTurns (cs : Str → Option Int) (i : Str) (c q : Ex) : Int → List Int → Prop
  | stop {v x} : CountEx cs i v c x → x ≤ 0 → CountTurns cs i c q v []
  | turn {v x w vs} : CountEx cs i v c x → 0 < x → CountEx cs i v q w → CountTurns cs i c q w vs → CountTurns cs i c q v (v :: vs)

/-- Condition and step are made of the variable, constants and literals. -/
def Counting (cs : Str → Option Int) (i : Str) (c q : Ex) : Prop := ∀ v, (∃ x, CountEx cs i v c x) ∧ ∃ w, CountEx cs i v q w

theorem forLoop_reads {cs : Str → Option Int} (hK : K.OK) {vb : Stmt} (hg : BaMove K P vb.visit) {l i : Str} {e q : Ex} {x : ScopeChain} (hx : K.res i = some x) (hX : K.X x) :
    ∀ (k : Nat) (v : Int) (s s' : BV), BaWF K s → BaFr K s c → BaChain K s.frames c [] → s.current = c → s.Fixed K c x v → s.ConstsAt K cs →
      Stmt.forLoop l e (.ident [] i) q vb.visit k v s = .ok s' →
        ∃ vs, ForReads cs i vb l e q v s vs s' ∧ (¬ P x → Counting cs i e q → CountTurns cs i e q v vs)
  | 0, v, s, s', hw, hf, hc, hcur, hF, hcs, h => by simp [Stmt.forLoop] at h
  | k + 1, v, s, s', hw, hf, hc, hcur, hF, hcs, h => by
    simp only [Stmt.forLoop] at h
    obtain ⟨go, hgo, h⟩ := bind_ok.mp h
    obtain ⟨y, hy, hgo⟩ := staticCond_static hgo
    split at h
    · rename_i hgt
      obtain ⟨s1, h1, h⟩ := bind_ok.mp h
      obtain ⟨n, hn, h⟩ := bind_ok.mp h
      obtain ⟨ai, ha, h⟩ := bind_ok.mp h
      obtain ⟨s2, h2, h⟩ := bind_ok.mp h
      have h2 : s1.Assigns (.ident [] i) q s2 := assigns_of ha h2
      obtain ⟨a1, g1, p1, k1⟩ := iteration_move hg ⟨by simp, by simp⟩ s s1 c [] hw hf hc hcur h1
      have hF1 : ¬ P x → s1.Fixed K c x v := fun hP => Fixed.step hF g1 k1 (fun h => hP (p1 x h))
      obtain ⟨a2, g2, -, m2⟩ := move_ba (P := fun _ => True) hK hx hX trivial s1 s2 c [] g1.keeps.wf (g1.fr hf) (g1.chain hc) (g1.cur.trans hcur) h2
      have hcs1 := k1.consts g1.keeps.term hcs
      have hcs2 := m2.consts g2.keeps.term hcs1
      have hF2 := assign_fixed g1.keeps.wf (g1.fr hf) hK (g1.chain hc) (g1.cur.trans hcur) hx hX (staticVal_static hn) h2
      have g := g1.trans g2
      obtain ⟨vs, hvs, hct⟩ := forLoop_reads hK hg hx hX k n s2 s' g.keeps.wf (g.fr hf) (g.chain hc) (g.cur.trans hcur) hF2 hcs2 h
      refine ⟨v :: vs, .turn (Fixed_here hcs hw hc hcur hx hF) hy (hgo.mp hgt) ?_ (staticVal_static hn) h2 hvs, ?_⟩
      swap
      · intro hP hC
        obtain ⟨⟨x1, hx1⟩, w1, hw1⟩ := hC v
        have e1 := Fixed_here hcs hw hc hcur hx hF _ _ hx1 _ hy
        have e2 := Fixed_here hcs1 g1.keeps.wf (g1.chain hc) (g1.cur.trans hcur) hx (hF1 hP) _ _ hw1 _ (staticVal_static hn)
        subst e1 e2
        exact .turn hx1 (hgo.mp hgt) hw1 (hct hP hC)
      unfold BV.iteration at h1
      obtain ⟨t1, k1, h1⟩ := bind_ok.mp h1
      obtain ⟨t2, k2, h1⟩ := bind_ok.mp h1
      obtain ⟨t3, k3, h1⟩ := bind_ok.mp h1
      rw [ok_inj] at h1
      obtain ⟨o, -⟩ := enter_ba hc hcur (l := ⟨l, .for_, some v⟩) (fun _ => ⟨by simp, by simp⟩) (fun a h => by cases h) k1
      have hin := Fixed_inside hcs hw hc hcur hx hF ⟨by simp, by simp⟩ k1
      have hc1 : t1.current = s.current ++ [⟨l, .for_, some v⟩] := by rw [hcur]; exact o.cur
      rw [(visit_stays vb _ _ k2).1, hc1] at k3
      exact ⟨t1, t2, k1, hc1, hin, k2, t3, k3, h1.symm⟩
    · rename_i hgt
      rw [ok_inj] at h; subst h
      have hle : y ≤ 0 := by
        by_contra hne
        exact hgt (hgo.mpr (by omega))
      refine ⟨[], .stop (Fixed_here hcs hw hc hcur hx hF) hy hle, ?_⟩
      intro hP hC
      obtain ⟨⟨x1, hx1⟩, -⟩ := hC v
      have e1 := Fixed_here hcs hw hc hcur hx hF _ _ hx1 _ hy
      subst e1
      exact .stop hx1 hle

/-- A literal has its value. -/
theorem lit_ev (hn : s.noreorder = false) {ds : Str} {n : Int} (h1 : hasXZ ds = false) (h2 : intConstEval ds = .ok n) {t r : DF}
    (ht : s.getTree (.intc ds) c = .ok t) (hr : s.opt t = .ok r) : ∃ w a1 a2, r = .ev (.int n) w a1 a2 := by
  simp only [BV.getTree, hn, Bool.false_eq_true, if_false, bind_ok, BV.makeDF, ExprEnv.makeDF, ok_inj] at ht
  obtain ⟨y, rfl, z, hz, ht⟩ := ht
  simp only [ResEnv.resolve, ok_inj] at hz
  subst hz
  have hN : NumT (fun _ _ => False) (.intc ds) n := .lit h1 h2
  have := num_reorder hN _ _ ht
  subst this
  simp only [BV.opt, OptCtx.optimize, bind_ok] at hr
  obtain ⟨a, ha, b, hb, a2, ha2, b2, hb2, hr⟩ := hr
  have one : ∀ k r, s.octx.optConst k (.intc ds) = .ok r → ∃ w, r = .ev (.int n) w false false := by
    intro k r hr
    cases k with
    | zero => simp [OptCtx.optConst] at hr
    | succ k =>
      simp only [OptCtx.optConst, h1, h2, Bool.false_eq_true, if_false, ok_bind, bind_ok, ok_inj] at hr
      obtain ⟨w, -, rfl⟩ := hr
      exact ⟨_, rfl⟩
  obtain ⟨w, rfl⟩ := one _ _ ha
  simp only [OptCtx.optHier, ok_inj] at hb
  subst hb
  have : a2 = .ev (.int n) w false false := by
    cases hf : s.fuel with
    | zero => rw [hf] at ha2; simp [OptCtx.optConst] at ha2
    | succ k => rw [hf] at ha2; simp only [OptCtx.optConst, ok_inj] at ha2; exact ha2.symm
  subst this
  simp only [OptCtx.optHier, ok_inj] at hb2
  subst hb2
  rw [ok_inj] at hr
  exact ⟨_, _, _, hr.symm⟩

theorem static_lit (hn : s.noreorder = false) {ds : Str} {n u : Int} (h1 : hasXZ ds = false) (h2 : intConstEval ds = .ok n) (h : s.Static (.intc ds) u) : u = n := by
  obtain ⟨t, r, ht, hr, hu⟩ := h
  obtain ⟨w, a1, a2, rfl⟩ := lit_ev hn h1 h2 ht hr
  simp only [DF.intAttr, DF.valueAttr, PyVal.toInt, ok_bind, ok_inj] at hu
  exact hu.symm

theorem CountEx.unique {cs : Str → Option Int} {i : Str} (hi : cs i = none) {v : Int} {e : Ex} {n m : Int} (h : CountEx cs i v e n) (h' : CountEx cs i v e m) : n = m := by
  induction h generalizing m with
  | var =>
    cases h' with
    | var => rfl
    | con h => rw [hi] at h; cases h
  | con h =>
    cases h' with
    | var => rw [hi] at h; cases h
    | con h1 => rw [h] at h1; exact Option.some.inj h1
  | lit h1 h2 => cases h' with | lit h3 h4 => rw [h2, ok_inj] at h4; exact h4
  | plus _ _ iha ihb => cases h' with | plus k1 k2 => rw [iha k1, ihb k2]
  | minus _ _ iha ihb => cases h' with | minus k1 k2 => rw [iha k1, ihb k2]
  | times _ _ iha ihb => cases h' with | times k1 k2 => rw [iha k1, ihb k2]
  | lt _ _ iha ihb => cases h' with | lt k1 k2 => rw [iha k1, ihb k2]
  | le _ _ iha ihb => cases h' with | le k1 k2 => rw [iha k1, ihb k2]
  | gt _ _ iha ihb => cases h' with | gt k1 k2 => rw [iha k1, ihb k2]
  | ge _ _ iha ihb => cases h' with | ge k1 k2 => rw [iha k1, ihb k2]
  | eq _ _ iha ihb => cases h' with | eq k1 k2 => rw [iha k1, ihb k2]
  | ne _ _ iha ihb => cases h' with | ne k1 k2 => rw [iha k1, ihb k2]

/-- The comparisons of loops. -/
def loopCmp : Op → Option (Int → Int → Bool)
  | .lessThan => some (fun x y => decide (x < y))
  | .lessEq => some (fun x y => decide (x ≤ y))
  | .greaterThan => some (fun x y => decide (x > y))
  | .greaterEq => some (fun x y => decide (x ≥ y))
  | .eq => some (fun x y => decide (x = y))
  | .notEq => some (fun x y => decide (x ≠ y))
  | _ => none

theorem CountEx.cmp {cs : Str → Option Int} {i : Str} {v x y : Int} {o : Op} {r : Int → Int → Bool} (ho : loopCmp o = some r) {a b : Ex}
    (ha : CountEx cs i v a x) (hb : CountEx cs i v b y) : CountEx cs i v (.bin o a b) (if r x y then 1 else 0) := by
  unfold loopCmp at ho
  split at ho <;> cases ho
  · simpa using CountEx.lt ha hb
  · simpa using CountEx.le ha hb
  · simpa using CountEx.gt ha hb
  · simpa using CountEx.ge ha hb
  · simpa using CountEx.eq ha hb
  · have := CountEx.ne ha hb
    by_cases h : x = y
    · simpa [h] using this
    · simpa [h] using this

/-- The step `i + k` or `i - k`, which adds `d`. -/
inductive LoopStep (cs : Str → Option Int) (i : Str) : Ex → Int → Prop
  | up {ke k} : (∀ v, CountEx cs i v ke k) → LoopStep cs i (.bin .plus (.ident [] i) ke) k
  | down {ke k} : (∀ v, CountEx cs i v ke k) → LoopStep cs i (.bin .minus (.ident [] i) ke) (-k)

theorem LoopStep.count {cs : Str → Option Int} {i : Str} {q : Ex} {d : Int} (h : LoopStep cs i q d) (v : Int) : CountEx cs i v q (v + d) := by
  cases h with
  | up h => exact .plus .var (h v)
  | down h => exact .minus .var (h v)

/-- `for (i = v; i < n; i = i + k)` and so on: the values v, v + k, v + 2k, … as long as the comparison is true. -/
theorem count_steps {cs : Str → Option Int} {i : Str} (hi : cs i = none) {o : Op} {r : Int → Int → Bool} (ho : loopCmp o = some r) {ne q : Ex} {n k : Int}
    (hn : ∀ v, CountEx cs i v ne n) (hk : LoopStep cs i q k) {v : Int} {vs : List Int} (h : CountTurns cs i (.bin o (.ident [] i) ne) q v vs) :
    (∀ j < vs.length, vs[j]? = some (v + k * j)) ∧ (∀ x ∈ vs, r x n = true) ∧ r (v + k * vs.length) n = false := by
  have hc : ∀ {v x}, CountEx cs i v (.bin o (.ident [] i) ne) x → x = if r v n then 1 else 0 := fun h => h.unique hi (.cmp ho .var (hn _))
  have hq : ∀ {v x}, CountEx cs i v q x → x = v + k := fun h => h.unique hi (hk.count _)
  induction h with
  | @stop v x h1 h2 =>
    have := hc h1
    refine ⟨by simp, by simp, ?_⟩
    cases hr : r v n with
    | true => rw [hr] at this; simp at this; omega
    | false => simpa using hr
  | @turn v x w vs h1 h2 h3 h4 ih =>
    obtain ⟨i1, i2, i3⟩ := ih
    have e1 := hc h1
    have e2 := hq h3
    subst e2
    refine ⟨?_, ?_, ?_⟩
    · rintro (_ | j) hj
      · simp
      · rw [List.getElem?_cons_succ, i1 j (by simpa using hj)]
        push_cast
        congr 1
        ring
    · intro y hy
      rcases List.mem_cons.mp hy with rfl | hy
      · cases hr : r y n with
        | true => rfl
        | false => rw [hr] at e1; simp at e1; omega
      · exact i2 y hy
    · rw [List.length_cons]
      push_cast
      rw [← i3]
      congr 1
      ring

end

end Pyv
