import Verif.Props.ConstFoldSound
/-
  C13: resolveConstant (optimizer.py:992-1006).
-/
namespace Pyv

/-- Every entry of `c` is an entry of `c'`. -/
def Ext (c c' : Dict ScopeChain DF) : Prop := ∀ n d, c.get? n = some d → c'.get? n = some d

/-- The declared ranges of the parameters mention no signals or parameters. -/
def RangesClosed (terms : Dict ScopeChain Term) : Prop :=
  ∀ n tm, terms.get? n = some tm → tm.isParam = true → tm.msb.terms = [] ∧ tm.lsb.terms = []

/-- Only parameters are in the constant table. -/
def OnlyParams (terms : Dict ScopeChain Term) (c : Dict ScopeChain DF) : Prop :=
  ∀ n d, c.get? n = some d → ∃ tm, terms.get? n = some tm ∧ tm.isParam = true

theorem Dict.get_ok {κ α : Type} [DecidableEq κ] {d : Dict κ α} {k : κ} {v : α} :
    d.get k = .ok v ↔ d.get? k = some v := by
  unfold Dict.get; split <;> simp_all

theorem mapM_congr {α β : Type} {f g : α → Py β} {ns : List α} (h : ∀ n ∈ ns, f n = g n) : ns.mapM f = ns.mapM g := by
  induction ns with
  | nil => rfl
  | cons n ns ih =>
    rw [List.mapM_cons, List.mapM_cons, h n (by simp), ih (fun m hm => h m (by simp [hm]))]

/-- Folding a tree without signals does not depend on the constant table. -/
theorem optConst_closed {terms dw lg} {c c' : Dict ScopeChain DF} {k t} (h : DF.terms t = []) :
    (OptCtx.mk terms c dw lg).optConst k t = (OptCtx.mk terms c' dw lg).optConst k t := by
  induction k generalizing t with
  | zero => simp [OptCtx.optConst]
  | succ k ih =>
    have ihL : ∀ {ns}, DF.termsList ns = [] → List.mapM ((OptCtx.mk terms c dw lg).optConst k) ns =
        List.mapM ((OptCtx.mk terms c' dw lg).optConst k) ns := by
      intro ns hns
      apply mapM_congr
      intro n hn
      apply ih
      apply List.eq_nil_iff_forall_not_mem.mpr
      intro x hx
      have : x ∈ DF.termsList ns := DF.mem_termsList.mpr ⟨n, hn, hx⟩
      rw [hns] at this; simp at this
    have hcat : ∀ rs, (OptCtx.mk terms c dw lg).evalConcat rs = (OptCtx.mk terms c' dw lg).evalConcat rs := by
      have haux : ∀ rs a s, (OptCtx.mk terms c dw lg).evalConcatAux a s rs =
          (OptCtx.mk terms c' dw lg).evalConcatAux a s rs := by
        intro rs
        induction rs with
        | nil => intro a s; rfl
        | cons r rs ih =>
          intro a s
          simp only [OptCtx.evalConcatAux, OptCtx.evWidth]
          simp only [ih]
      intro rs; exact haux rs 0 0
    cases t with
    | term n => simp [DF.terms] at h
    | branch a b d =>
      simp only [DF.terms, List.append_eq_nil_iff] at h
      simp only [OptCtx.optConst, ih h.1.1, ih h.1.2, ih h.2]
    | op o ns => simp only [DF.terms] at h; simp only [OptCtx.optConst, ihL h]
    | concat ns => simp only [DF.terms] at h; simp only [OptCtx.optConst, ihL h, hcat]
    | sys o ns => simp only [DF.terms] at h; simp only [OptCtx.optConst, ihL h]
    | psel a b d =>
      simp only [DF.terms, List.append_eq_nil_iff] at h
      simp only [OptCtx.optConst, ih h.1.1, ih h.1.2, ih h.2]
    | ptr v p =>
      simp only [DF.terms, List.append_eq_nil_iff] at h
      cases v <;> simp_all [OptCtx.optConst, DF.terms]
    | _ => simp only [OptCtx.optConst]

/-- The width and value of a signal folded to a constant. -/
theorem evalConcat_consts {terms dw lg c c'} (rs : List DF) :
    (OptCtx.mk terms c dw lg).evalConcat rs = (OptCtx.mk terms c' dw lg).evalConcat rs := by
  have haux : ∀ rs a s, (OptCtx.mk terms c dw lg).evalConcatAux a s rs =
      (OptCtx.mk terms c' dw lg).evalConcatAux a s rs := by
    intro rs
    induction rs with
    | nil => intro a s; rfl
    | cons r rs ih =>
      intro a s
      simp only [OptCtx.evalConcatAux, OptCtx.evWidth]
      simp only [ih]
  exact haux rs 0 0

/-- Folding to a constant is stable under adding constants. -/
theorem optConst_ext {terms dw lg} {c c' : Dict ScopeChain DF} (hr : RangesClosed terms) (he : Ext c c')
    (hp : OnlyParams terms c) {k t r r'}
    (h : (OptCtx.mk terms c dw lg).optConst k t = .ok r) (hev : r.isEv = true)
    (h' : (OptCtx.mk terms c' dw lg).optConst k t = .ok r') : r' = r := by
  induction k generalizing t r r' with
  | zero => simp [OptCtx.optConst] at h
  | succ k ih =>
    have ihL : ∀ {ns rs rs'}, List.mapM ((OptCtx.mk terms c dw lg).optConst k) ns = .ok rs → rs.all DF.isEv = true →
        List.mapM ((OptCtx.mk terms c' dw lg).optConst k) ns = .ok rs' → rs' = rs := by
      intro ns rs rs' h1 hall h2
      rw [mapM_ok] at h1 h2
      induction h1 generalizing rs' with
      | nil => cases h2; rfl
      | cons a _ ih2 =>
        cases h2 with
        | cons b bs =>
          simp only [List.all_cons, Bool.and_eq_true] at hall
          rw [ih a hall.1 b, ih2 hall.2 bs]
    cases t with
    | none => simp [OptCtx.optConst] at h; subst h; simp [DF.isEv] at hev
    | ev v w a b => simp [OptCtx.optConst] at h h'; subst h; subst h'; rfl
    | undef w => simp [OptCtx.optConst] at h h'; subst h; subst h'; rfl
    | hiz w => simp [OptCtx.optConst] at h h'; subst h; subst h'; rfl
    | delay w => simp [OptCtx.optConst] at h
    | intc s => simp only [OptCtx.optConst] at h h'; rw [h] at h'; simpa using h'.symm
    | fltc s => simp only [OptCtx.optConst] at h h'; rw [h] at h'; simpa using h'.symm
    | strc s => simp only [OptCtx.optConst] at h h'; rw [h] at h'; simpa using h'.symm
    | term n =>
      simp only [OptCtx.optConst] at h h'
      split at h
      · simp at h; subst h; simp [DF.isEv] at hev
      · rename_i d hd
        rw [he n d hd] at h'
        simp only at h'
        simp only [bind_ok] at h h'
        obtain ⟨tm, htm, h⟩ := h
        obtain ⟨tm', htm', h'⟩ := h'
        rw [htm] at htm'; cases htm'
        obtain ⟨tm2, htm2, hpar⟩ := hp n d hd
        rw [Dict.get_ok] at htm
        rw [htm] at htm2; cases htm2
        obtain ⟨c1, c2⟩ := hr n tm htm hpar
        cases d <;> simp only [reduceCtorEq] at h h'
        rw [optConst_closed (c' := c') c1, optConst_closed (c' := c') c2] at h
        rw [h] at h'; simpa using h'.symm
    | branch a b d =>
      simp only [OptCtx.optConst, bind_ok] at h h'
      obtain ⟨a1, ha, b1, hb, d1, hd, h⟩ := h
      obtain ⟨a2, ha2, b2, hb2, d2, hd2, h'⟩ := h'
      split at h
      · rename_i hc
        cases ih ha hc ha2
        rw [if_pos hc] at h'
        simp only [bind_ok, ok_inj] at h h'
        obtain ⟨x, hx, rfl⟩ := h
        obtain ⟨x', hx', rfl⟩ := h'
        rw [hx] at hx'; cases hx'
        cases x
        · exact ih hd hev hd2
        · exact ih hb hev hb2
      · simp at h; subst h; simp [DF.isEv] at hev
    | op o ns =>
      simp only [OptCtx.optConst, bind_ok] at h h'
      obtain ⟨rs, hrs, h⟩ := h
      obtain ⟨rs', hrs', h'⟩ := h'
      split at h
      · rename_i hall
        cases ihL hrs hall hrs'
        rw [if_pos hall] at h'
        rw [h] at h'; simpa using h'.symm
      · rw [(DF.mkOp_ok h).1] at hev; simp [DF.isEv] at hev
    | concat ns =>
      simp only [OptCtx.optConst, bind_ok] at h h'
      obtain ⟨rs, hrs, h⟩ := h
      obtain ⟨rs', hrs', h'⟩ := h'
      split at h
      · rename_i hall
        cases ihL hrs hall hrs'
        rw [if_pos hall, evalConcat_consts (c' := c)] at h'
        rw [h] at h'; simpa using h'.symm
      · simp at h; subst h; simp [DF.isEv] at hev
    | psel v m l =>
      simp only [OptCtx.optConst, bind_ok] at h h'
      obtain ⟨v1, hv, m1, hm, l1, hl, h⟩ := h
      obtain ⟨v2, hv2, m2, hm2, l2, hl2, h'⟩ := h'
      split at h
      · rename_i hc
        cases ih hv hc.1 hv2
        cases ih hm hc.2 hm2
        rw [if_pos hc] at h'
        have hl1 : l1.isEv = true := by
          cases l1 <;> first | rfl | (unfold evalPartselect at h; simp only [bind_ok] at h; obtain ⟨_, _, _, h2, _⟩ := h; simp [DF.intAttr, DF.valueAttr, bind, Except.bind] at h2)
        cases ih hl hl1 hl2
        rw [h] at h'; simpa using h'.symm
      · simp at h; subst h; simp [DF.isEv] at hev
    | ptr v p =>
      exfalso
      cases v <;> simp only [OptCtx.optConst, bind_ok, ok_inj] at h <;> try (subst h; simp [DF.isEv] at hev; done)
      obtain ⟨tm, _, v', _, p', _, h⟩ := h
      split at h
      · simp at h; subst h; simp [DF.isEv] at hev
      · split at h
        · simp at h
        · simp at h; subst h; simp [DF.isEv] at hev
    | sys s ns =>
      simp only [OptCtx.optConst, bind_ok, ok_inj] at h
      obtain ⟨rs, _, rfl⟩ := h
      simp [DF.isEv] at hev

/-! ### the passes -/

theorem mem_insertByLen {α : Type} {x y : ScopeChain × α} {l} : y ∈ insertByLen x l ↔ y = x ∨ y ∈ l := by
  induction l with
  | nil => simp [insertByLen]
  | cons z l ih =>
    simp only [insertByLen]
    split
    · simp
    · simp only [List.mem_cons, ih]; tauto

theorem mem_sortByLen {α : Type} {y : ScopeChain × α} {l} : y ∈ sortByLen l ↔ y ∈ l := by
  induction l with
  | nil => simp [sortByLen]
  | cons z l ih =>
    simp only [sortByLen, List.foldr_cons, mem_insertByLen, List.mem_cons] at ih ⊢
    rw [ih]

theorem resolveStep_ok {terms dw lg k c kv c'} (h : resolveStep terms dw lg k c kv = .ok c') :
    c' = c ∨ ∃ tm b rest r, terms.get? kv.1 = some tm ∧ tm.isParam = true ∧ kv.2 = b :: rest ∧
      (OptCtx.mk terms c dw lg).optConst k b.tree = .ok r ∧ r.isEv = true ∧ c' = c.set kv.1 r := by
  unfold resolveStep at h
  simp only [bind_ok] at h
  obtain ⟨tm, htm, h⟩ := h
  rw [Dict.get_ok] at htm
  split at h
  · rename_i hp
    split at h
    · simp at h
    · rename_i b rest hb
      simp only [bind_ok] at h
      obtain ⟨r, hr, h⟩ := h
      split at h
      · rename_i he
        simp at h; subst h
        exact Or.inr ⟨tm, b, rest, r, htm, hp, hb, hr, he, rfl⟩
      · simp at h; exact Or.inl h.symm
  · simp at h; exact Or.inl h.symm

/-- The invariant of the passes: every entry is the folded definition under an earlier table. -/
def RInv (terms : Dict ScopeChain Term) (dw : Int) (lg : Int → Option Int) (k : Nat)
    (binds : Dict ScopeChain (List Bind)) (c : Dict ScopeChain DF) : Prop :=
  OnlyParams terms c ∧ ∀ n d, c.get? n = some d → d.isEv = true ∧ ∃ b rest c0, (n, b :: rest) ∈ binds ∧
    Ext c0 c ∧ OnlyParams terms c0 ∧ (OptCtx.mk terms c0 dw lg).optConst k b.tree = .ok d

theorem nodup_unique {κ α : Type} {d : Dict κ α} (h : Dict.Nodup d) {k : κ} {v w : α} (h1 : (k, v) ∈ d)
    (h2 : (k, w) ∈ d) : v = w := by
  induction d with
  | nil => simp at h1
  | cons p d ih =>
    simp only [Dict.Nodup, List.map_cons, List.nodup_cons] at h
    have hm : ∀ u, (k, u) ∈ d → k ∈ d.map (·.1) := fun u hu => List.mem_map.mpr ⟨_, hu, rfl⟩
    rcases List.mem_cons.mp h1 with e1 | g1 <;> rcases List.mem_cons.mp h2 with e2 | g2
    · rw [← e1] at e2; simpa using e2.symm
    · subst e1; exact absurd (hm _ g2) h.1
    · subst e2; exact absurd (hm _ g1) h.1
    · exact ih h.2 g1 g2

theorem resolveStep_inv {terms dw lg k binds c kv c'} (hr : RangesClosed terms) (hnd : Dict.Nodup binds)
    (hkv : kv ∈ binds) (hi : RInv terms dw lg k binds c) (h : resolveStep terms dw lg k c kv = .ok c') :
    Ext c c' ∧ RInv terms dw lg k binds c' := by
  rcases resolveStep_ok h with rfl | ⟨tm, b, rest, r, htm, hp, hb, hopt, hev, rfl⟩
  · exact ⟨fun n d h => h, hi⟩
  · obtain ⟨n, bs⟩ := kv
    simp only at *
    subst hb
    have hext : Ext c (c.set n r) := by
      intro m d hd
      rw [Dict.get?_set]
      split
      · rename_i e
        subst e
        obtain ⟨hdev, b0, rest0, c0, hm, h0, hop0, hopt0⟩ := hi.2 _ _ hd
        have := nodup_unique hnd hkv hm
        simp only [List.cons.injEq] at this
        rw [← this.1] at hopt0
        rw [optConst_ext hr h0 hop0 hopt0 hdev hopt]
      · exact hd
    refine ⟨hext, ?_, ?_⟩
    · intro m d hd
      rw [Dict.get?_set] at hd
      split at hd
      · rename_i e; subst e; exact ⟨tm, htm, hp⟩
      · exact hi.1 m d hd
    · intro m d hd
      rw [Dict.get?_set] at hd
      split at hd
      · rename_i e
        subst e
        simp at hd; subst hd
        exact ⟨hev, b, rest, c, hkv, hext, hi.1, hopt⟩
      · obtain ⟨hdev, b0, rest0, c0, hm, h0, hop0, hopt0⟩ := hi.2 _ _ hd
        exact ⟨hdev, b0, rest0, c0, hm, fun x y hxy => hext x y (h0 x y hxy), hop0, hopt0⟩

theorem foldlM_inv {terms dw lg k binds} (hr : RangesClosed terms) (hnd : Dict.Nodup binds) {l : List (ScopeChain × List Bind)} {c c'}
    (hl : ∀ kv ∈ l, kv ∈ binds) (hi : RInv terms dw lg k binds c)
    (h : l.foldlM (resolveStep terms dw lg k) c = .ok c') : Ext c c' ∧ RInv terms dw lg k binds c' := by
  induction l generalizing c with
  | nil => simp only [List.foldlM_nil, pure, Except.pure, ok_inj] at h; subst h; exact ⟨fun n d h => h, hi⟩
  | cons x l ih =>
    simp only [List.foldlM_cons, bind_ok] at h
    obtain ⟨c1, h1, h⟩ := h
    obtain ⟨e1, i1⟩ := resolveStep_inv hr hnd (hl x (by simp)) hi h1
    obtain ⟨e2, i2⟩ := ih (fun kv hkv => hl kv (by simp [hkv])) i1 h
    exact ⟨fun n d h => e2 n d (e1 n d h), i2⟩

theorem resolveConsts_inv {terms dw lg k binds c} (hr : RangesClosed terms) (hnd : Dict.Nodup binds)
    (h : resolveConsts terms dw lg k binds = .ok c) : RInv terms dw lg k binds c := by
  unfold resolveConsts at h
  simp only [bind_ok] at h
  obtain ⟨c1, h1, h2⟩ := h
  have h0 : RInv terms dw lg k binds [] := ⟨fun n d h => by simp [Dict.get?_nil] at h, fun n d h => by simp [Dict.get?_nil] at h⟩
  have hl : ∀ kv ∈ sortByLen binds, kv ∈ binds := fun kv hkv => mem_sortByLen.mp hkv
  exact (foldlM_inv hr hnd hl (foldlM_inv hr hnd hl h0 h1).2 h2).2

/-- **C13** (soundness, partial) A resolved parameter is the folded form of its definition under the final
constant table, whenever that folding succeeds.
Missing: parameters whose declared range mentions other parameters, for which this is false
(`C13_stale_value`). -/
theorem C13_resolved_definition_partial (terms : Dict ScopeChain Term) (dw : Int) (lg : Int → Option Int) (k : Nat)
    (binds : Dict ScopeChain (List Bind)) (c : Dict ScopeChain DF) (hr : RangesClosed terms) (hnd : Dict.Nodup binds)
    (h : resolveConsts terms dw lg k binds = .ok c) (n : ScopeChain) (b : Bind) (rest : List Bind) (d : DF)
    (hb : (n, b :: rest) ∈ binds) (hd : c.get? n = some d) (r : DF)
    (hopt : (OptCtx.mk terms c dw lg).optConst k b.tree = .ok r) : r = d := by
  obtain ⟨hdev, b0, rest0, c0, hm, h0, hop0, hopt0⟩ := (resolveConsts_inv hr hnd h).2 n d hd
  have := nodup_unique hnd hb hm
  simp only [List.cons.injEq] at this
  rw [← this.1] at hopt0
  exact optConst_ext hr h0 hop0 hopt0 hdev hopt

/-- **C13** (soundness, partial), as a statement about values: under every valuation agreeing with the final
table, a resolved parameter has the value of its definition. -/
theorem C13_resolved_value_partial (terms : Dict ScopeChain Term) (dw : Int) (lg : Int → Option Int) (k : Nat)
    (binds : Dict ScopeChain (List Bind)) (c : Dict ScopeChain DF) (hr : RangesClosed terms) (hnd : Dict.Nodup binds)
    (h : resolveConsts terms dw lg k binds = .ok c) (n : ScopeChain) (b : Bind) (rest : List Bind) (d : DF)
    (hb : (n, b :: rest) ∈ binds) (hd : c.get? n = some d) (r : DF)
    (hopt : (OptCtx.mk terms c dw lg).optConst k b.tree = .ok r)
    (ρ : Env) (hag : Agrees (OptCtx.mk terms c dw lg) ρ) (hf : Frag (OptCtx.mk terms c dw lg) ρ false b.tree)
    (x : Int × Int) (hs : sem ρ b.tree = some x) : ∃ w a e, d = .ev (.int x.1) w a e := by
  have := C13_resolved_definition_partial terms dw lg k binds c hr hnd h n b rest d hb hd r hopt
  subst this
  obtain ⟨w, hw⟩ := C07_optimizeConstant_value_partial _ ρ hag k b.tree r hf hopt x hs
  have hdev := ((resolveConsts_inv hr hnd h).2 n r hd).1
  cases r <;> simp [DF.isEv] at hdev
  rename_i v w' a e
  cases v <;> simp [sem] at hw
  obtain ⟨rfl, _⟩ := hw
  exact ⟨w', a, e, rfl⟩

/-! ### completeness -/

mutual
/-- Constant expressions over the parameters `P`. -/
def ConstExpr (P : ScopeChain → Prop) : DF → Prop
  | .intc s => hasXZ s = false
  | .fltc _ => True
  | .strc _ => True
  | .ev .. => True
  | .term n => P n
  | .op _ ns => ConstExprs P ns
  | .concat ns => ConstExprs P ns
  | .psel v m l => ConstExpr P v ∧ ConstExpr P m ∧ ConstExpr P l
  | .branch c t f => ConstExpr P c ∧ ConstExpr P t ∧ ConstExpr P f
  | _ => False
/-- All trees of a list are constant expressions. -/
def ConstExprs (P : ScopeChain → Prop) : List DF → Prop
  | [] => True
  | n :: ns => ConstExpr P n ∧ ConstExprs P ns
end

theorem ConstExprs.mem {P ns} (h : ConstExprs P ns) : ∀ n ∈ ns, ConstExpr P n := by
  induction ns with
  | nil => simp
  | cons a ns ih =>
    simp only [ConstExprs] at h
    intro n hn
    rcases List.mem_cons.mp hn with rfl | hn
    · exact h.1
    · exact ih h.2 n hn

theorem constExpr_folds {ctx : OptCtx} {P : ScopeChain → Prop} (hP : ∀ n, P n → ∃ d, ctx.consts.get? n = some d)
    {k t r} (ht : ConstExpr P t) (h : ctx.optConst k t = .ok r) : r.isEv = true := by
  induction k generalizing t r with
  | zero => simp [OptCtx.optConst] at h
  | succ k ih =>
    have ihL : ∀ {ns rs}, ConstExprs P ns → List.mapM (ctx.optConst k) ns = .ok rs → rs.all DF.isEv = true := by
      intro ns rs hns hm
      rw [mapM_ok] at hm
      replace hns := hns.mem
      induction hm with
      | nil => rfl
      | cons a _ ih2 =>
        simp only [List.all_cons, Bool.and_eq_true]
        exact ⟨ih (hns _ (by simp)) a, ih2 (fun n hn => hns n (by simp [hn]))⟩
    cases t <;> simp only [ConstExpr] at ht
    · -- term
      simp only [OptCtx.optConst] at h
      obtain ⟨d, hd⟩ := hP _ ht
      rw [hd] at h
      simp only [bind_ok] at h
      obtain ⟨tm, _, h⟩ := h
      cases d <;> simp only [reduceCtorEq] at h
      split at h
      · simp only [bind_ok] at h
        obtain ⟨m, _, l, _, h⟩ := h
        split at h
        · simp only [bind_ok, ok_inj] at h
          obtain ⟨_, _, _, _, rfl⟩ := h; rfl
        · simp at h; subst h; rfl
      · simp at h; subst h; rfl
    · -- intc
      simp only [OptCtx.optConst, ht, Bool.false_eq_true, if_false, bind_ok, ok_inj] at h
      obtain ⟨_, _, _, _, rfl⟩ := h; rfl
    · simp [OptCtx.optConst] at h; subst h; rfl
    · simp [OptCtx.optConst] at h; subst h; rfl
    · simp [OptCtx.optConst] at h; subst h; rfl
    · simp only [OptCtx.optConst, bind_ok] at h
      obtain ⟨rs, hrs, h⟩ := h
      rw [if_pos (ihL ht hrs)] at h
      obtain ⟨v, w, rfl⟩ := evalOperator_isEv h; rfl
    · simp only [OptCtx.optConst, bind_ok] at h
      obtain ⟨v', hv, m', hm, l', hl, h⟩ := h
      rw [if_pos ⟨ih ht.1 hv, ih ht.2.1 hm⟩] at h
      obtain ⟨v, w, rfl⟩ := evalPartselect_isEv h; rfl
    · simp only [OptCtx.optConst, bind_ok] at h
      obtain ⟨rs, hrs, h⟩ := h
      rw [if_pos (ihL ht hrs)] at h
      obtain ⟨v, w, rfl⟩ := evalConcatAux_isEv h; rfl
    · simp only [OptCtx.optConst, bind_ok] at h
      obtain ⟨c', hc, a', ha, b', hb, h⟩ := h
      rw [if_pos (ih ht.1 hc)] at h
      simp only [bind_ok, ok_inj] at h
      obtain ⟨x, _, rfl⟩ := h
      cases x
      · exact ih ht.2.2 hb
      · exact ih ht.2.1 ha

theorem resolveStep_keys {terms dw lg k c kv c'} (h : resolveStep terms dw lg k c kv = .ok c') (n : ScopeChain)
    (hn : (c.get? n).isSome) : (c'.get? n).isSome := by
  rcases resolveStep_ok h with rfl | ⟨tm, b, rest, r, htm, hp, hb, hopt, hev, rfl⟩
  · exact hn
  · rw [Dict.get?_set]; split
    · rfl
    · exact hn

theorem foldlM_keys {terms dw lg k} {l : List (ScopeChain × List Bind)} {c c'} (h : l.foldlM (resolveStep terms dw lg k) c = .ok c') (n : ScopeChain)
    (hn : (c.get? n).isSome) : (c'.get? n).isSome := by
  induction l generalizing c with
  | nil => simp only [List.foldlM_nil, pure, Except.pure, ok_inj] at h; subst h; exact hn
  | cons x l ih =>
    simp only [List.foldlM_cons, bind_ok] at h
    obtain ⟨c1, h1, h⟩ := h
    exact ih h (resolveStep_keys h1 n hn)

/-- `P` is a set of parameters of which each is defined by a constant expression over members of `P` that come
earlier in the list. -/
def InOrder (terms : Dict ScopeChain Term) (P : ScopeChain → Prop) (l : List (ScopeChain × List Bind)) : Prop :=
  ∀ pre n bs post, l = pre ++ (n, bs) :: post → P n → (∃ tm, terms.get? n = some tm ∧ tm.isParam = true) ∧
    ∃ b rest, bs = b :: rest ∧ ConstExpr (fun m => P m ∧ m ∈ pre.map (·.1)) b.tree

theorem pass_resolves {terms dw lg k P} {pre l : List (ScopeChain × List Bind)} {c c'}
    (ho : InOrder terms P (pre ++ l)) (hpre : ∀ n ∈ pre.map (·.1), P n → (c.get? n).isSome)
    (h : l.foldlM (resolveStep terms dw lg k) c = .ok c') :
    ∀ n ∈ (pre ++ l).map (·.1), P n → (c'.get? n).isSome := by
  induction l generalizing pre c with
  | nil =>
    simp only [List.foldlM_nil, pure, Except.pure, ok_inj] at h; subst h
    simpa using hpre
  | cons x l ih =>
    obtain ⟨n, bs⟩ := x
    simp only [List.foldlM_cons, bind_ok] at h
    obtain ⟨c1, h1, h⟩ := h
    have e : pre ++ (n, bs) :: l = (pre ++ [(n, bs)]) ++ l := by simp
    rw [e] at ho ⊢
    apply ih ho _ h
    intro m hm hPm
    simp only [List.map_append, List.map_cons, List.map_nil, List.mem_append, List.mem_cons, List.not_mem_nil, or_false] at hm
    rcases hm with hm | rfl
    · exact resolveStep_keys h1 m (hpre m hm hPm)
    · obtain ⟨⟨tm, htm, hpar⟩, b, rest, rfl, hce⟩ := ho pre m bs l (by simp) hPm
      unfold resolveStep at h1
      simp only [bind_ok] at h1
      obtain ⟨tm', htm', h1⟩ := h1
      rw [Dict.get_ok] at htm'
      rw [htm] at htm'; cases htm'
      rw [if_pos hpar] at h1
      simp only [bind_ok] at h1
      obtain ⟨r, hr, h1⟩ := h1
      have := constExpr_folds (ctx := OptCtx.mk terms c dw lg) (P := fun m => P m ∧ m ∈ pre.map (·.1))
        (fun y hy => Option.isSome_iff_exists.mp (hpre y hy.2 hy.1)) hce hr
      rw [if_pos this] at h1
      simp at h1; subst h1
      rw [Dict.get?_set, if_pos rfl]; rfl

/-- **C13** (completeness, partial) Every parameter defined by a constant expression over such parameters earlier
in the processing order (scope depth, then insertion) is resolved.
Missing: parameters defined before the ones they use; the two passes do not resolve all of them
(`C13_chain_unresolved`). -/
theorem C13_in_order_resolved_partial (terms : Dict ScopeChain Term) (dw : Int) (lg : Int → Option Int) (k : Nat)
    (binds : Dict ScopeChain (List Bind)) (c : Dict ScopeChain DF) (P : ScopeChain → Prop)
    (ho : InOrder terms P (sortByLen binds)) (h : resolveConsts terms dw lg k binds = .ok c)
    (n : ScopeChain) (bs : List Bind) (hn : (n, bs) ∈ binds) (hP : P n) : (c.get? n).isSome := by
  unfold resolveConsts at h
  simp only [bind_ok] at h
  obtain ⟨c1, h1, h2⟩ := h
  have := pass_resolves (pre := []) (by simpa using ho) (by simp) h1 n
    (by simp only [List.nil_append]; exact List.mem_map.mpr ⟨_, mem_sortByLen.mpr hn, rfl⟩) hP
  exact foldlM_keys h2 n this

/-- **C13** (closed definitions) A parameter whose definition is a constant expression mentioning no other
parameter is resolved. -/
theorem C13_closed_resolved (terms : Dict ScopeChain Term) (dw : Int) (lg : Int → Option Int) (k : Nat)
    (binds : Dict ScopeChain (List Bind)) (c : Dict ScopeChain DF) (hnd : Dict.Nodup binds)
    (h : resolveConsts terms dw lg k binds = .ok c)
    (n : ScopeChain) (b : Bind) (rest : List Bind) (hn : (n, b :: rest) ∈ binds) (tm : Term)
    (htm : terms.get? n = some tm) (hpar : tm.isParam = true)
    (hce : ConstExpr (fun _ => False) b.tree) : (c.get? n).isSome := by
  have hmono : ∀ (Q : ScopeChain → Prop) t, ConstExpr (fun _ => False) t → ConstExpr Q t := by
    intro Q t
    induction t using DF.ind with
    | op o ns ih | concat ns ih =>
      simp only [ConstExpr]
      intro hh
      induction ns with
      | nil => simp [ConstExprs]
      | cons a ns ih2 =>
        simp only [ConstExprs] at hh ⊢
        exact ⟨ih a (by simp) hh.1, ih2 (fun n hn => ih n (by simp [hn])) hh.2⟩
    | psel v m l h1 h2 h3 | branch v m l h1 h2 h3 =>
      simp only [ConstExpr]
      exact fun hh => ⟨h1 hh.1, h2 hh.2.1, h3 hh.2.2⟩
    | _ => simp [ConstExpr]
  refine C13_in_order_resolved_partial terms dw lg k binds c (fun m => m = n) ?_ h n _ hn rfl
  intro pre m bs post hl hm
  subst hm
  have hmem : (m, bs) ∈ binds := mem_sortByLen.mp (by rw [hl]; simp)
  cases nodup_unique hnd hn hmem
  exact ⟨⟨tm, htm, hpar⟩, b, rest, rfl, hmono _ _ hce⟩

/-! ### witnesses -/

def c13n (c : Char) : ScopeChain := [⟨['m'], .module, none⟩, ⟨[c], .signal, none⟩]
def c13t (c : Char) (m l : DF) : ScopeChain × Term := (c13n c, ⟨c13n c, [.parameter], m, l, none⟩)
def c13b (c : Char) (t : DF) : ScopeChain × List Bind := (c13n c, [⟨t, c13n c, .none, .none, .none, [], none⟩])

/-- **C13** is false of the code: with `A = B, B = C, C = D, D = 1` in this order, `A` and `B` stay unresolved. -/
theorem C13_chain_unresolved :
    resolveConsts [c13t 'A' .none .none, c13t 'B' .none .none, c13t 'C' .none .none, c13t 'D' .none .none]
      32 (fun _ => none) 5
      [c13b 'A' (.term (c13n 'B')), c13b 'B' (.term (c13n 'C')), c13b 'C' (.term (c13n 'D')), c13b 'D' (.intc ['1'])] =
    .ok [(c13n 'D', .evi 1 (some 32)), (c13n 'C', .evi 1 (some 32))] := by decide

/-- **C13** is false of the code: with `Q = R`, `[W-1:0] P = 8'd5`, `R = ~P`, `W = 4` in this order, the final table
has `R = 10` but `Q = 250`, although `Q` is defined as `R`. -/
theorem C13_stale_value :
    resolveConsts [c13t 'Q' .none .none, c13t 'P' (.op .minus [.term (c13n 'W'), .intc ['1']]) (.intc ['0']),
        c13t 'R' .none .none, c13t 'W' .none .none] 32 (fun _ => none) 7
      [c13b 'Q' (.term (c13n 'R')), c13b 'P' (.intc "8'd5".toList), c13b 'R' (.op .unot [.term (c13n 'P')]),
        c13b 'W' (.intc ['4'])] =
    .ok [(c13n 'P', .evi 5 (some 8)), (c13n 'R', .evi 10 (some 4)), (c13n 'W', .evi 4 (some 32)),
      (c13n 'Q', .evi 250 (some 8))] := by decide

/-- Non-vacuity: `A = B + 1, B = 2` (stored in the order B, A). -/
example : let terms := [c13t 'A' .none .none, c13t 'B' (.intc ['3']) (.intc ['0'])]
    let binds := [c13b 'B' (.intc ['2']), c13b 'A' (.op .plus [.term (c13n 'B'), .intc ['1']])]
    RangesClosed terms ∧ Dict.Nodup binds ∧ InOrder terms (fun n => n = c13n 'A' ∨ n = c13n 'B') (sortByLen binds) ∧
    resolveConsts terms 32 (fun _ => none) 5 binds = .ok [(c13n 'B', .evi 2 (some 32)), (c13n 'A', .evi 3 (some 32))] := by
  refine ⟨?_, ?_, ?_, by decide⟩
  · intro n tm h _
    rw [c13t, c13t, Dict.get?_cons, Dict.get?_cons] at h
    simp only at h
    split at h
    · simp at h; subst h; decide
    · split at h
      · simp at h; subst h; decide
      · simp [Dict.get?_nil] at h
  · simp only [Dict.Nodup]; decide
  · intro pre n bs post h hn
    rw [show sortByLen _ = [c13b 'B' (.intc ['2']), c13b 'A' (.op .plus [.term (c13n 'B'), .intc ['1']])] from rfl] at h
    rcases pre with _ | ⟨x, _ | ⟨y, pre⟩⟩
    · simp [c13b] at h
      obtain ⟨⟨rfl, rfl⟩, _⟩ := h
      exact ⟨⟨_, rfl, rfl⟩, _, _, rfl, rfl⟩
    · simp [c13b] at h
      obtain ⟨rfl, ⟨rfl, rfl⟩, _⟩ := h
      refine ⟨⟨_, rfl, rfl⟩, _, _, rfl, ?_⟩
      simp only [ConstExpr, ConstExprs]
      exact ⟨⟨by simp, by simp⟩, rfl, trivial⟩
    · have := congrArg List.length h
      simp at this

end Pyv
