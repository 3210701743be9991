import Verif.Props.BaSpec
import Verif.Props.ReplaceProps
/-
  C74: conversions in a state where some signals were assigned by blocking assignments.
-/
namespace Pyv

theorem allNamesL_iff {P : Str → Bool} {es : List Ex} : Ex.allNamesL P es = true ↔ ∀ e ∈ es, e.allNames P = true := by
  induction es with
  | nil => simp [Ex.allNamesL]
  | cons e es ih => simp [Ex.allNamesL, ih]

/-- The value of an expression whose names have the same values. -/
theorem exVal_le {η τ : Env} {res res' : Str → Option ScopeChain} {Q : Str → Bool}
    (hr : ∀ n c, Q n = true → res n = some c → res' n = some c ∧ η.sig c = τ.sig c) (ha : η.arr = τ.arr) (hd : η.dw = τ.dw) (e : Ex) :
    e.allNames Q = true → ∀ v, exVal η res e = some v → exVal τ res' e = some v := by
  have hl : ∀ (es : List Ex) (_ : ∀ e ∈ es, e.allNames Q = true → ∀ v, exVal η res e = some v → exVal τ res' e = some v)
      (_ : Ex.allNamesL Q es = true) vs, exValL η res es = some vs → exValL τ res' es = some vs := by
    intro es
    induction es with
    | nil => intro _ _ vs h; exact h
    | cons e es ih =>
      intro hh hq vs h
      simp only [Ex.allNamesL, Bool.and_eq_true] at hq
      simp only [exValL, Option.bind_eq_bind, Option.bind_eq_some_iff] at h ⊢
      obtain ⟨x, hx, xs, hxs, h⟩ := h
      exact ⟨x, hh e (by simp) hq.1 x hx, xs, ih (fun e he => hh e (by simp [he])) hq.2 xs hxs, h⟩
  induction e using Ex.ind with
  | ident s n =>
    intro hq v h
    cases s with
    | cons a as => simp [exVal] at h
    | nil =>
      simp only [Ex.allNames] at hq
      simp only [exVal, Option.bind_eq_bind, Option.bind_eq_some_iff] at h ⊢
      obtain ⟨c, hc, h⟩ := h
      obtain ⟨h1, h2⟩ := hr n c hq hc
      exact ⟨c, h1, h2 ▸ h⟩
  | intc s => intro _ v h; simpa [exVal, sem, hd] using h
  | fltc s => intro _ v h; simp [exVal] at h
  | strc s => intro _ v h; simp [exVal] at h
  | uplus e ih => intro hq v h; simp only [exVal] at h ⊢; exact ih (by simpa [Ex.allNames] using hq) v h
  | un o e ih =>
    intro hq v h
    simp only [Ex.allNames] at hq
    simp only [exVal, Option.bind_eq_bind, Option.bind_eq_some_iff] at h ⊢
    obtain ⟨x, hx, h⟩ := h
    exact ⟨x, ih hq x hx, h⟩
  | bin o a b iha ihb =>
    intro hq v h
    simp only [Ex.allNames, Bool.and_eq_true] at hq
    simp only [exVal, Option.bind_eq_bind, Option.bind_eq_some_iff] at h ⊢
    obtain ⟨x, hx, y, hy, h⟩ := h
    exact ⟨x, iha hq.1 x hx, y, ihb hq.2 y hy, h⟩
  | cond c t f ihc iht ihf =>
    intro hq v h
    simp only [Ex.allNames, Bool.and_eq_true] at hq
    simp only [exVal, Option.bind_eq_bind, Option.bind_eq_some_iff] at h ⊢
    obtain ⟨b, hb, h⟩ := h
    refine ⟨b, ihc hq.1.1 b hb, ?_⟩
    split
    · rename_i e; rw [if_pos e] at h; exact iht hq.1.2 v h
    · rename_i e; rw [if_neg e] at h; exact ihf hq.2 v h
  | psel w m l ihv ihm ihl =>
    intro hq v h
    simp only [Ex.allNames, Bool.and_eq_true] at hq
    simp only [exVal, Option.bind_eq_bind, Option.bind_eq_some_iff] at h ⊢
    obtain ⟨x, hx, a, ha, b, hb, h⟩ := h
    exact ⟨x, ihv hq.1.1 x hx, a, ihm hq.1.2 a ha, b, ihl hq.2 b hb, h⟩
  | ptr w p ihv ihp =>
    intro hq v h
    simp only [Ex.allNames, Bool.and_eq_true] at hq
    simp only [exVal, Option.bind_eq_bind, Option.bind_eq_some_iff] at h ⊢
    obtain ⟨i, hi, h⟩ := h
    refine ⟨i, ihp hq.2 i hi, ?_⟩
    have plain : ∀ y, exVal η res w = some y → bitVal y.1 i.1 = some v → indexVal τ none (exVal τ res' w) i.1 = some v := by
      intro y hy hb
      simp [indexVal, ihv hq.1 y hy, hb]
    by_cases hid : ∃ n, w = .ident [] n
    · obtain ⟨n, rfl⟩ := hid
      simp only [Ex.allNames] at hq
      simp only at h ⊢
      cases hn : res n with
      | none => simp [indexVal, hn, exVal] at h
      | some c =>
        obtain ⟨h1, h2⟩ := hr n c hq.1 hn
        simp only [indexVal, hn, h1, Option.bind_some, ← ha, exVal, Option.bind_eq_bind, ← h2] at h ⊢
        exact h
    · have h' : ∃ y, exVal η res w = some y ∧ bitVal y.1 i.1 = some v := by
        split at h
        · exact absurd ⟨_, rfl⟩ hid
        · simpa [indexVal, Option.bind_eq_some_iff] using h
      obtain ⟨y, hy, h⟩ := h'
      split
      · exact absurd ⟨_, rfl⟩ hid
      · exact plain y hy h
  | concat es ih =>
    intro hq v h
    simp only [Ex.allNames] at hq
    simp only [exVal, Option.bind_eq_bind, Option.bind_eq_some_iff] at h ⊢
    obtain ⟨xs, hxs, h⟩ := h
    exact ⟨xs, hl es ih hq xs hxs, h⟩
  | rep t w iht ihw =>
    intro hq v h
    simp only [Ex.allNames, Bool.and_eq_true] at hq
    simp only [exVal, Option.bind_eq_bind, Option.bind_eq_some_iff] at h ⊢
    obtain ⟨n, hn, x, hx, h⟩ := h
    exact ⟨n, iht hq.1 n hn, x, ihw hq.2 x hx, h⟩
  | call f es _ => intro _ v h; simp [exVal] at h
  | sys f es ih =>
    intro hq v h
    simp only [Ex.allNames] at hq
    rw [exVal.eq_def] at h ⊢
    simp only at h ⊢
    split
    · rename_i hf
      rw [if_pos hf] at h
      cases es with
      | nil => cases h
      | cons e es => exact ih e (by simp) (allNamesL_iff.mp hq e (by simp)) v h
    · rename_i hf
      rw [if_neg hf] at h
      cases h

theorem exValL_le {η τ : Env} {res res' : Str → Option ScopeChain} {Q : Str → Bool}
    (hr : ∀ n c, Q n = true → res n = some c → res' n = some c ∧ η.sig c = τ.sig c) (ha : η.arr = τ.arr) (hd : η.dw = τ.dw) (es : List Ex) :
    Ex.allNamesL Q es = true → ∀ vs, exValL η res es = some vs → exValL τ res' es = some vs := by
  induction es with
  | nil => intro _ vs h; exact h
  | cons e es ih =>
    intro hq vs h
    simp only [Ex.allNamesL, Bool.and_eq_true] at hq
    simp only [exValL, Option.bind_eq_bind, Option.bind_eq_some_iff] at h ⊢
    obtain ⟨x, hx, xs, hxs, h⟩ := h
    exact ⟨x, exVal_le hr ha hd e hq.1 x hx, xs, ih hq.2 xs hxs, h⟩

theorem firstHit_le {η τ : Env} {res res' : Str → Option ScopeChain} {Q : Str → Bool}
    (hr : ∀ n c, Q n = true → res n = some c → res' n = some c ∧ η.sig c = τ.sig c) (ha : η.arr = τ.arr) (hd : η.dw = τ.dw) {v : Int}
    (cs : List (Option (List Ex))) : itemsNames Q cs = true → ∀ i r, firstHit η res v cs i = some r → firstHit τ res' v cs i = some r := by
  induction cs with
  | nil => intro _ i r h; exact h
  | cons c cs ih =>
    intro hq i r h
    cases c with
    | none => exact ih hq _ _ h
    | some es =>
      simp only [itemsNames, Bool.and_eq_true] at hq
      simp only [firstHit, itemHit, Option.bind_eq_bind, Option.bind_eq_some_iff, Option.some.injEq] at h ⊢
      obtain ⟨b, ⟨xs, hxs, rfl⟩, h⟩ := h
      refine ⟨_, ⟨xs, exValL_le hr ha hd es hq.1 xs hxs, rfl⟩, ?_⟩
      split
      · rename_i e; rw [if_pos e] at h; exact h
      · rename_i e; rw [if_neg e] at h; exact ih hq.2 _ _ h

theorem chosen_le {η τ : Env} {res res' : Str → Option ScopeChain} {Q : Str → Bool}
    (hr : ∀ n c, Q n = true → res n = some c → res' n = some c ∧ η.sig c = τ.sig c) (ha : η.arr = τ.arr) (hd : η.dw = τ.dw) {v : Int}
    {cs : List (Option (List Ex))} {r} (hq : itemsNames Q cs = true) (h : chosen η res v cs = some r) : chosen τ res' v cs = some r := by
  simp only [chosen, Option.bind_eq_bind, Option.bind_eq_some_iff] at h ⊢
  obtain ⟨m, hm, h⟩ := h
  exact ⟨m, firstHit_le hr ha hd cs hq 0 m hm, h⟩

/-! ### What stands for an assigned signal -/

/-- Filling the missing parts of a tree with the signal gives the value after the block. -/
theorem replace_valOf {τ : Env} {x : ScopeChain} (hx : τ.arr x = none) {t u : DF} {v : Int × Int}
    (h : replaceUndefined x t = .ok u) (hv : valOf τ x t = some v) : sem τ u = some v := by
  rw [C17_replace_value τ x hx t u h]
  clear h
  induction t using DF.ind with
  | none => simpa [valOf, sched, semFill] using hv
  | branch c t f _ iht ihf =>
    simp only [valOf, sched, Option.bind_eq_bind, Option.bind_eq_some_iff] at hv
    obtain ⟨o, ⟨b, hb, ho⟩, hv⟩ := hv
    simp only [semFill, semFill_of_sem hb, Option.bind_eq_bind, Option.bind_some]
    split
    · rename_i e; rw [if_pos e] at ho; exact iht (by simp [valOf, ho, hv])
    · rename_i e; rw [if_neg e] at ho; exact ihf (by simp [valOf, ho, hv])
  | _ =>
    simp only [valOf, sched, Option.bind_eq_bind, Option.bind_eq_some_iff, Option.map_eq_some_iff] at hv
    obtain ⟨o, ⟨w, hw, rfl⟩, hv⟩ := hv
    cases hv
    exact semFill_of_sem hw

/-- Descending along conditions that hold does not change what a tree assigns. -/
theorem sched_diff {τ : Env} (t : DF) (p : CondPath) (h : pathDec τ p = some true) : sched τ (diffBranchTree t p).1 = sched τ t := by
  induction p generalizing t with
  | nil => cases t <;> simp [diffBranchTree]
  | cons a p ih =>
    obtain ⟨c, b⟩ := a
    cases t <;> simp only [diffBranchTree]
    rename_i c' t f
    split
    · rfl
    · rename_i e
      simp only [ne_eq, Decidable.not_not] at e
      subst e
      simp only [pathDec, Option.bind_eq_bind, Option.bind_eq_some_iff] at h
      obtain ⟨v, hv, h⟩ := h
      split at h
      · rename_i hb
        simp only [sched, hv, Option.bind_eq_bind, Option.bind_some]
        cases b
        · have : ¬ v.1 ≠ 0 := by simpa using hb
          rw [if_neg this]; exact ih f h
        · have : v.1 ≠ 0 := by simpa using hb
          rw [if_pos this]; exact ih t h
      · cases h

/-! ### Conditions -/

theorem opt_intc_eq {s s' : BV} (hf : s'.fuel = s.fuel) (l : Str) : s'.opt (.intc l) = s.opt (.intc l) := by
  simp only [BV.opt, hf]
  cases s.fuel with
  | zero => rfl
  | succ k =>
    simp only [OptCtx.optimize, OptCtx.optConst]
    split
    · cases intConstWidth l with
      | error e => rfl
      | ok w => simp [OptCtx.optHier, ok_bind, OptCtx.optConst]
    · cases intConstEval l with
      | error e => rfl
      | ok v =>
        cases intConstWidth l with
        | error e => rfl
        | ok w => simp [OptCtx.optHier, ok_bind, OptCtx.optConst, DF.evi]

/-- Conditions whose names denote signals of `S` are converted in the same way when the lookups agree on `S`. -/
theorem cond_conv {E E' : ExprEnv} {R R' : ResEnv} {Q : Str → Bool} {S : ScopeChain → Prop}
    (hf : ∀ n, Q n = true → ∀ r, E.find n = .ok r → E'.find n = .ok r ∧ ∀ c, r = some c → S c)
    (hd : ∀ c, S c → ∀ r, E.dims c = .ok r → E'.dims c = .ok r)
    (ht : ∀ l r, E.times (.intc l) = .ok r → E'.times (.intc l) = .ok r)
    (hl : ∀ c, S c → ∀ r, R.look c = .ok r → r = .term c ∧ R'.look c = .ok r)
    (hd' : ∀ c, S c → ∀ r, R.dims c = .ok r → R'.dims c = .ok r)
    (he : ∀ c, S c → ∀ r, R.elems c = .ok r → r = [] ∧ R'.elems c = .ok r) (e : Ex) :
    e.flat = true → e.noCond = true → e.allNames Q = true → ∀ t, E.makeDF e = .ok t →
      E'.makeDF e = .ok t ∧ (∀ n, t = .term n → S n) ∧ ∀ r, R.resolve t = .ok r → r = t ∧ R'.resolve t = .ok r := by
  have hL : ∀ (es : List Ex) (_ : ∀ e ∈ es, e.flat = true → e.noCond = true → e.allNames Q = true → ∀ t, E.makeDF e = .ok t →
        E'.makeDF e = .ok t ∧ (∀ n, t = .term n → S n) ∧ ∀ r, R.resolve t = .ok r → r = t ∧ R'.resolve t = .ok r)
      (_ : Ex.flatL es = true) (_ : Ex.noCondL es = true) (_ : Ex.allNamesL Q es = true) ts, E.makeDFList es = .ok ts →
      E'.makeDFList es = .ok ts ∧ ∀ rs, R.resolveList ts = .ok rs → rs = ts ∧ R'.resolveList ts = .ok rs := by
    intro es
    induction es with
    | nil =>
      intro _ _ _ _ ts h
      simp only [ExprEnv.makeDFList, ok_inj] at h
      subst h
      exact ⟨rfl, fun rs h => by simp only [ResEnv.resolveList, ok_inj] at h ⊢; exact ⟨h.symm, h⟩⟩
    | cons e es ih =>
      intro hh h1 h2 h3 ts h
      simp only [Ex.flatL, Ex.noCondL, Ex.allNamesL, Bool.and_eq_true] at h1 h2 h3
      simp only [ExprEnv.makeDFList, bind_ok, ok_inj] at h ⊢
      obtain ⟨a, ha, as, has, rfl⟩ := h
      obtain ⟨a1, -, a2⟩ := hh e (by simp) h1.1 h2.1 h3.1 a ha
      obtain ⟨b1, b2⟩ := ih (fun e he => hh e (by simp [he])) h1.2 h2.2 h3.2 as has
      refine ⟨⟨a, a1, as, b1, rfl⟩, ?_⟩
      intro rs h
      simp only [ResEnv.resolveList, bind_ok, ok_inj] at h ⊢
      obtain ⟨r, hr, rs', hrs, rfl⟩ := h
      obtain ⟨rfl, k1⟩ := a2 r hr
      obtain ⟨rfl, k2⟩ := b2 rs' hrs
      exact ⟨rfl, _, k1, _, k2, rfl⟩
  have plain : ∀ {es : List Ex}, Ex.noCondL es = true → ∀ {ts}, E.makeDFList es = .ok ts → ∀ t ∈ ts, t.isBranch = false := by
    intro es
    induction es with
    | nil => intro _ ts h; simp only [ExprEnv.makeDFList, ok_inj] at h; subst h; simp
    | cons e es ih =>
      intro hn ts h
      simp only [Ex.noCondL, Bool.and_eq_true] at hn
      simp only [ExprEnv.makeDFList, bind_ok, ok_inj] at h
      obtain ⟨a, ha, as, has, rfl⟩ := h
      intro t ht
      rcases List.mem_cons.mp ht with rfl | ht
      · exact nf_false_not_branch (makeDF_nf e _ hn.1 ha)
      · exact ih hn.2 has t ht
  have noany : ∀ {ts : List DF}, (∀ t ∈ ts, t.isBranch = false) → ts.any DF.isBranch = false := by
    intro ts h; simpa using h
  induction e using Ex.ind with
  | ident s n =>
    intro hfl _ hq t h
    cases s with
    | cons a as => simp [Ex.flat] at hfl
    | nil =>
      simp only [Ex.allNames] at hq
      simp only [ExprEnv.makeDF, bind_ok] at h ⊢
      obtain ⟨r, hr, h⟩ := h
      obtain ⟨f1, f2⟩ := hf n hq r hr
      cases r with
      | none => cases h
      | some c =>
        simp only [ok_inj] at h
        subst h
        refine ⟨⟨_, f1, rfl⟩, fun n hn => by cases hn; exact f2 _ rfl, fun r hr => ?_⟩
        exact hl c (f2 c rfl) r hr
  | intc s =>
    intro _ _ _ t h
    simp only [ExprEnv.makeDF, ok_inj] at h ⊢
    subst h
    exact ⟨rfl, fun n hn => (by cases hn), fun r hr => by simp only [ResEnv.resolve, ok_inj] at hr ⊢; exact ⟨hr.symm, hr⟩⟩
  | fltc s =>
    intro _ _ _ t h
    simp only [ExprEnv.makeDF, ok_inj] at h ⊢
    subst h
    exact ⟨rfl, fun n hn => (by cases hn), fun r hr => by simp only [ResEnv.resolve, ok_inj] at hr ⊢; exact ⟨hr.symm, hr⟩⟩
  | strc s =>
    intro _ _ _ t h
    simp only [ExprEnv.makeDF, ok_inj] at h ⊢
    subst h
    exact ⟨rfl, fun n hn => (by cases hn), fun r hr => by simp only [ResEnv.resolve, ok_inj] at hr ⊢; exact ⟨hr.symm, hr⟩⟩
  | uplus e _ => intro _ _ _ t h; simp [ExprEnv.makeDF] at h
  | un o e ih =>
    intro hfl hn hq t h
    simp only [Ex.flat, Ex.noCond, Ex.allNames] at hfl hn hq
    simp only [ExprEnv.makeDF, bind_ok] at h ⊢
    obtain ⟨a, ha, h⟩ := h
    obtain ⟨a1, -, a2⟩ := ih hfl hn hq a ha
    have hb := nf_false_not_branch (makeDF_nf e _ hn ha)
    have hbs : ∀ n ∈ [a], n.isBranch = false := by intro n hn; simp only [List.mem_singleton] at hn; rw [hn]; exact hb
    refine ⟨⟨a, a1, h⟩, ?_⟩
    rw [insertOpList, hoistList_plain hbs] at h
    obtain ⟨rfl, h2⟩ := DF.mkOp_ok h
    refine ⟨fun n hn => (nomatch hn), fun r hr => ?_⟩
    simp only [ResEnv.resolve, List.nil_append, bind_ok] at hr ⊢
    obtain ⟨rs, hrs, hr⟩ := hr
    simp only [ResEnv.resolveList, bind_ok, ok_inj] at hrs
    obtain ⟨a', ha', _, rfl, rfl⟩ := hrs
    obtain ⟨rfl, k⟩ := a2 a' ha'
    rw [if_neg (by simp [noany hbs])] at hr
    refine ⟨(DF.mkOp_ok hr).1, [a'], by simp [ResEnv.resolveList, k, ok_bind], ?_⟩
    rw [if_neg (by simp [noany hbs])]
    exact hr
  | bin o a b iha ihb =>
    intro hfl hn hq t h
    simp only [Ex.flat, Ex.noCond, Ex.allNames, Bool.and_eq_true] at hfl hn hq
    simp only [ExprEnv.makeDF, bind_ok] at h ⊢
    obtain ⟨a', ha, b', hb', h⟩ := h
    obtain ⟨a1, -, a2⟩ := iha hfl.1 hn.1 hq.1 a' ha
    obtain ⟨b1, -, b2⟩ := ihb hfl.2 hn.2 hq.2 b' hb'
    have hba := nf_false_not_branch (makeDF_nf _ _ hn.1 ha)
    have hbb := nf_false_not_branch (makeDF_nf _ _ hn.2 hb')
    have hbs : ∀ n ∈ [a', b'], n.isBranch = false := by
      intro n hn
      simp only [List.mem_cons, List.not_mem_nil, or_false] at hn
      rcases hn with rfl | rfl
      · exact hba
      · exact hbb
    refine ⟨⟨a', a1, b', b1, h⟩, ?_⟩
    rw [insertOpList, hoistList_plain hbs] at h
    obtain ⟨rfl, h2⟩ := DF.mkOp_ok h
    refine ⟨fun n hn => (nomatch hn), fun r hr => ?_⟩
    simp only [ResEnv.resolve, List.nil_append, bind_ok] at hr ⊢
    obtain ⟨rs, hrs, hr⟩ := hr
    simp only [ResEnv.resolveList, bind_ok, ok_inj] at hrs
    obtain ⟨x, hx, _, ⟨y, hy, _, rfl, rfl⟩, rfl⟩ := hrs
    obtain ⟨rfl, k1⟩ := a2 x hx
    obtain ⟨rfl, k2⟩ := b2 y hy
    rw [if_neg (by simp [noany hbs])] at hr
    refine ⟨(DF.mkOp_ok hr).1, [x, y], by simp [ResEnv.resolveList, k1, k2, ok_bind], ?_⟩
    rw [if_neg (by simp [noany hbs])]
    exact hr
  | cond c t f _ _ _ => intro _ hn; simp [Ex.noCond] at hn
  | psel v m l ihv ihm ihl =>
    intro hfl hn hq t h
    simp only [Ex.flat, Ex.noCond, Ex.allNames, Bool.and_eq_true] at hfl hn hq
    simp only [ExprEnv.makeDF, bind_ok] at h ⊢
    obtain ⟨v', hv', m', hm', l', hl', h⟩ := h
    obtain ⟨v1, -, v2⟩ := ihv hfl.1.1 hn.1.1 hq.1.1 v' hv'
    obtain ⟨m1, -, m2⟩ := ihm hfl.1.2 hn.1.2 hq.1.2 m' hm'
    obtain ⟨l1, -, l2⟩ := ihl hfl.2 hn.2 hq.2 l' hl'
    refine ⟨⟨v', v1, m', m1, l', l1, h⟩, ?_⟩
    have hb := nf_false_not_branch (makeDF_nf _ _ hn.1.1 hv')
    rw [if_neg (by simp [hb])] at h
    simp only [ok_inj] at h
    subst h
    refine ⟨fun n hn => (nomatch hn), fun r hr => ?_⟩
    simp only [ResEnv.resolve, bind_ok] at hr ⊢
    obtain ⟨m'', hm'', l'', hl'', v'', hv'', hr⟩ := hr
    obtain ⟨rfl, k1⟩ := m2 _ hm''
    obtain ⟨rfl, k2⟩ := l2 _ hl''
    obtain ⟨rfl, k3⟩ := v2 _ hv''
    rw [if_neg (by simp [hb])] at hr
    refine ⟨(Except.ok.inj hr).symm, _, k1, _, k2, _, k3, ?_⟩
    rw [if_neg (by simp [hb])]
    exact hr
  | ptr v p ihv ihp =>
    intro hfl hn hq t h
    simp only [Ex.flat, Ex.noCond, Ex.allNames, Bool.and_eq_true] at hfl hn hq
    simp only [ExprEnv.makeDF, bind_ok] at h ⊢
    obtain ⟨v', hv', p', hp', h⟩ := h
    obtain ⟨v1, v0, v2⟩ := ihv hfl.1 hn.1 hq.1 v' hv'
    obtain ⟨p1, -, p2⟩ := ihp hfl.2 hn.2 hq.2 p' hp'
    have hb := nf_false_not_branch (makeDF_nf _ _ hn.1 hv')
    have psel : t = .psel v' p' p' → (∀ n, t = .term n → S n) ∧ ∀ r, R.resolve t = .ok r → r = t ∧ R'.resolve t = .ok r := by
      rintro rfl
      refine ⟨fun n hn => (nomatch hn), fun r hr => ?_⟩
      simp only [ResEnv.resolve, bind_ok] at hr ⊢
      obtain ⟨m'', hm'', l'', hl'', v'', hv'', hr⟩ := hr
      obtain ⟨rfl, k1⟩ := p2 _ hm''
      obtain ⟨rfl, k2⟩ := p2 _ hl''
      obtain ⟨rfl, k3⟩ := v2 _ hv''
      rw [if_neg (by simp [hb])] at hr
      refine ⟨(Except.ok.inj hr).symm, _, k1, _, k2, _, k3, ?_⟩
      rw [if_neg (by simp [hb])]
      exact hr
    by_cases hterm : ∃ n, v' = .term n
    · obtain ⟨n, rfl⟩ := hterm
      have hS := v0 n rfl
      simp only [bind_ok, ok_inj] at h
      obtain ⟨d, hdd, h⟩ := h
      refine ⟨⟨.term n, v1, p', p1, ?_⟩, ?_⟩
      · simp only [bind_ok, ok_inj]
        exact ⟨d, hd n hS d hdd, h⟩
      · cases d
        · exact psel (by simpa using h.symm)
        · simp only [if_true] at h
          subst h
          refine ⟨fun n hn => (nomatch hn), fun r hr => ?_⟩
          simp only [ResEnv.resolve, bind_ok] at hr ⊢
          obtain ⟨p'', hp'', a, ha, hr⟩ := hr
          obtain ⟨rfl, k1⟩ := p2 _ hp''
          have ha' := hd' n hS a ha
          cases a
          · simp only [Bool.false_eq_true, if_false, bind_ok] at hr
            obtain ⟨v'', hv'', hr⟩ := hr
            obtain ⟨rfl, k3⟩ := hl n hS v'' hv''
            refine ⟨?_, _, k1, false, ha', ?_⟩
            · simpa [DF.isBranch] using hr.symm
            · simp only [Bool.false_eq_true, if_false, bind_ok]
              exact ⟨_, k3, hr⟩
          · simp only [if_true, bind_ok] at hr
            obtain ⟨bs, hbs, hr⟩ := hr
            obtain ⟨rfl, k3⟩ := he n hS bs hbs
            refine ⟨?_, _, k1, true, ha', ?_⟩
            · simp only [List.foldlM_nil, pure, Except.pure, ok_inj] at hr; exact hr.symm
            · simp only [if_true, bind_ok]
              exact ⟨_, k3, hr⟩
    · have hr : t = .psel v' p' p' := by
        cases v' <;> first | exact (Except.ok.inj h).symm | (rename_i n; exact absurd ⟨n, rfl⟩ hterm)
      refine ⟨⟨v', v1, p', p1, ?_⟩, psel hr⟩
      subst hr
      cases v' <;> first | rfl | (rename_i n; exact absurd ⟨n, rfl⟩ hterm)
  | concat es ih =>
    intro hfl hn hq t h
    simp only [Ex.flat, Ex.noCond, Ex.allNames] at hfl hn hq
    simp only [ExprEnv.makeDF, bind_ok] at h ⊢
    obtain ⟨ts, hts, h⟩ := h
    obtain ⟨k1, k2⟩ := hL es ih hfl hn hq ts hts
    have hb := noany (plain hn hts)
    refine ⟨⟨ts, k1, h⟩, ?_⟩
    rw [if_neg (by simp [hb])] at h
    simp only [ok_inj] at h
    subst h
    refine ⟨fun n hn => (nomatch hn), fun r hr => ?_⟩
    simp only [ResEnv.resolve, bind_ok] at hr ⊢
    obtain ⟨rs, hrs, hr⟩ := hr
    obtain ⟨rfl, k3⟩ := k2 rs hrs
    rw [if_neg (by simp [hb])] at hr
    refine ⟨(Except.ok.inj hr).symm, _, k3, ?_⟩
    rw [if_neg (by simp [hb])]
    exact hr
  | rep t v _ ihv =>
    intro hfl hn hq r h
    cases t <;> simp only [Ex.flat, Bool.false_eq_true] at hfl
    rename_i l
    simp only [Ex.noCond, Ex.allNames, Bool.and_eq_true] at hn hq
    simp only [ExprEnv.makeDF, bind_ok] at h ⊢
    obtain ⟨t', ht', n, hn', v', hv', h⟩ := h
    cases ht'
    obtain ⟨v1, -, v2⟩ := ihv hfl hn.2 hq.2 v' hv'
    refine ⟨⟨_, rfl, n, ht _ _ hn', v', v1, h⟩, ?_⟩
    simp only [ok_inj] at h
    subst h
    have hb := nf_false_not_branch (makeDF_nf _ _ hn.2 hv')
    have hrep : ∀ k rs, R.resolveList (List.replicate k v') = .ok rs → rs = List.replicate k v' ∧ R'.resolveList (List.replicate k v') = .ok rs := by
      intro k
      induction k with
      | zero => intro rs h; simp only [List.replicate_zero, ResEnv.resolveList, ok_inj] at h ⊢; exact ⟨h.symm, h⟩
      | succ k ih =>
        intro rs h
        simp only [List.replicate_succ, ResEnv.resolveList, bind_ok, ok_inj] at h ⊢
        obtain ⟨x, hx, xs, hxs, rfl⟩ := h
        obtain ⟨rfl, q1⟩ := v2 x hx
        obtain ⟨rfl, q2⟩ := ih xs hxs
        exact ⟨rfl, _, q1, _, q2, rfl⟩
    refine ⟨fun n hn => (nomatch hn), fun r hr => ?_⟩
    simp only [ResEnv.resolve, bind_ok] at hr ⊢
    obtain ⟨rs, hrs, hr⟩ := hr
    obtain ⟨rfl, k3⟩ := hrep _ rs hrs
    have hb' : (List.replicate n.toNat v').any DF.isBranch = false := noany (by intro t ht; rw [(List.mem_replicate.mp ht).2]; exact hb)
    rw [if_neg (by simp [hb'])] at hr
    refine ⟨(Except.ok.inj hr).symm, _, k3, ?_⟩
    rw [if_neg (by simp [hb'])]
    exact hr
  | call f es _ => intro _ _ _ t h; simp [ExprEnv.makeDF] at h
  | sys f es ih =>
    intro hfl hn hq t h
    simp only [Ex.flat, Ex.noCond, Ex.allNames] at hfl hn hq
    rw [ExprEnv.makeDF.eq_def] at h
    simp only at h
    rw [ExprEnv.makeDF.eq_def]
    simp only
    split at h
    · rename_i hc
      rw [if_pos hc]
      cases es with
      | nil => cases h
      | cons e es =>
        exact ih e (by simp) (flatL_iff.mp hfl e (by simp)) (noCondL_iff.mp hn e (by simp)) (allNamesL_iff.mp hq e (by simp)) t h
    · rename_i hc
      rw [if_neg hc]
      simp only [ok_inj] at h
      subst h
      exact ⟨rfl, fun n hn => (by cases hn), fun r hr => by simp only [ResEnv.resolve, ok_inj] at hr ⊢; exact ⟨hr.symm, hr⟩⟩

end Pyv
