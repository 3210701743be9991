import Verif.Props.CondProps
import Verif.Bits
/-
  C09: soundness of hierarchical simplification of conditions.
-/
namespace Pyv

/-- Observation in a truth (`true`) or numeric (`false`) position. -/
def RelB (tm : Bool) (x y : Int × Int) : Prop := if tm then (y.1 ≠ 0 ↔ x.1 ≠ 0) else y.1 = x.1

theorem RelB.of_eq {tm x y} (h : y.1 = x.1) : RelB tm x y := by
  unfold RelB; split
  · rw [h]
  · exact h

theorem RelB.trans {tm x y z} (h : RelB tm x y) (h' : RelB tm y z) : RelB tm x z := by
  unfold RelB at *; split at h
  · rename_i ht; simp only [ht, if_true] at h' ⊢; rw [h', h]
  · rename_i ht; simp only [ht] at h' ⊢; simp at h' ⊢; rw [h', h]

theorem relB_true {x y : Int × Int} : RelB true x y ↔ (y.1 ≠ 0 ↔ x.1 ≠ 0) := by simp [RelB]

theorem pyAnd_self (a : Int) : pyAnd a a = a := ibit_ext (fun i => by rw [ibit_pyAnd]; simp)
theorem pyOr_self (a : Int) : pyOr a a = a := ibit_ext (fun i => by rw [ibit_pyOr]; simp)
theorem pyAnd_zero_left (a : Int) : pyAnd 0 a = 0 := ibit_ext (fun i => by rw [ibit_pyAnd, ibit_zero]; simp)
theorem pyAnd_zero_right (a : Int) : pyAnd a 0 = 0 := ibit_ext (fun i => by rw [ibit_pyAnd, ibit_zero]; simp)
theorem pyOr_zero_left (a : Int) : pyOr 0 a = a := ibit_ext (fun i => by rw [ibit_pyOr, ibit_zero]; simp)
theorem pyOr_zero_right (a : Int) : pyOr a 0 = a := ibit_ext (fun i => by rw [ibit_pyOr, ibit_zero]; simp)

theorem isZero_sem {ρ : Env} {n x} (h : isZero n = true) (hs : sem ρ n = some x) : x.1 = 0 := by
  unfold isZero at h
  split at h
  · simp [sem] at hs; subst hs; rfl
  · simp at h

theorem isPos_sem {ρ : Env} {n x} (h : isPos n = true) (hs : sem ρ n = some x) : x.1 > 0 := by
  unfold isPos at h
  split at h
  · simp [sem] at hs; subst hs; simpa using h
  · simp at h

theorem isUn_eq {o n x} (h : isUn o n x = true) : ∃ r, n = .op o (x :: r) := by
  unfold isUn at h
  split at h
  · simp at h; obtain ⟨rfl, rfl⟩ := h; exact ⟨_, rfl⟩
  · simp at h

/-- `~x` of a one-bit `x`. -/
theorem sem_unot1 {ρ r rest xn xr} (h : sem ρ (.op .unot (r :: rest)) = some xn) (hr : sem ρ r = some xr)
    (h1 : xr.2 = 1 ∧ (xr.1 = 0 ∨ xr.1 = 1)) : xn.1 = 1 - xr.1 := by
  obtain ⟨_, xa, v, ha, hv, rfl⟩ := sem_op1 rfl h
  rw [hr] at ha; simp at ha; subst ha
  simp only [opSem, Option.some.injEq] at hv
  subst hv
  have : (maxWidth [xr.2]).toNat = 1 := by rw [h1.1]; decide
  rw [this]
  rcases h1.2 with h | h <;> rw [h] <;> rfl

theorem sem_ulnot {ρ r rest xn xr} (h : sem ρ (.op .ulnot (r :: rest)) = some xn) (hr : sem ρ r = some xr) :
    xn.1 = if xr.1 = 0 then 1 else 0 := by
  obtain ⟨_, xa, v, ha, hv, rfl⟩ := sem_op1 rfl h
  rw [hr] at ha; simp at ha; subst ha
  simp only [opSem, Option.some.injEq] at hv
  subst hv
  by_cases h : xr.1 = 0 <;> simp [b2i, h]

theorem OKT_unot {ρ tm r rest} (h : OKT ρ tm (.op .unot (r :: rest))) :
    r.rigid = true ∧ ∀ x, sem ρ r = some x → x.2 = 1 ∧ (x.1 = 0 ∨ x.1 = 1) := by
  simp only [OKT] at h; exact h r (by simp)

theorem OKT_ev {ρ tm v w a b} : OKT ρ tm (.ev v w a b) := by simp [OKT]

theorem rigid_width {ctx : OptCtx} {k ρ n x w} (hf : Fits ctx k ρ) (hr : n.rigid = true) (hs : sem ρ n = some x)
    (hw : ctx.getWidth k n = .ok w) : w = x.2 := by
  cases n <;> simp [DF.rigid] at hr
  · simp only [sem] at hs
    exact (hf.2 _ _ _ hw hs).1.symm
  · simp only [sem] at hs
    split at hs
    · simp at hs
    · simp only [OptCtx.getWidth] at hw
      rw [hw] at hs
      split at hs
      · rename_i heq; simp at hs heq; subst hs; exact heq
      · simp at hs
  · rename_i v w' a b
    cases v <;> simp [sem] at hs
    subst hs
    simp [OptCtx.getWidth] at hw
    simp [← hw, hf.1]

theorem getWidth_or {ctx : OptCtx} {k l r w} (h : ctx.getWidth k (.op .or [l, r]) = .ok w) :
    ∃ a b, ctx.getWidth k l = .ok a ∧ ctx.getWidth k r = .ok b ∧ w = if (if 0 < a then a else 0) < b then b else (if 0 < a then a else 0) := by
  simp only [OptCtx.getWidth, OptCtx.getWidths, Op.compare, Bool.false_eq_true, if_false, reduceCtorEq, or_self,
    bind_ok, ok_inj] at h
  obtain ⟨ws, ⟨a, ha, ws', ⟨b, hb, ws'', rfl, rfl⟩, rfl⟩, rfl⟩ := h
  exact ⟨a, b, ha, hb, rfl⟩

theorem getWidth_unot {ctx : OptCtx} {k r w} (h : ctx.getWidth k (.op .unot [r]) = .ok w) :
    ∃ a, ctx.getWidth k r = .ok a ∧ w = if 0 < a then a else 0 := by
  simp only [OptCtx.getWidth, OptCtx.getWidths, Op.compare, Bool.false_eq_true, if_false, reduceCtorEq, or_self,
    bind_ok, ok_inj] at h
  obtain ⟨ws, ⟨a, ha, ws', rfl, rfl⟩, rfl⟩ := h
  exact ⟨a, ha, rfl⟩

theorem evDiffer_sem {ρ : Env} {a b xa xb} (h : evDiffer a b = true) (ha : sem ρ a = some xa) (hb : sem ρ b = some xb) :
    xa.1 ≠ xb.1 := by
  unfold evDiffer at h
  split at h
  · rename_i v w _ _ v' w' _ _
    cases v <;> simp [sem] at ha
    cases v' <;> simp [sem] at hb
    subst ha; subst hb
    simpa using h
  · simp at h

theorem asEq_sem {ρ : Env} {n a b x} (h : asEq n = some (a, b)) (hs : sem ρ n = some x) :
    ∃ xa xb, sem ρ a = some xa ∧ sem ρ b = some xb ∧ (x.1 ≠ 0 ↔ xa.1 = xb.1) := by
  unfold asEq at h
  split at h <;> simp at h
  obtain ⟨rfl, rfl⟩ := h
  obtain ⟨_, xa, xb, v, ha, hb, hv, rfl⟩ := sem_op2 rfl hs
  simp only [opSem, Option.some.injEq] at hv
  subst hv
  exact ⟨xa, xb, ha, hb, by rw [b2i_ne]; simp⟩

theorem asNotEq_sem {ρ : Env} {n a b x} (h : asNotEq n = some (a, b)) (hs : sem ρ n = some x) :
    ∃ xa xb, sem ρ a = some xa ∧ sem ρ b = some xb ∧ (x.1 ≠ 0 ↔ xa.1 ≠ xb.1) := by
  unfold asNotEq at h
  split at h
  · rename_i m rest
    obtain ⟨_, xm, v, hm, hv, hx⟩ := sem_op1 rfl hs
    obtain ⟨xa, xb, ha, hb, h2⟩ := asEq_sem h hm
    have := sem_ulnot hs hm
    refine ⟨xa, xb, ha, hb, ?_⟩
    rw [this]
    by_cases h0 : xm.1 = 0
    · simp [h0] at h2 ⊢; exact h2
    · simp [h0] at h2 ⊢; exact h2
  · simp at h

/-- Two equalities with different constants exclude each other. -/
theorem eqEqConflict_sem {ρ : Env} {l r xl xr} (h : eqEqConflict l r = true) (hl : sem ρ l = some xl)
    (hr : sem ρ r = some xr) : ¬ (xl.1 ≠ 0 ∧ xr.1 ≠ 0) := by
  unfold eqEqConflict at h
  split at h
  · rename_i l0 l1 r0 r1 e1 e2
    obtain ⟨a, b, ha, hb, h1⟩ := asEq_sem e1 hl
    obtain ⟨c, d, hc, hd, h2⟩ := asEq_sem e2 hr
    rw [h1, h2]
    simp only [Bool.or_eq_true, Bool.and_eq_true, decide_eq_true_eq] at h
    rintro ⟨p, q⟩
    rcases h with ((⟨rfl, h⟩ | ⟨rfl, h⟩) | ⟨rfl, h⟩) | ⟨rfl, h⟩
    · rw [ha] at hc; simp at hc; subst hc; exact evDiffer_sem h hb hd (p.symm.trans q)
    · rw [hb] at hd; simp at hd; subst hd; exact evDiffer_sem h ha hc (p.trans q.symm)
    · rw [ha] at hd; simp at hd; subst hd; exact evDiffer_sem h hb hc (p.symm.trans q.symm)
    · rw [hb] at hc; simp at hc; subst hc; exact evDiffer_sem h ha hd (p.trans q)
  · simp at h

theorem notEqImplied_sem {ρ : Env} {l r xl xr} (h : notEqImplied l r = true) (hl : sem ρ l = some xl)
    (hr : sem ρ r = some xr) : xr.1 ≠ 0 → xl.1 ≠ 0 := by
  unfold notEqImplied at h
  split at h
  · rename_i l0 l1 r0 r1 e1 e2
    obtain ⟨a, b, ha, hb, h1⟩ := asNotEq_sem e1 hl
    obtain ⟨c, d, hc, hd, h2⟩ := asEq_sem e2 hr
    rw [h1, h2]
    simp only [Bool.or_eq_true, Bool.and_eq_true, decide_eq_true_eq] at h
    intro q p
    rcases h with ⟨rfl, h⟩ | ⟨rfl, h⟩
    · rw [ha] at hc; simp at hc; subst hc; exact evDiffer_sem h hb hd (p.symm.trans q)
    · rw [hb] at hc; simp at hc; subst hc; exact evDiffer_sem h ha hd (p.trans q)
  · simp at h

theorem asLand_eq {n a b} (h : asLand n = some (a, b)) : ∃ r, n = .op .land (a :: b :: r) := by
  unfold asLand at h
  split at h <;> simp at h
  obtain ⟨rfl, rfl⟩ := h; exact ⟨_, rfl⟩

theorem asUlnot_eq {n a} (h : asUlnot n = some a) : ∃ r, n = .op .ulnot (a :: r) := by
  unfold asUlnot at h
  split at h <;> simp at h
  subst h; exact ⟨_, rfl⟩

/-- `(!a && b) || (a && b)` is `b`. -/
theorem landLorFirst_tru {ρ : Env} {l r y} (h : landLorFirst l r = some y) (hl : Defd ρ l) (hr : Defd ρ r)
    (ho : OKT ρ true l) : Defd ρ y ∧ (Tru ρ y ↔ Tru ρ l ∨ Tru ρ r) ∧ OKT ρ true y := by
  unfold landLorFirst at h
  split at h
  · rename_i l0 l1 r0 r1 e1 e2
    split at h
    · rename_i hc
      simp at h; subst h
      obtain ⟨hc1, rfl⟩ := hc
      obtain ⟨ra, rfl⟩ := asLand_eq e1
      obtain ⟨rb, rfl⟩ := asLand_eq e2
      obtain ⟨rc, rfl⟩ := asUlnot_eq hc1
      obtain ⟨x, hx⟩ := hl
      obtain ⟨z, hz⟩ := hr
      obtain ⟨_, d1, d2, t1⟩ := sem_land hx
      obtain ⟨_, d3, d4, t2⟩ := sem_land hz
      obtain ⟨_, _, t3⟩ := tru_ulnot d1
      refine ⟨d2, ?_, ?_⟩
      · rw [tru_of hx, tru_of hz, t1, t2, t3]
        by_cases h : Tru ρ r0 <;> simp [h]
      · simp only [OKT] at ho; exact ho.2 _ (by simp)
    · simp at h
  · simp at h

theorem landLorSecond_tru {ρ : Env} {l r y} (h : landLorSecond l r = some y) (hl : Defd ρ l) (hr : Defd ρ r)
    (ho : OKT ρ true l) : Defd ρ y ∧ (Tru ρ y ↔ Tru ρ l ∨ Tru ρ r) ∧ OKT ρ true y := by
  unfold landLorSecond at h
  split at h
  · rename_i l0 l1 r0 r1 e1 e2
    split at h
    · rename_i hc
      simp at h; subst h
      obtain ⟨hc1, rfl⟩ := hc
      obtain ⟨ra, rfl⟩ := asLand_eq e1
      obtain ⟨rb, rfl⟩ := asLand_eq e2
      obtain ⟨rc, rfl⟩ := asUlnot_eq hc1
      obtain ⟨x, hx⟩ := hl
      obtain ⟨z, hz⟩ := hr
      obtain ⟨_, d1, d2, t1⟩ := sem_land hx
      obtain ⟨_, d3, d4, t2⟩ := sem_land hz
      obtain ⟨_, _, t3⟩ := tru_ulnot d2
      refine ⟨d1, ?_, ?_⟩
      · rw [tru_of hx, tru_of hz, t1, t2, t3]
        by_cases h : Tru ρ r0 <;> simp [h]
      · simp only [OKT] at ho; exact ho.2 _ (by simp)
    · simp at h
  · simp at h

theorem sem_evi {ρ n w} : sem ρ (.evi n w) = some (n, w.getD ρ.dw) := by simp [sem]

/-- The static simplifications preserve what is observed. -/
theorem mergeStatic_sound {ctx : OptCtx} {k ρ} (hf : Fits ctx k ρ) {tm t r x} (ho : OKT ρ tm t)
    (h : ctx.mergeStaticNodes k t = .ok r) (hs : sem ρ t = some x) :
    ∃ y, sem ρ r = some y ∧ RelB tm x y ∧ OKT ρ tm r := by
  unfold OptCtx.mergeStaticNodes at h
  split at h
  · -- and
    rename_i l r' rest
    obtain ⟨rfl, xl, xr, v, hl, hr, hv, rfl⟩ := sem_op2 rfl hs
    simp only [opSem, Option.some.injEq] at hv
    subst hv
    have ho0 := ho
    simp only [OKT] at ho
    have hol := ho l (by simp)
    have hor := ho r' (by simp)
    split at h
    · rename_i hc
      simp only [bind_ok, ok_inj] at h
      obtain ⟨w, _, rfl⟩ := h
      refine ⟨_, sem_evi, .of_eq ?_, OKT_ev⟩
      simp only
      simp only [Bool.or_eq_true] at hc
      rcases hc with ((hc | hc) | hc) | hc
      · rw [isZero_sem hc hl, pyAnd_zero_left]
      · rw [isZero_sem hc hr, pyAnd_zero_right]
      · obtain ⟨q, rfl⟩ := isUn_eq hc
        have hb := (OKT_unot hol).2 _ hr
        rw [sem_unot1 hl hr hb]
        rcases hb.2 with h | h <;> rw [h] <;> decide
      · obtain ⟨q, rfl⟩ := isUn_eq hc
        have hb := (OKT_unot hor).2 _ hl
        rw [sem_unot1 hr hl hb]
        rcases hb.2 with h | h <;> rw [h] <;> decide
    · split at h
      · rename_i hc
        simp only [bind_ok] at h
        obtain ⟨w, _, h⟩ := h
        split at h
        · simp at h; subst h
          refine ⟨_, sem_evi, .of_eq ?_, OKT_ev⟩
          simp only [Bool.or_eq_true] at hc
          rcases hc with hc | hc
          · obtain ⟨q, rfl⟩ := isUn_eq hc
            rw [sem_ulnot hl hr]
            by_cases h : xr.1 = 0
            · simp [h, pyAnd_zero_right]
            · simp [h, pyAnd_zero_left]
          · obtain ⟨q, rfl⟩ := isUn_eq hc
            rw [sem_ulnot hr hl]
            by_cases h : xl.1 = 0
            · simp [h, pyAnd_zero_left]
            · simp [h, pyAnd_zero_right]
        · simp at h; subst h; exact ⟨_, hs, .of_eq rfl, ho0⟩
      · simp at h; subst h; exact ⟨_, hs, .of_eq rfl, ho0⟩
  · -- or
    rename_i l r' rest
    obtain ⟨rfl, xl, xr, v, hl, hr, hv, rfl⟩ := sem_op2 rfl hs
    simp only [opSem, Option.some.injEq] at hv
    subst hv
    have ho0 := ho
    simp only [OKT] at ho
    have hol := ho l (by simp)
    have hor := ho r' (by simp)
    have up : ∀ {n}, OKT ρ false n → OKT ρ tm n := by
      intro n hn; cases tm
      · exact hn
      · exact hn.lift
    split at h
    · rename_i hc
      simp at h; subst h
      exact ⟨_, hr, .of_eq (by simp [isZero_sem hc hl, pyOr_zero_left]), up hor⟩
    · split at h
      · rename_i hc
        simp at h; subst h
        exact ⟨_, hl, .of_eq (by simp [isZero_sem hc hr, pyOr_zero_right]), up hol⟩
      · split at h
        · rename_i hc
          simp only [bind_ok] at h
          obtain ⟨w, hw, u, hu, h⟩ := h
          simp at h; subst h
          have key : w = 1 ∧ pyOr xl.1 xr.1 = 1 := by
            obtain ⟨a, b, ha, hb, hwv⟩ := getWidth_or hw
            simp only [Bool.or_eq_true] at hc
            rcases hc with hc | hc
            · obtain ⟨q, rfl⟩ := isUn_eq hc
              obtain ⟨rfl, _⟩ := sem_op1 rfl hl
              have hb' := OKT_unot hol
              have hb1 := hb'.2 _ hr
              obtain ⟨c, hc, hac⟩ := getWidth_unot ha
              have e1 := rigid_width hf hb'.1 hr hc
              have e2 := rigid_width hf hb'.1 hr hb
              rw [hb1.1] at e1 e2
              subst e1; subst e2; subst hac
              refine ⟨by rw [hwv]; decide, ?_⟩
              rw [sem_unot1 hl hr hb1]
              rcases hb1.2 with h | h <;> rw [h] <;> decide
            · obtain ⟨q, rfl⟩ := isUn_eq hc
              obtain ⟨rfl, _⟩ := sem_op1 rfl hr
              have hb' := OKT_unot hor
              have hb1 := hb'.2 _ hl
              obtain ⟨c, hc, hac⟩ := getWidth_unot hb
              have e1 := rigid_width hf hb'.1 hl hc
              have e2 := rigid_width hf hb'.1 hl ha
              rw [hb1.1] at e1 e2
              subst e1; subst e2; subst hac
              refine ⟨by rw [hwv]; decide, ?_⟩
              rw [sem_unot1 hr hl hb1]
              rcases hb1.2 with h | h <;> rw [h] <;> decide
          obtain ⟨rfl, hk⟩ := key
          have hu1 : u = .int 1 := by
            have : evalOpInt .unot [0] 1 = .ok (.int 1) := by decide
            rw [this] at hu; simp at hu; exact hu.symm
          subst hu1
          exact ⟨_, sem_evi, .of_eq (by simp [hk]), OKT_ev⟩
        · split at h
          · rename_i hc
            simp only [bind_ok] at h
            obtain ⟨w, _, h⟩ := h
            split at h
            · simp at h; subst h
              refine ⟨_, sem_evi, ?_, OKT_ev⟩
              apply RelB.of_eq
              simp only [Bool.or_eq_true] at hc
              rcases hc with hc | hc
              · obtain ⟨q, rfl⟩ := isUn_eq hc
                simp only [OKT] at hol
                have hx := hol trivial r' (by simp) _ hr
                rw [sem_ulnot hl hr]
                rcases hx with h | h <;> rw [h] <;> rfl
              · obtain ⟨q, rfl⟩ := isUn_eq hc
                simp only [OKT] at hor
                have hx := hor trivial l (by simp) _ hl
                rw [sem_ulnot hr hl]
                rcases hx with h | h <;> rw [h] <;> rfl
            · simp at h; subst h; exact ⟨_, hs, .of_eq rfl, ho0⟩
          · simp at h; subst h; exact ⟨_, hs, .of_eq rfl, ho0⟩
  · -- land
    rename_i l r' rest
    have ho0 := ho
    simp only [OKT] at ho
    obtain ⟨rfl, ho⟩ := ho
    obtain ⟨rfl, ⟨xl, hl⟩, ⟨xr, hr⟩, hx⟩ := sem_land hs
    rw [tru_of hl, tru_of hr] at hx
    have hol := ho l (by simp)
    have hor := ho r' (by simp)
    have zero : ¬ (xl.1 ≠ 0 ∧ xr.1 ≠ 0) → ∃ y, sem ρ (.evi 0 (some 1)) = some y ∧ RelB true x y ∧
        OKT ρ true (.evi 0 (some 1)) := by
      intro hh
      refine ⟨_, sem_evi, ?_, OKT_ev⟩
      rw [relB_true, hx]
      exact iff_of_false (by simp) hh
    split at h
    · rename_i hc
      simp at h; subst h
      apply zero
      simp only [Bool.or_eq_true] at hc
      rcases hc with hc | hc
      · simp [isZero_sem hc hl]
      · simp [isZero_sem hc hr]
    · split at h
      · rename_i hc
        simp at h; subst h
        have := isPos_sem hc hl
        exact ⟨_, hr, by rw [relB_true, hx]; exact ⟨fun h => ⟨by omega, h⟩, fun h => h.2⟩, hor⟩
      · split at h
        · rename_i hc
          simp at h; subst h
          have := isPos_sem hc hr
          exact ⟨_, hl, by rw [relB_true, hx]; exact ⟨fun h => ⟨h, by omega⟩, fun h => h.1⟩, hol⟩
        · split at h
          · rename_i hc
            simp only [bind_ok] at h
            obtain ⟨w, _, h⟩ := h
            split at h
            · simp at h; subst h
              apply zero
              simp only [Bool.or_eq_true] at hc
              rcases hc with hc | hc
              · obtain ⟨q, rfl⟩ := isUn_eq hc
                have hb := (OKT_unot hol).2 _ hr
                rw [sem_unot1 hl hr hb]
                omega
              · obtain ⟨q, rfl⟩ := isUn_eq hc
                have hb := (OKT_unot hor).2 _ hl
                rw [sem_unot1 hr hl hb]
                omega
            · simp at h; subst h; exact ⟨_, hs, .of_eq rfl, ho0⟩
          · split at h
            · rename_i hc
              simp at h; subst h
              apply zero
              simp only [Bool.or_eq_true] at hc
              rcases hc with hc | hc
              · obtain ⟨q, rfl⟩ := isUn_eq hc
                rw [sem_ulnot hl hr]
                by_cases h : xr.1 = 0 <;> simp [h]
              · obtain ⟨q, rfl⟩ := isUn_eq hc
                rw [sem_ulnot hr hl]
                by_cases h : xl.1 = 0 <;> simp [h]
            · split at h
              · rename_i hc
                simp at h; subst h
                exact zero (eqEqConflict_sem hc hl hr)
              · split at h
                · rename_i hc
                  simp at h; subst h
                  exact ⟨_, hr, by rw [relB_true, hx]; exact ⟨fun h => ⟨notEqImplied_sem hc hl hr h, h⟩, fun h => h.2⟩, hor⟩
                · split at h
                  · rename_i hc
                    simp at h; subst h
                    exact ⟨_, hl, by rw [relB_true, hx]; exact ⟨fun h => ⟨h, notEqImplied_sem hc hr hl h⟩, fun h => h.1⟩, hol⟩
                  · simp at h; subst h; exact ⟨_, hs, .of_eq rfl, ho0⟩
  · -- lor
    rename_i l r' rest
    have ho0 := ho
    simp only [OKT] at ho
    obtain ⟨rfl, ho⟩ := ho
    obtain ⟨rfl, ⟨xl, hl⟩, ⟨xr, hr⟩, hx⟩ := sem_lor hs
    have hx' := hx
    rw [tru_of hl, tru_of hr] at hx
    have hol := ho l (by simp)
    have hor := ho r' (by simp)
    have one : (xl.1 ≠ 0 ∨ xr.1 ≠ 0) → ∃ y, sem ρ (.evi 1 (some 1)) = some y ∧ RelB true x y ∧
        OKT ρ true (.evi 1 (some 1)) := by
      intro hh
      refine ⟨_, sem_evi, ?_, OKT_ev⟩
      rw [relB_true, hx]
      exact iff_of_true (by simp) hh
    have fin : ∀ {y}, Defd ρ y ∧ (Tru ρ y ↔ Tru ρ l ∨ Tru ρ r') ∧ OKT ρ true y →
        ∃ z, sem ρ y = some z ∧ RelB true x z ∧ OKT ρ true y := by
      rintro y ⟨⟨z, hz⟩, h2, h3⟩
      exact ⟨z, hz, by rw [relB_true, hx', ← h2, tru_of hz], h3⟩
    split at h
    · rename_i hc
      simp at h; subst h
      exact ⟨_, hr, by rw [relB_true, hx]; simp [isZero_sem hc hl], hor⟩
    · split at h
      · rename_i hc
        simp at h; subst h
        exact ⟨_, hl, by rw [relB_true, hx]; simp [isZero_sem hc hr], hol⟩
      · split at h
        · rename_i hc
          simp at h; subst h
          apply one
          simp only [Bool.or_eq_true] at hc
          rcases hc with hc | hc
          · have := isPos_sem hc hl; omega
          · have := isPos_sem hc hr; omega
        · split at h
          · rename_i hc
            simp at h; subst h
            apply one
            simp only [Bool.or_eq_true] at hc
            rcases hc with hc | hc
            · obtain ⟨q, rfl⟩ := isUn_eq hc
              have hb := (OKT_unot hol).2 _ hr
              rw [sem_unot1 hl hr hb]
              omega
            · obtain ⟨q, rfl⟩ := isUn_eq hc
              have hb := (OKT_unot hor).2 _ hl
              rw [sem_unot1 hr hl hb]
              omega
          · split at h
            · rename_i hc
              simp at h; subst h
              apply one
              simp only [Bool.or_eq_true] at hc
              rcases hc with hc | hc
              · obtain ⟨q, rfl⟩ := isUn_eq hc
                rw [sem_ulnot hl hr]
                by_cases h : xr.1 = 0 <;> simp [h]
              · obtain ⟨q, rfl⟩ := isUn_eq hc
                rw [sem_ulnot hr hl]
                by_cases h : xl.1 = 0 <;> simp [h]
            · split at h
              · rename_i e; simp at h; subst h
                exact fin (landLorFirst_tru e ⟨_, hl⟩ ⟨_, hr⟩ hol)
              · split at h
                · rename_i e; simp at h; subst h
                  exact fin (landLorSecond_tru e ⟨_, hl⟩ ⟨_, hr⟩ hol)
                · split at h
                  · rename_i e; simp at h; subst h
                    obtain ⟨a, b, c⟩ := landLorFirst_tru e ⟨_, hr⟩ ⟨_, hl⟩ hor
                    exact fin ⟨a, by rw [b, or_comm], c⟩
                  · split at h
                    · rename_i e; simp at h; subst h
                      obtain ⟨a, b, c⟩ := landLorSecond_tru e ⟨_, hr⟩ ⟨_, hl⟩ hor
                      exact fin ⟨a, by rw [b, or_comm], c⟩
                    · simp at h; subst h; exact ⟨_, hs, .of_eq rfl, ho0⟩
  · simp at h
  · simp at h; subst h; exact ⟨_, hs, .of_eq rfl, ho⟩

/-! ### the other rewriting steps -/

theorem mergeIdentical_sound {ρ : Env} {tm o ns r x} (ho : OKT ρ tm (.op o ns)) (hc : o.cmp = false)
    (h : mergeIdenticalNodes (.op o ns) = .ok r) (hs : sem ρ (.op o ns) = some x) :
    ∃ y, sem ρ r = some y ∧ RelB tm x y ∧ OKT ρ tm r := by
  unfold mergeIdenticalNodes at h
  split at h
  · simp at h
  · simp at h; subst h
    rename_i heq
    rw [heq] at hs ho
    exact ⟨_, hs, .of_eq rfl, ho⟩
  · rename_i o' a b rest heq
    simp only [DF.op.injEq] at heq
    obtain ⟨rfl, rfl⟩ := heq
    split at h
    · simp at h; subst h; exact ⟨_, hs, .of_eq rfl, ho⟩
    · rename_i hab
      simp at hab; subst hab
      have up : ∀ {n}, OKT ρ false n → OKT ρ tm n := by
        intro n hn; cases tm
        · exact hn
        · exact hn.lift
      cases o <;> simp [Op.cmp] at hc <;> simp only [ok_inj] at h <;> subst h
      all_goals first
        | exact ⟨_, hs, .of_eq rfl, ho⟩
        | skip
      · obtain ⟨rfl, xl, xr, v, hl, hr, hv, rfl⟩ := sem_op2 rfl hs
        rw [hl] at hr; simp at hr; subst hr
        simp only [opSem, Option.some.injEq] at hv
        subst hv
        simp only [OKT] at ho
        exact ⟨_, hl, .of_eq (pyAnd_self _).symm, up (ho a (by simp))⟩
      · obtain ⟨rfl, xl, xr, v, hl, hr, hv, rfl⟩ := sem_op2 rfl hs
        rw [hl] at hr; simp at hr; subst hr
        simp only [opSem, Option.some.injEq] at hv
        subst hv
        simp only [OKT] at ho
        exact ⟨_, hl, .of_eq (pyOr_self _).symm, up (ho a (by simp))⟩
      · simp only [OKT] at ho
        obtain ⟨rfl, ho⟩ := ho
        obtain ⟨rfl, ⟨xl, hl⟩, _, hx⟩ := sem_land hs
        rw [tru_of hl] at hx
        exact ⟨_, hl, by rw [relB_true, hx]; simp, ho a (by simp)⟩
      · simp only [OKT] at ho
        obtain ⟨rfl, ho⟩ := ho
        obtain ⟨rfl, ⟨xl, hl⟩, _, hx⟩ := sem_lor hs
        rw [tru_of hl] at hx
        exact ⟨_, hl, by rw [relB_true, hx]; simp, ho a (by simp)⟩
  · rename_i e1 e2 e3
    rcases ns with _ | ⟨a, _ | ⟨b, rest⟩⟩
    · exact absurd rfl (e1 o)
    · exact absurd rfl (e2 o a)
    · exact absurd rfl (e3 o a b rest)

theorem mergeIdentical_cmp {ρ : Env} {o ns r x} (hc : o.cmp = true) (h : mergeIdenticalNodes (.op o ns) = .ok r)
    (hs : sem ρ (.op o ns) = some x) :
    sem ρ r = some x ∧ (r = .op o ns ∨ ∃ v w, r = .evi v w) := by
  unfold mergeIdenticalNodes at h
  split at h
  · simp at h
  · simp at h; subst h
    rename_i heq
    rw [heq] at hs ⊢
    exact ⟨hs, .inl rfl⟩
  · rename_i o' a b rest heq
    simp only [DF.op.injEq] at heq
    obtain ⟨rfl, rfl⟩ := heq
    split at h
    · simp at h; subst h; exact ⟨hs, .inl rfl⟩
    · rename_i hab
      simp at hab; subst hab
      obtain ⟨rfl, xl, xr, v, hl, hr, hv, rfl⟩ := sem_op2 (by cases o <;> simp_all [Op.cmp, Op.unary]) hs
      rw [hl] at hr; simp at hr; subst hr
      cases o <;> simp [Op.cmp] at hc <;> simp only [ok_inj] at h <;> subst h <;>
        simp [opSem, b2i] at hv <;> subst hv <;>
        exact ⟨by rw [sem_evi]; simp [opWidth, Op.maxRule, Op.leftRule], .inr ⟨_, _, rfl⟩⟩
  · rename_i e1 e2 e3
    rcases ns with _ | ⟨a, _ | ⟨b, rest⟩⟩
    · exact absurd rfl (e1 o)
    · exact absurd rfl (e2 o a)
    · exact absurd rfl (e3 o a b rest)

theorem powerOf2_sem {ctx : OptCtx} (hlog : Log2OK ctx) {ρ : Env} {n p x} (h : ctx.powerOf2 n = some p)
    (hs : sem ρ n = some x) : 0 ≤ p ∧ x.1 = 2 ^ p.toNat := by
  unfold OptCtx.powerOf2 at h
  split at h
  · split at h
    · simp at h
    · simp [sem] at hs; subst hs; exact hlog _ _ h
  · simp at h

theorem replace_times {ctx : OptCtx} (hlog : Log2OK ctx) {ρ : Env} {ns r x}
    (h : ctx.replaceOperator (.op .times ns) = .ok r) (hs : sem ρ (.op .times ns) = some x) :
    ∃ y, sem ρ r = some y ∧ y.1 = x.1 ∧ ∃ o ms, r = .op o ms ∧ (o = .times ∨ o = .sll) := by
  unfold OptCtx.replaceOperator at h
  split at h
  · rename_i a b rest heq
    simp only [DF.op.injEq, true_and] at heq
    subst heq
    obtain ⟨rfl, xl, xr, v, hl, hr, hv, rfl⟩ := sem_op2 rfl hs
    simp only [opSem, Option.some.injEq] at hv
    subst hv
    split at h
    · rename_i p hp
      obtain ⟨rfl, _⟩ := DF.mkOp_ok h
      obtain ⟨h0, h1⟩ := powerOf2_sem hlog hp hr
      refine ⟨_, sem_op2_mk hl (sem_evi (n := p)) (v := xl.1 * 2 ^ p.toNat) ?_, ?_, _, _, rfl, .inr rfl⟩
      · simp [opSem, not_lt.mpr h0]
      · simp [h1]
    · split at h
      · rename_i p hp
        obtain ⟨rfl, _⟩ := DF.mkOp_ok h
        obtain ⟨h0, h1⟩ := powerOf2_sem hlog hp hl
        refine ⟨_, sem_op2_mk hr (sem_evi (n := p)) (v := xr.1 * 2 ^ p.toNat) ?_, ?_, _, _, rfl, .inr rfl⟩
        · simp [opSem, not_lt.mpr h0]
        · simp [h1, mul_comm]
      · simp at h; subst h; exact ⟨_, hs, rfl, _, _, rfl, .inl rfl⟩
  · simp at h
  · rename_i heq; simp at heq
  · rename_i heq; simp at heq
  · rename_i h1 h2 h3 h4
    exact absurd rfl (h2 ns)

theorem replace_divide {ctx : OptCtx} (hlog : Log2OK ctx) {ρ : Env} {ns r x}
    (hnn : ∀ xs, semList ρ ns = some xs → ∀ x ∈ xs, 0 ≤ x.1)
    (h : ctx.replaceOperator (.op .divide ns) = .ok r) (hs : sem ρ (.op .divide ns) = some x) :
    ∃ y, sem ρ r = some y ∧ y.1 = x.1 ∧ ∃ o ms, r = .op o ms ∧ (o = .divide ∨ o = .sra) := by
  unfold OptCtx.replaceOperator at h
  split at h
  · rename_i heq; simp at heq
  · rename_i heq; simp at heq
  · rename_i a b rest heq
    simp only [DF.op.injEq, true_and] at heq
    subst heq
    obtain ⟨rfl, xl, xr, v, hl, hr, hv, rfl⟩ := sem_op2 rfl hs
    have hxl : 0 ≤ xl.1 := hnn [xl, xr]
      (semList_cons'.mpr ⟨_, _, hl, semList_cons'.mpr ⟨_, _, hr, rfl, rfl⟩, rfl⟩) xl (by simp)
    simp only [opSem] at hv
    split at hv
    · simp at hv
    simp at hv
    subst hv
    split at h
    · rename_i p hp
      obtain ⟨rfl, _⟩ := DF.mkOp_ok h
      obtain ⟨h0, h1⟩ := powerOf2_sem hlog hp hr
      refine ⟨_, sem_op2_mk hl (sem_evi (n := p)) (v := xl.1 / 2 ^ p.toNat) ?_, ?_, _, _, rfl, .inr rfl⟩
      · simp [opSem, not_lt.mpr h0]
      · simp [h1, Int.tdiv_eq_ediv_of_nonneg hxl]
    · simp at h; subst h; exact ⟨_, hs, rfl, _, _, rfl, .inl rfl⟩
  · simp at h
  · rename_i h1 h2 h3 h4
    exact absurd rfl (h4 ns)

theorem replace_other {ctx : OptCtx} {o ns r} (h1 : o ≠ .times) (h2 : o ≠ .divide)
    (h : ctx.replaceOperator (.op o ns) = .ok r) : r = .op o ns := by
  cases o <;> simp at h1 h2 <;> simp only [OptCtx.replaceOperator, ok_inj] at h <;> exact h.symm

/-- Operators to which none of the merging steps applies. -/
def Op.plain : Op → Bool
  | .and | .or | .land | .lor => false
  | o => !o.cmp

theorem mergeIdentical_plain {o ns r} (hp : o.plain = true) (h : mergeIdenticalNodes (.op o ns) = .ok r) :
    r = .op o ns := by
  rcases ns with _ | ⟨a, _ | ⟨b, rest⟩⟩ <;> cases o <;> simp_all [Op.plain, Op.cmp, mergeIdenticalNodes] <;>
    split at h <;> simp_all

theorem mergeStatic_cmp {ctx : OptCtx} {k o ns r} (hp : o.plain = true ∨ o.cmp = true)
    (h : ctx.mergeStaticNodes k (.op o ns) = .ok r) : r = .op o ns := by
  rcases ns with _ | ⟨a, _ | ⟨b, rest⟩⟩ <;> cases o <;>
    first
    | (exfalso; rcases hp with h' | h' <;> simp [Op.plain, Op.cmp] at h'; done)
    | (simp only [OptCtx.mergeStaticNodes, ok_inj] at h; exact h.symm)
    | (simp [OptCtx.mergeStaticNodes] at h; done)

theorem mergeLandLor_other {o ns r} (h1 : o ≠ .land) (h2 : o ≠ .lor) (h : mergeLandLor (.op o ns) = .ok r) :
    r = .op o ns := by
  have : mergeLorAux (.op o ns) = .ok (.node (.op o ns)) := by
    cases o <;> simp at h1 h2 <;> simp [mergeLorAux]
  simp only [mergeLandLor, this, bind_ok, ok_inj, exists_eq_left'] at h
  exact h.symm

/-- Flattening in a truth or numeric position. -/
theorem mergeLandLor_sound {ρ : Env} {tm t r x} (ho : OKT ρ tm t) (h : mergeLandLor t = .ok r)
    (hs : sem ρ t = some x) : ∃ y, sem ρ r = some y ∧ RelB tm x y ∧ OKT ρ tm r := by
  have idc : r = t → ∃ y, sem ρ r = some y ∧ RelB tm x y ∧ OKT ρ tm r := by
    rintro rfl; exact ⟨_, hs, .of_eq rfl, ho⟩
  cases t with
  | op o ns =>
    by_cases h1 : o = .land ∨ o = .lor
    · have htm : tm = true := by
        rcases h1 with rfl | rfl <;> simp only [OKT] at ho <;> exact ho.1
      subst htm
      obtain ⟨⟨y, hy⟩, h2, h3⟩ := mergeLandLor_tru h ⟨_, hs⟩ ho
      exact ⟨y, hy, by rw [relB_true, ← tru_of hy, ← tru_of hs, h2], h3⟩
    · have h1' := not_or.mp h1
      exact idc (mergeLandLor_other h1'.1 h1'.2 h)
  | _ =>
    simp only [mergeLandLor, mergeLorAux, bind_ok, ok_inj, exists_eq_left'] at h
    exact idc h.symm

/-- mergeIdenticalNodes applied to an arbitrary tree is only ever applied to operator nodes. -/
theorem mergeStatic_lor_sound {ctx : OptCtx} {k ρ} (hf : Fits ctx k ρ) {tm t r2 r x} (ho : OKT ρ tm t)
    (h : ctx.mergeStaticNodes k t = .ok r2) (h' : mergeLandLor r2 = .ok r) (hs : sem ρ t = some x) :
    ∃ y, sem ρ r = some y ∧ RelB tm x y ∧ OKT ρ tm r := by
  obtain ⟨y, hy, r1, o1⟩ := mergeStatic_sound hf ho h hs
  obtain ⟨z, hz, r2, o2⟩ := mergeLandLor_sound o1 h' hy
  exact ⟨z, hz, r1.trans r2, o2⟩

/-! ### operators on related operands -/

theorem opSem_irrel {o : Op} {vs : List Int} {w w' : Nat} (hb : o.widthDep = false)
    (hn : o = .srl → ∀ v ∈ vs, 0 ≤ v) : opSem o vs w = opSem o vs w' := by
  cases o <;> simp [Op.widthDep] at hb <;>
    rcases vs with _ | ⟨x, _ | ⟨y, _ | ⟨u, r⟩⟩⟩ <;> simp only [opSem]
  have hx : ¬ x < 0 := by have := hn rfl x (by simp); omega
  simp [hx]

theorem forall₂_map_eq {xs ys : List (Int × Int)} (h : List.Forall₂ (Mode.Rel .value) xs ys) :
    ys.map (·.1) = xs.map (·.1) := by
  induction h with
  | nil => rfl
  | cons h1 _ ih => simp only [List.map_cons, ih]; rw [show _ = _ from h1]

theorem forall₂_eq {xs ys : List (Int × Int)} (h : List.Forall₂ (Mode.Rel .width) xs ys) : ys = xs := by
  induction h with
  | nil => rfl
  | cons h1 _ ih => rw [ih, show _ = _ from h1]

theorem Mode.Rel.of_width {m x y} (h : Mode.Rel .width x y) : Mode.Rel m x y := by
  have h : y = x := h
  subst h
  cases m
  · exact Iff.rfl
  · rfl
  · rfl

theorem op_rel {o : Op} {m : Mode} {xs ys : List (Int × Int)} {v : Int}
    (hr : List.Forall₂ (Mode.Rel (o.childMode m)) xs ys) (hal : o.allowed m)
    (hn : o = .divide ∨ o = .srl → ∀ x ∈ xs, 0 ≤ x.1)
    (hv : opSem o (xs.map (·.1)) (maxWidth (xs.map (·.2))).toNat = some v) :
    ∃ v', opSem o (ys.map (·.1)) (maxWidth (ys.map (·.2))).toNat = some v' ∧
      Mode.Rel m (v, opWidth o (xs.map (·.2))) (v', opWidth o (ys.map (·.2))) := by
  cases hcm : o.childMode m with
  | width =>
    rw [hcm] at hr
    have := forall₂_eq hr
    subst this
    exact ⟨v, hv, Mode.Rel.of_width rfl⟩
  | value =>
    rw [hcm] at hr
    have h1 := forall₂_map_eq hr
    have hwd : o.widthDep = false := by
      cases o <;> simp [Op.childMode, Op.widthDep] at hcm ⊢
    refine ⟨v, ?_, ?_⟩
    · rw [h1, opSem_irrel hwd (w' := (maxWidth (xs.map (·.2))).toNat)]
      · exact hv
      · rintro rfl z hz
        obtain ⟨p, hp, rfl⟩ := List.mem_map.mp hz
        exact hn (.inr rfl) p hp
    · cases m with
      | truth => exact Iff.rfl
      | value => rfl
      | width =>
        have hc : o.cmp = true := by
          cases o <;> simp [Op.childMode, Op.widthDep, Op.cmp] at hcm ⊢
        have : ∀ l, opWidth o l = 1 := by
          intro l; cases o <;> simp [Op.cmp] at hc <;> simp [opWidth, Op.maxRule, Op.leftRule]
        simp only [Mode.Rel, this]
  | truth =>
    rw [hcm] at hr
    have htr : ∀ {x y : Int × Int}, Mode.Rel .truth x y → (y.1 ≠ 0 ↔ x.1 ≠ 0) := fun h => h
    have hho : o = .land ∨ o = .lor ∨ o = .ulnot := by
      cases o <;> simp [Op.childMode, Op.widthDep, Op.cmp] at hcm ⊢ <;> (cases m <;> simp at hcm)
    rcases hho with rfl | rfl | rfl
    · obtain ⟨a, b, hab⟩ := opSem_binary rfl hv
      rcases hr with _ | ⟨h1, _ | ⟨h2, _ | ⟨_, _⟩⟩⟩ <;> simp at hab
      have h1 := htr h1; have h2 := htr h2
      refine ⟨_, rfl, ?_⟩
      simp only [List.map_cons, List.map_nil, opSem, Option.some.injEq] at hv
      subst hv
      simp only [Op.allowed] at hal
      subst hal
      simp only [Mode.Rel, b2i_ne, decide_eq_true_eq]
      rw [h1, h2]
    · obtain ⟨a, b, hab⟩ := opSem_binary rfl hv
      rcases hr with _ | ⟨h1, _ | ⟨h2, _ | ⟨_, _⟩⟩⟩ <;> simp at hab
      have h1 := htr h1; have h2 := htr h2
      refine ⟨_, rfl, ?_⟩
      simp only [List.map_cons, List.map_nil, opSem, Option.some.injEq] at hv
      subst hv
      simp only [Op.allowed] at hal
      subst hal
      simp only [Mode.Rel, b2i_ne, decide_eq_true_eq]
      rw [h1, h2]
    · obtain ⟨a, hab⟩ := opSem_unary rfl hv
      rcases hr with _ | ⟨h1, _ | ⟨h2, _⟩⟩ <;> simp at hab
      have h1 := htr h1
      refine ⟨_, rfl, ?_⟩
      simp only [List.map_cons, List.map_nil, opSem, Option.some.injEq] at hv
      subst hv
      apply Mode.Rel.of_width
      simp only [Mode.Rel, opWidth, Op.maxRule, Op.leftRule]
      have : ∀ p q : Int, (q ≠ 0 ↔ p ≠ 0) → b2i (q = 0) = b2i (p = 0) := by
        intro p q h
        by_cases hp : p = 0
        · by_cases hq : q = 0
          · simp [hp, hq]
          · exact absurd hp (h.mp hq)
        · have := h.mpr hp
          simp [hp, this]
      simp [this _ _ h1]

/-! ### the whole pass -/

/-- Soundness for one tree. -/
def CSound (ctx : OptCtx) (k : Nat) (ρ : Env) (t : DF) : Prop :=
  ∀ m r x, CFrag ρ m t → ctx.optHier k t = .ok r → sem ρ t = some x →
    ∃ y, sem ρ r = some y ∧ m.Rel x y ∧ (m ≠ .width → OKT ρ (decide (m = .truth)) r)

theorem relB_mode {m : Mode} (hm : m ≠ .width) {x y} : RelB (decide (m = .truth)) x y ↔ m.Rel x y := by
  cases m <;> simp [RelB, Mode.Rel] at hm ⊢

theorem Mode.Rel.trans {m : Mode} {x y z} (h : m.Rel x y) (h' : m.Rel y z) : m.Rel x z := by
  cases m
  · simp only [Mode.Rel] at *; rw [h', h]
  · simp only [Mode.Rel] at *; rw [h', h]
  · simp only [Mode.Rel] at *; rw [h', h]

theorem csound_list {ctx : OptCtx} {k ρ ns rs m xs} (ih : ∀ n ∈ ns, CSound ctx k ρ n) (hf : CFragList ρ m ns)
    (h : List.Forall₂ (fun n r => ctx.optHier k n = .ok r) ns rs) (hs : semList ρ ns = some xs) :
    ∃ ys, semList ρ rs = some ys ∧ List.Forall₂ m.Rel xs ys ∧
      (m ≠ .width → ∀ r ∈ rs, OKT ρ (decide (m = .truth)) r) := by
  induction h generalizing xs with
  | nil => simp [semList] at hs; subst hs; exact ⟨[], rfl, .nil, by simp⟩
  | cons h1 _ ih2 =>
    obtain ⟨y, ys', e1, e2, rfl⟩ := semList_cons'.mp hs
    simp only [CFragList] at hf
    obtain ⟨z, hz, hrel, hok⟩ := ih _ (by simp) m _ _ hf.1 h1 e1
    obtain ⟨zs, hzs, hrels, hoks⟩ := ih2 (fun n hn => ih n (by simp [hn])) hf.2 e2
    refine ⟨z :: zs, semList_cons'.mpr ⟨_, _, hz, hzs, rfl⟩, .cons hrel hrels, ?_⟩
    intro hm r hr
    rcases List.mem_cons.mp hr with rfl | hr
    · exact hok hm
    · exact hoks hm r hr

theorem optHier_rigid {ctx : OptCtx} {k n r} (h : n.rigid = true) (hr : ctx.optHier k n = .ok r) : r = n := by
  cases n <;> simp [DF.rigid] at h <;> simp [OptCtx.optHier] at hr <;> exact hr.symm

theorem csound_all {ctx : OptCtx} {k : Nat} {ρ : Env} (hlog : Log2OK ctx) (hfit : Fits ctx k ρ) (t : DF) :
    CSound ctx k ρ t := by
  induction t using DF.ind with
  | none => intro m r x _ _ hs; simp [sem] at hs
  | fltc s => intro m r x _ _ hs; simp [sem] at hs
  | strc s => intro m r x _ _ hs; simp [sem] at hs
  | undef s => intro m r x _ _ hs; simp [sem] at hs
  | hiz s => intro m r x _ _ hs; simp [sem] at hs
  | delay s => intro m r x _ _ hs; simp [sem] at hs
  | sys s ns => intro m r x _ _ hs; simp [sem] at hs
  | concat ns => intro m r x hf; simp [CFrag] at hf
  | term n =>
    intro m r x _ h hs
    simp [OptCtx.optHier] at h; subst h
    exact ⟨x, hs, Mode.Rel.of_width rfl, fun _ => by simp [OKT]⟩
  | intc n =>
    intro m r x _ h hs
    simp [OptCtx.optHier] at h; subst h
    exact ⟨x, hs, Mode.Rel.of_width rfl, fun _ => by simp [OKT]⟩
  | ev v w a b =>
    intro m r x _ h hs
    simp [OptCtx.optHier] at h; subst h
    exact ⟨x, hs, Mode.Rel.of_width rfl, fun _ => by simp [OKT]⟩
  | branch c t f hc ht hf =>
    intro m r x hfr h hs
    simp only [CFrag] at hfr
    simp only [OptCtx.optHier, bind_ok] at h
    obtain ⟨c', h1, t', h2, f', h3, h⟩ := h
    simp only [sem, obind_some] at hs
    obtain ⟨cv, hcv, hs⟩ := hs
    obtain ⟨cy, hcy, hcrel, hcok⟩ := hc .truth _ _ hfr.1 h1 hcv
    replace hcrel : cy.1 ≠ 0 ↔ cv.1 ≠ 0 := hcrel
    -- the branch taken
    have take : ∃ y, (if cy.1 ≠ 0 then sem ρ t' else sem ρ f') = some y ∧ m.Rel x y ∧
        (m ≠ .width → OKT ρ (decide (m = .truth)) (if cy.1 ≠ 0 then t' else f')) := by
      by_cases h0 : cv.1 ≠ 0
      · rw [if_pos h0] at hs
        rw [if_pos (hcrel.mpr h0), if_pos (hcrel.mpr h0)]
        exact ht m _ _ hfr.2.1 h2 hs
      · rw [if_neg h0] at hs
        rw [if_neg (fun h => h0 (hcrel.mp h)), if_neg (fun h => h0 (hcrel.mp h))]
        exact hf m _ _ hfr.2.2 h3 hs
    split at h
    · rename_i hev
      simp only [bind_ok, ok_inj] at h
      obtain ⟨b, hb, rfl⟩ := h
      cases c' <;> simp [DF.isEv] at hev
      rename_i v w a b'
      cases v <;> simp [sem] at hcy
      subst hcy
      simp [isCondTrue] at hb
      subst hb
      rename_i n
      by_cases hn : n = 0
      · simpa [hn] using take
      · simpa [hn] using take
    · split at h
      · rename_i heq
        simp at h; subst h; subst heq
        simpa using take
      · simp at h; subst h
        obtain ⟨y, hy, hrel, hok⟩ := take
        exact ⟨y, by simp only [sem, hcy]; exact hy, hrel, fun _ => by simp [OKT]⟩
  | psel v m l hv hm hl =>
    intro md r x hfr h hs
    simp only [CFrag] at hfr
    obtain ⟨hvt, hfm, hfl⟩ := hfr
    cases v <;> simp [DF.isTerm] at hvt
    rename_i n
    simp only [OptCtx.optHier, bind_ok, ok_inj, exists_eq_left'] at h
    obtain ⟨m', h1, l', h2, h⟩ := h
    simp only [sem, obind_some] at hs
    obtain ⟨xv, hxv, xm, hxm, xl, hxl, hs⟩ := hs
    obtain ⟨ym, hym, rm, okm⟩ := hm .value _ _ hfm h1 hxm
    obtain ⟨yl, hyl, rl, _⟩ := hl .value _ _ hfl h2 hxl
    have rm : ym.1 = xm.1 := rm
    have rl : yl.1 = xl.1 := rl
    have dflt : r = .psel (.term n) m' l' → ∃ y, sem ρ r = some y ∧ md.Rel x y ∧
        (md ≠ .width → OKT ρ (decide (md = .truth)) r) := by
      rintro rfl
      refine ⟨x, ?_, Mode.Rel.of_width rfl, fun _ => by simp [OKT]⟩
      simp only [sem, obind_some]
      exact ⟨xv, hxv, ym, hym, yl, hyl, by rw [rm, rl]; exact hs⟩
    split at h
    · simp only [asConcat] at h
      split at h
      · rename_i hz
        simp only [bind_ok] at h
        obtain ⟨w, hw, mv, hmv, h⟩ := h
        split at h
        · rename_i hwm
          simp at h; subst h
          obtain ⟨e1, e2, e3⟩ := hfit.2 _ _ _ hw hxv
          have hl0 := isZero_sem hz hyl
          have hmv' : mv = ym.1 := by
            cases m' with
            | ev v w a b =>
              cases v <;> simp [DF.intAttr, DF.valueAttr, bind, Except.bind, PyVal.toInt] at hmv
              simp [sem] at hym
              subst hym; simp [hmv]
            | _ => simp [DF.intAttr, DF.valueAttr, bind, Except.bind] at hmv
          refine ⟨x, ?_, Mode.Rel.of_width rfl, fun _ => by simp [OKT]⟩
          rw [← rm, ← rl, hl0] at hs
          unfold pselVal at hs
          split at hs
          · simp at hs
          · simp at hs
            subst hs
            simp only [sem, hxv]
            rw [← hmv']
            have : mv + 1 = w := hwm.symm
            have hx1 : xv = (xv.1, w) := by rw [← e1]
            rw [this, Int.emod_eq_of_lt e2 e3, ← hx1]
        · simp at h; exact dflt h.symm
      · simp at h; exact dflt h.symm
    · simp at h; exact dflt h.symm
  | ptr v p hv hp =>
    intro md r x hfr h hs
    simp only [CFrag] at hfr
    obtain ⟨hvt, hfp⟩ := hfr
    cases v <;> simp [DF.isTerm] at hvt
    rename_i n
    simp only [OptCtx.optHier, bind_ok, ok_inj, exists_eq_left', asConcat] at h
    obtain ⟨p', h1, rfl⟩ := h
    simp only [sem, obind_some] at hs
    obtain ⟨xp, hxp, hs⟩ := hs
    obtain ⟨yp, hyp, rp, _⟩ := hp .value _ _ hfp h1 hxp
    have rp : yp.1 = xp.1 := rp
    refine ⟨x, ?_, Mode.Rel.of_width rfl, fun _ => by simp [OKT]⟩
    simp only [sem, obind_some]
    exact ⟨yp, hyp, by rw [rp]; exact hs⟩
  | op o ns ih =>
    intro m r x hfr h hs
    simp only [CFrag] at hfr
    obtain ⟨hal, hfl, hun, hul, hnn⟩ := hfr
    simp only [OptCtx.optHier, bind_ok] at h
    obtain ⟨rs, hrs, r1, h1, r2, h2, r3, h3, r4, h4, h5⟩ := h
    obtain ⟨rfl, _⟩ := DF.mkOp_ok h1
    have hrs := optHierList_map hrs
    obtain ⟨xs, v, hxs, hv, rfl⟩ := sem_op.mp hs
    obtain ⟨ys, hys, hrel, hoks⟩ := csound_list ih hfl hrs hxs
    obtain ⟨v', hv', hrel'⟩ := op_rel hrel hal (fun ho => hnn ho xs hxs) hv
    have hsem : sem ρ (.op o rs) = some (v', opWidth o (ys.map (·.2))) := sem_op.mpr ⟨ys, v', hys, hv', rfl⟩
    -- the invariant of the rebuilt node
    have hokn : m ≠ .width → OKT ρ (decide (m = .truth)) (.op o rs) := by
      intro hm
      cases o <;> try (simp [OKT]; done)
      case land =>
        simp only [Op.allowed] at hal; subst hal
        simp only [OKT]
        exact ⟨rfl, fun n hn => by simpa [Op.childMode] using hoks (by simp [Op.childMode]) n hn⟩
      case lor =>
        simp only [Op.allowed] at hal; subst hal
        simp only [OKT]
        exact ⟨rfl, fun n hn => by simpa [Op.childMode] using hoks (by simp [Op.childMode]) n hn⟩
      case and =>
        simp only [OKT]
        intro n hn
        simpa [Op.childMode, Op.widthDep, Op.cmp, hm] using hoks (by simp [Op.childMode, Op.widthDep, Op.cmp, hm]) n hn
      case or =>
        simp only [OKT]
        intro n hn
        simpa [Op.childMode, Op.widthDep, Op.cmp, hm] using hoks (by simp [Op.childMode, Op.widthDep, Op.cmp, hm]) n hn
      case ulnot =>
        simp only [OKT]
        intro htm
        have hmv : m = .value := by cases m <;> simp_all
        subst hmv
        obtain ⟨a, ha⟩ := opSem_unary (o := .ulnot) rfl hv
        -- one operand
        cases hrs with
        | nil => simp [semList] at hxs; subst hxs; simp at ha
        | cons q1 q2 =>
          obtain ⟨x0, xt, e1, e2, rfl⟩ := semList_cons'.mp hxs
          have : xt = [] := by cases xt <;> simp_all
          subst this
          have hlen := semList_length e2
          cases q2 with
          | cons => simp at hlen
          | nil =>
            obtain ⟨y0, yt, f1, f2, rfl⟩ := semList_cons'.mp hys
            intro n hn z hz
            simp at hn; subst hn
            rw [f1] at hz; simp at hz; subst hz
            have hx0 := hul rfl rfl _ (by simp) x0 e1
            have hc := (List.forall₂_cons.mp hrel).1
            simp only [Op.childMode, if_true] at hc
            have hc : y0.1 = x0.1 := hc
            rw [hc]; exact hx0
      case unot =>
        simp only [OKT]
        intro n hn
        have key : ∀ {ns rs : List DF}, List.Forall₂ (fun n r => ctx.optHier k n = .ok r) ns rs →
            (∀ n ∈ ns, n.rigid = true) → ∀ r ∈ rs, r ∈ ns := by
          intro ns rs hh
          induction hh with
          | nil => simp
          | cons q1 _ ih3 =>
            intro hrig r hr
            rcases List.mem_cons.mp hr with rfl | hr
            · rw [optHier_rigid (hrig _ (by simp)) q1]; simp
            · exact List.mem_cons_of_mem _ (ih3 (fun n hn => hrig n (by simp [hn])) r hr)
        exact hun rfl n (key hrs (fun n hn => (hun rfl n hn).1) n hn)
    -- the steps
    have plainEnd : ∀ {o' ms}, o'.plain = true → r2 = .op o' ms → r = r2 := by
      intro o' ms hp e
      subst e
      have e3 := mergeIdentical_plain hp h3
      subst e3
      have e4 := mergeStatic_cmp (.inl hp) h4
      subst e4
      refine mergeLandLor_other ?_ ?_ h5 <;> rintro rfl <;> simp [Op.plain] at hp
    by_cases ht : o = .times
    · subst ht
      simp only [Op.allowed] at hal
      obtain ⟨y, hy, hyv, o', ms, rfl, ho'⟩ := replace_times hlog h2 hsem
      have := plainEnd (by rcases ho' with rfl | rfl <;> rfl) rfl
      subst this
      refine ⟨y, hy, hrel'.trans ?_, fun _ => by rcases ho' with rfl | rfl <;> simp [OKT]⟩
      cases m
      · simp only [Mode.Rel]; rw [hyv]
      · exact hyv
      · exact absurd rfl hal
    by_cases hd : o = .divide
    · subst hd
      simp only [Op.allowed] at hal
      have hnn' : ∀ zs, semList ρ rs = some zs → ∀ z ∈ zs, 0 ≤ z.1 := by
        intro zs hzs z hz
        rw [hys] at hzs; simp at hzs; subst hzs
        have hcm : Op.divide.childMode m = .value := by simp [Op.childMode, Op.widthDep, Op.cmp, hal]
        rw [hcm] at hrel
        have h1 := forall₂_map_eq hrel
        have : z.1 ∈ ys.map (·.1) := List.mem_map.mpr ⟨z, hz, rfl⟩
        rw [h1] at this
        obtain ⟨q, hq, hqe⟩ := List.mem_map.mp this
        rw [← hqe]; exact hnn (.inl rfl) xs hxs q hq
      obtain ⟨y, hy, hyv, o', ms, rfl, ho'⟩ := replace_divide hlog hnn' h2 hsem
      have := plainEnd (by rcases ho' with rfl | rfl <;> rfl) rfl
      subst this
      refine ⟨y, hy, hrel'.trans ?_, fun _ => by rcases ho' with rfl | rfl <;> simp [OKT]⟩
      cases m
      · simp only [Mode.Rel]; rw [hyv]
      · exact hyv
      · exact absurd rfl hal
    have e2 := replace_other ht hd h2
    subst e2
    by_cases hp : o.plain = true
    · have := plainEnd hp rfl
      subst this
      exact ⟨_, hsem, hrel', hokn⟩
    by_cases hc : o.cmp = true
    · obtain ⟨hs3, hr3⟩ := mergeIdentical_cmp hc h3 hsem
      have hr : r = r3 := by
        rcases hr3 with rfl | ⟨v, w, rfl⟩
        · have e4 := mergeStatic_cmp (.inr hc) h4
          subst e4
          refine mergeLandLor_other ?_ ?_ h5 <;> rintro rfl <;> simp [Op.cmp] at hc
        · simp [OptCtx.mergeStaticNodes] at h4; subst h4
          simp only [mergeLandLor, mergeLorAux, bind_ok, ok_inj, exists_eq_left'] at h5
          exact h5.symm
      subst hr
      refine ⟨_, hs3, hrel', fun hm => ?_⟩
      rcases hr3 with rfl | ⟨v, w, rfl⟩
      · exact hokn hm
      · exact OKT_ev
    · -- and, or, land, lor
      have hm : m ≠ .width := by
        rintro rfl
        cases o <;> simp_all [Op.plain, Op.cmp, Op.allowed]
      obtain ⟨y, hy, q1, o1⟩ := mergeIdentical_sound (hokn hm) (by simpa using hc) h3 hsem
      obtain ⟨z, hz, q2, o2⟩ := mergeStatic_lor_sound hfit o1 h4 h5 hy
      exact ⟨z, hz, hrel'.trans ((relB_mode hm).mp (q1.trans q2)), fun _ => o2⟩

/-- **C09 (partial)** For every condition of the fragment `CFrag` that has a value under a valuation fitting the
declared widths, the simplified condition has a value and is true exactly when the condition is.
Missing (the code deviates, see the theorems below, or the shape is treated in C11/C12): see `CFrag`. -/
theorem C09_condition_truth_partial (ctx : OptCtx) (k : Nat) (ρ : Env) (hlog : Log2OK ctx) (hfit : Fits ctx k ρ)
    (t r : DF) (hf : CFrag ρ .truth t) (h : ctx.optHier k t = .ok r) (x : Int × Int) (hs : sem ρ t = some x) :
    ∃ y, sem ρ r = some y ∧ (y.1 ≠ 0 ↔ x.1 ≠ 0) := by
  obtain ⟨y, hy, hr, _⟩ := csound_all hlog hfit t .truth r x hf h hs
  exact ⟨y, hy, hr⟩

/-- **C09 (partial)**, numeric positions: the value is preserved. -/
theorem C09_value_partial (ctx : OptCtx) (k : Nat) (ρ : Env) (hlog : Log2OK ctx) (hfit : Fits ctx k ρ)
    (t r : DF) (hf : CFrag ρ .value t) (h : ctx.optHier k t = .ok r) (x : Int × Int) (hs : sem ρ t = some x) :
    ∃ y, sem ρ r = some y ∧ y.1 = x.1 := by
  obtain ⟨y, hy, hr, _⟩ := csound_all hlog hfit t .value r x hf h hs
  exact ⟨y, hy, hr⟩

section Example
def c9x : ScopeChain := [⟨['x'], .signal, none⟩]
def c9s : ScopeChain := [⟨['s'], .signal, none⟩]
/-- 2-bit `s`, 1-bit `x`. -/
def c9ctx : OptCtx := ⟨[(c9x, ⟨c9x, [.reg], .intc ['0'], .intc ['0'], none⟩),
  (c9s, ⟨c9s, [.reg], .intc ['1'], .intc ['0'], none⟩)], [], 32, fun _ => none⟩
def c9env : Env := ⟨fun n => if n = c9x then some (1, 1) else if n = c9s then some (2, 2) else none, fun _ => none, 32⟩
/-- `(s == 2 && !(s == 1)) || (~x && x)` -/
def c9tree : DF := .op .lor [
  .op .land [.op .eq [.term c9s, .evi 2 (some 32)], .op .ulnot [.op .eq [.term c9s, .evi 1 (some 32)]]],
  .op .land [.op .unot [.term c9x], .term c9x]]

theorem c9fits : Fits c9ctx 5 c9env := by
  refine ⟨rfl, ?_⟩
  intro n w x hw hs
  simp only [c9env] at hs
  split at hs
  · rename_i e; subst e
    simp at hs; subst hs
    have : c9ctx.getWidth 5 (.term c9x) = .ok 1 := by decide
    rw [this] at hw; simp at hw; subst hw; decide
  · split at hs
    · rename_i e; subst e
      simp at hs; subst hs
      have : c9ctx.getWidth 5 (.term c9s) = .ok 2 := by decide
      rw [this] at hw; simp at hw; subst hw; decide
    · simp at hs

/-- Non-vacuity: all hypotheses of C09 hold of a nested condition, which simplifies to `s == 2`. -/
example : Log2OK c9ctx ∧ Fits c9ctx 5 c9env ∧ CFrag c9env .truth c9tree ∧ sem c9env c9tree = some (1, 1) ∧
    c9ctx.optHier 5 c9tree = .ok (.op .eq [.term c9s, .evi 2 (some 32)]) := by
  refine ⟨by intro v p h; simp [c9ctx] at h, c9fits, ?_, by decide, by decide⟩
  have hx : sem c9env (.term c9x) = some (1, 1) := by decide
  simp [c9tree, CFrag, CFragList, Op.allowed, Op.childMode, Op.widthDep, Op.cmp, DF.rigid, hx]
end Example

/-- **C09 is false in general**: `~s && s` with a two-bit `s = 1` is true (`~s` is 2) but becomes the constant 0. -/
theorem C09_unot_land_false :
    let t : DF := .op .land [.op .unot [.term c9s], .term c9s]
    let ρ : Env := { c9env with sig := fun n => if n = c9s then some (1, 2) else none }
    sem ρ t = some (1, 1) ∧ c9ctx.optHier 5 t = .ok (.evi 0 (some 1)) := by
  constructor <;> decide

/-- **C09 is false in general**: `(s && s) == 1` is true for `s = 2` but becomes `s == 1`. -/
theorem C09_land_value_false :
    let t : DF := .op .eq [.op .land [.term c9s, .term c9s], .evi 1 (some 32)]
    sem c9env t = some (1, 1) ∧ c9ctx.optHier 5 t = .ok (.op .eq [.term c9s, .evi 1 (some 32)]) ∧
    sem c9env (.op .eq [.term c9s, .evi 1 (some 32)]) = some (0, 1) := by
  refine ⟨?_, ?_, ?_⟩ <;> decide

/-- **C09 is false in general**: with `x = -3`, `x / 2 == -1` is true (division truncates) but becomes
`x >>> 1 == -1`, which is false (the shift rounds down). -/
theorem C09_divide_false :
    let ctx : OptCtx := { c9ctx with log2 := fun v => if v = 2 then some 1 else none }
    let t : DF := .op .eq [.op .divide [.term c9s, .evi 2 (some 32)], .evi (-1) (some 32)]
    let ρ : Env := { c9env with sig := fun _ => some (-3, 32) }
    ∃ r, sem ρ t = some (1, 1) ∧ ctx.optHier 5 t = .ok r ∧ sem ρ r = some (0, 1) := by
  refine ⟨.op .eq [.op .sra [.term c9s, .evi 1 (some 32)], .evi (-1) (some 32)], ?_, ?_, ?_⟩ <;> decide

end Pyv
