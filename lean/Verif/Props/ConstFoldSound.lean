import Verif.Props.ConstFoldProps
/-
  C07: constant folding preserves the value of a tree.
-/
namespace Pyv

/-- An integer literal: a folded constant, or literal text without x/z digits. -/
def IsLiteral : DF → Prop
  | .ev (.int _) _ _ _ => True
  | .intc s => hasXZ s = false
  | _ => False

/-- The valuation agrees with the table of known constants: a known constant has its value; its width is the
declared one if a range is declared and the recorded one otherwise; constants are not arrays; a constant with
a non-integer value (a string) has no integer value. -/
def Agrees (ctx : OptCtx) (ρ : Env) : Prop :=
  ρ.dw = ctx.defaultWidth ∧
  ∀ n c, ctx.consts.get? n = some c → ρ.arr n = none ∧
    (∀ v w a b, c = .ev v w a b → (∀ z, v ≠ .int z) → ρ.sig n = none) ∧
    (∀ z w a b, c = .ev (.int z) w a b → ∃ w', ρ.sig n = some (z, w') ∧
      ∀ tm, ctx.terms.get? n = some tm →
        ((tm.msb = .none ∨ tm.lsb = .none) → w' = w.getD ctx.defaultWidth) ∧
        (∀ a b, sem ρ tm.msb = some a → sem ρ tm.lsb = some b → w' = a.1 - b.1 + 1))

/-- Operators whose value depends on the width of the operand. -/
def Op.bitOp : Op → Bool
  | .unot | .uand | .unand | .uor | .unor | .uxor | .uxnor => true
  | _ => false

mutual
/-- The trees for which soundness is claimed.  `wm` says whether the width of the tree matters in its context
(it is an operand of a concatenation, of `~` or of a reduction).  Excluded are exactly the cases in which the
code deviates: operators outside `FoldOK`; comparisons, logical operators, reductions, shifts and powers in a
place where the width matters; concatenation operands which do not fit their width; part selects of negative
values; declared ranges of constants that are not literals, where the width matters. -/
def Frag (ctx : OptCtx) (ρ : Env) (wm : Bool) : DF → Prop
  | .term n => wm = true → ∀ tm, (ctx.consts.get? n).isSome → ctx.terms.get? n = some tm →
      (tm.msb = .none ∨ tm.lsb = .none) ∨ (IsLiteral tm.msb ∧ IsLiteral tm.lsb)
  | .op o ns => (wm = true → o.maxRule = true) ∧ FragList ctx ρ (o.bitOp || wm) ns ∧
      ∀ xs, semList ρ ns = some xs → FoldOK o (xs.map (·.1))
  | .concat ns => FragList ctx ρ true ns ∧
      ∀ xs, semList ρ ns = some xs → ∀ x ∈ xs, 0 ≤ x.1 ∧ x.1 < 2 ^ x.2.toNat
  | .psel v m l => Frag ctx ρ false v ∧ Frag ctx ρ false m ∧ Frag ctx ρ false l ∧
      ∀ x, sem ρ v = some x → 0 ≤ x.1
  | .ptr _ p => Frag ctx ρ false p
  | .branch c t f => Frag ctx ρ false c ∧ Frag ctx ρ wm t ∧ Frag ctx ρ wm f
  | _ => True
/-- All trees of a list are in the fragment. -/
def FragList (ctx : OptCtx) (ρ : Env) (wm : Bool) : List DF → Prop
  | [] => True
  | n :: ns => Frag ctx ρ wm n ∧ FragList ctx ρ wm ns
end

theorem semList_cons {ρ n ns xs} : semList ρ (n :: ns) = some xs ↔
    ∃ y ys, sem ρ n = some y ∧ semList ρ ns = some ys ∧ xs = y :: ys := by
  simp only [semList, obind_some]
  constructor
  · rintro ⟨y, hy, ys, hys, h⟩; simp at h; exact ⟨y, ys, hy, hys, h.symm⟩
  · rintro ⟨y, ys, hy, hys, rfl⟩; exact ⟨y, hy, ys, hys, rfl⟩

theorem sem_isEv {ρ : Env} {r : DF} {x : Int × Int} (h : r.isEv = true) (hs : sem ρ r = some x) :
    ∃ w a b, r = .ev (.int x.1) w a b ∧ x.2 = w.getD ρ.dw := by
  cases r <;> simp [DF.isEv] at h
  rename_i v w a b
  cases v <;> simp [sem] at hs
  subst hs
  exact ⟨w, a, b, rfl, rfl⟩

theorem evInts_sem {ρ : Env} {rs : List DF} {ys} (he : rs.all DF.isEv = true) (hs : semList ρ rs = some ys) :
    evInts rs = .ok (ys.map (·.1)) := by
  induction rs generalizing ys with
  | nil => simp [semList] at hs; subst hs; rfl
  | cons r rs ih =>
    obtain ⟨y, ys', h1, h2, rfl⟩ := semList_cons.mp hs
    simp only [List.all_cons, Bool.and_eq_true] at he
    obtain ⟨w, a, b, rfl, hw⟩ := sem_isEv he.1 h1
    simp only [evInts, ih he.2 h2, DF.intAttr, DF.valueAttr, PyVal.toInt]
    rfl

theorem evMaxWidth_sem {ρ : Env} {rs : List DF} {ys acc w} (hs : semList ρ rs = some ys)
    (h : evMaxWidth acc rs = .ok w) : w = (ys.map (·.2)).foldl max acc := by
  induction rs generalizing ys acc with
  | nil => simp [semList] at hs; subst hs; simp [evMaxWidth] at h; simpa using h.symm
  | cons r rs ih =>
    obtain ⟨y, ys', h1, h2, rfl⟩ := semList_cons.mp hs
    cases r <;> try simp [evMaxWidth] at h
    rename_i v x a b
    cases x with
    | none => simp [evMaxWidth] at h
    | some x =>
      simp only [evMaxWidth] at h
      have := ih h2 h
      cases v <;> simp [sem] at h1
      subst h1
      simp only [List.map_cons, List.foldl_cons]
      rw [this]
      congr 1
      by_cases hx : x > acc <;> simp [hx] <;> omega

theorem evalConcatAux_sem {ctx : OptCtx} {ρ : Env} (hdw : ρ.dw = ctx.defaultWidth) {rs : List DF} {ys acc sum r}
    (he : rs.all DF.isEv = true) (hs : semList ρ rs = some ys)
    (hr : ∀ x ∈ ys, 0 ≤ x.1 ∧ x.1 < 2 ^ x.2.toNat) (h : ctx.evalConcatAux acc sum rs = .ok r) :
    sem ρ r = ys.foldl (fun acc x => do
      let a ← acc
      if x.2 < 0 then none else some (a.1 * 2 ^ x.2.toNat + x.1 % 2 ^ x.2.toNat, a.2 + x.2)) (some (acc, sum)) := by
  induction rs generalizing ys acc sum with
  | nil =>
    simp [semList] at hs; subst hs
    simp [OptCtx.evalConcatAux] at h; subst h
    simp [sem]
  | cons n ns ih =>
    obtain ⟨y, ys', h1, h2, rfl⟩ := semList_cons.mp hs
    simp only [List.all_cons, Bool.and_eq_true] at he
    obtain ⟨w, a, b, rfl, hw⟩ := sem_isEv he.1 h1
    simp only [OptCtx.evalConcatAux, bind_ok] at h
    obtain ⟨sh, hsh, v, hv, h⟩ := h
    have hwe : ctx.evWidth (.ev (.int y.1) w a b) = y.2 := by
      rw [hw, hdw]; cases w <;> rfl
    rw [hwe] at h hsh
    simp only [DF.intAttr, DF.valueAttr, PyVal.toInt, bind, Except.bind, ok_inj] at hv
    subst hv
    unfold pyShl at hsh
    split at hsh
    · simp at hsh
    · rename_i hneg
      simp only [ok_inj] at hsh
      subst hsh
      have hy := hr y (by simp)
      rw [pyOr_shift _ _ _ hy.1 hy.2] at h
      have := ih he.2 h2 (fun x hx => hr x (by simp [hx])) h
      rw [this]
      simp only [List.foldl_cons]
      congr 1
      simp [hneg, Int.emod_eq_of_lt hy.1 hy.2]

theorem opSem_width_irrel {o : Op} {vs : List Int} {w w' : Nat} (hb : o.bitOp = false) (hok : FoldOK o vs) :
    opSem o vs w = opSem o vs w' := by
  cases o <;> simp [Op.bitOp] at hb <;> simp only [FoldOK] at hok <;>
    rcases vs with _ | ⟨x, _ | ⟨y, _ | ⟨u, r⟩⟩⟩ <;> simp only [opSem]
  · have hx : ¬ x < 0 := by simp only [FoldOK] at hok; omega
    simp [hx]

theorem Frag.mono {ctx ρ t} : ∀ {wm}, Frag ctx ρ true t → Frag ctx ρ wm t := by
  induction t using DF.ind with
  | op o ns ih =>
    intro wm h
    simp only [Frag] at h ⊢
    refine ⟨fun _ => by simpa using h.1, ?_, h.2.2⟩
    have : ∀ {ms : List DF}, (∀ n ∈ ms, ∀ {wm}, Frag ctx ρ true n → Frag ctx ρ wm n) →
        FragList ctx ρ true ms → ∀ wm, FragList ctx ρ wm ms := by
      intro ms
      induction ms with
      | nil => intros; trivial
      | cons m ms ih2 =>
        intro hm hf wm
        exact ⟨hm m (by simp) hf.1, ih2 (fun n hn => hm n (by simp [hn])) hf.2 wm⟩
    exact this ih (by simpa using h.2.1) _
  | term n => intro wm h; simp only [Frag] at h ⊢; exact fun _ => h trivial
  | concat ns ih => intro wm h; exact h
  | psel v m l => intro wm h; exact h
  | ptr v p => intro wm h; exact h
  | branch c t f hc ht hf => intro wm h; exact ⟨h.1, ht h.2.1, hf h.2.2⟩
  | _ => intro wm h; trivial

/-- The soundness statement for one tree at one recursion depth. -/
def SoundAt (ctx : OptCtx) (ρ : Env) (k : Nat) : Prop :=
  ∀ t r wm x, Frag ctx ρ wm t → ctx.optConst k t = .ok r → sem ρ t = some x →
    ∃ w', sem ρ r = some (x.1, w') ∧ (wm = true → w' = x.2)

theorem sound_list {ctx ρ k} (ih : SoundAt ctx ρ k) {ns rs wm xs} (hf : FragList ctx ρ wm ns)
    (hm : List.mapM (ctx.optConst k) ns = .ok rs) (hs : semList ρ ns = some xs) :
    ∃ ys, semList ρ rs = some ys ∧ ys.map (·.1) = xs.map (·.1) ∧ (wm = true → ys = xs) := by
  rw [mapM_ok] at hm
  induction hm generalizing xs with
  | nil => simp [semList] at hs; subst hs; exact ⟨[], rfl, rfl, fun _ => rfl⟩
  | cons h1 _ ih2 =>
    obtain ⟨y, ys', e1, e2, rfl⟩ := semList_cons.mp hs
    obtain ⟨w', hw, hwm⟩ := ih _ _ wm y hf.1 h1 e1
    obtain ⟨zs, hz, hz1, hz2⟩ := ih2 hf.2 e2
    refine ⟨(y.1, w') :: zs, semList_cons.mpr ⟨_, _, hw, hz, rfl⟩, by simp [hz1], fun h => ?_⟩
    rw [hwm h, hz2 h]

theorem literal_fold {ctx : OptCtx} {ρ : Env} {k m r} (hl : IsLiteral m) (h : ctx.optConst k m = .ok r) :
    ∃ v w a b, r = .ev (.int v) w a b ∧ ∃ w', sem ρ m = some (v, w') := by
  cases k with
  | zero => simp [OptCtx.optConst] at h
  | succ k =>
    unfold OptCtx.optConst at h
    cases m <;> simp only [IsLiteral] at hl
    · rename_i s
      simp only [hl, Bool.false_eq_true, if_false, bind_ok] at h
      obtain ⟨v, hv, w, hw, h⟩ := h
      simp at h
      refine ⟨v, _, _, _, h.symm, w, ?_⟩
      unfold hasXZ at hl
      simp only [sem]
      rw [hl]
      simp [hv, hw]
    · rename_i v w a b
      cases v <;> simp at hl
      simp at h
      subst h
      exact ⟨_, _, _, _, rfl, _, rfl⟩

theorem sound_all {ctx : OptCtx} {ρ : Env} (hag : Agrees ctx ρ) (k : Nat) : SoundAt ctx ρ k := by
  induction k with
  | zero => intro t r wm x _ h; simp [OptCtx.optConst] at h
  | succ k ih =>
    intro t r wm x hf h hs
    have h0 := h
    unfold OptCtx.optConst at h
    cases t with
    | none => simp [sem] at hs
    | fltc s => simp [sem] at hs
    | strc s => simp [sem] at hs
    | undef s => simp [sem] at hs
    | hiz s => simp [sem] at hs
    | delay s => simp [sem] at hs
    | sys s ns => simp [sem] at hs
    | ev v w a b => simp at h; subst h; exact ⟨x.2, hs, fun _ => rfl⟩
    | intc s =>
      simp only [sem] at hs
      split at hs
      · simp at hs
      · rename_i hx
        have hx' : hasXZ s = false := by simpa [hasXZ] using hx
        simp only [hx', Bool.false_eq_true, if_false, bind_ok] at h
        obtain ⟨v, hv, w, hw, h⟩ := h
        simp at h; subst h
        rw [hv, hw] at hs
        simp at hs; subst hs
        exact ⟨w, by simp [sem], fun _ => rfl⟩
    | term n =>
      simp only [sem] at hs
      rcases optConst_term h0 with ⟨rfl, _⟩ | ⟨v, w, w', a, b, rfl, hc⟩
      · exact ⟨x.2, by simpa [sem] using hs, fun _ => rfl⟩
      · obtain ⟨_, hnon, hint⟩ := hag.2 n _ hc
        cases hv : v with
        | int z =>
          subst hv
          obtain ⟨wd, hsig, hw⟩ := hint z w a b rfl
          rw [hsig] at hs; simp at hs; subst hs
          refine ⟨w'.getD ρ.dw, by simp [sem], fun hwm => ?_⟩
          -- the width
          simp only [hc] at h
          rw [bind_ok] at h
          obtain ⟨tm, htm, h⟩ := h
          have htm' : ctx.terms.get? n = some tm := by
            unfold Dict.get at htm
            split at htm
            · rename_i e; simp at htm; rw [e, htm]
            · simp at htm
          have hw := hw tm htm'
          split at h
          · rename_i hbnd
            have hfr := hf hwm tm (by simp [hc]) htm'
            rcases hfr with hno | ⟨l1, l2⟩
            · rcases hno with h1 | h1
              · exact absurd h1 hbnd.1
              · exact absurd h1 hbnd.2
            · simp only [bind_ok] at h
              obtain ⟨m', hm', l', hl', h⟩ := h
              obtain ⟨mv, _, _, _, rfl, mw, hms⟩ := literal_fold (ρ := ρ) l1 hm'
              obtain ⟨lv, _, _, _, rfl, lw, hls⟩ := literal_fold (ρ := ρ) l2 hl'
              simp only [DF.isEv, and_self, if_true, DF.intAttr, DF.valueAttr, PyVal.toInt, bind, Except.bind,
                ok_inj] at h
              injection h with _ h2 _ _
              subst h2
              have := hw.2 _ _ hms hls
              simpa using this.symm
          · rename_i hbnd
            simp at h
            have : tm.msb = .none ∨ tm.lsb = .none := by
              by_cases e : tm.msb = .none
              · exact .inl e
              · right; by_contra e2; exact hbnd ⟨e, e2⟩
            rw [hw.1 this, ← h, hag.1]
        | flt s => rw [hnon v w a b rfl (by simp [hv])] at hs; simp at hs
        | str s => rw [hnon v w a b rfl (by simp [hv])] at hs; simp at hs
        | none => rw [hnon v w a b rfl (by simp [hv])] at hs; simp at hs
    | branch c a b =>
      simp only [bind_ok] at h
      obtain ⟨c', hc, a', ha, b', hb, h⟩ := h
      simp only [sem, obind_some] at hs
      obtain ⟨cv, hcs, hs⟩ := hs
      obtain ⟨cw, hc1, _⟩ := ih _ _ false _ hf.1 hc hcs
      split at h
      · rename_i hev
        rw [bind_ok] at h
        obtain ⟨y, hy, h⟩ := h
        obtain ⟨w, a0, b0, rfl, _⟩ := sem_isEv hev hc1
        simp [isCondTrue] at hy h
        subst hy; subst h
        by_cases h0 : cv.1 = 0
        · simp only [h0, ne_eq, not_true_eq_false, if_false] at hs
          have e : (cv.1 != 0) = false := by simp [h0]
          simp only [e, Bool.false_eq_true, if_false]
          exact ih _ _ wm _ hf.2.2 hb hs
        · simp only [h0, ne_eq, not_false_eq_true, if_true] at hs
          have e : (cv.1 != 0) = true := by simp [h0]
          simp only [e, if_true]
          exact ih _ _ wm _ hf.2.1 ha hs
      · simp at h; subst h
        simp only [sem]
        rw [hc1]
        by_cases h0 : cv.1 = 0
        · simp only [h0, ne_eq, not_true_eq_false, if_false] at hs
          obtain ⟨w', h1, h2⟩ := ih _ _ wm _ hf.2.2 hb hs
          exact ⟨w', by simpa [h0] using h1, h2⟩
        · simp only [h0, ne_eq, not_false_eq_true, if_true] at hs
          obtain ⟨w', h1, h2⟩ := ih _ _ wm _ hf.2.1 ha hs
          exact ⟨w', by simpa [h0] using h1, h2⟩
    | op o ns =>
      simp only [bind_ok] at h
      obtain ⟨rs, hrs, h⟩ := h
      simp only [sem, obind_some] at hs
      obtain ⟨xs, hxs, v, hv, hs⟩ := hs
      simp at hs; subst hs
      obtain ⟨hmax, hfl, hok⟩ := hf
      obtain ⟨ys, hys, hy1, hy2⟩ := sound_list ih hfl hrs hxs
      have hok := hok xs hxs
      have hv' : opSem o (ys.map (·.1)) (maxWidth (ys.map (·.2))).toNat = some v := by
        by_cases hb : (o.bitOp || wm) = true
        · rw [hy2 hb]; exact hv
        · have hb' : o.bitOp = false := by
            cases hh : o.bitOp <;> simp_all
          rw [hy1, opSem_width_irrel hb' hok]; exact hv
      have hww : wm = true → maxWidth (ys.map (·.2)) = opWidth o (xs.map (·.2)) := by
        intro hwm
        rw [hy2 (by simp [hwm])]
        simp [opWidth, hmax hwm]
      split at h
      · rename_i hall
        unfold evalOperator at h
        simp only [bind_ok] at h
        obtain ⟨w, hw, vs, hvs, z, hz, h⟩ := h
        simp at h; subst h
        rw [evInts_sem hall hys] at hvs
        simp at hvs; subst hvs
        have hmw : w = maxWidth (ys.map (·.2)) := evMaxWidth_sem hys hw
        subst hmw
        rw [hy1] at hv' hz
        rw [C06_fold_operator_partial o _ _ v hok hv'] at hz
        simp at hz; subst hz
        refine ⟨_, rfl, hww⟩
      · obtain ⟨rfl, _⟩ := DF.mkOp_ok h
        refine ⟨opWidth o (ys.map (·.2)), ?_, ?_⟩
        · simp only [sem, obind_some]
          exact ⟨ys, hys, v, hv', rfl⟩
        · intro hwm
          rw [hy2 (by simp [hwm])]
    | concat ns =>
      simp only [bind_ok] at h
      obtain ⟨rs, hrs, h⟩ := h
      simp only [sem, obind_some] at hs
      obtain ⟨xs, hxs, hs⟩ := hs
      obtain ⟨hfl, hrange⟩ := hf
      obtain ⟨ys, hys, hy1, hy2⟩ := sound_list ih hfl hrs hxs
      have hyx := hy2 rfl
      subst hyx
      split at h
      · rename_i hall
        have := evalConcatAux_sem hag.1 hall hys (hrange _ hxs) h
        rw [this]
        exact ⟨x.2, hs, fun _ => rfl⟩
      · simp at h; subst h
        exact ⟨x.2, by simp only [sem, obind_some]; exact ⟨ys, hys, hs⟩, fun _ => rfl⟩
    | psel v m l =>
      simp only [bind_ok] at h
      obtain ⟨v', hv, m', hm, l', hl, h⟩ := h
      simp only [sem, obind_some] at hs
      obtain ⟨xv, hxv, xm, hxm, xl, hxl, hs⟩ := hs
      obtain ⟨f1, f2, f3, hnn⟩ := hf
      obtain ⟨wv, s1, _⟩ := ih _ _ false _ f1 hv hxv
      obtain ⟨wm', s2, _⟩ := ih _ _ false _ f2 hm hxm
      obtain ⟨wl, s3, _⟩ := ih _ _ false _ f3 hl hxl
      have hnn := hnn _ hxv
      split at h
      · rename_i hev
        obtain ⟨_, _, _, rfl, _⟩ := sem_isEv hev.1 s1
        obtain ⟨_, _, _, rfl, _⟩ := sem_isEv hev.2 s2
        unfold evalPartselect at h
        simp only [DF.intAttr, DF.valueAttr, PyVal.toInt, bind_ok, ok_inj, exists_eq_left', exists_eq_left] at h
        obtain ⟨lv, ⟨lpv, hlp, hlv⟩, p, hp, h⟩ := h
        cases l' <;> simp [DF.valueAttr] at hlp
        subst hlp
        rename_i lpv _ _ _
        cases lpv <;> simp [sem] at s3
        simp [PyVal.toInt] at hlv
        rw [← hlv] at hp h
        obtain ⟨s3, _⟩ := s3
        rw [s3] at hp h
        unfold pselVal at hs
        split at hs
        · simp at hs
        · rename_i hcond
          simp only [not_or, Int.not_lt] at hcond
          simp at hs
          unfold pyShr at hp
          rw [if_neg (by omega)] at hp
          simp only [ok_inj] at hp
          rw [if_neg (by omega)] at h
          simp only [ok_inj] at h
          subst h
          rw [Int.fdiv_eq_ediv_of_nonneg _ (by positivity)] at hp
          subst hs
          refine ⟨xm.1 - xl.1 + 1, ?_, fun _ => rfl⟩
          simp only [sem, Option.getD_some]
          congr 2
          subst hp
          have hq : 0 ≤ xv.1 / 2 ^ xl.1.toNat := Int.ediv_nonneg hnn (by positivity)
          split
          · rw [Int.fmod_eq_emod_of_nonneg _ (by positivity)]
          · rename_i hlt
            rw [Int.emod_eq_of_lt hq (by omega)]
      · simp at h; subst h
        exact ⟨x.2, by simp only [sem, obind_some]; exact ⟨_, s1, _, s2, _, s3, hs⟩, fun _ => rfl⟩
    | ptr v p =>
      cases v with
      | term n =>
        simp only [bind_ok] at h
        obtain ⟨tm, htm, v', hv, p', hp, h⟩ := h
        have hr : r = .ptr v' p' := by
          split at h
          · simp at h; exact h.symm
          · split at h
            · simp at h
            · simp at h; exact h.symm
        subst hr
        simp only [sem, obind_some] at hs
        obtain ⟨i, hi, hs⟩ := hs
        obtain ⟨pw, hps, _⟩ := ih _ _ false _ hf hp hi
        cases k with
        | zero => simp [OptCtx.optConst] at hv
        | succ k =>
          rcases optConst_term hv with ⟨rfl, _⟩ | ⟨v, w, w', a, b, rfl, hc⟩
          · refine ⟨x.2, ?_, fun _ => rfl⟩
            simp only [sem, obind_some]
            exact ⟨_, hps, hs⟩
          · obtain ⟨harr, hnon, hint⟩ := hag.2 n _ hc
            rw [harr] at hs
            simp only [obind_some] at hs
            obtain ⟨y, hy, hs⟩ := hs
            refine ⟨x.2, ?_, fun _ => rfl⟩
            simp only [sem, obind_some]
            refine ⟨_, hps, ?_⟩
            cases v with
            | int z =>
              obtain ⟨wd, hsig, _⟩ := hint z w a b rfl
              rw [hsig] at hy; simp at hy; subst hy
              exact ⟨(z, w'.getD ρ.dw), by simp [sem], hs⟩
            | _ => rw [hnon _ w a b rfl (by simp)] at hy; simp at hy
      | _ => simp at h; subst h; exact ⟨x.2, hs, fun _ => rfl⟩

/-- **C07 (partial)** Constant folding preserves the value: whenever a tree of the fragment has a known value
under a valuation that agrees with the known constants, the folded tree has the same value.
Missing, because the code deviates: see `Frag` and the theorems `C07_comparison_width`,
`C07_concat_overflow`, `C07_negative_partselect`, `C06_*`. -/
theorem C07_optimizeConstant_value_partial (ctx : OptCtx) (ρ : Env) (hag : Agrees ctx ρ) (k : Nat) (t r : DF)
    (hf : Frag ctx ρ false t) (h : ctx.optConst k t = .ok r) (x : Int × Int) (hs : sem ρ t = some x) :
    ∃ w, sem ρ r = some (x.1, w) := by
  obtain ⟨w, h1, _⟩ := sound_all hag k t r false x hf h hs
  exact ⟨w, h1⟩

/-- **C07 (partial)**, with the width, for trees in which no width-changing operator is in a place where the
width matters. -/
theorem C07_optimizeConstant_value_and_width_partial (ctx : OptCtx) (ρ : Env) (hag : Agrees ctx ρ) (k : Nat)
    (t r : DF) (hf : Frag ctx ρ true t) (h : ctx.optConst k t = .ok r) (x : Int × Int) (hs : sem ρ t = some x) :
    sem ρ r = some x := by
  obtain ⟨w, h1, h2⟩ := sound_all hag k t r true x hf h hs
  rw [h1, h2 rfl]

/-! Non-vacuity: parameter P = 5 (8 bits), signal s = 3, tree `{P, ~s} + 1`-like. -/
section Example
def exP : ScopeChain := [⟨['P'], .signal, none⟩]
def exS : ScopeChain := [⟨['s'], .signal, none⟩]
def exCtx : OptCtx := ⟨[(exP, ⟨exP, [.parameter], .intc ['7'], .intc ['0'], none⟩)], [(exP, .evi 5 (some 32))], 32,
  fun _ => none⟩
def exEnv : Env := ⟨fun n => if n = exP then some (5, 8) else if n = exS then some (3, 4) else none, fun _ => none, 32⟩
def exTree : DF := .branch (.op .eq [.term exP, .intc ['5']]) (.concat [.term exP, .op .unot [.term exS]]) (.term exS)

theorem exAgrees : Agrees exCtx exEnv := by
  refine ⟨rfl, ?_⟩
  intro n c hc
  simp only [exCtx, Dict.get?_cons, Dict.get?_nil] at hc
  split at hc
  · rename_i hn
    simp at hc; subst hc; subst hn
    refine ⟨rfl, ?_, ?_⟩
    · intro v w a b h; simp at h; obtain ⟨rfl, _⟩ := h; intro h2; exact absurd rfl (h2 5)
    · intro z w a b h
      simp at h
      obtain ⟨rfl, rfl, _⟩ := h
      refine ⟨8, rfl, ?_⟩
      intro tm htm
      simp [exCtx, Dict.get?_cons] at htm
      subst htm
      refine ⟨by simp, ?_⟩
      intro a b ha hb
      have h7 : sem exEnv (.intc ['7']) = some (7, 32) := by decide
      have h0 : sem exEnv (.intc ['0']) = some (0, 32) := by decide
      rw [h7] at ha; rw [h0] at hb
      simp at ha hb; subst ha; subst hb; rfl
  · simp at hc

example : Frag exCtx exEnv false exTree ∧ sem exEnv exTree = some (92, 12) ∧
    exCtx.optConst 9 exTree = .ok (.concat [.evi 5 (some 8), .op .unot [.term exS]]) := by
  refine ⟨?_, by decide, by decide⟩
  have hl : ∀ tm, exCtx.terms.get? exP = some tm →
      (tm.msb = .none ∨ tm.lsb = .none) ∨ (IsLiteral tm.msb ∧ IsLiteral tm.lsb) := by
    intro tm htm
    simp [exCtx, Dict.get?_cons] at htm
    subst htm
    right; exact ⟨(by decide : hasXZ ['7'] = false), (by decide : hasXZ ['0'] = false)⟩
  have hs : ∀ (wm : Bool), Frag exCtx exEnv wm (.term exS) := by
    intro wm _ tm h
    have : (exCtx.consts.get? exS).isSome = false := by decide
    rw [this] at h; simp at h
  refine ⟨⟨by simp, ⟨fun _ tm _ htm => hl tm htm, by simp [Frag], trivial⟩, ?_⟩, ⟨⟨fun _ tm _ htm => hl tm htm, ⟨fun _ => rfl,
    ⟨hs _, trivial⟩, ?_⟩, trivial⟩, ?_⟩, hs _⟩
  · intro xs hxs; trivial
  · intro xs hxs; trivial
  · intro xs hxs
    have : semList exEnv [.term exP, .op .unot [.term exS]] = some [(5, 8), (12, 4)] := by decide
    rw [this] at hxs
    simp at hxs; subst hxs
    decide
end Example

/-- **C07 is false in general (comparison width)**: a folded comparison keeps its operands' width, so
`{1'b1, 4'd3 == 4'd3}`, which is the 2-bit value 3, folds to the 5-bit value 17. -/
theorem C07_comparison_width (ctx : OptCtx) (ρ : Env) :
    let t : DF := .concat [.intc "1'b1".toList, .op .eq [.intc "4'd3".toList, .intc "4'd3".toList]]
    sem ρ t = some (3, 2) ∧ ctx.optConst 4 t = .ok (.evi 17 (some 5)) := by
  have e1 : intConstEval "1'b1".toList = .ok 1 := by decide
  have e2 : intConstWidth "1'b1".toList = .ok 1 := by decide
  have e3 : intConstEval "4'd3".toList = .ok 3 := by decide
  have e4 : intConstWidth "4'd3".toList = .ok 4 := by decide
  have x1 : hasXZ "1'b1".toList = false := by decide
  have x2 : hasXZ "4'd3".toList = false := by decide
  refine ⟨?_, ?_⟩
  · have s1 : sem ρ (.intc "1'b1".toList) = some (1, 1) := by
      unfold hasXZ at x1; simp only [sem, x1, e1, e2]; rfl
    have s2 : sem ρ (.intc "4'd3".toList) = some (3, 4) := by
      unfold hasXZ at x2; simp only [sem, x2, e3, e4]; rfl
    simp only [sem, semList, s1, s2]
    decide
  · have c1 : ∀ k, ctx.optConst (k + 1) (.intc "1'b1".toList) = .ok (.evi 1 (some 1)) := by
      intro k; simp only [OptCtx.optConst, x1, e1, e2]; rfl
    have c2 : ∀ k, ctx.optConst (k + 1) (.intc "4'd3".toList) = .ok (.evi 3 (some 4)) := by
      intro k; simp only [OptCtx.optConst, x2, e3, e4]; rfl
    have c3 : ctx.optConst 3 (.op .eq [.intc "4'd3".toList, .intc "4'd3".toList]) = .ok (.evi 1 (some 4)) := by
      unfold OptCtx.optConst
      simp only [List.mapM_cons, List.mapM_nil, c2]
      rfl
    unfold OptCtx.optConst
    simp only [List.mapM_cons, List.mapM_nil, c1, c3]
    rfl

/-- **C07 is false in general (overflow in a concatenation)**: operands are not truncated to their width, so
`{1'b0, 2'd2 + 2'd3}` folds to 5 although its low two bits can only hold 1. -/
theorem C07_concat_overflow (ctx : OptCtx) :
    ctx.optConst 4 (.concat [.evi 0 (some 1), .op .plus [.evi 2 (some 2), .evi 3 (some 2)]]) =
      .ok (.evi 5 (some 3)) ∧
    ∀ ρ, sem ρ (.concat [.evi 0 (some 1), .op .plus [.evi 2 (some 2), .evi 3 (some 2)]]) = some (1, 3) := by
  refine ⟨?_, ?_⟩
  · simp only [OptCtx.optConst, List.mapM_cons, List.mapM_nil]
    rfl
  · intro ρ
    simp only [sem, semList, Option.getD_some]
    decide

/-- **C07 is false in general (negative part select)**: `(-1)[3:0]` folds to -1 instead of 15. -/
theorem C07_negative_partselect (ctx : OptCtx) :
    ctx.optConst 2 (.psel (.evi (-1) (some 32)) (.evi 3 (some 32)) (.evi 0 (some 32))) = .ok (.evi (-1) (some 4)) ∧
    ∀ ρ, sem ρ (.psel (.evi (-1) (some 32)) (.evi 3 (some 32)) (.evi 0 (some 32))) = some (15, 4) := by
  refine ⟨?_, ?_⟩
  · simp only [OptCtx.optConst]; rfl
  · intro ρ; simp only [sem, Option.getD_some]; decide

/-- **C07 is false in general (bit select of a constant)**: selecting a bit of a known constant raises
TypeError, because the node objects instead of their values are shifted. -/
theorem C07_bit_select_raises (ctx : OptCtx) (k : Nat) (n : ScopeChain) (tm : Term) (v w a b i iw : _)
    (htm : ctx.terms.get n = .ok tm) (hd : tm.dims = none) (hb : tm.msb = .none)
    (hc : ctx.consts.get? n = some (.ev v w a b)) :
    ctx.optConst (k + 2) (.ptr (.term n) (.evi i iw)) = .error .type := by
  have h1 : ctx.optConst (k + 1) (.term n) = .ok (.ev v w false false) := by
    simp only [OptCtx.optConst, hc, htm, bind, Except.bind, hb]
    simp
  have h2 : ctx.optConst (k + 1) (.evi i iw) = .ok (.evi i iw) := by simp [OptCtx.optConst]
  rw [OptCtx.optConst]
  simp only [htm, h1, h2, bind, Except.bind, hd, DF.isEv]
  simp

end Pyv
