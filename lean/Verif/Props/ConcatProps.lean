import Verif.Props.CondSound
import Verif.BitSem
/-
  C12: merging the operands of a concatenation keeps its bits.
-/
namespace Pyv

theorem bitsL_cons {ρ n ns b} : bitsL ρ (n :: ns) = some b ↔
    ∃ hi lo, bits ρ n = some hi ∧ bitsL ρ ns = some lo ∧ b = lo ++ hi := by
  simp only [bitsL, obind_some, Option.some.injEq]
  constructor
  · rintro ⟨hi, h1, lo, h2, rfl⟩; exact ⟨hi, lo, h1, h2, rfl⟩
  · rintro ⟨hi, lo, h1, h2, rfl⟩; exact ⟨hi, h1, lo, h2, rfl⟩

theorem bitsL_append {ρ as bs b} : bitsL ρ (as ++ bs) = some b ↔
    ∃ hi lo, bitsL ρ as = some hi ∧ bitsL ρ bs = some lo ∧ b = lo ++ hi := by
  induction as generalizing b with
  | nil =>
    simp only [List.nil_append, bitsL]
    constructor
    · intro h; exact ⟨[], b, rfl, h, by simp⟩
    · rintro ⟨hi, lo, h1, h2, rfl⟩; simp at h1; subst h1; simpa using h2
  | cons a as ih =>
    simp only [List.cons_append, bitsL_cons, ih]
    constructor
    · rintro ⟨hi, lo, h1, ⟨p, q, h2, h3, rfl⟩, rfl⟩
      exact ⟨p ++ hi, q, ⟨hi, p, h1, h2, rfl⟩, h3, by simp⟩
    · rintro ⟨hi, lo, ⟨p, q, h1, h2, rfl⟩, h3, rfl⟩
      exact ⟨p, lo ++ q, h1, ⟨q, lo, h2, h3, rfl⟩, by simp⟩

theorem bitsL_single {ρ n} : bitsL ρ [n] = bits ρ n := by
  cases h : bits ρ n with
  | none => simp [bitsL, h]
  | some b => simp [bitsL, h]

/-- Writing a value above another one. -/
theorem bitsOf_shift (a s v w : Int) (hw : 0 ≤ w) (hs : 0 ≤ s) (h0 : 0 ≤ v) (h1 : v < 2 ^ w.toNat) :
    bitsOf (a * 2 ^ w.toNat + v) (s + w) = bitsOf v w ++ bitsOf a s := by
  obtain ⟨w, rfl⟩ := Int.eq_ofNat_of_zero_le hw
  obtain ⟨s, rfl⟩ := Int.eq_ofNat_of_zero_le hs
  simp only [Int.toNat_natCast] at h1 ⊢
  unfold bitsOf
  have e : ((s : Int) + (w : Int)).toNat = w + s := by omega
  rw [e]
  simp only [Int.toNat_natCast]
  rw [List.range_add, List.map_append, List.map_map]
  have hp : (0 : Int) < 2 ^ w := by positivity
  congr 1
  · apply List.map_congr_left
    intro i hi
    have hi := List.mem_range.mp hi
    have hm : (a * 2 ^ w + v) % 2 ^ w = v := by
      rw [add_comm, Int.add_mul_emod_self_right]; exact Int.emod_eq_of_lt h0 h1
    have := ibit_emod (a * 2 ^ w + v) w i
    rw [hm] at this
    simp [this, hi]
  · apply List.map_congr_left
    intro i hi
    simp only [Function.comp]
    unfold ibit
    have : (a * 2 ^ w + v) / 2 ^ (w + i) = a / 2 ^ i := by
      rw [pow_add, ← Int.ediv_ediv_of_nonneg hp.le]
      congr 1
      rw [add_comm, Int.add_mul_ediv_right _ _ hp.ne', Int.ediv_eq_zero_of_lt h0 h1]; simp
    rw [this]

/-- Constant operands fit their width, unknown operands have a width, part selects of a signal stay within it. -/
def OperandOK (ρ : Env) : DF → Prop
  | .ev (.int v) w _ _ => 0 ≤ w.getD ρ.dw ∧ 0 ≤ v ∧ v < 2 ^ (w.getD ρ.dw).toNat
  | .undef w => 0 ≤ w.getD ρ.dw
  | .psel (.term n) m _ => ∀ x y, ρ.sig n = some x → sem ρ m = some y → y.1 < x.2
  | _ => True

theorem evalConcatAux_bits {ctx : OptCtx} {ρ : Env} (hdw : ρ.dw = ctx.defaultWidth) {ns acc sum c}
    (he : ∀ n ∈ ns, n.isEv = true ∧ OperandOK ρ n) (hs : 0 ≤ sum) (h : ctx.evalConcatAux acc sum ns = .ok c)
    (ha : 0 ≤ acc ∧ acc < 2 ^ sum.toNat) :
    ∃ v w, c = .evi v (some w) ∧ 0 ≤ w ∧ 0 ≤ v ∧ v < 2 ^ w.toNat ∧
      ∃ lo, bitsL ρ ns = some lo ∧ bitsOf v w = lo ++ bitsOf acc sum := by
  induction ns generalizing acc sum with
  | nil =>
    simp [OptCtx.evalConcatAux] at h; subst h
    exact ⟨_, _, rfl, hs, ha.1, ha.2, [], rfl, by simp⟩
  | cons n ns ih =>
    obtain ⟨hev, hok⟩ := he n (by simp)
    cases n <;> simp [DF.isEv] at hev
    rename_i v w a b
    simp only [OptCtx.evalConcatAux, bind_ok] at h
    obtain ⟨sh, hsh, z, hz, h⟩ := h
    cases v <;> simp [DF.intAttr, DF.valueAttr, PyVal.toInt, bind, Except.bind] at hz
    subst hz
    rename_i v
    simp only [OperandOK] at hok
    have hw : ctx.evWidth (.ev (.int v) w a b) = w.getD ρ.dw := by rw [hdw]; cases w <;> rfl
    rw [hw] at h hsh
    generalize hwv : w.getD ρ.dw = ww at *
    unfold pyShl at hsh
    rw [if_neg (by omega)] at hsh
    simp at hsh; subst hsh
    rw [pyOr_shift _ _ _ hok.2.1 hok.2.2] at h
    have hp : (0 : Int) < 2 ^ ww.toNat := by positivity
    have hps : (2 : Int) ^ (sum + ww).toNat = 2 ^ sum.toNat * 2 ^ ww.toNat := by
      rw [← pow_add]; congr 1; omega
    have hacc : 0 ≤ acc * 2 ^ ww.toNat + v ∧ acc * 2 ^ ww.toNat + v < 2 ^ (sum + ww).toNat := by
      rw [hps]
      refine ⟨?_, ?_⟩
      · have := mul_nonneg ha.1 hp.le
        omega
      · have : (acc + 1) * 2 ^ ww.toNat ≤ 2 ^ sum.toNat * 2 ^ ww.toNat :=
          mul_le_mul_of_nonneg_right (by omega) hp.le
        have : acc * 2 ^ ww.toNat + 2 ^ ww.toNat ≤ 2 ^ sum.toNat * 2 ^ ww.toNat := by
          rw [add_mul, one_mul] at this; exact this
        omega
    obtain ⟨V, W, rfl, h1, h2, h3, lo, h4, h5⟩ := ih (fun n hn => he n (by simp [hn])) (by omega) h hacc
    refine ⟨V, W, rfl, h1, h2, h3, lo ++ bitsOf v ww, ?_, ?_⟩
    · rw [bitsL_cons]
      refine ⟨bitsOf v ww, lo, by simp [bits, hwv], h4, rfl⟩
    · rw [h5, bitsOf_shift _ _ _ _ hok.1 hs hok.2.1 hok.2.2]; simp

/-- Merging neighbouring constants. -/
theorem mergeConcatConst_bits {ctx : OptCtx} {ρ : Env} (hdw : ρ.dw = ctx.defaultWidth) {ns ret run rs}
    (hns : ∀ n ∈ ns, OperandOK ρ n) (hret : ∀ n ∈ ret, OperandOK ρ n)
    (hrun : ∀ n ∈ run, n.isEv = true ∧ OperandOK ρ n)
    (hinv : run ≠ [] → ∃ c rest, ret = c :: rest ∧ ctx.evalConcat run = .ok c)
    (h : ctx.mergeConcatConst ret run ns = .ok rs) :
    (∀ n ∈ rs, OperandOK ρ n) ∧ ∀ b, bitsL ρ (ret.reverse ++ ns) = some b → bitsL ρ rs = some b := by
  induction ns generalizing ret run with
  | nil =>
    simp [OptCtx.mergeConcatConst] at h; subst h
    exact ⟨by simpa using hret, by simp⟩
  | cons n ns ih =>
    simp only [OptCtx.mergeConcatConst] at h
    split at h
    · rename_i hev
      simp only [bind_ok] at h
      obtain ⟨c, hc, h⟩ := h
      have hrun' : ∀ m ∈ run ++ [n], m.isEv = true ∧ OperandOK ρ m := by
        intro m hm
        rcases List.mem_append.mp hm with hm | hm
        · exact hrun m hm
        · simp at hm; subst hm; exact ⟨hev, hns m (by simp)⟩
      obtain ⟨v, w, rfl, c1, c2, c3, lo, c4, c5⟩ :=
        evalConcatAux_bits (acc := 0) (sum := 0) hdw hrun' le_rfl hc (by simp)
      have hcok : OperandOK ρ (.evi v (some w)) := ⟨c1, c2, c3⟩
      have hb0 : bitsOf 0 0 = [] := rfl
      rw [hb0, List.append_nil] at c5
      by_cases hr : run = []
      · subst hr
        simp only [List.nil_append, List.length_cons, List.length_nil, gt_iff_lt, lt_self_iff_false, if_false] at h
        obtain ⟨k1, k2⟩ := ih (fun m hm => hns m (by simp [hm]))
          (fun m hm => by rcases List.mem_cons.mp hm with rfl | hm; exact hcok; exact hret m hm)
          hrun' (fun _ => ⟨_, _, rfl, hc⟩) h
        refine ⟨k1, fun b hb => k2 b ?_⟩
        rw [List.reverse_cons, List.append_assoc]
        rw [bitsL_append] at hb ⊢
        obtain ⟨hi, lo', h1, h2, rfl⟩ := hb
        refine ⟨hi, lo', h1, ?_, rfl⟩
        rw [show n :: ns = [n] ++ ns from rfl] at h2
        rw [bitsL_append] at h2 ⊢
        obtain ⟨p, q, h3, h4, rfl⟩ := h2
        refine ⟨p, q, ?_, h4, rfl⟩
        rw [bitsL_single]
        simp only [List.nil_append] at c4
        rw [c4] at h3
        simp at h3; subst h3
        simp [bits, c5]
      · obtain ⟨c0, rest, rfl, hc0⟩ := hinv hr
        have hlen : (run ++ [n]).length > 1 := by
          cases run with
          | nil => exact absurd rfl hr
          | cons => simp
        simp only [hlen, if_true, List.tail_cons] at h
        obtain ⟨v0, w0, rfl, d1, d2, d3, lo0, d4, d5⟩ :=
          evalConcatAux_bits (acc := 0) (sum := 0) hdw hrun le_rfl hc0 (by simp)
        rw [hb0, List.append_nil] at d5
        obtain ⟨k1, k2⟩ := ih (fun m hm => hns m (by simp [hm]))
          (fun m hm => by rcases List.mem_cons.mp hm with rfl | hm; exact hcok; exact hret m (by simp [hm]))
          hrun' (fun _ => ⟨_, _, rfl, hc⟩) h
        refine ⟨k1, fun b hb => k2 b ?_⟩
        rw [List.reverse_cons, List.append_assoc]
        rw [List.reverse_cons, List.append_assoc] at hb
        rw [bitsL_append] at hb ⊢
        obtain ⟨hi, lo', h1, h2, rfl⟩ := hb
        refine ⟨hi, lo', h1, ?_, rfl⟩
        rw [show [DF.evi v0 (some w0)] ++ n :: ns = ([DF.evi v0 (some w0)] ++ [n]) ++ ns by simp] at h2
        rw [bitsL_append] at h2 ⊢
        obtain ⟨p, q, h3, h4, rfl⟩ := h2
        refine ⟨p, q, ?_, h4, rfl⟩
        rw [bitsL_append] at h3
        obtain ⟨p1, p2, h5, h6, rfl⟩ := h3
        rw [bitsL_append] at c4
        obtain ⟨q1, q2, c6, c7, rfl⟩ := c4
        rw [d4] at c6; simp at c6; subst c6
        rw [h6] at c7; simp at c7; subst c7
        rw [bitsL_single] at h5 ⊢
        simp [bits] at h5
        subst h5
        simp [bits, c5, d5]
    · obtain ⟨k1, k2⟩ := ih (fun m hm => hns m (by simp [hm]))
        (fun m hm => by rcases List.mem_cons.mp hm with rfl | hm; exact hns _ (by simp); exact hret m hm)
        (by simp) (by simp) h
      refine ⟨k1, fun b hb => k2 b (by simpa using hb)⟩

/-- Merging neighbouring unknowns. -/
theorem mergeConcatUndef_bits {ctx : OptCtx} {ρ : Env} (hdw : ρ.dw = ctx.defaultWidth) {ns ret width rs}
    (hns : ∀ n ∈ ns, OperandOK ρ n) (hret : ∀ n ∈ ret, OperandOK ρ n)
    (hinv : width > 0 → ∃ rest, ret = .undef (some width) :: rest) (hw0 : 0 ≤ width)
    (h : ctx.mergeConcatUndef ret width ns = .ok rs) :
    (∀ n ∈ rs, OperandOK ρ n) ∧ ∀ b, bitsL ρ (ret.reverse ++ ns) = some b → bitsL ρ rs = some b := by
  induction ns generalizing ret width with
  | nil =>
    simp [OptCtx.mergeConcatUndef] at h; subst h
    exact ⟨by simpa using hret, by simp⟩
  | cons n ns ih =>
    simp only [OptCtx.mergeConcatUndef] at h
    split at h
    · rename_i w
      have hnok := hns (.undef w) (by simp)
      simp only [OperandOK] at hnok
      rw [← hdw] at h
      by_cases hw : width > 0
      · obtain ⟨rest, rfl⟩ := hinv hw
        simp only [hw, if_true, List.tail_cons] at h
        obtain ⟨k1, k2⟩ := ih (fun m hm => hns m (by simp [hm]))
          (fun m hm => by
            rcases List.mem_cons.mp hm with rfl | hm
            · simp only [OperandOK, Option.getD_some]; omega
            · exact hret m (by simp [hm])) (fun _ => ⟨_, rfl⟩) (by omega) h
        refine ⟨k1, fun b hb => k2 b ?_⟩
        simp only [List.reverse_cons, List.append_assoc] at hb ⊢
        rw [bitsL_append] at hb ⊢
        obtain ⟨hi, lo', h1, h2, rfl⟩ := hb
        refine ⟨hi, lo', h1, ?_, rfl⟩
        simp only [List.cons_append, List.nil_append, bitsL_cons] at h2 ⊢
        obtain ⟨p, q, h3, ⟨p', q', h4, h5, rfl⟩, rfl⟩ := h2
        refine ⟨p' ++ p, q', ?_, h5, by simp⟩
        simp only [bits, Option.getD_some, Option.some.injEq] at h3 h4 ⊢
        subst h3; subst h4
        rw [List.replicate_append_replicate]
        congr 1; omega
      · have hw' : width = 0 := by omega
        subst hw'
        simp only [gt_iff_lt, lt_self_iff_false, if_false, zero_add] at h
        obtain ⟨k1, k2⟩ := ih (fun m hm => hns m (by simp [hm]))
          (fun m hm => by
            rcases List.mem_cons.mp hm with rfl | hm
            · simpa [OperandOK] using hnok
            · exact hret m hm) (fun _ => ⟨_, rfl⟩) (by omega) h
        refine ⟨k1, fun b hb => k2 b ?_⟩
        simp only [List.reverse_cons, List.append_assoc] at hb ⊢
        rw [bitsL_append] at hb ⊢
        obtain ⟨hi, lo', h1, h2, rfl⟩ := hb
        refine ⟨hi, lo', h1, ?_, rfl⟩
        simp only [List.cons_append, List.nil_append, bitsL_cons] at h2 ⊢
        obtain ⟨p, q, h3, h4, rfl⟩ := h2
        exact ⟨p, q, by simpa [bits] using h3, h4, rfl⟩
    · obtain ⟨k1, k2⟩ := ih (fun m hm => hns m (by simp [hm]))
        (fun m hm => by rcases List.mem_cons.mp hm with rfl | hm; exact hns _ (by simp); exact hret m hm)
        (by simp) le_rfl h
      refine ⟨k1, fun b hb => k2 b (by simpa using hb)⟩

theorem bits_psel_term {ρ a m l b} : bits ρ (.psel (.term a) m l) = some b ↔
    ∃ x y z, ρ.sig a = some x ∧ sem ρ m = some y ∧ sem ρ l = some z ∧ bslice (bitsOf x.1 x.2) y.1 z.1 = some b := by
  simp only [bits, obind_some, Option.some.injEq]
  constructor
  · rintro ⟨_, ⟨x, hx, rfl⟩, y, hy, z, hz, h⟩; exact ⟨x, y, z, hx, hy, hz, h⟩
  · rintro ⟨x, y, z, hx, hy, hz, h⟩; exact ⟨_, ⟨x, hx, rfl⟩, y, hy, z, hz, h⟩

theorem intAttr_sem {ρ : Env} {n v x} (h : n.intAttr = .ok v) (hs : sem ρ n = some x) : v = x.1 := by
  cases n <;> simp [DF.intAttr, DF.valueAttr, bind, Except.bind] at h
  rename_i z _ _ _
  cases z <;> simp [PyVal.toInt] at h
  simp [sem] at hs
  subst hs; simp [h]

/-- Adjacent slices join. -/
theorem bslice_join {b : List Bit} {m l m' l' : Int} {p q} (h1 : bslice b m l = some p) (h2 : bslice b m' l' = some q)
    (h : l = m' + 1) : bslice b m l' = some (q ++ p) := by
  unfold bslice at *
  split at h1
  · simp at h1
  split at h2
  · simp at h2
  rename_i c1 c2
  simp only [Option.some.injEq] at h1 h2
  rw [if_neg (by omega)]
  subst h1; subst h2
  have e : (m - l' + 1).toNat = (m' - l' + 1).toNat + (m - l + 1).toNat := by omega
  rw [e, List.range_add, List.map_append, List.map_map]
  congr 2
  apply List.map_congr_left
  intro i _
  simp only [Function.comp]
  congr 2
  omega

theorem bslice_full {v w m : Int} {p} (h : bslice (bitsOf v w) m 0 = some p) (hw : w = m + 1) : p = bitsOf v w := by
  unfold bslice at h
  split at h
  · simp at h
  · simp only [Option.some.injEq] at h
    subst h
    unfold bitsOf
    have : (m - 0 + 1).toNat = w.toNat := by omega
    rw [this]
    apply List.map_congr_left
    intro i hi
    have hi := List.mem_range.mp hi
    simp [hi]

/-- Merging neighbouring part selects. -/
theorem mergeConcatPsel_bits {ctx : OptCtx} {k : Nat} {ρ : Env} (hfit : Fits ctx k ρ) {ns ret last rs}
    (hns : ∀ n ∈ ns, OperandOK ρ n) (hret : ∀ n ∈ ret, OperandOK ρ n)
    (hinv : ∀ y, last = some y → ∃ rest, ret = y :: rest)
    (h : ctx.mergeConcatPsel k ret last ns = .ok rs) :
    (∀ n ∈ rs, OperandOK ρ n) ∧ ∀ b, bitsL ρ (ret.reverse ++ ns) = some b → bitsL ρ rs = some b := by
  induction ns generalizing ret last with
  | nil =>
    simp [OptCtx.mergeConcatPsel] at h; subst h
    exact ⟨by simpa using hret, by simp⟩
  | cons n ns ih =>
    simp only [OptCtx.mergeConcatPsel] at h
    have other : ctx.mergeConcatPsel k (n :: ret) (some n) ns = .ok rs → (∀ n ∈ rs, OperandOK ρ n) ∧
        ∀ b, bitsL ρ (ret.reverse ++ n :: ns) = some b → bitsL ρ rs = some b := by
      intro h
      obtain ⟨k1, k2⟩ := ih (fun m hm => hns m (by simp [hm]))
        (fun m hm => by rcases List.mem_cons.mp hm with rfl | hm; exact hns _ (by simp); exact hret m hm)
        (fun y hy => ⟨ret, by simp at hy; subst hy; rfl⟩) h
      exact ⟨k1, fun b hb => k2 b (by simpa using hb)⟩
    split at h
    · rename_i a m l m' l' e
      obtain ⟨rfl, rfl⟩ := sameVarPsel_some e
      obtain ⟨rest, rfl⟩ := hinv _ rfl
      simp only [bind_ok] at h
      obtain ⟨lv, hlv, mv', hmv', h⟩ := h
      split at h
      · rename_i hadj
        simp only [bind_ok] at h
        obtain ⟨w, hw, mv, hmv, lv', hlv', h⟩ := h
        simp only [List.tail_cons] at h
        have hok1 := hret (.psel (.term a) m l) (by simp)
        have hokn : OperandOK ρ (if w = mv - lv' + 1 then .term a else .psel (.term a) m l') := by
          split
          · trivial
          · exact hok1
        obtain ⟨k1, k2⟩ := ih (fun m hm => hns m (by simp [hm]))
          (fun m hm => by rcases List.mem_cons.mp hm with rfl | hm; exact hokn; exact hret m (by simp [hm]))
          (fun y hy => ⟨rest, by simp at hy; subst hy; rfl⟩) h
        refine ⟨k1, fun b hb => k2 b ?_⟩
        simp only [List.reverse_cons, List.append_assoc] at hb ⊢
        rw [bitsL_append] at hb ⊢
        obtain ⟨hi, lo', h1, h2, rfl⟩ := hb
        refine ⟨hi, lo', h1, ?_, rfl⟩
        simp only [List.cons_append, List.nil_append, bitsL_cons] at h2 ⊢
        obtain ⟨p, q, h3, ⟨p', q', h4, h5, rfl⟩, rfl⟩ := h2
        refine ⟨p' ++ p, q', ?_, h5, by simp⟩
        obtain ⟨x, y, z, hx, hy, hz, hsl⟩ := bits_psel_term.mp h3
        obtain ⟨x2, y', z', hx', hy', hz', hsl'⟩ := bits_psel_term.mp h4
        rw [hx] at hx'; simp at hx'; subst hx'
        have e1 := intAttr_sem hlv hz
        have e2 := intAttr_sem hmv' hy'
        have e3 := intAttr_sem hmv hy
        have e4 := intAttr_sem hlv' hz'
        subst e1; subst e2; subst e3; subst e4
        have hj := bslice_join hsl hsl' hadj
        split
        · rename_i hww
          simp only [bits, hx, bind, Option.bind]
          obtain ⟨f1, f2, f3⟩ := hfit.2 _ _ _ hw hx
          have hlt := hok1 x y hx hy
          have hz0 : z'.1 = 0 := by
            unfold bslice at hsl'
            split at hsl'
            · simp at hsl'
            · omega
          rw [hz0] at hj
          rw [bslice_full hj (by omega)]
        · rw [bits_psel_term]
          exact ⟨x, y, z', hx, hy, hz', hj⟩
      · exact other h
    · exact other h

theorem fillNone_bits {ctx : OptCtx} {k a b r ρ x} (h : ctx.fillNone k a b = .ok r) (hb : bits ρ a = some x) :
    bits ρ r = some x := by
  unfold OptCtx.fillNone at h
  split at h
  · simp [bits] at hb
  · simp at h; subst h; exact hb

/-- Merging neighbouring conditionals with the same condition. -/
theorem mergeConcatBranch_bits {ctx : OptCtx} {k : Nat} {ρ : Env} {ns ret last rs}
    (hinv : ∀ y, last = some y → ∃ rest, ret = y :: rest)
    (h : ctx.mergeConcatBranch k ret last ns = .ok rs) :
    ∀ b, bitsL ρ (ret.reverse ++ ns) = some b → bitsL ρ rs = some b := by
  induction ns generalizing ret last with
  | nil =>
    simp [OptCtx.mergeConcatBranch] at h; subst h; simp
  | cons n ns ih =>
    simp only [OptCtx.mergeConcatBranch] at h
    have other : ctx.mergeConcatBranch k (n :: ret) (some n) ns = .ok rs →
        ∀ b, bitsL ρ (ret.reverse ++ n :: ns) = some b → bitsL ρ rs = some b := by
      intro h b hb
      exact ih (fun y hy => ⟨ret, by simp at hy; subst hy; rfl⟩) h b (by simpa using hb)
    split at h
    · rename_i c t f c' t' f'
      obtain ⟨rest, rfl⟩ := hinv _ rfl
      split at h
      · rename_i e; subst e
        simp only [bind_ok] at h
        obtain ⟨a, ha, a', ha', b0, hb0, b1, hb1, h⟩ := h
        simp only [List.tail_cons] at h
        intro b hb
        refine ih (fun y hy => ⟨rest, by simp at hy; subst hy; rfl⟩) h b ?_
        simp only [List.reverse_cons, List.append_assoc] at hb ⊢
        rw [bitsL_append] at hb ⊢
        obtain ⟨hi, lo', h1, h2, rfl⟩ := hb
        refine ⟨hi, lo', h1, ?_, rfl⟩
        simp only [List.cons_append, List.nil_append, bitsL_cons] at h2 ⊢
        obtain ⟨p, q, h3, ⟨p', q', h4, h5, rfl⟩, rfl⟩ := h2
        refine ⟨p' ++ p, q', ?_, h5, by simp⟩
        simp only [bits, obind_some] at h3 h4 ⊢
        obtain ⟨cv, hcv, h3⟩ := h3
        obtain ⟨cv', hcv', h4⟩ := h4
        rw [hcv] at hcv'; simp at hcv'; subst hcv'
        refine ⟨cv, hcv, ?_⟩
        split
        · rename_i hc
          rw [if_pos hc] at h3 h4
          rw [bitsL_cons]
          exact ⟨p, p', fillNone_bits ha h3, by rw [bitsL_single]; exact fillNone_bits ha' h4, rfl⟩
        · rename_i hc
          rw [if_neg hc] at h3 h4
          rw [bitsL_cons]
          exact ⟨p, p', fillNone_bits hb0 h3, by rw [bitsL_single]; exact fillNone_bits hb1 h4, rfl⟩
      · exact other h
    · exact other h

theorem unwrapConcat_bits {ρ ns} : bits ρ (unwrapConcat ns) = bitsL ρ ns := by
  unfold unwrapConcat
  split
  · rw [bitsL_single]
  · simp [bits]

/-- **C12** Merging the operands of a concatenation keeps its bits (hence its width and its value), provided the
constant operands fit their width, unknown operands have a width and part selects stay within their signal. -/
theorem C12_mergeConcat_bits (ctx : OptCtx) (k : Nat) (ρ : Env) (hfit : Fits ctx k ρ) (ns : List DF) (r : DF)
    (hns : ∀ n ∈ ns, OperandOK ρ n) (h : ctx.mergeConcat k ns = .ok r) (b : List Bit)
    (hb : bits ρ (.concat ns) = some b) : bits ρ r = some b := by
  unfold OptCtx.mergeConcat at h
  simp only [bind_ok] at h
  obtain ⟨a1, h1, a2, h2, a3, h3, h⟩ := h
  simp only [bits] at hb
  obtain ⟨o1, e1⟩ := mergeConcatConst_bits hfit.1 hns (by simp) (by simp) (by simp) h1
  have e1 := e1 b (by simpa using hb)
  obtain ⟨o2, e2⟩ := mergeConcatUndef_bits hfit.1 o1 (by simp) (by simp) le_rfl h2
  have e2 := e2 b (by simpa using e1)
  obtain ⟨o3, e3⟩ := mergeConcatPsel_bits hfit o2 (by simp) (by simp) h3
  have e3 := e3 b (by simpa using e2)
  rw [← unwrapConcat_bits] at e3
  split at h
  · rename_i ms hms
    simp only [bind_ok, ok_inj] at h
    obtain ⟨d, hd, rfl⟩ := h
    rw [unwrapConcat_bits]
    refine mergeConcatBranch_bits (by simp) hd b ?_
    rw [hms] at e3
    simpa [bits] using e3
  · simp at h; subst h; exact e3

/-- **C12** without the proviso is false: `{1'b0, 5 (2 bits), s}`: a constant that does not fit its width spills
into its neighbour. -/
theorem C12_overflow_false (ctx : OptCtx) (k : Nat) (ρ : Env) :
    let ns : List DF := [.evi 0 (some 2), .evi 5 (some 2)]
    bits ρ (.concat ns) = some [some true, some false, some false, some false] ∧
    ctx.mergeConcat k ns = .ok (.evi 5 (some 4)) ∧
    bits ρ (.evi 5 (some 4)) = some [some true, some false, some true, some false] := by
  refine ⟨?_, ?_, ?_⟩
  · simp only [bits, bitsL, Option.getD_some]; decide
  · simp only [OptCtx.mergeConcat, OptCtx.mergeConcatConst, OptCtx.evalConcat, OptCtx.evalConcatAux, OptCtx.evWidth]
    rfl
  · simp only [bits, Option.getD_some]; decide

/-- Non-vacuity: `{s[1:1], s[0:0], 2'd1, 1'd1, x, x}` with 2-bit `s` becomes `{s, 3'd3, xx}`. -/
example : let ns : List DF := [.psel (.term c9s) (.evi 1 none) (.evi 1 none), .psel (.term c9s) (.evi 0 none) (.evi 0 none),
      .evi 1 (some 2), .evi 1 (some 1), .undef (some 1), .undef (some 1)]
    Fits c9ctx 5 c9env ∧ (∀ n ∈ ns, OperandOK c9env n) ∧
    c9ctx.mergeConcat 5 ns = .ok (.concat [.term c9s, .evi 3 (some 3), .undef (some 2)]) ∧
    bits c9env (.concat ns) = some [none, none, some true, some true, some false, some false, some true] := by
  refine ⟨c9fits, ?_, by decide, by decide⟩
  have hx : c9env.sig c9s = some (2, 2) := by decide
  intro n hn
  simp only [List.mem_cons, List.not_mem_nil, or_false] at hn
  rcases hn with rfl | rfl | rfl | rfl | rfl | rfl
  · intro x y h1 h2; rw [hx] at h1; simp [sem] at h1 h2; subst h1; subst h2; decide
  · intro x y h1 h2; rw [hx] at h1; simp [sem] at h1 h2; subst h1; subst h2; decide
  all_goals simp [OperandOK]

end Pyv
