import Verif.Bits
/-
  C06: folding an operator on constants.
-/
namespace Pyv

theorem unot_fold (v : Int) (n : Nat) :
    (List.range n).foldl (fun ret i => if bitZero v i then pyOr ret (2 ^ i) else ret) 0 =
      2 ^ n - 1 - v % 2 ^ n := by
  have hb : ∀ i, ibit ((List.range n).foldl (fun ret i => if bitZero v i then pyOr ret (2 ^ i) else ret) 0) i =
      (decide (i < n) && !ibit v i) := by
    induction n with
    | zero => intro i; simp [ibit_zero]
    | succ n ih =>
      intro i
      rw [List.range_succ, List.foldl_append]
      simp only [List.foldl_cons, List.foldl_nil]
      rw [bitZero_eq]
      by_cases hv : ibit v n
      · simp only [hv, Bool.not_true, Bool.false_eq_true, if_false, ih]
        by_cases h1 : i < n
        · simp [h1, Nat.lt_succ_of_lt h1]
        · by_cases h2 : i = n
          · subst h2; simp [hv]
          · have : ¬ i < n + 1 := by omega
            simp [h1, this]
      · have hv' : ibit v n = false := by simpa using hv
        simp only [hv', Bool.not_false, if_true, ibit_pyOr, ih, ibit_two_pow]
        by_cases h1 : i < n
        · have h3 : ¬ n = i := by omega
          simp [h1, Nat.lt_succ_of_lt h1, h3]
        · by_cases h2 : i = n
          · subst h2; simp [hv']
          · have h3 : ¬ i < n + 1 := by omega
            have h4 : ¬ n = i := by omega
            simp [h1, h3, h4]
  apply ibit_ext
  intro i
  rw [hb]
  -- 2^n - 1 - v % 2^n = (-v - 1) % 2^n = pyNot v mod 2^n
  have e : (2 ^ n - 1 - v % 2 ^ n : Int) = pyNot v % 2 ^ n := by
    unfold pyNot
    have hp : (0 : Int) < 2 ^ n := by positivity
    have h1 := Int.emod_nonneg v (ne_of_gt hp)
    have h2 := Int.emod_lt_of_pos v hp
    have h3 : -v - 1 = (2 ^ n - 1 - v % 2 ^ n) + 2 ^ n * (-(v / 2 ^ n) - 1) := by
      have := Int.emod_add_mul_ediv v (2 ^ n)
      linarith
    rw [h3, Int.add_mul_emod_self_left]
    exact (Int.emod_eq_of_lt (by omega) (by omega)).symm
  rw [e, ibit_emod, ibit_pyNot]

theorem xor_fold (v : Int) (n : Nat) (s : Int) (hs : s = 0 ∨ s = 1) :
    (List.range n).foldl (fun s i => if !bitZero v i then (if s == 0 then (1 : Int) else 0) else s) s =
      (s + popcount v n) % 2 := by
  unfold popcount
  induction n with
  | zero => simp; omega
  | succ n ih =>
    rw [List.range_succ, List.foldl_append, ih, List.countP_append]
    simp only [List.foldl_cons, List.foldl_nil, List.countP_cons, List.countP_nil, bitZero_eq, Bool.not_not]
    cases h : ibit v n with
    | false => simp
    | true =>
      simp only [if_true]
      have : (s + (List.countP (ibit v) (List.range n) : Nat)) % 2 = 0 ∨
        (s + (List.countP (ibit v) (List.range n) : Nat)) % 2 = 1 := by omega
      rcases this with e | e
      · rw [e]; simp; omega
      · rw [e]; simp; omega

theorem any_bitZero (v : Int) (n : Nat) : (List.range n).any (bitZero v) = decide (¬ ∀ i < n, ibit v i) := by
  rw [Bool.eq_iff_iff]
  simp [bitZero_eq]

theorem any_not_bitZero (v : Int) (n : Nat) :
    (List.range n).any (fun i => !bitZero v i) = decide (∃ i < n, ibit v i) := by
  rw [Bool.eq_iff_iff]
  simp [bitZero_eq]

/-! ### Division through floats -/

theorem truncDivNat_exact (n d : Nat) (hd : 0 < d) (hn : n ≤ 2 ^ 53) : truncDivNat n d = .ok (n / d) := by
  unfold truncDivNat
  split
  · rename_i h
    rw [if_neg, Nat.div_eq_of_lt h]
    intro hc
    by_cases hbig : d < 2 ^ 54
    · have : 2 ^ 54 * 1 ≤ 2 ^ 54 * (d - n) := Nat.mul_le_mul_left _ (by omega)
      omega
    · have : 2 ^ 54 * (d - n) ≥ 2 * (d - n) := Nat.mul_le_mul_right _ (by norm_num)
      omega
  · rename_i h
    simp only [Nat.not_lt] at h
    have hq1 : 1 ≤ n / d := (Nat.one_le_div_iff hd).mpr h
    have hklo : 2 ^ Nat.log2 (n / d) ≤ n / d := Nat.log2_self_le (by omega)
    set k := Nat.log2 (n / d) with hk
    set q := n / d with hq
    have hqd : q * d ≤ n := Nat.div_mul_le_self n d
    simp only
    split
    · rename_i hk52
      set s := 2 ^ (52 - k) with hs
      have hspos : 0 < s := by positivity
      have hsk : 2 ^ k * s = 2 ^ 52 := by rw [hs, ← Nat.pow_add]; congr 1; omega
      congr 1
      -- Q = n * s / d
      have hQlo : q * s ≤ n * s / d := by
        rw [Nat.le_div_iff_mul_le hd]
        calc q * s * d = q * d * s := by ring
          _ ≤ n * s := Nat.mul_le_mul_right _ hqd
      have hnlt : n < (q + 1) * d := by
        have := Nat.lt_div_mul_add (a := n) hd
        rw [← hq] at this
        rw [Nat.add_mul]; omega
      have hQhi : n * s / d < (q + 1) * s := by
        rw [Nat.div_lt_iff_lt_mul hd]
        calc n * s < (q + 1) * d * s := Nat.mul_lt_mul_of_pos_right hnlt hspos
          _ = (q + 1) * s * d := by ring
      have hR : roundHalfEven (n * s) d = n * s / d ∨ (roundHalfEven (n * s) d = n * s / d + 1 ∧
          d ≤ 2 * (n * s % d)) := by
        unfold roundHalfEven
        simp only
        split
        · left; rfl
        · split
          · right; exact ⟨rfl, by omega⟩
          · split
            · left; rfl
            · right; exact ⟨rfl, by omega⟩
      have hRlt : roundHalfEven (n * s) d < (q + 1) * s := by
        rcases hR with h1 | ⟨h1, h2⟩
        · omega
        · by_contra hcon
          have hQ : n * s / d + 1 = (q + 1) * s := by omega
          -- remainder
          have hmod := Nat.div_add_mod (n * s) d
          -- n*s = Q*d + r , 2r ≥ d, Q+1 = (q+1)s  ⟹ 2 * ((q+1)*s*d - n*s) ≤ d
          have e1 : (q + 1) * s * d = n * s + (d - n * s % d) := by
            have hlt := Nat.mod_lt (n * s) hd
            rw [← hQ, Nat.add_mul, Nat.one_mul, Nat.mul_comm (n * s / d) d]
            omega
          have e2 : ((q + 1) * d - n) * s = d - n * s % d := by
            rw [Nat.sub_mul]
            have : (q + 1) * d * s = (q + 1) * s * d := by ring
            omega
          have h3 : 1 ≤ (q + 1) * d - n := by omega
          have h4 : s ≤ ((q + 1) * d - n) * s := Nat.le_mul_of_pos_left s (by omega)
          have h5 : 2 * s ≤ d := by omega
          have h6 : 2 ^ 53 ≤ q * d := by
            calc 2 ^ 53 = 2 ^ k * s * 2 := by rw [hsk]; norm_num
              _ = 2 ^ k * (2 * s) := by ring
              _ ≤ q * d := Nat.mul_le_mul hklo h5
          have h7 : n = q * d := by omega
          have h8 : (q + 1) * d - n = d := by rw [h7, Nat.add_mul]; omega
          rw [h8] at e2
          have : d ≤ d * s := Nat.le_mul_of_pos_right d hspos
          omega
      apply Nat.div_eq_of_lt_le
      · rcases hR with h1 | ⟨h1, _⟩ <;> rw [h1] <;> omega
      · exact hRlt
    · rename_i hk52
      have h53 : 2 ^ 53 ≤ 2 ^ k := Nat.pow_le_pow_right (by omega) (by omega)
      have hd1 : d = 1 := by
        by_contra hne
        have h2 : 2 ≤ d := by omega
        have : 2 ^ 53 * 2 ≤ q * d := Nat.mul_le_mul (by omega) h2
        omega
      subst hd1
      have hqn : q = n := by rw [hq]; simp
      have hn53 : n = 2 ^ 53 := by omega
      have hk53 : k = 53 := by rw [hk, hqn, hn53]; exact Nat.log2_two_pow
      rw [hqn, hk53, hn53]
      have e : roundHalfEven (2 ^ 53) (1 * 2 ^ (53 - 52)) = 2 ^ 52 := by decide
      rw [e]
      rw [if_neg]
      · norm_num
      · have : (2 : Nat) ^ 53 < 2 ^ 1024 := Nat.pow_lt_pow_right (by omega) (by omega)
        simp only [ge_iff_le, Nat.not_le]
        calc 2 ^ 52 * 2 ^ (53 - 52) = 2 ^ 53 := by norm_num
          _ < 2 ^ 1024 := this

/-- Python's `int(a / b)` is the truncated quotient for dividends up to 2^53 in absolute value. -/
theorem pyDivTrunc_exact (a b : Int) (hb : b ≠ 0) (ha : a.natAbs ≤ 2 ^ 53) : pyDivTrunc a b = .ok (Int.tdiv a b) := by
  unfold pyDivTrunc
  rw [if_neg hb, truncDivNat_exact _ _ (Int.natAbs_pos.mpr hb) ha]
  change Except.ok _ = Except.ok _
  congr 1
  rcases Int.natAbs_eq a with h1 | h1 <;> rcases Int.natAbs_eq b with h2 | h2
  · have e1 : ¬ a < 0 := by omega
    have e2 : ¬ b < 0 := by omega
    simp only [e1, e2, if_true]
    rw [h1, h2]; simp [Int.tdiv_eq_ediv_of_nonneg]
  · have e1 : ¬ a < 0 := by omega
    have e2 : b < 0 := by omega
    simp only [e1, e2]
    rw [h1, h2]; simp [Int.tdiv_eq_ediv_of_nonneg]
  · have e2 : ¬ b < 0 := by omega
    by_cases h0 : a = 0
    · subst h0; simp
    · have e1 : a < 0 := by omega
      simp only [e1, e2]
      rw [h1, h2]; simp [Int.neg_tdiv, Int.tdiv_eq_ediv_of_nonneg]
  · have e2 : b < 0 := by omega
    by_cases h0 : a = 0
    · subst h0; simp [e2]
    · have e1 : a < 0 := by omega
      simp only [e1, e2, if_true]
      rw [h1, h2]; simp [Int.neg_tdiv, Int.tdiv_neg, Int.tdiv_eq_ediv_of_nonneg]

/-! ### C06 -/

/-- The operand combinations for which folding is claimed to be exact. -/
def FoldOK (o : Op) (vs : List Int) : Prop :=
  match o, vs with
  | .xnor, _ => False
  | .sla, _ => False
  | .divide, x :: _ => x.natAbs ≤ 2 ^ 53
  | .mod, x :: y :: _ => 0 ≤ x ∧ 0 < y
  | .srl, x :: _ => 0 ≤ x
  | _, _ => True

/-- **C06 (partial)** Whenever the operator has a value on the operands, folding computes exactly that value.
Missing, because the code really differs (theorems below): `~^` (`C06_xnor_negative`), `<<<`
(`C06_sla_unfolded`), `%` on negative operands (`C06_mod_negative`), `>>` of a negative value
(`C06_srl_negative`), `/` on dividends beyond 2^53 (`C06_divide_inexact`). -/
theorem C06_fold_operator_partial (o : Op) (vs : List Int) (w z : Int) (hok : FoldOK o vs)
    (h : opSem o vs w.toNat = some z) : evalOpInt o vs w = .ok (.int z) := by
  have hb : ∀ p : Bool, (if p = true then (1 : Int) else 0) = b2i p := by intro p; cases p <;> rfl
  rcases vs with _ | ⟨x, _ | ⟨y, _ | ⟨u, r⟩⟩⟩
  · cases o <;> simp [opSem] at h
  · cases o <;> simp only [opSem, Option.some.injEq, reduceCtorEq] at h <;> subst h
    case uminus => simp [evalOpInt]
    case ulnot => simp [evalOpInt, b2i]
    case unot => simp only [evalOpInt, unot_fold]
    case uand => simp only [evalOpInt, any_bitZero, hb, decide_not, Bool.not_not]
    case unand => simp only [evalOpInt, any_bitZero, hb]
    case uor => simp only [evalOpInt, any_not_bitZero, hb]
    case unor => simp only [evalOpInt, any_not_bitZero, hb, decide_not]
    case uxor =>
      simp only [evalOpInt]
      rw [xor_fold x _ 0 (.inl rfl)]
      rcases Nat.mod_two_eq_zero_or_one (popcount x w.toNat) with e | e <;> simp [b2i, e] <;> omega
    case uxnor =>
      simp only [evalOpInt]
      rw [xor_fold x _ 1 (.inr rfl)]
      rcases Nat.mod_two_eq_zero_or_one (popcount x w.toNat) with e | e <;> simp [b2i, e] <;> omega
  · cases o <;> simp only [opSem, Option.some.injEq, reduceCtorEq] at h <;>
      first
      | (subst h; simp only [evalOpInt]; done)
      | (subst h; simp only [evalOpInt, hb]; done)
      | (subst h; simp only [evalOpInt, hb]; congr 2; apply congrArg; rw [Bool.eq_iff_iff]; simp; done)
      | skip
    case eq => subst h; simp only [evalOpInt]; rw [show (x == y) = decide (x = y) from rfl, hb]
    case eql => subst h; simp only [evalOpInt]; rw [show (x == y) = decide (x = y) from rfl, hb]
    case power =>
      split at h
      · simp at h
      · rename_i hy
        simp only [Option.some.injEq] at h; subst h
        simp only [evalOpInt, pyPow, hy, if_false]; rfl
    case divide =>
      split at h
      · simp at h
      · rename_i hy
        simp only [Option.some.injEq] at h; subst h
        simp only [evalOpInt, pyDivTrunc_exact _ _ hy hok]; rfl
    case mod =>
      split at h
      · simp at h
      · rename_i hy
        simp only [Option.some.injEq] at h; subst h
        simp only [FoldOK] at hok
        simp only [evalOpInt, pyMod, hy, if_false]
        rw [Int.fmod_eq_tmod_of_nonneg hok.1 (le_of_lt hok.2)]; rfl
    case sll =>
      split at h
      · simp at h
      · rename_i hy
        simp only [Option.some.injEq] at h; subst h
        simp only [evalOpInt, pyShl, hy, if_false]; rfl
    case sla => exact absurd hok id
    case srl =>
      split at h
      · simp at h
      · rename_i hy
        simp only [Option.some.injEq] at h; subst h
        have hx : ¬ x < 0 := by simp only [FoldOK] at hok; omega
        simp only [evalOpInt, pyShr, hy, if_false, hx]
        rw [Int.fdiv_eq_ediv_of_nonneg _ (by positivity)]; rfl
    case sra =>
      split at h
      · simp at h
      · rename_i hy
        simp only [Option.some.injEq] at h; subst h
        simp only [evalOpInt, pyShr, hy, if_false]
        rw [Int.fdiv_eq_ediv_of_nonneg _ (by positivity)]; rfl
    case xnor => exact absurd hok id
  · cases o <;> simp [opSem] at h

/-- Non-vacuity: 4-bit complement, parity and truncating division. -/
example : FoldOK .unot [5] ∧ opSem .unot [5] 4 = some 10 ∧ FoldOK .divide [-7, 2] ∧
    opSem .divide [-7, 2] 4 = some (-3) := by
  refine ⟨trivial, by decide, ?_, by decide⟩
  show (7 : Nat) ≤ 2 ^ 53
  norm_num

/-- **C06** (bitwise operators) The bits of a folded `&`, `|`, `^` are the operator on the operands' bits. -/
theorem C06_bitwise (x y w : Int) : ∃ a o e, evalOpInt .and [x, y] w = .ok (.int a) ∧
    evalOpInt .or [x, y] w = .ok (.int o) ∧ evalOpInt .xor [x, y] w = .ok (.int e) ∧
    ∀ i, ibit a i = (ibit x i && ibit y i) ∧ ibit o i = (ibit x i || ibit y i) ∧
      ibit e i = (ibit x i != ibit y i) :=
  ⟨_, _, _, rfl, rfl, rfl, fun i => ⟨ibit_pyAnd x y i, ibit_pyOr x y i, ibit_pyXor x y i⟩⟩

/-- **C06** (complement) Folding `~` on `w` bits gives a number of `w` bits whose bits are complemented. -/
theorem C06_unot_bits (x : Int) (w : Nat) : ∃ r, evalOpInt .unot [x] w = .ok (.int r) ∧ 0 ≤ r ∧ r < 2 ^ w ∧
    ∀ i < w, ibit r i = !ibit x i := by
  refine ⟨2 ^ w - 1 - x % 2 ^ w, ?_, ?_, ?_, ?_⟩
  · simp only [evalOpInt, Int.toNat_natCast, unot_fold]
  · have := Int.emod_lt_of_pos x (show (0 : Int) < 2 ^ w by positivity); omega
  · have := Int.emod_nonneg x (show (2 : Int) ^ w ≠ 0 by positivity); omega
  · intro i hi
    have e : (2 ^ w - 1 - x % 2 ^ w : Int) = pyNot x % 2 ^ w := by
      unfold pyNot
      have hp : (0 : Int) < 2 ^ w := by positivity
      have h1 := Int.emod_nonneg x (ne_of_gt hp)
      have h2 := Int.emod_lt_of_pos x hp
      have h3 : -x - 1 = (2 ^ w - 1 - x % 2 ^ w) + 2 ^ w * (-(x / 2 ^ w) - 1) := by
        have := Int.emod_add_mul_ediv x (2 ^ w)
        linarith
      rw [h3, Int.add_mul_emod_self_left]
      exact (Int.emod_eq_of_lt (by omega) (by omega)).symm
    rw [e, ibit_emod, ibit_pyNot]; simp [hi]

/-- **C06 is false for `~^`**: on naturals the folded value is always negative, so it is never the w-bit
number the operator denotes. -/
theorem C06_xnor_negative (x y w : Int) (hx : 0 ≤ x) (hy : 0 ≤ y) :
    ∃ r, evalOpInt .xnor [x, y] w = .ok (.int r) ∧ r < 0 ∧ opSem .xnor [x, y] w.toNat ≠ some r := by
  refine ⟨pyNot (pyXor x y), rfl, ?_, ?_⟩
  · obtain ⟨m, rfl⟩ := Int.eq_ofNat_of_zero_le hx
    obtain ⟨n, rfl⟩ := Int.eq_ofNat_of_zero_le hy
    show pyNot (pyXor (Int.ofNat m) (Int.ofNat n)) < 0
    simp only [pyXor, pyNot]; omega
  · simp only [opSem, ne_eq, Option.some.injEq]
    have := Int.emod_lt_of_pos (pyXor x y) (show (0 : Int) < 2 ^ w.toNat by positivity)
    have h3 : pyNot (pyXor x y) < 0 := by
      obtain ⟨m, rfl⟩ := Int.eq_ofNat_of_zero_le hx
      obtain ⟨n, rfl⟩ := Int.eq_ofNat_of_zero_le hy
      show pyNot (pyXor (Int.ofNat m) (Int.ofNat n)) < 0
      simp only [pyXor, pyNot]; omega
    omega

/-- **C06 is false for `<<<`**: it has no case, the folded value is Python's None. -/
theorem C06_sla_unfolded (vs : List Int) (w : Int) : evalOpInt .sla vs w = .ok .none := by
  simp [evalOpInt]

/-- **C06 is false for `%` on negatives**: -7 % 3 folds to 2, Verilog's remainder is -1. -/
theorem C06_mod_negative : evalOpInt .mod [-7, 3] 32 = .ok (.int 2) ∧ opSem .mod [-7, 3] 32 = some (-1) := by
  decide

/-- **C06 is false for `>>` on negatives**: -4 >> 1 folds to -2 instead of 2147483646. -/
theorem C06_srl_negative : evalOpInt .srl [-4, 1] 32 = .ok (.int (-2)) ∧
    opSem .srl [-4, 1] 32 = some 2147483646 := by decide

/-- **C06 is false for big quotients**: division goes through a 53-bit float. -/
theorem C06_divide_inexact : evalOpInt .divide [2 ^ 53 + 1, 1] 64 = .ok (.int (2 ^ 53)) ∧
    opSem .divide [2 ^ 53 + 1, 1] 64 = some (2 ^ 53 + 1) := by
  refine ⟨?_, by decide⟩
  have hlog : Nat.log2 (9007199254740993 / 1) = 53 := by decide
  have hr : roundHalfEven 9007199254740993 (1 * 2 ^ (53 - 52)) = 4503599627370496 := by decide
  have h : truncDivNat 9007199254740993 1 = .ok 9007199254740992 := by
    unfold truncDivNat
    rw [if_neg (by decide)]
    simp only [hlog, hr]
    rw [if_neg (by decide), if_neg]
    · simp only [ge_iff_le, Nat.not_le]
      calc 4503599627370496 * 2 ^ (53 - 52) = 2 ^ 53 := by norm_num
        _ < 2 ^ 1024 := Nat.pow_lt_pow_right (by omega) (by omega)
  have h2 : pyDivTrunc (2 ^ 53 + 1) 1 = .ok (2 ^ 53) := by
    unfold pyDivTrunc
    rw [if_neg (by decide)]
    have e1 : ((2 : Int) ^ 53 + 1).natAbs = 9007199254740993 := by decide
    have e2 : (1 : Int).natAbs = 1 := by decide
    rw [e1, e2, h]
    rfl
  simp only [evalOpInt, h2]
  rfl

end Pyv
