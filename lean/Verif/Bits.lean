import Verif.Sem
import Verif.Optimizer
import Mathlib.Tactic.Ring
import Mathlib.Tactic.Linarith
import Mathlib.Data.Nat.Bitwise
/-
  Lemmas: Python's bit operations in terms of the specification's bits.
-/
namespace Pyv

theorem ibit_ofNat (m i : Nat) : ibit (Int.ofNat m) i = m.testBit i := by
  unfold ibit
  have h : (Int.ofNat m : Int) / 2 ^ i % 2 = ((m / 2 ^ i % 2 : Nat) : Int) := by
    simp
  rw [h, Nat.testBit_eq_decide_div_mod_eq]
  by_cases hh : m / 2 ^ i % 2 = 1
  · simp [hh]
  · have : ¬ ((m / 2 ^ i % 2 : Nat) : Int) = 1 := by exact_mod_cast hh
    simp only [this, hh]

theorem ibit_negSucc (m i : Nat) : ibit (Int.negSucc m) i = !m.testBit i := by
  unfold ibit
  have h : (Int.negSucc m : Int) / 2 ^ i = -(((m / 2 ^ i : Nat) : Int) + 1) := by
    have hp : (0 : Int) < 2 ^ i := by positivity
    rw [Int.negSucc_ediv m hp]
    simp
    rfl
  rw [h, Nat.testBit_eq_decide_div_mod_eq]
  have h2 : -(((m / 2 ^ i : Nat) : Int) + 1) % 2 = 1 ↔ ¬ (m / 2 ^ i % 2 = 1) := by omega
  by_cases hh : m / 2 ^ i % 2 = 1
  · rw [decide_eq_false (fun e => (h2.mp e) hh), decide_eq_true hh]; rfl
  · rw [decide_eq_true (h2.mpr hh), decide_eq_false hh]; rfl

theorem ibit_pyNot (a : Int) (i : Nat) : ibit (pyNot a) i = !ibit a i := by
  unfold pyNot
  cases a with
  | ofNat m =>
    have : -(Int.ofNat m) - 1 = Int.negSucc m := by simp [Int.negSucc_eq]; ring
    rw [this, ibit_negSucc, ibit_ofNat]
  | negSucc m =>
    have : -(Int.negSucc m) - 1 = Int.ofNat m := by simp [Int.negSucc_eq]
    rw [this, ibit_negSucc, ibit_ofNat]; simp

theorem ibit_pyAnd (a b : Int) (i : Nat) : ibit (pyAnd a b) i = (ibit a i && ibit b i) := by
  cases a <;> cases b
  · simp only [pyAnd, ibit_ofNat]
    rw [show ((_ &&& _ : Nat) : Int) = Int.ofNat _ from rfl, ibit_ofNat, Nat.testBit_and]
  · rename_i m n
    simp only [pyAnd, ibit_ofNat, ibit_negSucc]
    rw [show ((m ^^^ (m &&& n) : Nat) : Int) = Int.ofNat _ from rfl, ibit_ofNat]
    rw [Nat.testBit_xor, Nat.testBit_and]
    cases m.testBit i <;> cases n.testBit i <;> rfl
  · rename_i m n
    simp only [pyAnd, ibit_ofNat, ibit_negSucc]
    rw [show ((n ^^^ (n &&& m) : Nat) : Int) = Int.ofNat _ from rfl, ibit_ofNat]
    rw [Nat.testBit_xor, Nat.testBit_and]
    cases m.testBit i <;> cases n.testBit i <;> rfl
  · rename_i m n
    simp only [pyAnd, ibit_negSucc]
    rw [Nat.testBit_or]; simp

theorem ibit_pyOr (a b : Int) (i : Nat) : ibit (pyOr a b) i = (ibit a i || ibit b i) := by
  unfold pyOr
  simp [ibit_pyNot, ibit_pyAnd]

theorem ibit_pyXor (a b : Int) (i : Nat) : ibit (pyXor a b) i = (ibit a i != ibit b i) := by
  cases a <;> cases b
  · rename_i m n
    simp only [pyXor, ibit_ofNat]
    rw [show ((m ^^^ n : Nat) : Int) = Int.ofNat _ from rfl, ibit_ofNat, Nat.testBit_xor]
  · rename_i m n
    simp only [pyXor, ibit_ofNat, ibit_negSucc, Nat.testBit_xor]
    cases m.testBit i <;> cases n.testBit i <;> rfl
  · rename_i m n
    simp only [pyXor, ibit_ofNat, ibit_negSucc, Nat.testBit_xor]
    cases m.testBit i <;> cases n.testBit i <;> rfl
  · rename_i m n
    simp only [pyXor, ibit_negSucc]
    rw [show ((m ^^^ n : Nat) : Int) = Int.ofNat _ from rfl, ibit_ofNat, Nat.testBit_xor]
    cases m.testBit i <;> cases n.testBit i <;> rfl

/-- An integer is determined by its bits. -/
theorem ibit_ext {a b : Int} (h : ∀ i, ibit a i = ibit b i) : a = b := by
  cases a <;> cases b
  · rename_i m n
    simp only [ibit_ofNat] at h
    rw [Nat.eq_of_testBit_eq h]
  · rename_i m n
    exfalso
    simp only [ibit_ofNat, ibit_negSucc] at h
    have h1 := h (max m n)
    rw [Nat.testBit_lt_two_pow, Nat.testBit_lt_two_pow] at h1
    · simp at h1
    · exact lt_of_le_of_lt (Nat.le_max_right m n) Nat.lt_two_pow_self
    · exact lt_of_le_of_lt (Nat.le_max_left m n) Nat.lt_two_pow_self
  · rename_i m n
    exfalso
    simp only [ibit_ofNat, ibit_negSucc] at h
    have h1 := h (max m n)
    rw [Nat.testBit_lt_two_pow, Nat.testBit_lt_two_pow] at h1
    · simp at h1
    · exact lt_of_le_of_lt (Nat.le_max_right m n) Nat.lt_two_pow_self
    · exact lt_of_le_of_lt (Nat.le_max_left m n) Nat.lt_two_pow_self
  · rename_i m n
    simp only [ibit_negSucc] at h
    have : m = n := Nat.eq_of_testBit_eq (fun i => by simpa using h i)
    rw [this]

theorem ibit_two_pow (k i : Nat) : ibit (2 ^ k) i = decide (k = i) := by
  have : (2 ^ k : Int) = Int.ofNat (2 ^ k) := by simp
  rw [this, ibit_ofNat, Nat.testBit_two_pow]

theorem ibit_zero (i : Nat) : ibit 0 i = false := by
  have : (0 : Int) = Int.ofNat 0 := rfl
  rw [this, ibit_ofNat]; simp

theorem bitZero_eq (v : Int) (i : Nat) : bitZero v i = !ibit v i := by
  unfold bitZero
  cases h : ibit v i with
  | true =>
    simp only [Bool.not_true, beq_eq_false_iff_ne, ne_eq]
    intro h0
    have := ibit_pyAnd v (2 ^ i) i
    rw [h0, ibit_zero, h, ibit_two_pow] at this
    simp at this
  | false =>
    simp only [Bool.not_false, beq_iff_eq]
    apply ibit_ext
    intro j
    rw [ibit_pyAnd, ibit_zero, ibit_two_pow]
    by_cases hj : i = j
    · subst hj; simp [h]
    · simp [hj]

theorem ibit_emod (v : Int) (w i : Nat) : ibit (v % 2 ^ w) i = (decide (i < w) && ibit v i) := by
  have key : ∀ (m : Nat), ibit ((m : Int) % 2 ^ w) i = (decide (i < w) && m.testBit i) := by
    intro m
    have : ((m : Int) % 2 ^ w) = Int.ofNat (m % 2 ^ w) := by simp
    rw [this, ibit_ofNat, Nat.testBit_mod_two_pow]
  cases v with
  | ofNat m => rw [ibit_ofNat]; exact key m
  | negSucc m =>
    rw [ibit_negSucc]
    have hlt : m % 2 ^ w < 2 ^ w := Nat.mod_lt _ (by positivity)
    have e : (Int.negSucc m : Int) % 2 ^ w = Int.ofNat (2 ^ w - 1 - m % 2 ^ w) := by
      rw [Int.negSucc_emod]
      · have h1 : ((m : Int) % 2 ^ w) = ((m % 2 ^ w : Nat) : Int) := by simp
        rw [h1]
        have h2 : ((2 ^ w - 1 - m % 2 ^ w : Nat) : Int) = 2 ^ w - 1 - ((m % 2 ^ w : Nat) : Int) := by
          have : m % 2 ^ w ≤ 2 ^ w - 1 := by omega
          rw [Nat.cast_sub this, Nat.cast_sub (Nat.one_le_two_pow)]
          simp
        simp only [Int.ofNat_eq_natCast]
        rw [h2]
      · positivity
    rw [e, ibit_ofNat]
    rw [show 2 ^ w - 1 - m % 2 ^ w = 2 ^ w - (m % 2 ^ w + 1) by omega]
    rw [Nat.testBit_two_pow_sub_succ hlt]
    rw [Nat.testBit_mod_two_pow]
    by_cases hi : i < w <;> simp [hi]

theorem pyOr_shift (a v : Int) (w : Nat) (h0 : 0 ≤ v) (h1 : v < 2 ^ w) : pyOr (a * 2 ^ w) v = a * 2 ^ w + v := by
  apply ibit_ext
  intro i
  rw [ibit_pyOr]
  have hp : (0 : Int) < 2 ^ w := by positivity
  by_cases hi : i < w
  · -- low bits
    have e1 : ibit (a * 2 ^ w) i = false := by
      have := ibit_emod (a * 2 ^ w) w i
      rw [Int.mul_emod_left, ibit_zero] at this
      simpa [hi] using this.symm
    have e2 := ibit_emod (a * 2 ^ w + v) w i
    have e3 : (a * 2 ^ w + v) % 2 ^ w = v := by
      rw [Int.add_comm, Int.add_mul_emod_self_right]
      exact Int.emod_eq_of_lt h0 h1
    rw [e3] at e2
    simp [hi] at e2
    rw [e1, ← e2]; simp
  · have hv : ibit v i = false := by
      have := ibit_emod v w i
      rw [Int.emod_eq_of_lt h0 h1] at this
      simpa [hi] using this
    rw [hv, Bool.or_false]
    unfold ibit
    have hi' : w ≤ i := by omega
    obtain ⟨j, rfl⟩ := Nat.exists_eq_add_of_le hi'
    have e : ∀ x : Int, x / 2 ^ (w + j) = x / 2 ^ w / 2 ^ j := by
      intro x
      rw [pow_add, Int.ediv_ediv_of_nonneg (by positivity)]
    rw [e, e]
    have h3 : (a * 2 ^ w + v) / 2 ^ w = a := by
      rw [Int.add_comm, Int.add_mul_ediv_right _ _ (by positivity), Int.ediv_eq_zero_of_lt h0 h1]; simp
    rw [h3, Int.mul_ediv_cancel _ (by positivity)]

end Pyv
