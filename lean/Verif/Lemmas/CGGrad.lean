import Verif.Lemmas.CGStretch
import Verif.Lemmas.SO3
import Verif.Lemmas.CGScalar
import Mathlib.Tactic.FieldSimp
import Mathlib.Tactic.IntervalCases

/-! # The pole row of `clebsch_gordan(l - 1, l, 1)` -/

namespace E3nn.SU2

open Matrix Nat

theorem tsum_grad (n v : ℕ) (hv : v ≤ 2) : tsum 2 0 (2 * n) n (n + v) = (-1) ^ v * (Nat.choose 2 v : ℚ) * ((n + 2 - v)! : ℚ) * ((n + v)! : ℚ) := by
  unfold tsum
  rw [Finset.sum_eq_single v]
  · have : cb 0 ((n : ℤ) + ((n + v : ℕ) : ℤ) - ((2 * n : ℕ) : ℤ) - v) = 1 := by
      unfold cb; rw [show ((n : ℤ) + ((n + v : ℕ) : ℤ) - ((2 * n : ℕ) : ℤ) - v) = 0 by push_cast; ring]; simp
    rw [this, show 2 - v + n = n + 2 - v by omega, show 0 + 2 * n - n + v = n + v by omega, mul_one]
  · intro w _ hw
    have : cb 0 ((n : ℤ) + ((n + v : ℕ) : ℤ) - ((2 * n : ℕ) : ℤ) - w) = 0 := by
      unfold cb
      split
      · rename_i h
        have : ((n : ℤ) + ((n + v : ℕ) : ℤ) - ((2 * n : ℕ) : ℤ) - w).toNat ≠ 0 := by omega
        rw [Nat.choose_eq_zero_of_lt (by omega)]; simp
      · rfl
    rw [this]; ring
  · intro h; exact absurd (Finset.mem_range.mpr (by omega)) h

theorem cgVal_grad (n v : ℕ) (hv : v ≤ 2) : cgVal 2 0 (2 * n) n (n + v) = (-1) ^ n *
    (if v = 1 then Real.sqrt (((n : ℝ) + 1) / ((2 * n + 1) * (2 * n + 3))) else Real.sqrt (((n : ℝ) + 2) / (2 * (2 * n + 1) * (2 * n + 3)))) := by
  unfold cgVal
  rw [tsum_grad n v hv]
  have hs : (((-1) ^ (n + v) * ((-1) ^ v * (Nat.choose 2 v : ℚ) * ((n + 2 - v)! : ℚ) * ((n + v)! : ℚ)) / (2 ! * 0 !) : ℚ) : ℝ) =
      (-1) ^ n * ((Nat.choose 2 v : ℝ) * ((n + 2 - v)! : ℝ) * ((n + v)! : ℝ) / 2) := by
    have : ((-1 : ℝ) ^ v) * (-1) ^ v = 1 := by rw [← mul_pow]; norm_num
    push_cast
    rw [pow_add]
    simp only [Nat.factorial_zero, Nat.cast_one, mul_one, Nat.factorial_two, Nat.cast_ofNat]
    linear_combination ((-1) ^ n * ((Nat.choose 2 v : ℝ) * ((n + 2 - v)! : ℝ) * ((n + v)! : ℝ) / 2)) * this
  rw [hs, mul_left_comm]
  congr 1
  have hf : ((2 * n)! : ℝ) ≠ 0 := by exact_mod_cast Nat.factorial_ne_zero _
  have hn : (n ! : ℝ) ≠ 0 := by exact_mod_cast Nat.factorial_ne_zero _
  have h1 : (2 * (n : ℝ) + 1) ≠ 0 := by positivity
  have h3 : (2 * (n : ℝ) + 3) ≠ 0 := by positivity
  have h2 : ((n : ℝ) + 1) ≠ 0 := by positivity
  have h4 : ((n : ℝ) + 2) ≠ 0 := by positivity
  have h5 : (2 * (n : ℝ) + 2) ≠ 0 := by positivity
  have f1 : ((2 + 0 + 2 * n + 1)! : ℝ) = (2 * n + 3) * ((2 * n + 2) * ((2 * n + 1) * ((2 * n)! : ℝ))) := by
    rw [show 2 + 0 + 2 * n + 1 = 2 * n + 2 + 1 by omega, Nat.factorial_succ, Nat.factorial_succ, Nat.factorial_succ]; push_cast; ring
  have g1 : ((n + 1)! : ℝ) = (n + 1) * (n ! : ℝ) := by rw [Nat.factorial_succ]; push_cast; ring
  have g2 : ((n + 2)! : ℝ) = (n + 2) * ((n + 1) * (n ! : ℝ)) := by rw [Nat.factorial_succ, Nat.factorial_succ]; push_cast; ring
  rw [show (Nat.choose 2 v : ℝ) * ((n + 2 - v)! : ℝ) * ((n + v)! : ℝ) / 2 = Real.sqrt (((Nat.choose 2 v : ℝ) * ((n + 2 - v)! : ℝ) * ((n + v)! : ℝ) / 2) ^ 2) by
    rw [Real.sqrt_sq (by positivity)], ← Real.sqrt_mul (by positivity)]
  rw [show n + (n + v) - 2 * n = v by omega, show 2 + 0 + 2 * n - (n + (n + v)) = 2 - v by omega, show 0 + 2 * n - n = n by omega,
    show 2 + 2 * n - (n + v) = n + 2 - v by omega]
  interval_cases v
  · rw [if_neg (by norm_num)]
    congr 1
    push_cast
    rw [f1]
    simp only [Nat.add_zero, Nat.sub_zero, Nat.choose_zero_right, Nat.factorial_zero, Nat.factorial_two]
    rw [g2]
    push_cast
    field_simp
    try ring
  · rw [if_pos rfl]
    congr 1
    push_cast
    rw [f1]
    simp only [Nat.choose_one_right, Nat.factorial_zero, Nat.factorial_one, Nat.factorial_two]
    rw [g1]
    push_cast
    field_simp
    try ring
  · rw [if_neg (by norm_num)]
    congr 1
    push_cast
    rw [f1]
    simp only [Nat.add_sub_cancel, Nat.sub_self, Nat.choose_self, Nat.factorial_zero, Nat.factorial_two]
    rw [g2]
    push_cast
    field_simp
    try ring

/-- The SU(2) coefficients at the pole. -/
theorem su2_grad (n : ℕ) (k : Fin (2 * (n + 1) + 1)) (c : Fin (2 * 1 + 1)) :
    su2ClebschGordan (2 * n) (2 * (n + 1)) (2 * 1) (mid n) k c = if k.val = n + c.val then cgVal 2 0 (2 * n) n k.val else 0 := by
  rw [su2CG_eq' (a := 2) (b := 0) (c := 2 * n) (by omega) (by omega) (by omega)]
  have hc := c.isLt
  congr 1
  simp only [mid, eq_iff_iff]
  omega

theorem sum_su2_grad (n : ℕ) (c : Fin (2 * 1 + 1)) (f : Fin (2 * (n + 1) + 1) → ℂ) :
    ∑ k, f k * (su2ClebschGordan (2 * n) (2 * (n + 1)) (2 * 1) (mid n) k c : ℂ) =
      f ⟨n + c.val, by have := c.isLt; omega⟩ * (cgVal 2 0 (2 * n) n (n + c.val) : ℂ) := by
  rw [Finset.sum_eq_single ⟨n + c.val, by have := c.isLt; omega⟩]
  · rw [su2_grad, if_pos rfl]
  · intro k _ hk
    rw [su2_grad, if_neg (fun e => hk (Fin.ext e))]; simp
  · intro h; exact absurd (Finset.mem_univ _) h

theorem cg_grad (n : ℕ) (j : Fin (2 * (n + 1) + 1)) (c : Fin 3) :
    ((clebschGordan n (n + 1) 1 (mid n) j c : ℝ) : ℂ) = (-Complex.I) ^ n * ∑ m : Fin 3, (changeBasis 1)ᴴ c m *
      (changeBasis (n + 1) ⟨n + m.val, by have := m.isLt; omega⟩ j * (cgVal 2 0 (2 * n) n (n + m.val) : ℂ)) := by
  rw [cg_mid]
  congr 1
  rw [Finset.sum_comm]
  refine Finset.sum_congr rfl fun m _ => ?_
  rw [← sum_su2_grad n m (fun k => changeBasis (n + 1) k j), Finset.mul_sum]
  exact Finset.sum_congr rfl fun k _ => by ring

theorem iPow_grad (n : ℕ) : (-Complex.I) ^ n * (-Complex.I) ^ (n + 1) * Complex.I * ((-1 : ℝ) ^ n : ℝ) = 1 := by
  have h : (-Complex.I) ^ n * (-Complex.I) ^ n = (-1) ^ n := by rw [← mul_pow]; simp
  have h2 : ((-1 : ℂ) ^ n) * (-1) ^ n = 1 := by rw [← mul_pow]; norm_num
  push_cast
  rw [pow_succ]
  have hI : Complex.I * Complex.I = -1 := Complex.I_mul_I
  linear_combination (-(Complex.I * Complex.I)) * (-1) ^ n * h - (Complex.I * Complex.I) * h2 - hI

theorem cb1 : changeBasis 1 0 1 = 0 ∧ changeBasis 1 1 1 = -Complex.I ∧ changeBasis 1 2 1 = 0 ∧
    changeBasis 1 0 2 = -Complex.I / (Real.sqrt 2 : ℂ) ∧ changeBasis 1 1 2 = 0 ∧ changeBasis 1 2 2 = Complex.I / (Real.sqrt 2 : ℂ) := by
  refine ⟨?_, ?_, ?_, ?_, ?_, ?_⟩ <;> simp [changeBasis] <;> ring

theorem cg_grad_one (n : ℕ) (j : Fin (2 * (n + 1) + 1)) :
    clebschGordan n (n + 1) 1 (mid n) j (1 : Fin 3) = if j = mid (n + 1) then Real.sqrt (((n : ℝ) + 1) / ((2 * n + 1) * (2 * n + 3))) else 0 := by
  apply Complex.ofReal_injective
  rw [cg_grad, Fin.sum_univ_three]
  simp only [Matrix.conjTranspose_apply, cb1]
  have hm : changeBasis (n + 1) ⟨n + (1 : Fin 3).val, by simp⟩ j = if j = mid (n + 1) then (-Complex.I) ^ (n + 1) else 0 := changeBasis_mid_row (n + 1) j
  rw [hm]
  have c1 : cgVal 2 0 (2 * n) n (n + (1 : Fin 3).val) = _ := cgVal_grad n 1 (by norm_num)
  rw [c1, if_pos rfl]
  have hI := iPow_grad n
  by_cases h : j = mid (n + 1)
  · rw [if_pos h, if_pos h]
    simp only [RCLike.star_def, map_neg, Complex.conj_I, map_zero, zero_mul, zero_add, add_zero, neg_neg, Complex.ofReal_mul]
    linear_combination (Real.sqrt (((n : ℝ) + 1) / ((2 * n + 1) * (2 * n + 3))) : ℂ) * hI
  · rw [if_neg h, if_neg h]; simp

theorem cg_grad_two (n : ℕ) (j : Fin (2 * (n + 1) + 1)) :
    clebschGordan n (n + 1) 1 (mid n) j (2 : Fin 3) = if j.val = n + 2 then Real.sqrt (((n : ℝ) + 2) / (2 * (2 * n + 1) * (2 * n + 3))) else 0 := by
  apply Complex.ofReal_injective
  rw [cg_grad, Fin.sum_univ_three]
  simp only [Matrix.conjTranspose_apply, cb1]
  have c0 : cgVal 2 0 (2 * n) n (n + (0 : Fin 3).val) = _ := cgVal_grad n 0 (by norm_num)
  have c2 : cgVal 2 0 (2 * n) n (n + (2 : Fin 3).val) = _ := cgVal_grad n 2 (by norm_num)
  rw [c0, c2, if_neg (by norm_num), if_neg (by norm_num)]
  have hI := iPow_grad n
  have h2 := sqrt2_sq
  have h0 := sqrt2_ne
  generalize Real.sqrt (((n : ℝ) + 2) / (2 * (2 * n + 1) * (2 * n + 3))) = K
  have e0 : changeBasis (n + 1) ⟨n + (0 : Fin 3).val, by simp; omega⟩ j = (-Complex.I) ^ (n + 1) * (if j.val = n + 2 then 1 / (Real.sqrt 2 : ℂ) else if j.val = n then -Complex.I / (Real.sqrt 2 : ℂ) else 0) := by
    simp only [changeBasis]
    congr 1
    rw [if_pos (by simp)]
    have : (((n + (0 : Fin 3).val : ℕ) : ℤ) - ((n + 1 : ℕ) : ℤ)).natAbs = 1 := by simp
    simp only [this]
    split_ifs <;> first | rfl | omega
  have e2 : changeBasis (n + 1) ⟨n + (2 : Fin 3).val, by simp; omega⟩ j = (-Complex.I) ^ (n + 1) * (if j.val = n + 2 then -1 / (Real.sqrt 2 : ℂ) else if j.val = n then -Complex.I / (Real.sqrt 2 : ℂ) else 0) := by
    simp only [changeBasis]
    congr 1
    have e2 : (2 : Fin 3).val = 2 := rfl
    rw [if_neg (by rw [e2]; push_cast; omega), if_neg (by rw [e2]; push_cast; omega)]
    have : (((n + (2 : Fin 3).val : ℕ) : ℤ) - ((n + 1 : ℕ) : ℤ)).natAbs = 1 := by rw [e2]; omega
    simp only [this]
    split_ifs <;> first | omega | simp
  rw [e0, e2]
  simp only [RCLike.star_def, map_neg, map_div₀, Complex.conj_I, Complex.conj_ofReal, map_zero, zero_mul, zero_add, add_zero, neg_neg, Complex.ofReal_mul]
  by_cases h : j.val = n + 2
  · simp only [if_pos h]
    field_simp
    linear_combination (2 * K : ℂ) * hI - K * h2
  · simp only [if_neg h]
    by_cases h' : j.val = n
    · simp only [if_pos h']
      field_simp
      simp
    · simp [if_neg h']

end E3nn.SU2
