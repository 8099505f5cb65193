import Verif.Model.S2fft
import Verif.Lemmas.S2Core
import Verif.Lemmas.SO3

/-! # The change of basis between real coefficients and the coefficients of `s2fft` -/

namespace E3nn.S2

open E3nn.SH E3nn.SU2 E3nn.S2fft Polynomial

theorem wl_comp (l : ℕ) : ((X ^ 2 - 1 : ℝ[X]) ^ l).comp (-X) = (X ^ 2 - 1) ^ l := by
  simp

theorem derivative_comp_neg (p : ℝ[X]) (n : ℕ) : (derivative^[n] p).comp (-X) = (-1) ^ n * derivative^[n] (p.comp (-X)) := by
  induction n generalizing p with
  | zero => simp
  | succ n ih =>
    rw [Function.iterate_succ_apply, ih, Function.iterate_succ_apply, derivative_comp]
    simp only [derivative_neg, derivative_X]
    rw [show -1 * (derivative p).comp (-X) = -((derivative p).comp (-X)) by ring, iterate_derivative_neg]
    ring

theorem legendre_deriv_neg (l m : ℕ) (z : ℝ) : (derivative^[m] (legendrePoly l)).eval (-z) = (-1) ^ (l + m) * (derivative^[m] (legendrePoly l)).eval z := by
  have e : (legendrePoly l).comp (-X) = (-1) ^ l * legendrePoly l := by
    unfold legendrePoly
    rw [mul_comp, C_comp, derivative_comp_neg, wl_comp]
    ring
  have h : (derivative^[m] (legendrePoly l)).eval (-z) = ((derivative^[m] (legendrePoly l)).comp (-X)).eval z := by simp
  rw [h, derivative_comp_neg, e, show ((-1 : ℝ[X]) ^ l) = C ((-1 : ℝ) ^ l) by simp, iterate_derivative_C_mul]
  simp only [eval_mul, eval_pow, eval_neg, eval_one, eval_C]
  ring

/-- The function of the polar angle, seen from the other pole. -/
theorem shBeta_polar {l m : ℕ} (h : m ≤ l) {θ : ℝ} (h0 : 0 ≤ Real.sin θ) : shBeta l m (-Real.cos θ) = (-1) ^ l * S2fft.polar l m θ := by
  unfold shBeta lpmn S2fft.polar
  rw [if_neg (by omega), legendre_deriv_neg, show (1 - (-Real.cos θ) ^ 2) = Real.sin θ ^ 2 by rw [Real.sin_sq]; ring, Real.sqrt_sq h0]
  have : ((-1 : ℝ) ^ m) * (-1) ^ m = 1 := by rw [← mul_pow]; norm_num
  rw [pow_add]
  show _ = (-1) ^ l * (_ * (_ * (derivative^[m] (legendrePoly l)).eval (Real.cos θ)))
  linear_combination (√((2 * ↑l + 1) / (4 * Real.pi) * (↑(l - m).factorial / ↑(l + m).factorial)) * Real.sin θ ^ m * (-1) ^ l * (-1) ^ m * (derivative^[m] (legendrePoly l)).eval (Real.cos θ)) * this

theorem I_pow (l : ℕ) : Complex.I ^ (-(l : ℤ)) * (-Complex.I) ^ l = (-1) ^ l := by
  rw [zpow_neg, zpow_natCast, ← inv_pow, Complex.inv_I, ← mul_pow]
  congr 1
  linear_combination Complex.I_mul_I

theorem I_pow' (l : ℕ) : Complex.I ^ l * Complex.I ^ (-(l : ℤ)) = 1 := by
  rw [zpow_neg, zpow_natCast]
  exact mul_inv_cancel₀ (pow_ne_zero _ Complex.I_ne_zero)

theorem sign_gt {l k : ℕ} (h : l ≤ k) : s2fftSign l k = (-1) ^ (k - l) := by
  unfold s2fftSign
  simp only
  rw [if_neg (by omega), show (k : ℤ) - l = ((k - l : ℕ) : ℤ) by omega, zpow_natCast]

theorem sign_lt {l k : ℕ} (h : k < l) : s2fftSign l k = -(-1) ^ (l - k) := by
  unfold s2fftSign
  simp only
  rw [if_pos (by omega), show (k : ℤ) - l + 1 = -((l - k : ℕ) : ℤ) + 1 by omega, zpow_add₀ (by norm_num), zpow_neg, zpow_natCast, ← inv_pow]
  norm_num

theorem sign_sq (l k : ℕ) : s2fftSign l k * s2fftSign l k = 1 := by
  unfold s2fftSign
  simp only
  rw [← mul_zpow]
  norm_num

/-- A column of the change of basis has two entries. -/
theorem column_sum (l : ℕ) (c : Fin (2 * l + 1)) (g : Fin (2 * l + 1) → ℂ) :
    ∑ k, changeBasis l k c * g k = (-Complex.I) ^ l * (qu l c * g c + qw l c.rev * g c.rev) := by
  rw [changeBasis_eq]
  simp only [Matrix.smul_apply, Matrix.add_apply, dg, an, smul_eq_mul]
  have e : ∀ k : Fin (2 * l + 1), ((c : ℕ) + k = 2 * l) ↔ k = c.rev := by
    intro k; rw [Fin.ext_iff, Fin.val_rev]; have := c.isLt; omega
  simp only [e, mul_assoc, add_mul, ite_mul, zero_mul]
  rw [← Finset.mul_sum, Finset.sum_add_distrib]
  simp

/-- A row of the change of basis has two entries. -/
theorem row_sum (l : ℕ) (k : Fin (2 * l + 1)) (g : Fin (2 * l + 1) → ℂ) :
    ∑ c, changeBasis l k c * g c = (-Complex.I) ^ l * (qu l k * g k + qw l k * g k.rev) := by
  rw [changeBasis_eq]
  simp only [Matrix.smul_apply, Matrix.add_apply, dg, an, smul_eq_mul]
  have e : ∀ c : Fin (2 * l + 1), ((c : ℕ) + k = 2 * l) ↔ c = k.rev := by
    intro c; rw [Fin.ext_iff, Fin.val_rev]; have := k.isLt; omega
  simp only [e, mul_assoc, add_mul, ite_mul, zero_mul]
  rw [← Finset.mul_sum, Finset.sum_add_distrib]
  simp

theorem harmonic_pos (l m : ℕ) (θ φ : ℝ) : sphericalHarmonic l (m : ℤ) θ φ = S2fft.polar l m θ * Complex.exp (m * φ * Complex.I) := by
  unfold sphericalHarmonic
  rw [if_neg (by omega), Int.natAbs_natCast, one_mul]
  congr 2
  push_cast
  ring

theorem harmonic_neg (l m : ℕ) (hm : 0 < m) (θ φ : ℝ) : sphericalHarmonic l (-(m : ℤ)) θ φ = (-1) ^ m * S2fft.polar l m θ * Complex.exp (-(m * φ) * Complex.I) := by
  unfold sphericalHarmonic
  rw [if_pos (by omega), Int.natAbs_neg, Int.natAbs_natCast]
  congr 2
  push_cast
  ring

/-- One real basis function out of two complex ones. -/
theorem column_value (l : ℕ) (c : Fin (2 * l + 1)) {θ : ℝ} (h0 : 0 ≤ Real.sin θ) (φ : ℝ) :
    Complex.I ^ (-(l : ℤ)) * (∑ k : Fin (2 * l + 1), changeBasis l k c * sphericalHarmonic l ((k : ℤ) - l) θ φ) * (s2fftSign l c : ℂ) =
      ((shBeta l ((c : ℤ) - l).natAbs (-Real.cos θ) * ang ((c : ℤ) - l) φ : ℝ) : ℂ) := by
  have hc := c.isLt
  have s2 : ((Real.sqrt 2 : ℝ) : ℂ) ≠ 0 := by
    rw [Complex.ofReal_ne_zero]; positivity
  have s22 : ((Real.sqrt 2 : ℝ) : ℂ) ^ 2 = 2 := by
    rw [← Complex.ofReal_pow, Real.sq_sqrt (by norm_num)]; norm_num
  have hrev : (c.rev : ℕ) = 2 * l - c := by rw [Fin.val_rev]; omega
  rw [column_sum, ← mul_assoc, I_pow, shBeta_polar (by omega) h0]
  rcases lt_trichotomy c.val l with h | h | h
  · obtain ⟨m, hm⟩ : ∃ m, l = c.val + m := ⟨l - c.val, by omega⟩
    have hm0 : 0 < m := by omega
    have e1 : (c : ℤ) - l = -m := by omega
    have e2 : ((c.rev : ℕ) : ℤ) - l = m := by omega
    have e3 : (c.rev : ℕ) - l = m := by omega
    have e4 : l - c.val = m := by omega
    have q1 : qu l c = -Complex.I / (Real.sqrt 2 : ℂ) := by unfold qu; rw [if_pos h]
    have q2 : qw l c.rev = Complex.I * (-1) ^ m / (Real.sqrt 2 : ℂ) := by
      unfold qw; rw [if_neg (by omega), if_neg (by omega), e3]
    have a1 : ang (-(m : ℤ)) φ = Real.sqrt 2 * Real.sin (m * φ) := by unfold ang; rw [if_pos (by omega), Int.natAbs_neg, Int.natAbs_natCast]
    rw [sign_lt h, e1, e2, e4, q1, q2, harmonic_pos, harmonic_neg _ _ hm0, a1, Int.natAbs_neg, Int.natAbs_natCast]
    push_cast
    have hs : Complex.sin (m * φ) = (Complex.exp (-(m * φ) * Complex.I) - Complex.exp (m * φ * Complex.I)) * Complex.I / 2 := rfl
    rw [hs]
    have h1 : ((-1 : ℂ) ^ m) * (-1) ^ m = 1 := by rw [← mul_pow]; norm_num
    generalize Complex.exp (-(m * φ) * Complex.I) = E1
    generalize Complex.exp (m * φ * Complex.I) = E2
    generalize (S2fft.polar l m θ : ℂ) = P
    generalize (-1 : ℂ) ^ l = sl
    generalize (-1 : ℂ) ^ m = sm at *
    field_simp
    rw [s22]
    linear_combination (2 * sl * P * (E1 - E2)) * h1
  · have e1 : (c : ℤ) - l = ((0 : ℕ) : ℤ) := by omega
    have e2 : (c.rev : ℕ) = l := by omega
    have q1 : qu l c = 1 := by unfold qu; rw [if_neg (by omega), if_pos h]
    have q2 : qw l c.rev = 0 := by unfold qw; rw [if_neg (by omega), if_pos e2]
    have a1 : ang ((0 : ℕ) : ℤ) φ = 1 := by unfold ang; simp
    rw [sign_gt h.ge, e1, q1, q2, harmonic_pos, a1, h]
    simp
  · obtain ⟨m, hm⟩ : ∃ m, c.val = l + m := ⟨c.val - l, by omega⟩
    have hm0 : 0 < m := by omega
    have e1 : (c : ℤ) - l = m := by omega
    have e2 : ((c.rev : ℕ) : ℤ) - l = -m := by omega
    have e4 : c.val - l = m := by omega
    have q1 : qu l c = (-1) ^ m / (Real.sqrt 2 : ℂ) := by unfold qu; rw [if_neg (by omega), if_neg (by omega), e4]
    have q2 : qw l c.rev = 1 / (Real.sqrt 2 : ℂ) := by
      unfold qw; rw [if_pos (by omega)]
    have a1 : ang (m : ℤ) φ = Real.sqrt 2 * Real.cos (m * φ) := by unfold ang; rw [if_neg (by omega), if_neg (by omega), Int.natAbs_natCast]
    rw [sign_gt h.le, e1, e2, e4, q1, q2, harmonic_pos, harmonic_neg _ _ hm0, a1, Int.natAbs_natCast]
    push_cast
    have hs : Complex.cos (m * φ) = (Complex.exp (m * φ * Complex.I) + Complex.exp (-(m * φ) * Complex.I)) / 2 := rfl
    rw [hs]
    have h1 : ((-1 : ℂ) ^ m) * (-1) ^ m = 1 := by rw [← mul_pow]; norm_num
    generalize Complex.exp (-(m * φ) * Complex.I) = E1
    generalize Complex.exp (m * φ * Complex.I) = E2
    generalize (S2fft.polar l m θ : ℂ) = P
    generalize (-1 : ℂ) ^ l = sl
    generalize (-1 : ℂ) ^ m = sm at *
    field_simp
    rw [s22]
    linear_combination (2 * sl * P * (E1 + E2)) * h1

/-- The columns of one degree. -/
theorem columns_sum {lmax l : ℕ} (hl : l ≤ lmax) (F : Fin (2 * lmax + 1) → ℂ) (h0 : ∀ j : Fin (2 * lmax + 1), ¬ (lmax - l ≤ (j : ℕ) ∧ (j : ℕ) < lmax + l + 1) → F j = 0) :
    ∑ j, F j = ∑ k : Fin (2 * l + 1), F ⟨lmax - l + k, by have := k.isLt; omega⟩ := by
  symm
  refine Fintype.sum_of_injective (fun k : Fin (2 * l + 1) => (⟨lmax - l + k, by have := k.isLt; omega⟩ : Fin (2 * lmax + 1))) ?_ _ _ ?_ (fun _ => rfl)
  · intro a b hab
    rw [Fin.mk.injEq] at hab
    exact Fin.ext (by omega)
  · intro j hj
    refine h0 j fun hh => hj ⟨⟨j - (lmax - l), by omega⟩, Fin.ext ?_⟩
    simp only
    omega

/-- The entries of one degree. -/
theorem s2fftArray_at (nrm : Normalization) (lmax : ℕ) (r : (l : ℕ) → Fin (2 * l + 1) → ℝ) (l : Fin (lmax + 1)) (k : Fin (2 * (l : ℕ) + 1)) :
    s2fftArray nrm lmax r l ⟨lmax - l + k, by have := l.isLt; have := k.isLt; omega⟩ = realToComplex (normTo nrm lmax l) l (r l) k := by
  have h1 := l.isLt
  have h2 := k.isLt
  unfold s2fftArray
  rw [dif_pos ⟨by simp only; omega, by simp only; omega⟩]
  congr 1
  exact Fin.ext (by simp)

theorem value_array (nrm : Normalization) (lmax : ℕ) (r : (l : ℕ) → Fin (2 * l + 1) → ℝ) {θ : ℝ} (h0 : 0 ≤ Real.sin θ) (φ : ℝ) :
    value (s2fftArray nrm lmax r) θ φ =
      ((∑ l : Fin (lmax + 1), ∑ k : Fin (2 * (l : ℕ) + 1), normTo nrm lmax l * (shBeta l ((k : ℤ) - (l : ℕ)).natAbs (-Real.cos θ) * ang ((k : ℤ) - (l : ℕ)) φ) * r l k : ℝ) : ℂ) := by
  unfold value
  rw [Complex.ofReal_sum]
  refine Finset.sum_congr rfl fun l _ => ?_
  have hl := l.isLt
  rw [columns_sum (l := l) (by omega) _ fun j hj => by unfold s2fftArray; rw [dif_neg hj, zero_mul]]
  simp only [s2fftArray_at]
  have e : ∀ k : Fin (2 * (l : ℕ) + 1), ((lmax - (l : ℕ) + (k : ℕ) : ℕ) : ℤ) - lmax = (k : ℤ) - (l : ℕ) := fun k => by omega
  simp only [e]
  unfold realToComplex
  rw [Complex.ofReal_sum]
  have e2 : ∀ k : Fin (2 * (l : ℕ) + 1), ((normTo nrm lmax l * (shBeta l ((k : ℤ) - (l : ℕ)).natAbs (-Real.cos θ) * ang ((k : ℤ) - (l : ℕ)) φ) * r l k : ℝ) : ℂ) =
      ∑ j : Fin (2 * (l : ℕ) + 1), Complex.I ^ (-((l : ℕ) : ℤ)) * (changeBasis l j k * ((r l k * normTo nrm lmax l * s2fftSign l k : ℝ) : ℂ)) * sphericalHarmonic l ((j : ℤ) - (l : ℕ)) θ φ := by
    intro k
    rw [Complex.ofReal_mul, Complex.ofReal_mul, ← column_value l k h0 φ, Finset.mul_sum, Finset.sum_mul, Finset.mul_sum, Finset.sum_mul]
    refine Finset.sum_congr rfl fun j _ => ?_
    push_cast
    ring
  simp only [e2]
  rw [Finset.sum_comm]
  refine Finset.sum_congr rfl fun j _ => ?_
  rw [Finset.mul_sum, Finset.sum_mul]

theorem sqrt2_ne : ((Real.sqrt 2 : ℝ) : ℂ) ≠ 0 := by rw [Complex.ofReal_ne_zero]; positivity

theorem sm_sq (m : ℕ) : ((-1 : ℂ) ^ m) * (-1) ^ m = 1 := by rw [← mul_pow]; norm_num

theorem qu_rev {l : ℕ} (k : Fin (2 * l + 1)) (h : (k : ℕ) ≠ l) :
    qu l k.rev = (-1) ^ ((k : ℤ) - l).natAbs * (starRingEnd ℂ) (qw l k) ∧ qw l k.rev = (-1) ^ ((k : ℤ) - l).natAbs * (starRingEnd ℂ) (qu l k) := by
  have hk := k.isLt
  have hrev : (k.rev : ℕ) = 2 * l - k := by rw [Fin.val_rev]; omega
  have hs := sqrt2_ne
  unfold qu qw
  rcases lt_or_gt_of_ne h with h | h
  · obtain ⟨m, hm⟩ : ∃ m, l = k.val + m := ⟨l - k.val, by omega⟩
    have e1 : (k.rev : ℕ) - l = m := by omega
    have e2 : ((k : ℤ) - l).natAbs = m := by omega
    rw [if_neg (show ¬ (k.rev : ℕ) < l by omega), if_neg (show ¬ (k.rev : ℕ) = l by omega), if_pos h, if_neg (show ¬ (k.rev : ℕ) < l by omega), if_neg (show ¬ (k.rev : ℕ) = l by omega), if_pos h, e1, e2]
    simp only [map_div₀, map_neg, Complex.conj_ofReal, map_one, Complex.conj_I]
    constructor <;> ring
  · obtain ⟨m, hm⟩ : ∃ m, k.val = l + m := ⟨k.val - l, by omega⟩
    have e1 : (k : ℕ) - l = m := by omega
    have e2 : ((k : ℤ) - l).natAbs = m := by omega
    rw [if_pos (show (k.rev : ℕ) < l by omega), if_pos (show (k.rev : ℕ) < l by omega), if_neg (show ¬ (k : ℕ) < l by omega), if_neg (show ¬ (k : ℕ) = l by omega),
      if_neg (show ¬ (k : ℕ) < l by omega), if_neg (show ¬ (k : ℕ) = l by omega), e1, e2]
    simp only [map_div₀, map_neg, map_mul, map_pow, Complex.conj_ofReal, map_one, Complex.conj_I]
    have h1 := sm_sq m
    constructor
    · field_simp
      linear_combination h1
    · field_simp
      linear_combination (-1 : ℂ) * h1

/-- The symmetry of a real signal. -/
theorem realToComplex_rev (n : ℝ) (l : ℕ) (r : Fin (2 * l + 1) → ℝ) (k : Fin (2 * l + 1)) :
    realToComplex n l r k.rev = (-1) ^ ((k : ℤ) - l).natAbs * (starRingEnd ℂ) (realToComplex n l r k) := by
  have hk := k.isLt
  unfold realToComplex
  rw [row_sum, row_sum, ← mul_assoc, ← mul_assoc, I_pow, Fin.rev_rev, map_mul]
  simp only [map_pow, map_neg, map_one, map_add, map_mul, Complex.conj_ofReal]
  by_cases h : (k : ℕ) = l
  · have hr : k.rev = k := Fin.ext (by rw [Fin.val_rev]; omega)
    have q1 : qu l k = 1 := by unfold qu; rw [if_neg (by omega), if_pos h]
    have q2 : qw l k = 0 := by unfold qw; rw [if_neg (by omega), if_pos h]
    rw [hr, q1, q2, h]
    simp
  · obtain ⟨e1, e2⟩ := qu_rev k h
    rw [e1, e2]
    ring

/-- The coefficients handed over are those of a real signal. -/
theorem realCoefficients_array (nrm : Normalization) (lmax : ℕ) (r : (l : ℕ) → Fin (2 * l + 1) → ℝ) : RealCoefficients (s2fftArray nrm lmax r) := by
  constructor
  · intro l j h
    unfold s2fftArray
    rw [dif_neg (by omega)]
  · intro l j
    have hj := j.isLt
    have hl := l.isLt
    have hrev : (j.rev : ℕ) = 2 * lmax - j := by rw [Fin.val_rev]; omega
    by_cases h : lmax - (l : ℕ) ≤ j ∧ (j : ℕ) < lmax + l + 1
    · have e1 : j = ⟨lmax - l + (⟨j - (lmax - l), by omega⟩ : Fin (2 * (l : ℕ) + 1)), by simp only; omega⟩ := Fin.ext (by simp only; omega)
      have e2 : j.rev = ⟨lmax - l + ((⟨j - (lmax - l), by omega⟩ : Fin (2 * (l : ℕ) + 1)).rev : Fin (2 * (l : ℕ) + 1)), by rw [Fin.val_rev]; simp only; omega⟩ :=
        Fin.ext (by rw [hrev]; simp only [Fin.val_rev]; omega)
      have e3 := s2fftArray_at nrm lmax r l (⟨j - (lmax - l), by omega⟩ : Fin (2 * (l : ℕ) + 1))
      rw [← e1] at e3
      rw [e2, s2fftArray_at, realToComplex_rev, e3]
      congr 2
      simp only
      omega
    · unfold s2fftArray
      rw [dif_neg (by omega), dif_neg h]
      simp

theorem normTo_ne (nrm : Normalization) (lmax l : ℕ) : normTo nrm lmax l ≠ 0 := by
  have h := normTo_length nrm lmax l
  intro h0
  rw [h0, zero_mul] at h
  have h1 : Real.sqrt (2 * (l : ℝ) + 1) ≠ 0 := by positivity
  have h2 : Real.sqrt ((lmax : ℝ) + 1) ≠ 0 := by positivity
  cases nrm <;> simp only [basisLength] at h
  · exact h1 h.symm
  · exact (div_ne_zero one_ne_zero h2) h.symm
  · exact (div_ne_zero h1 h2) h.symm

/-- The way back. -/
theorem complexToReal_array (nrm : Normalization) (lmax : ℕ) (r : (l : ℕ) → Fin (2 * l + 1) → ℝ) (l : Fin (lmax + 1)) (k : Fin (2 * (l : ℕ) + 1)) :
    complexToReal nrm lmax (s2fftArray nrm lmax r) l k = r l k := by
  unfold complexToReal
  simp only [s2fftArray_at]
  unfold realToComplex
  have e : Complex.I ^ (l : ℕ) * ∑ c : Fin (2 * (l : ℕ) + 1), (starRingEnd ℂ) (changeBasis l c k) * (Complex.I ^ (-((l : ℕ) : ℤ)) * ∑ d, changeBasis l c d * ((r l d * normTo nrm lmax l * s2fftSign l d : ℝ) : ℂ)) =
      ((r l k * normTo nrm lmax l * s2fftSign l k : ℝ) : ℂ) := by
    have e1 : ∑ c : Fin (2 * (l : ℕ) + 1), (starRingEnd ℂ) (changeBasis l c k) * (Complex.I ^ (-((l : ℕ) : ℤ)) * ∑ d, changeBasis l c d * ((r l d * normTo nrm lmax l * s2fftSign l d : ℝ) : ℂ)) =
        Complex.I ^ (-((l : ℕ) : ℤ)) * ∑ d, ((changeBasis l).conjTranspose * changeBasis l) k d * ((r l d * normTo nrm lmax l * s2fftSign l d : ℝ) : ℂ) := by
      simp only [Matrix.mul_apply, Matrix.conjTranspose_apply, Finset.sum_mul, Finset.mul_sum]
      rw [Finset.sum_comm]
      refine Finset.sum_congr rfl fun d _ => Finset.sum_congr rfl fun c _ => ?_
      rw [starRingEnd_apply]
      ring
    rw [e1, ← mul_assoc, I_pow', one_mul, Q_conj_mul]
    simp [Matrix.one_apply]
  rw [e, Complex.ofReal_re]
  have h1 := sign_sq l k
  have h2 := normTo_ne nrm lmax l
  field_simp
  linear_combination (r l k) * h1

/-- The entries that the way back takes the real part of are real. -/
theorem back_real {l : ℕ} (g : Fin (2 * l + 1) → ℂ) (hg : ∀ k : Fin (2 * l + 1), g k.rev = (-1) ^ ((k : ℤ) - l).natAbs * (starRingEnd ℂ) (g k)) (k : Fin (2 * l + 1)) :
    (((Complex.I ^ l * ∑ c, (starRingEnd ℂ) (changeBasis l c k) * g c).re : ℝ) : ℂ) = Complex.I ^ l * ∑ c, (starRingEnd ℂ) (changeBasis l c k) * g c := by
  rw [← Complex.conj_eq_iff_re]
  have hk := k.isLt
  have e1 : ∑ c, (starRingEnd ℂ) (changeBasis l c k) * g c = Complex.I ^ l * ((starRingEnd ℂ) (qu l k) * g k + (starRingEnd ℂ) (qw l k.rev) * g k.rev) := by
    have h := congrArg (starRingEnd ℂ) (column_sum l k fun c => (starRingEnd ℂ) (g c))
    simp only [map_sum, map_mul, Complex.conj_conj, map_add, map_pow, map_neg, Complex.conj_I, neg_neg] at h
    exact h
  have hI : Complex.I ^ l * Complex.I ^ l = (-1) ^ l := by rw [← mul_pow, Complex.I_mul_I]
  rw [e1, ← mul_assoc, hI, map_mul, map_pow, map_neg, map_one]
  congr 1
  by_cases h : (k : ℕ) = l
  · have hr : k.rev = k := Fin.ext (by rw [Fin.val_rev]; omega)
    have q1 : qu l k = 1 := by unfold qu; rw [if_neg (by omega), if_pos h]
    have q2 : qw l k = 0 := by unfold qw; rw [if_neg (by omega), if_pos h]
    have h2 := hg k
    rw [hr, h] at h2
    rw [hr, q1, q2]
    simp only [sub_self, Int.natAbs_zero, pow_zero, one_mul] at h2
    simp [← h2]
  · obtain ⟨-, e2⟩ := qu_rev k h
    rw [e2, hg k]
    simp only [map_add, map_mul, Complex.conj_conj, map_pow, map_neg, map_one]
    have h1 := sm_sq ((k : ℤ) - l).natAbs
    linear_combination ((starRingEnd ℂ) (qu l k) * g k - qu l k * (starRingEnd ℂ) (g k)) * h1

/-- Every array of a real signal comes from real coefficients. -/
theorem array_complexToReal (nrm : Normalization) {lmax : ℕ} {f : Fin (lmax + 1) → Fin (2 * lmax + 1) → ℂ} (hf : RealCoefficients f) :
    ∃ r : (l : ℕ) → Fin (2 * l + 1) → ℝ, s2fftArray nrm lmax r = f := by
  refine ⟨fun l k => if h : l < lmax + 1 then complexToReal nrm lmax f ⟨l, h⟩ k else 0, ?_⟩
  funext l j
  have hl := l.isLt
  have hj := j.isLt
  by_cases h : lmax - (l : ℕ) ≤ j ∧ (j : ℕ) < lmax + l + 1
  swap
  · rw [hf.1 l j (by omega)]
    unfold s2fftArray
    rw [dif_neg h]
  let at_ : Fin (2 * (l : ℕ) + 1) → Fin (2 * lmax + 1) := fun c => ⟨lmax - l + c, by have := c.isLt; omega⟩
  obtain ⟨k, hk⟩ : ∃ k, j = at_ k := ⟨⟨j - (lmax - l), by omega⟩, Fin.ext (by simp only [at_]; omega)⟩
  rw [hk]
  simp only [at_]
  rw [s2fftArray_at]
  show _ = f l (at_ k)
  unfold realToComplex
  have hb : ∀ c : Fin (2 * (l : ℕ) + 1), (((if h : (l : ℕ) < lmax + 1 then complexToReal nrm lmax f ⟨l, h⟩ c else 0) * normTo nrm lmax l * s2fftSign l c : ℝ) : ℂ) =
      Complex.I ^ (l : ℕ) * ∑ d, (starRingEnd ℂ) (changeBasis l d c) * f l (at_ d) := by
    intro c
    rw [← back_real (fun d => f l (at_ d)) ?_ c]
    · rw [dif_pos hl]
      congr 1
      unfold complexToReal
      have h1 := sign_sq l c
      have h2 := normTo_ne nrm lmax l
      show (Complex.I ^ (l : ℕ) * ∑ d, (starRingEnd ℂ) (changeBasis l d c) * f l (at_ d)).re * s2fftSign l c / normTo nrm lmax l * normTo nrm lmax l * s2fftSign l c = _
      field_simp
      linear_combination ((Complex.I ^ (l : ℕ) * ∑ d, (starRingEnd ℂ) (changeBasis l d c) * f l (at_ d)).re) * h1
    · intro d
      have hd := d.isLt
      have e : at_ d.rev = (at_ d).rev := Fin.ext (by rw [Fin.val_rev]; simp only [at_, Fin.val_rev]; omega)
      rw [e, hf.2]
      congr 2
      simp only [at_]
      omega
  simp only [hb]
  have e1 : ∑ c, changeBasis l k c * (Complex.I ^ (l : ℕ) * ∑ d, (starRingEnd ℂ) (changeBasis l d c) * f l (at_ d)) =
      Complex.I ^ (l : ℕ) * ∑ d, (changeBasis l * (changeBasis l).conjTranspose) k d * f l (at_ d) := by
    simp only [Matrix.mul_apply, Matrix.conjTranspose_apply, Finset.sum_mul, Finset.mul_sum]
    rw [Finset.sum_comm]
    refine Finset.sum_congr rfl fun d _ => Finset.sum_congr rfl fun c _ => ?_
    rw [starRingEnd_apply]
    ring
  rw [e1, Q_mul_conj, ← mul_assoc, mul_comm (Complex.I ^ (-((l : ℕ) : ℤ))), I_pow', one_mul]
  simp [Matrix.one_apply]

end E3nn.S2
