import Verif.Spec.Erf
import Mathlib.Probability.Distributions.Gaussian.Real
import Mathlib.Analysis.SpecialFunctions.Gaussian.GaussianIntegral
import Mathlib.MeasureTheory.Integral.IntegralEqImproper
import Mathlib.MeasureTheory.Integral.IntervalIntegral.FundThmCalculus
import Mathlib.Analysis.Calculus.Deriv.MeanValue
import Mathlib.Tactic

namespace E3nn
open MeasureTheory Set Filter ProbabilityTheory

theorem gauss_cont : Continuous fun t : ℝ => Real.exp (-(t ^ 2)) := by fun_prop

theorem gauss_integrable : Integrable fun t : ℝ => Real.exp (-(t ^ 2)) := by
  simpa using integrable_exp_neg_mul_sq (b := 1) one_pos

theorem gauss_half : ∫ t in Ioi (0 : ℝ), Real.exp (-(t ^ 2)) = Real.sqrt Real.pi / 2 := by
  simpa using integral_gaussian_Ioi 1

theorem sqrt_pi_pos : 0 < Real.sqrt Real.pi := Real.sqrt_pos.mpr Real.pi_pos

theorem erf_zero : erf 0 = 0 := by simp [erf]

theorem erf_neg (x : ℝ) : erf (-x) = -erf x := by
  unfold erf
  have h := intervalIntegral.integral_comp_neg (a := 0) (b := x) fun t : ℝ => Real.exp (-(t ^ 2))
  simp only [even_two, Even.neg_pow, neg_zero] at h
  rw [h, intervalIntegral.integral_symm]
  ring

theorem erf_hasDeriv (x : ℝ) : HasDerivAt erf (2 / Real.sqrt Real.pi * Real.exp (-(x ^ 2))) x := by
  unfold erf
  exact (intervalIntegral.integral_hasDerivAt_right (gauss_cont.intervalIntegrable _ _)
    (gauss_cont.stronglyMeasurableAtFilter _ _) gauss_cont.continuousAt).const_mul _

theorem erf_strictMono : StrictMono erf := by
  apply strictMono_of_deriv_pos
  intro x
  rw [(erf_hasDeriv x).deriv]
  have := sqrt_pi_pos
  positivity

theorem erf_continuous : Continuous erf :=
  continuous_iff_continuousAt.mpr fun x => (erf_hasDeriv x).continuousAt

theorem erf_tendsto : Tendsto erf atTop (nhds 1) := by
  have h := intervalIntegral_tendsto_integral_Ioi (0 : ℝ) (gauss_integrable.integrableOn) tendsto_id
  rw [gauss_half] at h
  have h2 := h.const_mul (2 / Real.sqrt Real.pi)
  have e : 2 / Real.sqrt Real.pi * (Real.sqrt Real.pi / 2) = 1 := by
    have := sqrt_pi_pos.ne'
    field_simp
  rw [e] at h2
  exact h2

/-- Inverses of the error function exist. -/
theorem exists_erfInv : ∃ e, IsErfInv e := by
  have key : ∀ y : ℝ, ∃ x, -1 < y → y < 1 → erf x = y := by
    intro y
    by_cases h : -1 < y ∧ y < 1
    · obtain ⟨h1, h2⟩ := h
      have up : ∃ b, y ≤ erf b :=
        ((erf_tendsto.eventually (lt_mem_nhds h2)).exists).imp fun _ h => h.le
      have dn : ∃ a, erf a ≤ y := by
        obtain ⟨b, hb⟩ := ((erf_tendsto.eventually (lt_mem_nhds (show -y < 1 by linarith))).exists)
        exact ⟨-b, by rw [erf_neg]; linarith⟩
      obtain ⟨x, hx⟩ := mem_range_of_exists_le_of_exists_ge erf_continuous dn up
      exact ⟨x, fun _ _ => hx⟩
    · exact ⟨0, fun a b => absurd ⟨a, b⟩ h⟩
  choose e he using key
  exact ⟨e, fun y h1 h2 => he y h1 h2⟩

theorem gauss_Iic_zero : ∫ t in Iic (0 : ℝ), Real.exp (-(t ^ 2)) = Real.sqrt Real.pi / 2 := by
  have h := integral_comp_neg_Iic (0 : ℝ) fun t : ℝ => Real.exp (-(t ^ 2))
  simp only [even_two, Even.neg_pow, neg_zero] at h
  rw [h, gauss_half]

theorem gauss_Iic (x : ℝ) :
    ∫ t in Iic x, Real.exp (-(t ^ 2)) = Real.sqrt Real.pi / 2 * (1 + erf x) := by
  have h := intervalIntegral.integral_Iic_sub_Iic (a := 0) (b := x)
    (gauss_integrable.integrableOn (s := Iic 0)) (gauss_integrable.integrableOn (s := Iic x))
  rw [gauss_Iic_zero] at h
  unfold erf
  have := sqrt_pi_pos.ne'
  rw [← h]
  field_simp
  ring

/-- The standard normal distribution function in terms of the error function. -/
theorem normal_Iic (x : ℝ) :
    (gaussianReal 0 1 (Iic x)).toReal = (1 + erf (x / Real.sqrt 2)) / 2 := by
  have h1 : (1 : NNReal) ≠ 0 := one_ne_zero
  have hs : (0 : ℝ) < Real.sqrt 2 := by positivity
  rw [gaussianReal_apply_eq_integral _ h1, ENNReal.toReal_ofReal
    (setIntegral_nonneg measurableSet_Iic fun t _ => gaussianPDFReal_nonneg _ _ _)]
  have e : ∀ t : ℝ, gaussianPDFReal 0 1 t =
      (Real.sqrt (2 * Real.pi))⁻¹ * Real.exp (-((t * (Real.sqrt 2)⁻¹) ^ 2)) := by
    intro t
    unfold gaussianPDFReal
    have : (t * (Real.sqrt 2)⁻¹) ^ 2 = t ^ 2 / 2 := by
      rw [mul_pow, inv_pow, Real.sq_sqrt (by norm_num)]; ring
    rw [this]
    simp
    left
    ring_nf
  simp only [e]
  rw [integral_const_mul]
  have h := integral_comp_mul_right_Ioi (fun u : ℝ => Real.exp (-(u ^ 2))) (-x)
    (b := (Real.sqrt 2)⁻¹) (by positivity)
  have k := integral_comp_neg_Ioi (-x) fun t : ℝ => Real.exp (-((t * (Real.sqrt 2)⁻¹) ^ 2))
  have k' := integral_comp_neg_Ioi (-x * (Real.sqrt 2)⁻¹) fun t : ℝ => Real.exp (-(t ^ 2))
  simp only [neg_mul, even_two, Even.neg_pow, neg_neg] at k k'
  rw [← k]
  simp only [neg_mul] at h
  rw [h, k', gauss_Iic, Real.sqrt_mul (by norm_num), div_eq_mul_inv x]
  have := sqrt_pi_pos.ne'
  simp only [inv_inv, smul_eq_mul]
  field_simp

end E3nn
