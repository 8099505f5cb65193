import Verif.Lemmas.HaarUnique
import Verif.Spec.Uniform
import Verif.Model.RandRotation
import Verif.Lemmas.SHGrad
import Verif.Lemmas.S2Quad
import Mathlib.MeasureTheory.Integral.Prod
import Mathlib.MeasureTheory.Integral.IntervalIntegral.Basic
import Mathlib.Analysis.SpecialFunctions.Integrals.Basic

/-!
# The mean of the Wigner matrices of a random rotation
-/

namespace E3nn.SO3

open E3nn.SU2 E3nn.Rot E3nn.SH E3nn.Wig E3nn.S2 MeasureTheory
open scoped Matrix

instance : IsProbabilityMeasure unif := ⟨by simp [unif]⟩

theorem unif_integrable {f : ℝ → ℝ} (hf : Continuous f) : Integrable f unif :=
  (hf.integrableOn_Icc (μ := volume) (a := 0) (b := 1)).mono_set Set.Ico_subset_Icc_self

theorem unif_integral (f : ℝ → ℝ) : ∫ x, f x ∂unif = ∫ x in (0 : ℝ)..1, f x := by
  unfold unif
  rw [integral_Ico_eq_integral_Ioo, ← integral_Ioc_eq_integral_Ioo, intervalIntegral.integral_of_le zero_le_one]

theorem rotY_continuous (l : ℕ) (a b : Fin (2 * l + 1)) : Continuous fun t => rotY l t a b := by
  simp only [rotY_eq]
  split <;> split <;> fun_prop

theorem rotX_continuous (l : ℕ) (a b : Fin (2 * l + 1)) : Continuous fun t => rotX l t a b := by
  simp only [rotX_eq]
  exact continuous_iff_continuousAt.mpr fun t => (exp_entry_deriv_at _ a b t).continuousAt

theorem cos_mean {k : ℤ} (hk : k ≠ 0) : ∫ x, Real.cos (k * (2 * Real.pi * x)) ∂unif = 0 := by
  rw [unif_integral]
  have hc : (k : ℝ) * (2 * Real.pi) ≠ 0 := mul_ne_zero (by exact_mod_cast hk) (by positivity)
  have e : ∀ x : ℝ, (k : ℝ) * (2 * Real.pi * x) = (k * (2 * Real.pi)) * x := fun x => by ring
  simp only [e]
  rw [intervalIntegral.integral_comp_mul_left (fun x => Real.cos x) hc, integral_cos]
  have : Real.sin (k * (2 * Real.pi) * 1) = 0 := by
    have := Real.sin_int_mul_pi (2 * k)
    rw [← this]; congr 1; push_cast; ring
  rw [this]; simp

theorem sin_mean (k : ℤ) : ∫ x, Real.sin (k * (2 * Real.pi * x)) ∂unif = 0 := by
  by_cases hk : k = 0
  · subst hk; simp
  rw [unif_integral]
  have hc : (k : ℝ) * (2 * Real.pi) ≠ 0 := mul_ne_zero (by exact_mod_cast hk) (by positivity)
  have e : ∀ x : ℝ, (k : ℝ) * (2 * Real.pi * x) = (k * (2 * Real.pi)) * x := fun x => by ring
  simp only [e]
  rw [intervalIntegral.integral_comp_mul_left (fun x => Real.sin x) hc, integral_sin]
  have : Real.cos (k * (2 * Real.pi) * 1) = 1 := by
    rw [mul_one]; exact Real.cos_int_mul_two_pi k
  rw [this]; simp

theorem rotY_mean (l : ℕ) (a b : Fin (2 * l + 1)) : ∫ x, rotY l (2 * Real.pi * x) a b ∂unif = if a = mid l ∧ b = mid l then 1 else 0 := by
  have hk : ∀ x : ℝ, ((l : ℝ) - a) * (2 * Real.pi * x) = ((l - a.val : ℤ) : ℝ) * (2 * Real.pi * x) := fun x => by push_cast; ring
  by_cases h : a = b
  · subst h
    have e : ∀ x : ℝ, rotY l (2 * Real.pi * x) a a = Real.cos (((l - a.val : ℤ) : ℝ) * (2 * Real.pi * x)) := by
      intro x
      simp only [rotY, if_pos]
      rw [hk]
    simp only [e]
    by_cases hm : a = mid l
    · have : (l : ℤ) - a.val = 0 := by rw [hm]; simp [mid]
      rw [this]; simp [hm]
    · rw [if_neg (by tauto), cos_mean]
      intro hc
      exact hm (Fin.ext (by simp only [mid]; omega))
  · have h0 : ¬ (a = mid l ∧ b = mid l) := fun hc => h (hc.1.trans hc.2.symm)
    rw [if_neg h0]
    by_cases hb : b.val = 2 * l - a.val
    · have e : ∀ x : ℝ, rotY l (2 * Real.pi * x) a b = Real.sin (((l - a.val : ℤ) : ℝ) * (2 * Real.pi * x)) := by
        intro x
        simp only [rotY, if_neg h, if_pos hb]
        rw [hk]
      simp only [e]
      exact sin_mean _
    · have e : ∀ x : ℝ, rotY l (2 * Real.pi * x) a b = 0 := by
        intro x
        simp only [rotY, if_neg h, if_neg hb]
      simp only [e, integral_zero]

theorem rotX_center (l : ℕ) (t : ℝ) : rotX l t (mid l) (mid l) = (DP l 0).eval (Real.cos t) := by
  have h := congrFun (rotX_mid l t) (mid l)
  have e : (rotX l t *ᵥ eMid l) (mid l) = rotX l t (mid l) (mid l) := by
    simp [Matrix.mulVec, dotProduct, eMid]
  rw [e] at h
  rw [h, DP_eval]
  simp [uvec, mid, pm]

theorem rotX_mean {l : ℕ} (hl : l ≠ 0) : ∫ z, rotX l (Real.arccos (2 * z - 1)) (mid l) (mid l) ∂unif = 0 := by
  have e : ∫ z, rotX l (Real.arccos (2 * z - 1)) (mid l) (mid l) ∂unif = ∫ z, (DP l 0).eval (2 * z - 1) ∂unif := by
    refine integral_congr_ae ?_
    have : ∀ᵐ z ∂unif, z ∈ Set.Ico (0 : ℝ) 1 := ae_restrict_mem measurableSet_Ico
    filter_upwards [this] with z hz
    rw [rotX_center, Real.cos_arccos (by linarith [hz.1]) (by linarith [hz.2])]
  rw [e, unif_integral, intervalIntegral.integral_comp_mul_sub (fun y => (DP l 0).eval y) two_ne_zero]
  have h := avg_ne hl 0
  have hp : prodP 0 l 0 = DP l 0 := by
    unfold prodP
    have : DP 0 0 = 1 := by simp [DP, legendrePoly]
    rw [this]; ring
  rw [hp, avg, div_eq_zero_iff] at h
  rcases h with h | h
  · norm_num [h]
  · norm_num at h

instance : IsProbabilityMeasure unif3 := by unfold unif3; infer_instance

theorem repD_rand (l : ℕ) (u : ℝ × ℝ × ℝ) (i j : Fin (2 * l + 1)) :
    repD l (randMatrix u) i j = ∑ q, ∑ r, rotY l (2 * Real.pi * u.1) i r * (rotY l (2 * Real.pi * u.2.1) q j * rotX l (Real.arccos (2 * u.2.2 - 1)) r q) := by
  simp only [randMatrix, randAngles, anglesToMatrix]
  rw [repD_mul l ((matrixY_rot _).mul (matrixX_rot _)) (matrixY_rot _), repD_mul l (matrixY_rot _) (matrixX_rot _), repD_matrixY, repD_matrixY, repD_matrixX, Matrix.mul_apply]
  refine Finset.sum_congr rfl fun q _ => ?_
  rw [Matrix.mul_apply, Finset.sum_mul]
  refine Finset.sum_congr rfl fun r _ => ?_
  ring

theorem rand_mean {l : ℕ} (hl : l ≠ 0) (i j : Fin (2 * l + 1)) : ∫ u, repD l (randMatrix u) i j ∂unif3 = 0 := by
  simp only [repD_rand]
  have cY : ∀ a b, Integrable (fun x => rotY l (2 * Real.pi * x) a b) unif := fun a b => unif_integrable ((rotY_continuous l a b).comp (by fun_prop))
  have cX : ∀ a b, Integrable (fun z => rotX l (Real.arccos (2 * z - 1)) a b) unif :=
    fun a b => unif_integrable ((rotX_continuous l a b).comp (Real.continuous_arccos.comp (by fun_prop)))
  have hint : ∀ q r, Integrable (fun u : ℝ × ℝ × ℝ => rotY l (2 * Real.pi * u.1) i r * (rotY l (2 * Real.pi * u.2.1) q j * rotX l (Real.arccos (2 * u.2.2 - 1)) r q)) unif3 :=
    fun q r => (cY i r).mul_prod ((cY q j).mul_prod (cX r q))
  rw [integral_finsetSum _ fun q _ => integrable_finset_sum _ fun r _ => hint q r]
  refine Finset.sum_eq_zero fun q _ => ?_
  rw [integral_finsetSum _ fun r _ => hint q r]
  refine Finset.sum_eq_zero fun r _ => ?_
  unfold unif3
  rw [integral_prod_mul (fun x => rotY l (2 * Real.pi * x) i r) (fun w : ℝ × ℝ => rotY l (2 * Real.pi * w.1) q j * rotX l (Real.arccos (2 * w.2 - 1)) r q),
    integral_prod_mul (fun x => rotY l (2 * Real.pi * x) q j) (fun z => rotX l (Real.arccos (2 * z - 1)) r q), rotY_mean, rotY_mean]
  by_cases h1 : r = mid l
  · by_cases h2 : q = mid l
    · subst h1 h2
      rw [rotX_mean hl]; ring
    · rw [if_neg (by tauto : ¬ (q = mid l ∧ j = mid l))]; ring
  · rw [if_neg (by tauto : ¬ (i = mid l ∧ r = mid l))]; ring

theorem randMatrix_continuous : Continuous fun (u : ℝ × ℝ × ℝ) (i j : Fin 3) => randMatrix u i j := by
  refine continuous_pi fun i => continuous_pi fun j => ?_
  have ha : Continuous fun u : ℝ × ℝ × ℝ => Real.arccos (2 * u.2.2 - 1) := Real.continuous_arccos.comp (by fun_prop)
  simp only [randMatrix, randAngles, anglesToMatrix, Matrix.mul_apply, Fin.sum_univ_three]
  have hy : ∀ (i j : Fin 3), Continuous fun t => matrixY t i j := by
    intro i j; fin_cases i <;> fin_cases j <;> simp [matrixY] <;> fun_prop
  have hx : ∀ (i j : Fin 3), Continuous fun t => matrixX t i j := by
    intro i j; fin_cases i <;> fin_cases j <;> simp [matrixX] <;> fun_prop
  have h1 : ∀ (i j : Fin 3), Continuous fun u : ℝ × ℝ × ℝ => matrixY (2 * Real.pi * u.1) i j := fun i j => (hy i j).comp (by fun_prop)
  have h2 : ∀ (i j : Fin 3), Continuous fun u : ℝ × ℝ × ℝ => matrixY (2 * Real.pi * u.2.1) i j := fun i j => (hy i j).comp (by fun_prop)
  have h3 : ∀ (i j : Fin 3), Continuous fun u : ℝ × ℝ × ℝ => matrixX (Real.arccos (2 * u.2.2 - 1)) i j := fun i j => (hx i j).comp ha
  fun_prop

theorem rand_law : unif3.map (fun u i j => randMatrix u i j) = haar := by
  have hm := randMatrix_continuous.measurable
  haveI : IsProbabilityMeasure (unif3.map (fun (u : ℝ × ℝ × ℝ) (i j : Fin 3) => randMatrix u i j)) := Measure.isProbabilityMeasure_map hm.aemeasurable
  have hr : ∀ u, IsRotation (randMatrix u) := fun u => anglesToMatrix_rot _ _ _
  refine law_of_entries ⟨measure_univ, ?_⟩ fun l hl i j p hp => ?_
  · have hc : MeasurableSet {R : Fin 3 → Fin 3 → ℝ | IsRotation (Matrix.of R)} := by
      refine IsClosed.measurableSet ?_
      refine IsClosed.inter ?_ ?_
      · refine isClosed_eq ?_ continuous_const
        refine continuous_matrix fun a b => ?_
        simp only [Matrix.mul_apply, Matrix.transpose_apply, Matrix.of_apply, Fin.sum_univ_three]
        fun_prop
      · refine isClosed_eq ?_ continuous_const
        simp only [Matrix.det_fin_three, Matrix.of_apply]
        fun_prop
    rw [ae_map_iff hm.aemeasurable hc]
    exact Filter.Eventually.of_forall fun u => hr u
  · rw [integral_map hm.aemeasurable (polyAt_continuous p).aestronglyMeasurable, ← rand_mean hl i j]
    refine integral_congr_ae (Filter.Eventually.of_forall fun u => ?_)
    exact congrFun hp ⟨randMatrix u, hr u⟩

/-! ### half turns have probability zero -/

theorem unif_countable {s : Set ℝ} (hs : s.Countable) : unif s = 0 := by
  unfold unif
  exact hs.measure_zero _

theorem trace_rand (u : ℝ × ℝ × ℝ) (h : u.2.2 ∈ Set.Ico (0 : ℝ) 1) (ht : (randMatrix u).trace = -1) :
    u.2.2 = 0 ∨ Real.cos (2 * Real.pi * (u.1 + u.2.1)) = -1 := by
  have e : (randMatrix u).trace = Real.cos (2 * Real.pi * (u.1 + u.2.1)) * (2 * u.2.2) + (2 * u.2.2 - 1) := by
    have h1 : Real.cos (Real.arccos (2 * u.2.2 - 1)) = 2 * u.2.2 - 1 := Real.cos_arccos (by linarith [h.1]) (by linarith [h.2])
    have h2 : Real.cos (2 * Real.pi * (u.1 + u.2.1)) = Real.cos (2 * Real.pi * u.1) * Real.cos (2 * Real.pi * u.2.1) - Real.sin (2 * Real.pi * u.1) * Real.sin (2 * Real.pi * u.2.1) := by
      rw [mul_add, Real.cos_add]
    simp only [randMatrix, randAngles, anglesToMatrix, Matrix.trace_fin_three, Matrix.mul_apply, Fin.sum_univ_three, matrixY, matrixX]
    simp [h1]
    rw [h2]
    ring
  rw [e] at ht
  by_contra hc
  push Not at hc
  have h3 : (2 * u.2.2) * (Real.cos (2 * Real.pi * (u.1 + u.2.1)) + 1) = 0 := by linarith
  rcases mul_eq_zero.mp h3 with h3 | h3
  · exact hc.1 (by linarith)
  · exact hc.2 (by linarith)

theorem half_turn_countable (x : ℝ) : {y : ℝ | Real.cos (2 * Real.pi * (x + y)) = -1}.Countable := by
  refine (Set.countable_range fun k : ℤ => 1 / 2 + (k : ℝ) - x).mono ?_
  intro y hy
  obtain ⟨k, hk⟩ := Real.cos_eq_neg_one_iff.mp hy
  refine ⟨k, ?_⟩
  have hp : Real.pi ≠ 0 := Real.pi_ne_zero
  have : Real.pi * (1 + 2 * k) = Real.pi * (2 * (x + y)) := by linarith
  have := mul_left_cancel₀ hp this
  simp only
  linarith

theorem rand_not_half : ∀ᵐ u ∂unif3, (randMatrix u).trace ≠ -1 := by
  have h0 : ∀ᵐ z ∂unif, z ∈ Set.Ico (0 : ℝ) 1 := ae_restrict_mem measurableSet_Ico
  have h1 : ∀ᵐ u ∂unif3, u.2.2 ∈ Set.Ico (0 : ℝ) 1 ∧ u.2.2 ≠ 0 := by
    have hz : ∀ᵐ z ∂unif, z ∈ Set.Ico (0 : ℝ) 1 ∧ z ≠ 0 := by
      filter_upwards [h0, measure_eq_zero_iff_ae_notMem.mp (unif_countable (Set.countable_singleton 0))] with z a b
      exact ⟨a, by simpa using b⟩
    exact (Measure.quasiMeasurePreserving_snd.comp Measure.quasiMeasurePreserving_snd).ae hz
  have h2 : ∀ᵐ u ∂unif3, Real.cos (2 * Real.pi * (u.1 + u.2.1)) ≠ -1 := by
    have hS : MeasurableSet {u : ℝ × ℝ × ℝ | Real.cos (2 * Real.pi * (u.1 + u.2.1)) = -1} := by
      refine IsClosed.measurableSet (isClosed_eq ?_ continuous_const)
      fun_prop
    have : unif3 {u : ℝ × ℝ × ℝ | Real.cos (2 * Real.pi * (u.1 + u.2.1)) = -1} = 0 := by
      unfold unif3
      rw [Measure.measure_prod_null hS]
      refine Filter.Eventually.of_forall fun x => ?_
      have e : (Prod.mk x ⁻¹' {u : ℝ × ℝ × ℝ | Real.cos (2 * Real.pi * (u.1 + u.2.1)) = -1}) = {y : ℝ | Real.cos (2 * Real.pi * (x + y)) = -1} ×ˢ Set.univ := by
        ext w; simp
      simp only [e]
      rw [Measure.prod_prod, unif_countable (half_turn_countable x), zero_mul]
      rfl
    exact measure_eq_zero_iff_ae_notMem.mp this
  filter_upwards [h1, h2] with u a b ht
  rcases trace_rand u a.1 ht with h | h
  · exact a.2 h
  · exact b h

theorem haar_not_half : ∀ᵐ R ∂haar, (Matrix.of R).trace ≠ -1 := by
  rw [← rand_law]
  have hm := randMatrix_continuous.measurable
  rw [ae_map_iff hm.aemeasurable]
  · exact rand_not_half
  · have : MeasurableSet {R : Fin 3 → Fin 3 → ℝ | (Matrix.of R).trace = -1} := by
      refine IsClosed.measurableSet (isClosed_eq ?_ continuous_const)
      simp only [Matrix.trace_fin_three, Matrix.of_apply]
      fun_prop
    exact this.compl

/-! ### more symmetry -/

theorem translate_measurable (g h : Mat) : Continuous fun (R : Fin 3 → Fin 3 → ℝ) (i j : Fin 3) => (g * Matrix.of R * h) i j := by
  refine continuous_pi fun i => continuous_pi fun j => ?_
  simp only [Matrix.mul_apply, Fin.sum_univ_three, Matrix.of_apply]
  fun_prop

theorem rot_measurable : MeasurableSet {R : Fin 3 → Fin 3 → ℝ | IsRotation (Matrix.of R)} := by
  refine IsClosed.measurableSet ?_
  refine IsClosed.inter ?_ ?_
  · refine isClosed_eq ?_ continuous_const
    refine continuous_matrix fun a b => ?_
    simp only [Matrix.mul_apply, Matrix.transpose_apply, Matrix.of_apply, Fin.sum_univ_three]
    fun_prop
  · refine isClosed_eq ?_ continuous_const
    simp only [Matrix.det_fin_three, Matrix.of_apply]
    fun_prop

theorem haar_right {h : Mat} (hh : IsRotation h) : haar.map (fun R i j => (Matrix.of R * h) i j) = haar := by
  have hc : Continuous fun (R : Fin 3 → Fin 3 → ℝ) (i j : Fin 3) => (Matrix.of R * h) i j := by
    simpa using translate_measurable 1 h
  have hm := hc.measurable
  haveI : IsProbabilityMeasure haar := ⟨haar_isHaar.prob⟩
  haveI : IsProbabilityMeasure (haar.map fun (R : Fin 3 → Fin 3 → ℝ) (i j : Fin 3) => (Matrix.of R * h) i j) := Measure.isProbabilityMeasure_map hm.aemeasurable
  refine IsHaar.unique ⟨measure_univ, ?_, fun g hg => ?_⟩
  · rw [ae_map_iff hm.aemeasurable rot_measurable]
    filter_upwards [haar_isHaar.rot] with R hR
    exact hR.mul hh
  · have hg' : Continuous fun (R : Fin 3 → Fin 3 → ℝ) (i j : Fin 3) => (g * Matrix.of R) i j := by
      simpa using translate_measurable g 1
    rw [Measure.map_map hg'.measurable hm]
    conv_rhs => rw [← haar_isHaar.inv g hg, Measure.map_map hm hg'.measurable]
    congr 1
    funext R
    funext i j
    change (g * (Matrix.of R * h)) i j = ((g * Matrix.of R) * h) i j
    rw [Matrix.mul_assoc]

theorem haar_transpose : haar.map (fun R i j => R j i) = haar := by
  have hc : Continuous fun (R : Fin 3 → Fin 3 → ℝ) (i j : Fin 3) => R j i := by fun_prop
  have hm := hc.measurable
  haveI : IsProbabilityMeasure haar := ⟨haar_isHaar.prob⟩
  haveI : IsProbabilityMeasure (haar.map fun (R : Fin 3 → Fin 3 → ℝ) (i j : Fin 3) => R j i) := Measure.isProbabilityMeasure_map hm.aemeasurable
  refine IsHaar.unique ⟨measure_univ, ?_, fun g hg => ?_⟩
  · rw [ae_map_iff hm.aemeasurable rot_measurable]
    filter_upwards [haar_isHaar.rot] with R hR
    exact hR.transpose
  · have hg' : Continuous fun (R : Fin 3 → Fin 3 → ℝ) (i j : Fin 3) => (g * Matrix.of R) i j := by
      simpa using translate_measurable g 1
    have hr : Continuous fun (R : Fin 3 → Fin 3 → ℝ) (i j : Fin 3) => (Matrix.of R * gᵀ) i j := by
      simpa using translate_measurable 1 gᵀ
    rw [Measure.map_map hg'.measurable hm]
    conv_rhs => rw [← haar_right hg.transpose, Measure.map_map hm hr.measurable]
    congr 1
    funext R
    funext i j
    change (g * Matrix.of fun i j => R j i) i j = (Matrix.of R * gᵀ) j i
    simp only [Matrix.mul_apply, Matrix.transpose_apply, Matrix.of_apply]
    refine Finset.sum_congr rfl fun k _ => mul_comm _ _

end E3nn.SO3
