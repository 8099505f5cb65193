import Verif.Lemmas.SO3Band
import Verif.Props.C39
import Mathlib.MeasureTheory.Integral.Bochner.Set
import Mathlib.Analysis.Normed.Group.FunctionSeries

/-!
# Integrals over the rotations
-/

namespace E3nn.SO3

open E3nn.SU2 E3nn.Rot E3nn.SH E3nn.Wig E3nn.S2 MeasureTheory
open scoped Matrix

theorem polyAt_continuous (p : MvPolynomial (Fin 3 × Fin 3) ℝ) : Continuous (polyAt p) := by
  unfold polyAt
  exact (MvPolynomial.continuous_eval p).comp (continuous_pi fun ij => by fun_prop)

theorem rot_entry_le {R : Mat} (hR : IsRotation R) (i j : Fin 3) : |R i j| ≤ 1 := by
  have h := congrFun (congrFun hR.1 i) i
  rw [Matrix.mul_apply, Matrix.one_apply_eq] at h
  simp only [Matrix.transpose_apply] at h
  have : R i j * R i j ≤ 1 := by
    rw [← h]
    exact Finset.single_le_sum (f := fun j => R i j * R i j) (fun j _ => mul_self_nonneg _) (Finset.mem_univ j)
  exact abs_le_one_iff_mul_self_le_one.mpr this

variable {μ : Measure (Fin 3 → Fin 3 → ℝ)}

theorem IsHaar.integrable (hμ : IsHaar μ) (p : MvPolynomial (Fin 3 × Fin 3) ℝ) : Integrable (polyAt p) μ := by
  haveI : IsProbabilityMeasure μ := ⟨hμ.prob⟩
  obtain ⟨C, hC⟩ := (isCompact_closedBall (0 : Fin 3 → Fin 3 → ℝ) 1).exists_bound_of_continuousOn (polyAt_continuous p).continuousOn
  refine Integrable.of_bound (polyAt_continuous p).aestronglyMeasurable C ?_
  filter_upwards [hμ.rot] with R hR
  refine hC R ?_
  rw [mem_closedBall_zero_iff, pi_norm_le_iff_of_nonneg zero_le_one]
  intro i
  rw [pi_norm_le_iff_of_nonneg zero_le_one]
  intro j
  exact rot_entry_le hR i j

theorem IsHaar.congr (hμ : IsHaar μ) {p q : MvPolynomial (Fin 3 × Fin 3) ℝ} (h : polyFun p = polyFun q) : ∫ R, polyAt p R ∂μ = ∫ R, polyAt q R ∂μ := by
  refine integral_congr_ae ?_
  filter_upwards [hμ.rot] with R hR
  exact congrFun h ⟨Matrix.of R, hR⟩

theorem IsHaar.translate (hμ : IsHaar μ) {g : Mat} (hg : IsRotation g) {φ : (Fin 3 → Fin 3 → ℝ) → ℝ} (hφ : Continuous φ) :
    ∫ R, φ (fun i j => (g * Matrix.of R) i j) ∂μ = ∫ R, φ R ∂μ := by
  have hm : Measurable fun (R : Fin 3 → Fin 3 → ℝ) i j => (g * Matrix.of R) i j := by
    refine measurable_pi_lambda _ fun i => measurable_pi_lambda _ fun j => ?_
    simp only [Matrix.mul_apply, Matrix.of_apply]
    fun_prop
  conv_rhs => rw [← hμ.inv g hg]
  rw [integral_map hm.aemeasurable hφ.aestronglyMeasurable]

/-- The mean of the entries of the Wigner matrices. -/
theorem IsHaar.entry (hμ : IsHaar μ) (l : ℕ) (i j : Fin (2 * l + 1)) {p : MvPolynomial (Fin 3 × Fin 3) ℝ} (hp : polyFun p = fun R => repD l R.1 i j) :
    ∫ R, polyAt p R ∂μ = if l = 0 then 1 else 0 := by
  by_cases hl : l = 0
  · subst hl
    rw [if_pos rfl, hμ.congr (q := 1)]
    · simp [polyAt, hμ.prob, measureReal_def]
    · rw [hp]
      funext R
      have hij : i = j := by
        have := i.isLt
        have := j.isLt
        exact Fin.ext (by omega)
      rw [repD_deg_zero R.2, Matrix.one_apply, if_pos hij]
      simp [polyFun, polyAt]
  · rw [if_neg hl]
    choose P hP using fun i j => entry_poly l i j
    rw [hμ.congr (hp.trans (hP i j).symm)]
    let M : Matrix (Fin (2 * l + 1)) (Fin (2 * 0 + 1)) ℝ := fun i _ => ∫ R, polyAt (P i j) R ∂μ
    have hM : M = 0 := by
      refine so3_inequivalent (l := 0) (l' := l) (Ne.symm hl) M ?_
      intro g hg
      rw [repD_deg_zero hg, Matrix.mul_one]
      ext a b
      rw [Matrix.mul_apply]
      change ∫ R, polyAt (P a j) R ∂μ = ∑ c, repD l g a c * ∫ R, polyAt (P c j) R ∂μ
      simp_rw [← integral_const_mul]
      rw [← integral_finsetSum _ fun c _ => (hμ.integrable (P c j)).const_mul _, ← hμ.translate hg (polyAt_continuous (P a j))]
      refine integral_congr_ae ?_
      filter_upwards [hμ.rot] with R hR
      have h1 := congrFun (hP a j) ⟨g * Matrix.of R, hg.mul hR⟩
      have h2 : ∀ c, polyAt (P c j) R = repD l (Matrix.of R) c j := fun c => congrFun (hP c j) ⟨Matrix.of R, hR⟩
      refine h1.trans ?_
      simp only [h2]
      rw [repD_mul l hg hR, Matrix.mul_apply]
    exact congrFun (congrFun hM i) 0

/-! ### The uniform distribution exists -/

theorem quatMat_isRot {q : Quat} (h : qnormSq q = 1) : IsRotation (quatMat q) := by
  have h' : q 0 ^ 2 + q 1 ^ 2 + q 2 ^ 2 + q 3 ^ 2 = 1 := h
  constructor
  · ext i j
    fin_cases i <;> fin_cases j <;> simp [quatMat, Matrix.mul_apply, Fin.sum_univ_three] <;> first | linear_combination (q 0 ^ 2 + q 1 ^ 2 + q 2 ^ 2 + q 3 ^ 2 + 1) * h' | ring
  · rw [Matrix.det_fin_three]
    simp [quatMat]
    linear_combination ((q 0 ^ 2 + q 1 ^ 2 + q 2 ^ 2 + q 3 ^ 2) ^ 2 + (q 0 ^ 2 + q 1 ^ 2 + q 2 ^ 2 + q 3 ^ 2) + 1) * h'

/-- The uniform distribution of rotations: uniformly distributed unit quaternions. -/
noncomputable def haar : Measure (Fin 3 → Fin 3 → ℝ) := (Stat.sphere 4).map fun q i j => quatMat q i j

theorem quatMat_measurable : Measurable fun (q : Fin 4 → ℝ) i j => quatMat q i j := by
  refine measurable_pi_lambda _ fun i => measurable_pi_lambda _ fun j => ?_
  fin_cases i <;> fin_cases j <;> simp [quatMat] <;> fun_prop

theorem haar_isHaar : IsHaar haar := by
  constructor
  · haveI : IsProbabilityMeasure haar := Measure.isProbabilityMeasure_map quatMat_measurable.aemeasurable
    exact measure_univ
  · unfold haar
    have hms : MeasurableSet {R : Fin 3 → Fin 3 → ℝ | IsRotation (Matrix.of R)} := by
      have h1 : Continuous fun R : Fin 3 → Fin 3 → ℝ => (Matrix.of R : Mat) := continuous_id
      have : IsClosed {R : Fin 3 → Fin 3 → ℝ | IsRotation (Matrix.of R)} := by
        have a : IsClosed {R : Fin 3 → Fin 3 → ℝ | Matrix.of R * (Matrix.of R)ᵀ = 1} := isClosed_eq (h1.matrix_mul h1.matrix_transpose) continuous_const
        have b : IsClosed {R : Fin 3 → Fin 3 → ℝ | (Matrix.of R).det = 1} := isClosed_eq h1.matrix_det continuous_const
        exact a.inter b
      exact this.measurableSet
    rw [ae_map_iff quatMat_measurable.aemeasurable hms]
    filter_upwards [Stat.sphere_norm (d := 4) (by norm_num)] with q hq
    refine quatMat_isRot ?_
    rw [Fin.sum_univ_four] at hq
    exact hq
  · intro g hg
    obtain ⟨p, hp1, rfl⟩ := exists_quat hg
    have hm : Measurable fun (R : Fin 3 → Fin 3 → ℝ) i j => (quatMat p * Matrix.of R) i j := by
      refine measurable_pi_lambda _ fun i => measurable_pi_lambda _ fun j => ?_
      simp only [Matrix.mul_apply, Matrix.of_apply]
      fun_prop
    let f : (Fin 4 → ℝ) →ₗ[ℝ] (Fin 4 → ℝ) :=
      { toFun := fun q => composeQuaternion p q
        map_add' := by
          intro x y
          funext k
          fin_cases k <;> simp [composeQuaternion] <;> ring
        map_smul' := by
          intro c x
          funext k
          fin_cases k <;> simp [composeQuaternion] <;> ring }
    have hf : ∀ x, ∑ k, f x k ^ 2 = ∑ k, x k ^ 2 := by
      intro x
      rw [Fin.sum_univ_four, Fin.sum_univ_four]
      have := qnormSq_compose p x
      rw [hp1, one_mul] at this
      exact this
    have hinv := Stat.sphere_rotInv 4 f hf
    have hfm : Measurable f := (LinearMap.continuous_of_finiteDimensional f).measurable
    unfold haar
    rw [Measure.map_map hm quatMat_measurable]
    conv_rhs => rw [← hinv]
    rw [Measure.map_map quatMat_measurable hfm]
    congr 1
    funext q i j
    change (quatMat p * quatMat q) i j = quatMat (composeQuaternion p q) i j
    rw [quatMat_mul]

end E3nn.SO3
