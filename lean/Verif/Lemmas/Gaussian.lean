import Verif.Lemmas.RotInv
import Mathlib.Probability.Distributions.Gaussian.Multivariate
import Mathlib.MeasureTheory.Integral.Pi

/-! # The standard Gaussian vector -/

namespace E3nn.Stat
open MeasureTheory Finset ProbabilityTheory WithLp

/-- `N` independent standard normal variables. -/
noncomputable def gauss (N : ℕ) : Measure (Fin N → ℝ) := Measure.pi fun _ => gaussianReal 0 1

noncomputable instance (N : ℕ) : IsProbabilityMeasure (gauss N) := by unfold gauss; infer_instance

theorem gauss_rotInv (N : ℕ) : RotInv (gauss N) := by
  intro f hf
  have hn : ∀ x : EuclideanSpace ℝ (Fin N), ‖toLp 2 (f (ofLp x))‖ = ‖x‖ := by
    intro x
    rw [EuclideanSpace.norm_eq, EuclideanSpace.norm_eq]
    congr 1
    simpa using hf (ofLp x)
  let g : EuclideanSpace ℝ (Fin N) →ₗᵢ[ℝ] EuclideanSpace ℝ (Fin N) :=
    { toFun := fun x => toLp 2 (f (ofLp x))
      map_add' := fun x y => by simp
      map_smul' := fun c x => by simp
      norm_map' := hn }
  have hs := stdGaussian_map (g.toLinearIsometryEquiv rfl)
  rw [← map_pi_eq_stdGaussian, Measure.map_map (by fun_prop) (by fun_prop)] at hs
  have hc : Measurable f := (LinearMap.continuous_of_finiteDimensional f).measurable
  have e : (⇑(g.toLinearIsometryEquiv rfl) ∘ toLp 2) = (toLp 2 : (Fin N → ℝ) → EuclideanSpace ℝ (Fin N)) ∘ f := by
    funext x; rfl
  rw [e, ← Measure.map_map (by fun_prop) hc] at hs
  have := congrArg (Measure.map (ofLp : EuclideanSpace ℝ (Fin N) → Fin N → ℝ)) hs
  have e2 : (ofLp : EuclideanSpace ℝ (Fin N) → Fin N → ℝ) ∘ toLp 2 = id := rfl
  have mm : ∀ ν : Measure (Fin N → ℝ), (ν.map (toLp 2 : (Fin N → ℝ) → EuclideanSpace ℝ (Fin N))).map ofLp = ν := by
    intro ν
    rw [Measure.map_map (by fun_prop) (by fun_prop), e2, Measure.map_id]
  rw [mm, mm] at this
  exact this

theorem memLp_coord {N : ℕ} (i : Fin N) (p : ENNReal) (hp : p ≠ ⊤) : MemLp (fun x : Fin N → ℝ => x i) p (gauss N) := by
  have := (memLp_id_gaussianReal' (μ := 0) (v := 1) p hp).comp_measurePreserving (measurePreserving_eval (fun _ : Fin N => gaussianReal 0 1) i)
  exact this

theorem gauss_integrable2 {N : ℕ} (i j : Fin N) : Integrable (fun x : Fin N → ℝ => x i * x j) (gauss N) :=
  (memLp_coord i 2 (by simp)).integrable_mul (memLp_coord j 2 (by simp))

theorem gauss_memLp2 {N : ℕ} (i j : Fin N) : MemLp (fun x : Fin N → ℝ => x i * x j) 2 (gauss N) := by
  have : ENNReal.HolderTriple 4 4 2 := by
    constructor
    have e : (4 : ENNReal)⁻¹ = 2⁻¹ * 2⁻¹ := by
      rw [← ENNReal.mul_inv] <;> norm_num
    rw [e, ← mul_add, ENNReal.inv_two_add_inv_two, mul_one]
  exact (memLp_coord j 4 (by simp)).mul (memLp_coord i 4 (by simp))

theorem gauss_integrable4 {N : ℕ} (i j k l : Fin N) : Integrable (fun x : Fin N → ℝ => x i * x j * (x k * x l)) (gauss N) :=
  (gauss_memLp2 i j).integrable_mul (gauss_memLp2 k l)

theorem gaussianReal_sq : ∫ x, x * x ∂(gaussianReal 0 1) = 1 := by
  have := variance_fun_id_gaussianReal (μ := 0) (v := 1)
  rw [variance_eq_integral measurable_id'.aemeasurable] at this
  simpa [sq] using this

theorem gauss_second {N : ℕ} (i j : Fin N) : ∫ x, x i * x j ∂(gauss N) = if i = j then 1 else 0 := by
  obtain ⟨m, hm⟩ := second_moments (gauss_rotInv N)
  have h1 : ∫ x, x i * x i ∂(gauss N) = 1 := by
    have mp := measurePreserving_eval (fun _ : Fin N => gaussianReal 0 1) i
    have := integral_map (μ := gauss N) (φ := Function.eval i) (f := fun x : ℝ => x * x) mp.measurable.aemeasurable (by fun_prop)
    show ∫ x, (fun x : ℝ => x * x) (Function.eval i x) ∂(gauss N) = 1
    rw [← this, show Measure.map (Function.eval i) (gauss N) = gaussianReal 0 1 from mp.map_eq]
    exact gaussianReal_sq
  rw [hm i i, if_pos rfl] at h1
  rw [hm i j, h1]

theorem gaussianReal_four : ∫ x, x * x * (x * x) ∂(gaussianReal 0 1) = 3 := by
  obtain ⟨m, hm⟩ := fourth_moments (gauss_rotInv 2) gauss_integrable4
  have h1 := hm 0 0 0 0
  have h2 := hm 0 0 1 1
  have e2 := integral_fintype_prod_eq_prod (𝕜 := ℝ) (ι := Fin 2) (fun _ (x : ℝ) => x * x) (μ := fun _ => gaussianReal 0 1)
  simp only [Fin.prod_univ_two, gaussianReal_sq, mul_one] at e2
  have e1 := integral_fintype_prod_eq_prod (𝕜 := ℝ) (ι := Fin 2) (fun i (x : ℝ) => if i = 0 then x * x * (x * x) else 1) (μ := fun _ => gaussianReal 0 1)
  simp only [Fin.prod_univ_two, if_true, if_neg (show (1 : Fin 2) ≠ 0 by decide), mul_one, integral_const, probReal_univ, smul_eq_mul] at e1
  rw [show (∫ x, x 0 * x 0 * (x 0 * x 0) ∂(gauss 2)) = _ from e1] at h1
  rw [show (∫ x, x 0 * x 0 * (x 1 * x 1) ∂(gauss 2)) = _ from e2] at h2
  rw [h1]
  norm_num at h2 ⊢
  linarith

theorem gauss_fourth {N : ℕ} (i j k l : Fin N) : ∫ x, x i * x j * (x k * x l) ∂(gauss N) =
    (if i = j ∧ k = l then 1 else 0) + (if i = k ∧ j = l then 1 else 0) + (if i = l ∧ j = k then 1 else 0) := by
  obtain ⟨m, hm⟩ := fourth_moments (gauss_rotInv N) gauss_integrable4
  have h1 : ∫ x, x i * x i * (x i * x i) ∂(gauss N) = 3 := by
    have mp := measurePreserving_eval (fun _ : Fin N => gaussianReal 0 1) i
    have := integral_map (μ := gauss N) (φ := Function.eval i) (f := fun x : ℝ => x * x * (x * x)) mp.measurable.aemeasurable (by fun_prop)
    show ∫ x, (fun x : ℝ => x * x * (x * x)) (Function.eval i x) ∂(gauss N) = 3
    rw [← this, show Measure.map (Function.eval i) (gauss N) = gaussianReal 0 1 from mp.map_eq]
    exact gaussianReal_four
  rw [hm i i i i] at h1
  have : m = 1 := by norm_num at h1; linarith
  rw [hm i j k l, this, one_mul]

/-- Functions of disjoint sets of coordinates are independent. -/
theorem gauss_indep {N : ℕ} (S T : Finset (Fin N)) (h : Disjoint S T) {β γ : Type} [MeasurableSpace β] [MeasurableSpace γ]
    (f : (S → ℝ) → β) (g : (T → ℝ) → γ) (hf : Measurable f) (hg : Measurable g) :
    IndepFun (fun x : Fin N → ℝ => f fun i => x i) (fun x : Fin N → ℝ => g fun i => x i) (gauss N) := by
  have h1 : iIndepFun (fun i (x : Fin N → ℝ) => x i) (gauss N) := iIndepFun_pi (X := fun _ x => x) fun _ => by fun_prop
  have := h1.indepFun_finset S T h fun i => by fun_prop
  exact this.comp hf hg

theorem gauss_first {N : ℕ} (i : Fin N) : ∫ x, x i ∂(gauss N) = 0 := first_moments (gauss_rotInv N) i

/-- Some of the coordinates are again standard Gaussian. -/
theorem gauss_marginal {N d : ℕ} (e : Fin d → Fin N) (he : Function.Injective e) :
    (gauss N).map (fun x i => x (e i)) = gauss d := by
  have h1 : iIndepFun (fun i (x : Fin N → ℝ) => x i) (gauss N) := iIndepFun_pi (X := fun _ x => x) fun _ => by fun_prop
  have h2 := h1.precomp he
  have h3 := (iIndepFun_iff_map_fun_eq_pi_map fun i => (measurable_pi_apply (e i)).aemeasurable).mp h2
  have h4 : ∀ i, (gauss N).map (fun x : Fin N → ℝ => x (e i)) = gaussianReal 0 1 := fun i =>
    (measurePreserving_eval (fun _ : Fin N => gaussianReal 0 1) (e i)).map_eq
  simp only [h4] at h3
  exact h3

theorem gauss_marginal_integral {N d : ℕ} (e : Fin d → Fin N) (he : Function.Injective e) {φ : (Fin d → ℝ) → ℝ} (hφ : Measurable φ) :
    ∫ x, φ (fun i => x (e i)) ∂(gauss N) = ∫ x, φ x ∂(gauss d) := by
  rw [← gauss_marginal e he, integral_map (measurable_pi_lambda _ fun i => measurable_pi_apply (e i)).aemeasurable hφ.aestronglyMeasurable]

/-! ### Unit vectors -/

/-- Divide a vector by its norm. -/
noncomputable def unit {d : ℕ} (x : Fin d → ℝ) (i : Fin d) : ℝ := x i / Real.sqrt (∑ j, x j ^ 2)

theorem measurable_unit {d : ℕ} : Measurable (unit : (Fin d → ℝ) → Fin d → ℝ) := by
  unfold unit
  fun_prop

theorem unit_norm {d : ℕ} {x : Fin d → ℝ} (h : ∃ i, x i ≠ 0) : ∑ i, unit x i ^ 2 = 1 := by
  obtain ⟨i, hi⟩ := h
  have h0 : 0 < ∑ j, x j ^ 2 := Finset.sum_pos' (fun j _ => sq_nonneg _) ⟨i, Finset.mem_univ i, by positivity⟩
  unfold unit
  simp only [div_pow, Real.sq_sqrt h0.le, ← Finset.sum_div]
  exact div_self h0.ne'

theorem unit_le {d : ℕ} (x : Fin d → ℝ) (i : Fin d) : |unit x i| ≤ 1 := by
  unfold unit
  rw [abs_div, abs_of_nonneg (Real.sqrt_nonneg _)]
  apply div_le_one_of_le₀ _ (Real.sqrt_nonneg _)
  apply Real.abs_le_sqrt
  exact Finset.single_le_sum (f := fun j => x j ^ 2) (fun j _ => sq_nonneg _) (Finset.mem_univ i)

/-- The uniform distribution on the unit sphere. -/
noncomputable def sphere (d : ℕ) : Measure (Fin d → ℝ) := (gauss d).map unit

noncomputable instance (d : ℕ) : IsProbabilityMeasure (sphere d) := Measure.isProbabilityMeasure_map measurable_unit.aemeasurable

theorem sphere_rotInv (d : ℕ) : RotInv (sphere d) := by
  intro f hf
  have hm : Measurable f := (LinearMap.continuous_of_finiteDimensional f).measurable
  unfold sphere
  rw [Measure.map_map hm measurable_unit]
  have e : ⇑f ∘ unit = unit ∘ f := by
    funext x i
    have : unit x = (Real.sqrt (∑ j, x j ^ 2))⁻¹ • x := by
      funext i; simp only [unit, Pi.smul_apply, smul_eq_mul]; ring
    rw [Function.comp_apply, this, map_smul]
    simp only [Function.comp_apply, unit, hf, Pi.smul_apply, smul_eq_mul]
    ring
  rw [e, ← Measure.map_map measurable_unit hm, gauss_rotInv d f hf]

theorem gauss_ne_zero {N : ℕ} (i : Fin N) : ∀ᵐ x ∂(gauss N), x i ≠ 0 := by
  have h : gaussianReal 0 1 {0} = 0 := by
    haveI := noAtoms_gaussianReal (μ := 0) (v := 1) (by norm_num)
    exact measure_singleton 0
  have mp := measurePreserving_eval (fun _ : Fin N => gaussianReal 0 1) i
  rw [ae_iff]
  have : {x : Fin N → ℝ | ¬ x i ≠ 0} = Function.eval i ⁻¹' {0} := by ext x; simp
  rw [this]
  show gauss N (Function.eval i ⁻¹' {0}) = 0
  rw [gauss, mp.measure_preimage (measurableSet_singleton 0).nullMeasurableSet, h]

theorem sphere_integrable (d : ℕ) {φ : (Fin d → ℝ) → ℝ} (hφ : Continuous φ) (hb : ∃ C, ∀ x : Fin d → ℝ, (∀ i, |x i| ≤ 1) → |φ x| ≤ C) :
    Integrable φ (sphere d) := by
  obtain ⟨C, hC⟩ := hb
  refine Integrable.of_bound hφ.aestronglyMeasurable C ?_
  unfold sphere
  rw [ae_map_iff measurable_unit.aemeasurable (measurableSet_le (by fun_prop) (by fun_prop))]
  exact Filter.Eventually.of_forall fun x => hC _ (unit_le x)

theorem sphere_norm {d : ℕ} (hd : 0 < d) : ∀ᵐ x ∂(sphere d), ∑ i, x i ^ 2 = 1 := by
  unfold sphere
  rw [ae_map_iff measurable_unit.aemeasurable (measurableSet_eq_fun (by fun_prop) (by fun_prop))]
  filter_upwards [gauss_ne_zero ⟨0, hd⟩] with x hx using unit_norm ⟨_, hx⟩

theorem abs_mul_le_one {a b : ℝ} (ha : |a| ≤ 1) (hb : |b| ≤ 1) : |a * b| ≤ 1 := by
  rw [abs_mul]; exact mul_le_one₀ ha (abs_nonneg _) hb

theorem sphere_integrable2 {d : ℕ} (i j : Fin d) : Integrable (fun x : Fin d → ℝ => x i * x j) (sphere d) :=
  sphere_integrable d (by fun_prop) ⟨1, fun x h => abs_mul_le_one (h i) (h j)⟩

theorem sphere_integrable4 {d : ℕ} (i j k l : Fin d) : Integrable (fun x : Fin d → ℝ => x i * x j * (x k * x l)) (sphere d) :=
  sphere_integrable d (by fun_prop) ⟨1, fun x h => abs_mul_le_one (abs_mul_le_one (h i) (h j)) (abs_mul_le_one (h k) (h l))⟩

theorem sphere_second {d : ℕ} (i j : Fin d) : ∫ x, x i * x j ∂(sphere d) = if i = j then 1 / (d : ℝ) else 0 := by
  have hd : 0 < d := i.pos
  obtain ⟨m, hm⟩ := second_moments (sphere_rotInv d)
  have h1 : ∫ x, ∑ i, x i * x i ∂(sphere d) = 1 := by
    have : ∫ x, ∑ i, x i * x i ∂(sphere d) = ∫ x, (1 : ℝ) ∂(sphere d) := by
      apply integral_congr_ae
      filter_upwards [sphere_norm hd] with x hx
      simpa [sq] using hx
    rw [this]; simp
  rw [integral_finsetSum _ fun i _ => sphere_integrable2 i i] at h1
  simp only [hm, if_true, Finset.sum_const, Finset.card_univ, Fintype.card_fin, nsmul_eq_mul] at h1
  rw [hm]
  have hd' : (d : ℝ) ≠ 0 := by positivity
  have : m = 1 / d := by field_simp; linarith
  rw [this]

theorem sphere_fourth {d : ℕ} (i j k l : Fin d) : ∫ x, x i * x j * (x k * x l) ∂(sphere d) = 1 / ((d : ℝ) * (d + 2)) *
    ((if i = j ∧ k = l then 1 else 0) + (if i = k ∧ j = l then 1 else 0) + (if i = l ∧ j = k then 1 else 0)) := by
  have hd : 0 < d := i.pos
  obtain ⟨m, hm⟩ := fourth_moments (sphere_rotInv d) sphere_integrable4
  have h1 : ∫ x, ∑ i, ∑ j, x i * x i * (x j * x j) ∂(sphere d) = 1 := by
    have : ∫ x, ∑ i, ∑ j, x i * x i * (x j * x j) ∂(sphere d) = ∫ x, (1 : ℝ) ∂(sphere d) := by
      apply integral_congr_ae
      filter_upwards [sphere_norm hd] with x hx
      simp only [← Finset.mul_sum, ← Finset.sum_mul]
      have : ∑ i, x i * x i = 1 := by simpa [sq] using hx
      rw [this]; norm_num
    rw [this]; simp
  rw [integral_finsetSum _ fun i _ => integrable_finsetSum _ fun j _ => sphere_integrable4 i i j j] at h1
  have h2 : ∀ i : Fin d, ∫ x, ∑ j, x i * x i * (x j * x j) ∂(sphere d) = m * (d + 2) := by
    intro i
    rw [integral_finsetSum _ fun j _ => sphere_integrable4 i i j j]
    simp only [hm, and_self, if_true]
    rw [← Finset.mul_sum, Finset.sum_add_distrib, Finset.sum_add_distrib]
    simp [Finset.sum_ite_eq]
    left; ring
  simp only [h2, Finset.sum_const, Finset.card_univ, Fintype.card_fin, nsmul_eq_mul] at h1
  rw [hm]
  have hd' : (0 : ℝ) < d := by positivity
  have : m = 1 / ((d : ℝ) * (d + 2)) := by field_simp; linarith
  rw [this]

theorem sphere_integral {N d : ℕ} (e : Fin d → Fin N) (he : Function.Injective e) {φ : (Fin d → ℝ) → ℝ} (hφ : Measurable φ) :
    ∫ x, φ (unit fun i => x (e i)) ∂(gauss N) = ∫ x, φ x ∂(sphere d) := by
  rw [gauss_marginal_integral e he (φ := fun x => φ (unit x)) (hφ.comp measurable_unit), sphere,
    integral_map measurable_unit.aemeasurable hφ.aestronglyMeasurable]

end E3nn.Stat
