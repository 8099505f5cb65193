import Verif.Props.C65_C66
import Mathlib.MeasureTheory.Constructions.HaarToSphere
import Mathlib.MeasureTheory.Measure.Haar.InnerProductSpace
import Mathlib.MeasureTheory.Measure.Lebesgue.VolumeOfBalls
import Mathlib.MeasureTheory.Integral.Bochner.Set

/-!
# C64: the spherical harmonics are orthogonal on the sphere
-/

namespace E3nn.SH

open E3nn.SU2 E3nn.Wig E3nn.Rot Matrix MeasureTheory Metric
open scoped Pointwise

/-- Space. -/
abbrev E3 := EuclideanSpace ℝ (Fin 3)

/-- The area measure of the unit sphere. -/
noncomputable def area : Measure (sphere (0 : E3) 1) := (volume : Measure E3).toSphere

/-- A rotation as an isometry. -/
noncomputable def isoOf {R : Mat} (hR : IsRotation R) : E3 ≃ₗᵢ[ℝ] E3 :=
  LinearIsometry.toLinearIsometryEquiv
    { toFun := fun x => WithLp.toLp 2 (R *ᵥ x.ofLp)
      map_add' := fun x y => by simp [Matrix.mulVec_add]
      map_smul' := fun c x => by simp [Matrix.mulVec_smul]
      norm_map' := fun x => by
        have h : ∑ k, (R *ᵥ x.ofLp) k ^ 2 = ∑ k, x.ofLp k ^ 2 := by
          have := norm_repD (l := 1) hR x.ofLp
          rw [repD_deg_one hR] at this
          exact this
        simp only [EuclideanSpace.norm_eq, Real.norm_eq_abs, sq_abs]
        show Real.sqrt (∑ k, (R *ᵥ x.ofLp) k ^ 2) = _
        rw [h] } rfl

theorem isoOf_apply {R : Mat} (hR : IsRotation R) (x : E3) : (isoOf hR x).ofLp = R *ᵥ x.ofLp := rfl

/-- The rotation of the sphere. -/
noncomputable def sphereRot {R : Mat} (hR : IsRotation R) : sphere (0 : E3) 1 ≃ₜ sphere (0 : E3) 1 where
  toFun ω := ⟨isoOf hR ω, by simp⟩
  invFun ω := ⟨(isoOf hR).symm ω, by simp⟩
  left_inv ω := by ext1; simp
  right_inv ω := by ext1; simp
  continuous_toFun := by fun_prop
  continuous_invFun := by fun_prop

theorem sphereRot_preserves {R : Mat} (hR : IsRotation R) : MeasurePreserving (sphereRot hR) area area := by
  refine ⟨(sphereRot hR).continuous.measurable, ?_⟩
  ext s hs
  rw [Measure.map_apply (sphereRot hR).continuous.measurable hs]
  unfold area
  rw [Measure.toSphere_apply' _ hs, Measure.toSphere_apply' _ ((sphereRot hR).continuous.measurable hs)]
  congr 1
  have h : Set.Ioo (0 : ℝ) 1 • ((↑) '' (sphereRot hR ⁻¹' s) : Set E3) = isoOf hR ⁻¹' (Set.Ioo (0 : ℝ) 1 • ((↑) '' s : Set E3)) := by
    ext x
    simp only [Set.mem_smul, Set.mem_image, Set.mem_preimage]
    constructor
    · rintro ⟨r, hr, y, ⟨ω, hω, rfl⟩, rfl⟩
      exact ⟨r, hr, _, ⟨_, hω, rfl⟩, by simp [sphereRot]⟩
    · rintro ⟨r, hr, y, ⟨ω, hω, rfl⟩, h⟩
      refine ⟨r, hr, _, ⟨(sphereRot hR).symm ω, by simpa using hω, rfl⟩, ?_⟩
      apply (isoOf hR).injective
      rw [← h]
      simp [sphereRot]
  rw [h]
  exact (isoOf hR).measurePreserving.measure_preimage_equiv (f := (isoOf hR).toHomeomorph.toMeasurableEquiv) _

theorem area_univ : area.real Set.univ = 4 * Real.pi := by
  unfold area
  rw [Measure.toSphere_real_apply_univ, measureReal_def, EuclideanSpace.volume_ball_fin_three]
  simp only [finrank_euclideanSpace, Fintype.card_fin, ENNReal.ofReal_one, one_pow, one_mul]
  rw [ENNReal.toReal_ofReal (by positivity)]
  push_cast
  ring

theorem integrable_of_continuous {g : sphere (0 : E3) 1 → ℝ} (hg : Continuous g) : Integrable g area := by
  have : IsFiniteMeasure area := by unfold area; infer_instance
  exact hg.integrable_of_hasCompactSupport (HasCompactSupport.of_compactSpace g)

/-- The integrals of the products. -/
noncomputable def gram (nrm : Normalization) (l j : ℕ) : Matrix (Fin (2 * l + 1)) (Fin (2 * j + 1)) ℝ :=
  Matrix.of fun m n => ∫ ω, Y nrm l (ω : E3).ofLp m * Y nrm j (ω : E3).ofLp n ∂area

theorem Y_continuous (nrm : Normalization) (l : ℕ) (m : Fin (2 * l + 1)) : Continuous fun ω : sphere (0 : E3) 1 => Y nrm l (ω : E3).ofLp m := by
  have h := (Y_contDiff nrm l).continuous
  have h2 : Continuous fun ω : sphere (0 : E3) 1 => (ω : E3).ofLp := (PiLp.continuous_ofLp 2 _).comp continuous_subtype_val
  exact (continuous_apply m).comp (h.comp h2)

theorem gram_rot (nrm : Normalization) (l j : ℕ) {R : Mat} (hR : IsRotation R) : repD l R * gram nrm l j * (repD j R)ᵀ = gram nrm l j := by
  ext m n
  have hint : ∀ a b, Integrable (fun ω : sphere (0 : E3) 1 => Y nrm l (ω : E3).ofLp a * Y nrm j (ω : E3).ofLp b) area := fun a b =>
    integrable_of_continuous ((Y_continuous nrm l a).mul (Y_continuous nrm j b))
  have h1 : gram nrm l j m n = ∫ ω, Y nrm l (sphereRot hR ω : E3).ofLp m * Y nrm j (sphereRot hR ω : E3).ofLp n ∂area := by
    have := (sphereRot_preserves hR).integral_comp (sphereRot hR).measurableEmbedding (fun ω : sphere (0 : E3) 1 => Y nrm l (ω : E3).ofLp m * Y nrm j (ω : E3).ofLp n)
    rw [this]; rfl
  have h2 : ∀ ω : sphere (0 : E3) 1, Y nrm l (sphereRot hR ω : E3).ofLp m * Y nrm j (sphereRot hR ω : E3).ofLp n =
      ∑ b, ∑ a, (repD l R m a * repD j R n b) * (Y nrm l (ω : E3).ofLp a * Y nrm j (ω : E3).ofLp b) := by
    intro ω
    have e : (sphereRot hR ω : E3).ofLp = R *ᵥ (ω : E3).ofLp := rfl
    rw [e, Y_rot nrm hR, Y_rot nrm hR]
    simp only [Matrix.mulVec, dotProduct, Finset.sum_mul, Finset.mul_sum]
    exact Finset.sum_congr rfl fun b _ => Finset.sum_congr rfl fun a _ => by ring
  rw [h1]
  simp only [h2]
  rw [integral_finset_sum _ fun b _ => integrable_finset_sum _ fun a _ => (hint a b).const_mul _]
  simp only [Matrix.mul_apply, Matrix.transpose_apply, Finset.sum_mul]
  refine Finset.sum_congr rfl fun b _ => ?_
  rw [integral_finset_sum _ fun a _ => (hint a b).const_mul _]
  refine Finset.sum_congr rfl fun a _ => ?_
  rw [integral_const_mul]
  simp only [gram, Matrix.of_apply]
  ring

theorem gram_inter (nrm : Normalization) (l j : ℕ) {R : Mat} (hR : IsRotation R) : gram nrm l j * repD j R = repD l R * gram nrm l j := by
  have h := gram_rot nrm l j hR
  conv_lhs => rw [← h]
  rw [Matrix.mul_assoc, mul_eq_one_comm.mp (repD_orth j hR), Matrix.mul_one]

theorem gram_diag (nrm : Normalization) (l : ℕ) : gram nrm l l = (4 * Real.pi / (2 * l + 1) * sphLength nrm l ^ 2) • (1 : Matrix (Fin (2 * l + 1)) (Fin (2 * l + 1)) ℝ) := by
  obtain ⟨c, hc⟩ := C39_irreducible ⟨l, .e⟩ (gram nrm l l) (fun R hR => by rw [dMatrix_rot _ hR]; exact gram_inter nrm l l hR)
  have ht : ∑ m, gram nrm l l m m = 4 * Real.pi * sphLength nrm l ^ 2 := by
    simp only [gram, Matrix.of_apply]
    have hint : ∀ m, Integrable (fun ω : sphere (0 : E3) 1 => Y nrm l (ω : E3).ofLp m * Y nrm l (ω : E3).ofLp m) area := fun m =>
      integrable_of_continuous ((Y_continuous nrm l m).mul (Y_continuous nrm l m))
    rw [← integral_finset_sum _ fun m _ => hint m]
    have : ∀ ω : sphere (0 : E3) 1, ∑ m, Y nrm l (ω : E3).ofLp m * Y nrm l (ω : E3).ofLp m = sphLength nrm l ^ 2 := by
      intro ω
      have h := C48_norm nrm (Y_spec nrm l) (ω : E3).ofLp
      have hn : (ω : E3).ofLp 0 ^ 2 + (ω : E3).ofLp 1 ^ 2 + (ω : E3).ofLp 2 ^ 2 = 1 := by
        have h1 : ‖(ω : E3)‖ = 1 := by simp
        rw [EuclideanSpace.norm_eq, Real.sqrt_eq_one, Fin.sum_univ_three] at h1
        simpa using h1
      rw [hn, one_pow, mul_one] at h
      rw [← h]
      exact Finset.sum_congr rfl fun m _ => by ring
    simp only [this]
    rw [integral_const, area_univ, smul_eq_mul]
  have hc' : (c : ℝ) * (2 * l + 1) = 4 * Real.pi * sphLength nrm l ^ 2 := by
    rw [← ht, hc]
    simp only [Matrix.smul_apply, Matrix.one_apply_eq, smul_eq_mul, mul_one, Finset.sum_const, Finset.card_univ, Fintype.card_fin, nsmul_eq_mul]
    push_cast
    ring
  have hl : (2 * (l : ℝ) + 1) ≠ 0 := by positivity
  rw [hc]
  congr 1
  field_simp
  linarith

/-- **C64.** Over the unit sphere, the integral of the product of two components is zero unless they are the same component of the same degree; the
integral of the square is `1` for the normalisation `integral`, `4π` for `component` and `4π/(2l+1)` for `norm`. -/
theorem C64_orthogonal (nrm : Normalization) {f : (l : ℕ) → (Fin 3 → ℝ) → Fin (2 * l + 1) → ℝ} (hf : ∀ l, IsSphericalHarmonics (sphLength nrm l) l (f l))
    (l j : ℕ) (m : Fin (2 * l + 1)) (n : Fin (2 * j + 1)) :
    ∫ ω : sphere (0 : EuclideanSpace ℝ (Fin 3)) 1, f l (fun i => (ω : EuclideanSpace ℝ (Fin 3)) i) m * f j (fun i => (ω : EuclideanSpace ℝ (Fin 3)) i) n ∂((volume : Measure (EuclideanSpace ℝ (Fin 3))).toSphere) =
      if l = j ∧ m.val = n.val then sphIntegral nrm l else 0 := by
  rw [family_eq hf]
  show gram nrm l j m n = _
  by_cases h : l = j
  · subst h
    rw [gram_diag]
    simp only [true_and, Matrix.smul_apply, smul_eq_mul, Matrix.one_apply, Fin.ext_iff]
    split
    · have hl : (2 * (l : ℝ) + 1) ≠ 0 := by positivity
      have hp := Real.pi_ne_zero
      cases nrm
      · simp only [sphLength, sphIntegral]
        rw [Real.sq_sqrt (by positivity)]; field_simp
      · simp only [sphLength, sphIntegral]
        rw [Real.sq_sqrt (by positivity)]; field_simp
      · simp [sphLength, sphIntegral]
    · simp
  · rw [if_neg (fun e => h e.1), so3_inequivalent (fun e => h e.symm) (gram nrm l j) (fun R hR => gram_inter nrm l j hR)]
    rfl

end E3nn.SH
