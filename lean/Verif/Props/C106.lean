import Verif.Lemmas.RandRot
import Verif.Props.C36_C38

/-!
# C106: random rotations are uniformly distributed
-/

namespace E3nn.SO3

open E3nn.Rot MeasureTheory
open scoped Matrix

/-- `rand_matrix`: with `x, y, z` independent and uniform, the matrix is a rotation and its distribution is not changed by a rotation applied before or after it, nor by inverting it. -/
theorem C106_matrix : IsHaar (unif3.map fun u i j => randMatrix u i j) ∧ (∀ u, IsRotation (randMatrix u)) ∧
    (∀ g, IsRotation g → unif3.map (fun u i j => (randMatrix u * g) i j) = unif3.map fun u i j => randMatrix u i j) ∧
    unif3.map (fun u i j => (randMatrix u)ᵀ i j) = unif3.map fun u i j => randMatrix u i j := by
  have hm := randMatrix_continuous.measurable
  refine ⟨by rw [rand_law]; exact haar_isHaar, fun u => C36_rotation _ _ _, fun g hg => ?_, ?_⟩
  · have hr : Continuous fun (R : Fin 3 → Fin 3 → ℝ) (i j : Fin 3) => (Matrix.of R * g) i j := by
      simpa using translate_measurable 1 g
    have := haar_right hg
    rw [← rand_law, Measure.map_map hr.measurable hm] at this
    exact this
  · have hr : Continuous fun (R : Fin 3 → Fin 3 → ℝ) (i j : Fin 3) => R j i := by fun_prop
    have := haar_transpose
    rw [← rand_law, Measure.map_map hr.measurable hm] at this
    exact this

/-- There is one uniform distribution: every distribution of rotations which is invariant under rotations is the one of `rand_matrix`. -/
theorem C106_unique (μ : Measure (Fin 3 → Fin 3 → ℝ)) (hμ : IsHaar μ) : unif3.map (fun u i j => randMatrix u i j) = μ := by
  rw [rand_law, hμ.unique]

/-- The other functions draw the same rotation, from the same numbers, in another form: `rand_angles`, `rand_quaternion` (of norm one), and, except with probability zero,
`rand_axis_angle` and `rand_log_coordinates`. -/
theorem C106_forms : (∀ u, anglesToMatrix (randAngles u).1 (randAngles u).2.1 (randAngles u).2.2 = randMatrix u) ∧
    (∀ u, qnormSq (randQuaternion u) = 1 ∧ quaternionToMatrix (randQuaternion u) = randMatrix u) ∧
    (∀ᵐ u ∂unif3, axisAngleToMatrix (randAxisAngle u).1 (randAxisAngle u).2 = randMatrix u) ∧
    (∀ᵐ u ∂unif3, logCoordinatesToMatrix (randLogCoordinates u) = randMatrix u) := by
  refine ⟨fun u => rfl, fun u => ⟨anglesToQuaternion_unit _ _ _, ?_⟩, ?_, ?_⟩
  · unfold randQuaternion
    rw [quaternionToMatrix_eq (anglesToQuaternion_unit _ _ _), anglesToQuaternion_mat]
    rfl
  · filter_upwards [rand_not_half] with u hu
    exact (C38_round_trip _ (C36_rotation _ _ _) hu).1
  · filter_upwards [rand_not_half] with u hu
    exact (C57_round_trip ![1, 0, 0, 0] (by simp [qnormSq]) _ (C36_rotation _ _ _) hu).2

/-- So all of them are uniform. -/
theorem C106_uniform : IsHaar (unif3.map fun u i j => anglesToMatrix (randAngles u).1 (randAngles u).2.1 (randAngles u).2.2 i j) ∧
    IsHaar (unif3.map fun u i j => quaternionToMatrix (randQuaternion u) i j) ∧
    IsHaar (unif3.map fun u i j => axisAngleToMatrix (randAxisAngle u).1 (randAxisAngle u).2 i j) ∧
    IsHaar (unif3.map fun u i j => logCoordinatesToMatrix (randLogCoordinates u) i j) := by
  obtain ⟨h1, h2, h3, h4⟩ := C106_forms
  refine ⟨?_, ?_, ?_, ?_⟩
  · simp only [h1]; exact C106_matrix.1
  · simp only [fun u => (h2 u).2]; exact C106_matrix.1
  · rw [Measure.map_congr (g := fun u i j => randMatrix u i j)]
    · exact C106_matrix.1
    · filter_upwards [h3] with u hu
      rw [hu]
  · rw [Measure.map_congr (g := fun u i j => randMatrix u i j)]
    · exact C106_matrix.1
    · filter_upwards [h4] with u hu
      rw [hu]

/-- The ranges of `rand_angles` (for the numbers in `[0, 1)` that the generator returns). -/
theorem C106_ranges (u : ℝ × ℝ × ℝ) (hx : u.1 ∈ Set.Ico (0 : ℝ) 1) (hy : u.2.1 ∈ Set.Ico (0 : ℝ) 1) (hz : u.2.2 ∈ Set.Ico (0 : ℝ) 1) :
    (randAngles u).1 ∈ Set.Ico 0 (2 * Real.pi) ∧ (randAngles u).2.1 ∈ Set.Ioc 0 Real.pi ∧ (randAngles u).2.2 ∈ Set.Ico 0 (2 * Real.pi) := by
  have hp := Real.pi_pos
  refine ⟨⟨?_, ?_⟩, ⟨?_, Real.arccos_le_pi _⟩, ⟨?_, ?_⟩⟩
  · exact mul_nonneg (by positivity) hx.1
  · have := hx.2; simp only [randAngles]; nlinarith
  · exact Real.arccos_pos.mpr (by linarith [hz.2])
  · exact mul_nonneg (by positivity) hy.1
  · have := hy.2; simp only [randAngles]; nlinarith

/-- A fixed vector, rotated at random, has no preferred direction. -/
theorem C106_direction (v : Fin 3 → ℝ) (g : Matrix (Fin 3) (Fin 3) ℝ) (hg : IsRotation g) :
    (unif3.map fun u => randMatrix u *ᵥ v).map (fun w => g *ᵥ w) = unif3.map fun u => randMatrix u *ᵥ v := by
  have hm := randMatrix_continuous.measurable
  have ha : Continuous fun R : Fin 3 → Fin 3 → ℝ => Matrix.of R *ᵥ v := by
    refine continuous_pi fun i => ?_
    simp only [Matrix.mulVec, dotProduct, Matrix.of_apply]
    fun_prop
  have hg' : Continuous fun w : Fin 3 → ℝ => g *ᵥ w := by
    refine continuous_pi fun i => ?_
    simp only [Matrix.mulVec, dotProduct]
    fun_prop
  have hl : Continuous fun (R : Fin 3 → Fin 3 → ℝ) (i j : Fin 3) => (g * Matrix.of R) i j := by
    simpa using translate_measurable g 1
  have e : (unif3.map fun u => randMatrix u *ᵥ v) = (unif3.map fun u i j => randMatrix u i j).map fun R => Matrix.of R *ᵥ v := by
    rw [Measure.map_map ha.measurable hm]; rfl
  rw [e, Measure.map_map hg'.measurable ha.measurable]
  conv_rhs => rw [← C106_matrix.1.inv g hg, Measure.map_map ha.measurable hl.measurable]
  congr 1
  funext R
  simp only [Function.comp]
  rw [Matrix.mulVec_mulVec]
  rfl

/-- The numbers are in `[0, 1)` with probability one, and such numbers exist. -/
theorem C106_concrete : unif3 Set.univ = 1 ∧ (∀ᵐ u ∂unif3, u.1 ∈ Set.Ico (0 : ℝ) 1 ∧ u.2.1 ∈ Set.Ico (0 : ℝ) 1 ∧ u.2.2 ∈ Set.Ico (0 : ℝ) 1) ∧
    randMatrix (0, 0, 1 / 2) = !![1, 0, 0; 0, 0, -1; 0, 1, 0] := by
  have h0 : ∀ᵐ z ∂unif, z ∈ Set.Ico (0 : ℝ) 1 := ae_restrict_mem measurableSet_Ico
  refine ⟨measure_univ, ?_, ?_⟩
  · have hx : ∀ᵐ u ∂unif3, u.1 ∈ Set.Ico (0 : ℝ) 1 := Measure.quasiMeasurePreserving_fst.ae h0
    have hy : ∀ᵐ u ∂unif3, u.2.1 ∈ Set.Ico (0 : ℝ) 1 := (Measure.quasiMeasurePreserving_fst.comp Measure.quasiMeasurePreserving_snd).ae h0
    have hz : ∀ᵐ u ∂unif3, u.2.2 ∈ Set.Ico (0 : ℝ) 1 := (Measure.quasiMeasurePreserving_snd.comp Measure.quasiMeasurePreserving_snd).ae h0
    filter_upwards [hx, hy, hz] with u a b c
    exact ⟨a, b, c⟩
  · ext i j
    fin_cases i <;> fin_cases j <;> simp [randMatrix, randAngles, anglesToMatrix, matrixY, matrixX, Matrix.mul_apply, Fin.sum_univ_three]

end E3nn.SO3
