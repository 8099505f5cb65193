import Verif.Lemmas.Rotation
import Mathlib.Analysis.SpecialFunctions.Exponential
import Mathlib.Analysis.SpecialFunctions.Trigonometric.Deriv
import Mathlib.Analysis.Calculus.MeanValue

namespace E3nn.Rot

open Matrix

theorem matrixY_zero : matrixY 0 = 1 := by
  ext i j; fin_cases i <;> fin_cases j <;> simp [matrixY]

theorem matrixY_two_pi : matrixY (2 * Real.pi) = 1 := by
  ext i j; fin_cases i <;> fin_cases j <;> simp [matrixY]

theorem axisAngleToMatrix_rot (v : Vec) (t : ℝ) : IsRotation (axisAngleToMatrix v t) :=
  ((anglesToMatrix_rot _ _ _).mul (matrixY_rot t)).mul (anglesToMatrix_rot _ _ _).transpose

theorem axisAngleToMatrix_one {v : Vec} {t : ℝ} (h : matrixY t = 1) : axisAngleToMatrix v t = 1 := by
  unfold axisAngleToMatrix
  simp only [h, Matrix.mul_one]
  exact (anglesToMatrix_rot _ _ _).1

theorem quaternionToMatrix_eq {q : Quat} (hq : qnormSq q = 1) : quaternionToMatrix q = quatMat q := by
  unfold qnormSq at hq
  have hl : -1 ≤ q 0 := by nlinarith [sq_nonneg (q 1), sq_nonneg (q 2), sq_nonneg (q 3)]
  have hu : q 0 ≤ 1 := by nlinarith [sq_nonneg (q 1), sq_nonneg (q 2), sq_nonneg (q 3)]
  unfold quaternionToMatrix quaternionToAxisAngle
  simp only [clip_of_mem hl hu]
  by_cases hv : (![q 1, q 2, q 3] : Vec) = 0
  · have h1 : q 1 = 0 := congrFun hv 0
    have h2 : q 2 = 0 := congrFun hv 1
    have h3 : q 3 = 0 := congrFun hv 2
    rw [h1, h2, h3] at hq
    have hc : (q 0 - 1) * (q 0 + 1) = 0 := by linarith
    rw [axisAngleToMatrix_one]
    · ext i j
      fin_cases i <;> fin_cases j <;> simp [quatMat, h1, h2, h3] <;> linarith
    · rcases mul_eq_zero.mp hc with h | h
      · rw [show q 0 = 1 by linarith, Real.arccos_one, mul_zero, matrixY_zero]
      · rw [show q 0 = -1 by linarith, Real.arccos_neg_one, matrixY_two_pi]
  · have hn := normalize_unit hv
    have hp := vnormSq_pos hv
    rw [axisAngleToMatrix_rodrigues (by intro h; rw [h] at hn; simp [vnormSq] at hn), normalize_of_unit hn]
    have hs : 1 - q 0 ^ 2 = vnormSq ![q 1, q 2, q 3] := by simp [vnormSq]; linarith
    have e1 : Real.cos (2 * Real.arccos (q 0)) = 2 * q 0 ^ 2 - 1 := by
      rw [Real.cos_two_mul, Real.cos_arccos hl hu]
    have e2 : Real.sin (2 * Real.arccos (q 0)) = 2 * Real.sqrt (vnormSq ![q 1, q 2, q 3]) * q 0 := by
      rw [Real.sin_two_mul, Real.cos_arccos hl hu, Real.sin_arccos, hs]
    have hr : Real.sqrt (vnormSq ![q 1, q 2, q 3]) ^ 2 = 1 - q 0 ^ 2 := by rw [Real.sq_sqrt hp.le, hs]
    have hr0 : Real.sqrt (vnormSq ![q 1, q 2, q 3]) ≠ 0 := (Real.sqrt_pos.mpr hp).ne'
    have n0 := normalize_eq hv 0
    have n1 := normalize_eq hv 1
    have n2 := normalize_eq hv 2
    generalize Real.sqrt (vnormSq ![q 1, q 2, q 3]) = r at *
    generalize normalize ![q 1, q 2, q 3] = n at *
    simp only [Matrix.cons_val_zero, Matrix.cons_val_one, Matrix.cons_val] at n0 n1 n2
    have m0 : n 0 * r = q 1 := by rw [n0]; field_simp
    have m1 : n 1 * r = q 2 := by rw [n1]; field_simp
    have m2 : n 2 * r = q 3 := by rw [n2]; field_simp
    clear hv hp n0 n1 n2 hs hl hu hr0
    unfold vnormSq at hn
    ext i j
    fin_cases i <;> fin_cases j <;>
      simp [rodrigues, quatMat, e1, e2] <;> rw [← m0, ← m1, ← m2] at * <;> clear e1 e2 m0 m1 m2 <;> grind

theorem quatMat_mul (p q : Quat) : quatMat (composeQuaternion p q) = quatMat p * quatMat q := by
  ext i j
  fin_cases i <;> fin_cases j <;> simp [quatMat, composeQuaternion, Matrix.mul_apply, Fin.sum_univ_three] <;> ring

theorem quatMat_inv (q : Quat) : quatMat (inverseQuaternion q) = (quatMat q)ᵀ := by
  ext i j
  fin_cases i <;> fin_cases j <;> simp [quatMat, inverseQuaternion] <;> ring

theorem quatMat_neg (q : Quat) : quatMat (-q) = quatMat q := by
  ext i j
  fin_cases i <;> fin_cases j <;> simp [quatMat]

theorem qnormSq_compose (p q : Quat) : qnormSq (composeQuaternion p q) = qnormSq p * qnormSq q := by
  simp [qnormSq, composeQuaternion]; ring

theorem qnormSq_inv (q : Quat) : qnormSq (inverseQuaternion q) = qnormSq q := by
  simp [qnormSq, inverseQuaternion]

theorem qnormSq_neg (q : Quat) : qnormSq (-q) = qnormSq q := by
  simp [qnormSq]

theorem axisAngleToQuaternion_unit {v : Vec} (hv : v ≠ 0) (t : ℝ) : qnormSq (axisAngleToQuaternion v t) = 1 := by
  have hn := normalize_unit hv
  have h := Real.sin_sq_add_cos_sq (t / 2)
  unfold vnormSq at hn
  simp [qnormSq, axisAngleToQuaternion]
  grind

theorem axisAngleToQuaternion_mat {v : Vec} (hv : v ≠ 0) (t : ℝ) :
    quatMat (axisAngleToQuaternion v t) = rodrigues (normalize v) t := by
  have hn := normalize_unit hv
  have h := Real.sin_sq_add_cos_sq (t / 2)
  have e1 : Real.cos t = 2 * Real.cos (t / 2) ^ 2 - 1 := by rw [← Real.cos_two_mul]; congr 1; ring
  have e2 : Real.sin t = 2 * Real.sin (t / 2) * Real.cos (t / 2) := by rw [← Real.sin_two_mul]; congr 1; ring
  unfold vnormSq at hn
  ext i j
  fin_cases i <;> fin_cases j <;> simp [quatMat, axisAngleToQuaternion, rodrigues, e1, e2] <;> grind

theorem e_y_ne : (![0, 1, 0] : Vec) ≠ 0 := by
  intro h; have := congrFun h 1; simp at this

theorem e_x_ne : (![1, 0, 0] : Vec) ≠ 0 := by
  intro h; have := congrFun h 0; simp at this

theorem rodrigues_ey (t : ℝ) : rodrigues ![0, 1, 0] t = matrixY t := by
  ext i j; fin_cases i <;> fin_cases j <;> simp [rodrigues, matrixY]

theorem rodrigues_ex (t : ℝ) : rodrigues ![1, 0, 0] t = matrixX t := by
  ext i j; fin_cases i <;> fin_cases j <;> simp [rodrigues, matrixX]

theorem normalize_ey : normalize ![0, 1, 0] = ![0, 1, 0] := normalize_of_unit (by simp [vnormSq])
theorem normalize_ex : normalize ![1, 0, 0] = ![1, 0, 0] := normalize_of_unit (by simp [vnormSq])

theorem anglesToQuaternion_mat (a b c : ℝ) : quatMat (anglesToQuaternion a b c) = anglesToMatrix a b c := by
  unfold anglesToQuaternion
  rw [quatMat_mul, quatMat_mul, axisAngleToQuaternion_mat e_y_ne, axisAngleToQuaternion_mat e_y_ne,
    axisAngleToQuaternion_mat e_x_ne, normalize_ey, normalize_ex, rodrigues_ey, rodrigues_ex, rodrigues_ey,
    anglesToMatrix, Matrix.mul_assoc]

theorem anglesToQuaternion_unit (a b c : ℝ) : qnormSq (anglesToQuaternion a b c) = 1 := by
  unfold anglesToQuaternion
  rw [qnormSq_compose, qnormSq_compose, axisAngleToQuaternion_unit e_y_ne, axisAngleToQuaternion_unit e_y_ne,
    axisAngleToQuaternion_unit e_x_ne]
  norm_num

/-- Every rotation comes from a unit quaternion. -/
theorem exists_quat {R : Mat} (hR : IsRotation R) : ∃ q, qnormSq q = 1 ∧ quatMat q = R :=
  ⟨anglesToQuaternion (matrixToAngles R).1 (matrixToAngles R).2.1 (matrixToAngles R).2.2, anglesToQuaternion_unit _ _ _,
    by rw [anglesToQuaternion_mat, matrixToAngles_spec hR]⟩

/-- ... with non-negative real part. -/
theorem exists_quat_nonneg {R : Mat} (hR : IsRotation R) : ∃ q, qnormSq q = 1 ∧ quatMat q = R ∧ 0 ≤ q 0 := by
  obtain ⟨q, h1, h2⟩ := exists_quat hR
  by_cases h : 0 ≤ q 0
  · exact ⟨q, h1, h2, h⟩
  · exact ⟨-q, by rw [qnormSq_neg, h1], by rw [quatMat_neg, h2], by simp; linarith⟩

theorem arccos_double {c : ℝ} (h0 : 0 ≤ c) (h1 : c ≤ 1) : Real.arccos (2 * c ^ 2 - 1) = 2 * Real.arccos c := by
  have e : 2 * c ^ 2 - 1 = Real.cos (2 * Real.arccos c) := by
    rw [Real.cos_two_mul, Real.cos_arccos (by linarith) h1]
  have g1 := Real.arccos_nonneg c
  have g2 : Real.arccos c ≤ Real.pi / 2 := Real.arccos_le_pi_div_two.mpr h0
  rw [e, Real.arccos_cos (by linarith) (by linarith)]

theorem rotationAngle_quatMat {q : Quat} (hq : qnormSq q = 1) :
    rotationAngleFromMatrix (quatMat q) = 2 * Real.arccos |q 0| := by
  unfold qnormSq at hq
  have hle : |q 0| ≤ 1 := by
    rw [abs_le]; constructor <;> nlinarith [sq_nonneg (q 1), sq_nonneg (q 2), sq_nonneg (q 3)]
  rw [← arccos_double (abs_nonneg _) hle, sq_abs]
  unfold rotationAngleFromMatrix
  have e : ((quatMat q) 0 0 + (quatMat q) 1 1 + (quatMat q) 2 2 - 1) / 2 = 2 * q 0 ^ 2 - 1 := by
    simp [quatMat]; linarith
  rw [e, clip_of_mem]
  · nlinarith [sq_nonneg (q 0)]
  · nlinarith [sq_nonneg (q 1), sq_nonneg (q 2), sq_nonneg (q 3)]

/-- The axis recovered from the matrix of a quaternion. -/
theorem matrixToAxisAngle_quatMat {q : Quat} (hq : qnormSq q = 1) (h0 : 0 < q 0) :
    matrixToAxisAngle (quatMat q) = quaternionToAxisAngle q := by
  have hq' := hq
  unfold qnormSq at hq'
  have hl : -1 ≤ q 0 := by nlinarith [sq_nonneg (q 1), sq_nonneg (q 2), sq_nonneg (q 3)]
  have hu : q 0 ≤ 1 := by nlinarith [sq_nonneg (q 1), sq_nonneg (q 2), sq_nonneg (q 3)]
  unfold matrixToAxisAngle quaternionToAxisAngle
  rw [rotationAngle_quatMat hq, clip_of_mem hl hu, abs_of_pos h0]
  congr 1
  have e : (![quatMat q 2 1 - quatMat q 1 2, quatMat q 0 2 - quatMat q 2 0, quatMat q 1 0 - quatMat q 0 1] : Vec) =
      fun i => 4 * q 0 * (![q 1, q 2, q 3] : Vec) i := by
    funext i; fin_cases i <;> simp [quatMat] <;> ring
  rw [e]
  have hc : 0 < 4 * q 0 := by linarith
  generalize 4 * q 0 = c at hc
  generalize (![q 1, q 2, q 3] : Vec) = v
  by_cases hv : v = 0
  · subst hv
    have : (fun i => c * (0 : Vec) i) = 0 := by funext i; simp
    rw [this]
  · have hv' : (fun i => c * v i) ≠ 0 := by
      intro h; apply hv; funext i; have := congrFun h i; simpa [hc.ne'] using this
    funext i
    rw [normalize_eq hv', normalize_eq hv]
    have : vnormSq (fun i => c * v i) = c ^ 2 * vnormSq v := by simp [vnormSq]; ring
    rw [this, Real.sqrt_mul (by positivity), Real.sqrt_sq hc.le]
    have := (Real.sqrt_pos.mpr (vnormSq_pos hv)).ne'
    field_simp

theorem trace_quatMat {q : Quat} (hq : qnormSq q = 1) : (quatMat q).trace = 4 * q 0 ^ 2 - 1 := by
  unfold qnormSq at hq
  simp [Matrix.trace, Fin.sum_univ_three, quatMat]
  linarith

theorem zero_axis_pi : axisAngleToMatrix 0 Real.pi = !![-1, 0, 0; 0, -1, 0; 0, 0, 1] := by
  have e : xyzToAngles 0 = (0, Real.pi / 2) := by
    have h1 : (⟨1, 0⟩ : ℂ) = 1 := rfl
    simp [xyzToAngles, normalize_zero, clip, unitToAngles, arctan2, h1]
  unfold axisAngleToMatrix
  rw [e]
  ext i j
  fin_cases i <;> fin_cases j <;> simp [anglesToMatrix, matrixY, matrixX, Matrix.vecMul, dotProduct, Fin.sum_univ_three]

/-- `1 + sin t K + (1 - cos t) K^2` is the exponential of `t K` when `K^3 = -K`. -/
theorem exp_cube_banach {A : Type*} [NormedRing A] [NormedAlgebra ℝ A] [CompleteSpace A] (K : A)
    (hK : K * K * K = -K) (t : ℝ) :
    NormedSpace.exp (t • K) = 1 + Real.sin t • K + (1 - Real.cos t) • (K * K) := by
  let f : ℝ → A := fun s => 1 + Real.sin s • K + (1 - Real.cos s) • (K * K)
  let g : ℝ → A := fun s => NormedSpace.exp (s • (-K)) * f s
  have hf : ∀ s, HasDerivAt f (Real.cos s • K + Real.sin s • (K * K)) s := by
    intro s
    have h1 := (Real.hasDerivAt_sin s).smul_const K
    have h2 := ((Real.hasDerivAt_cos s).const_sub 1).smul_const (K * K)
    have := (h1.const_add 1).add h2
    simp only [neg_neg] at this
    exact this
  have hg : ∀ s, HasDerivAt g 0 s := by
    intro s
    have h1 := hasDerivAt_exp_smul_const (𝕂 := ℝ) (-K) s
    have h2 := h1.mul (hf s)
    refine h2.congr_deriv ?_
    rw [mul_assoc, ← mul_add]
    have : -K * f s + (Real.cos s • K + Real.sin s • (K * K)) = 0 := by
      show -K * (1 + Real.sin s • K + (1 - Real.cos s) • (K * K)) + _ = 0
      rw [mul_add, mul_add, mul_smul_comm, mul_smul_comm, neg_mul, neg_mul, neg_mul, ← mul_assoc, hK, mul_one]
      generalize K * K = K2
      module
    rw [this, mul_zero]
  have hconst : ∀ s, g s = g 0 := fun s =>
    is_const_of_deriv_eq_zero (fun s => (hg s).differentiableAt) (fun s => (hg s).deriv) s 0
  have h0 : g 0 = 1 := by
    show NormedSpace.exp ((0 : ℝ) • (-K)) * (1 + Real.sin 0 • K + (1 - Real.cos 0) • (K * K)) = 1
    simp
  have h1 : NormedSpace.exp (t • (-K)) * f t = 1 := (hconst t).trans h0
  have hcomm : NormedSpace.exp (t • K) * NormedSpace.exp (t • (-K)) = 1 := by
    let _ : NormedAlgebra ℚ A := NormedAlgebra.restrictScalars ℚ ℝ A
    have : IsUnit (NormedSpace.exp (t • K)) := NormedSpace.isUnit_exp _
    rw [smul_neg, ← Ring.inverse_exp, Ring.mul_inverse_cancel _ this]
  calc NormedSpace.exp (t • K) = NormedSpace.exp (t • K) * (NormedSpace.exp (t • (-K)) * f t) := by rw [h1, mul_one]
    _ = f t := by rw [← mul_assoc, hcomm, one_mul]

theorem exp_cube (K : Mat) (hK : K * K * K = -K) (t : ℝ) :
    NormedSpace.exp (t • K) = 1 + Real.sin t • K + (1 - Real.cos t) • (K * K) := by
  open scoped Matrix.Norms.Operator in exact exp_cube_banach K hK t

theorem exp_rodrigues {n : Vec} (hn : vnormSq n = 1) (t : ℝ) : logCoordinatesToMatrix (fun i => n i * t) = rodrigues n t := by
  have hg : logGenerator (fun i => n i * t) = t • logGenerator n := by
    unfold logGenerator
    ext i j; fin_cases i <;> fin_cases j <;> simp [mul_comm]
  unfold logCoordinatesToMatrix
  rw [hg]
  unfold vnormSq at hn
  rw [exp_cube]
  · ext i j
    fin_cases i <;> fin_cases j <;> simp [rodrigues, logGenerator, Matrix.mul_apply, Fin.sum_univ_three] <;> grind
  · ext i j
    fin_cases i <;> fin_cases j <;> simp [logGenerator, Matrix.mul_apply, Fin.sum_univ_three] <;> grind

theorem logCoordinatesToMatrix_zero : logCoordinatesToMatrix 0 = 1 := by
  unfold logCoordinatesToMatrix
  rw [show logGenerator 0 = 0 by simp [logGenerator], NormedSpace.exp_zero]

theorem unit_ne {n : Vec} (hn : vnormSq n = 1) : n ≠ 0 := by
  rintro rfl; simp [vnormSq] at hn

theorem logCoordinatesToAxisAngle_eq {v : Vec} (hv : v ≠ 0) :
    logCoordinatesToAxisAngle v = (normalize v, Real.sqrt (vnormSq v)) := by
  have hp : v 0 ^ 2 + v 1 ^ 2 + v 2 ^ 2 > 0 := vnormSq_pos hv
  unfold logCoordinatesToAxisAngle
  ext1
  · rfl
  · simp only [if_pos hp]; rfl

theorem eq_normalize_mul {v : Vec} (hv : v ≠ 0) : v = fun i => normalize v i * Real.sqrt (vnormSq v) := by
  have hr0 := (Real.sqrt_pos.mpr (vnormSq_pos hv)).ne'
  funext i; rw [normalize_eq hv]; field_simp

theorem logCoordinatesToMatrix_eq (v : Vec) :
    logCoordinatesToMatrix v = axisAngleToMatrix (logCoordinatesToAxisAngle v).1 (logCoordinatesToAxisAngle v).2 := by
  by_cases hv : v = 0
  · subst hv
    rw [axisAngleToMatrix_one, logCoordinatesToMatrix_zero]
    simp [logCoordinatesToAxisAngle, matrixY_zero]
  · have hn := normalize_unit hv
    rw [logCoordinatesToAxisAngle_eq hv]
    simp only
    rw [axisAngleToMatrix_rodrigues (unit_ne hn), normalize_of_unit hn, ← exp_rodrigues hn, ← eq_normalize_mul hv]

/-- Axis-angle pairs produced by the conversions: a unit axis, or no axis and a whole turn. -/
theorem axisAngleToLog_mat {q : Quat} (hq : qnormSq q = 1) :
    logCoordinatesToMatrix (quaternionToLogCoordinates q) = quatMat q := by
  rw [← quaternionToMatrix_eq hq]
  by_cases hv : (![q 1, q 2, q 3] : Vec) = 0
  · have h1 : q 1 = 0 := congrFun hv 0
    have h2 : q 2 = 0 := congrFun hv 1
    have h3 : q 3 = 0 := congrFun hv 2
    rw [quaternionToMatrix_eq hq]
    have e : quaternionToLogCoordinates q = 0 := by
      funext i
      simp [quaternionToLogCoordinates, axisAngleToLogCoordinates, quaternionToAxisAngle, hv, normalize_zero]
    rw [e, logCoordinatesToMatrix_zero]
    simp [qnormSq, h1, h2, h3] at hq
    ext i j
    rcases hq with hq | hq <;>
    fin_cases i <;> fin_cases j <;> simp [quatMat, h1, h2, h3, hq]
  · have hn := normalize_unit hv
    unfold quaternionToLogCoordinates axisAngleToLogCoordinates quaternionToMatrix quaternionToAxisAngle
    rw [exp_rodrigues hn, axisAngleToMatrix_rodrigues (unit_ne hn), normalize_of_unit hn]

theorem logCoordinatesToQuaternion_unit (v : Vec) : qnormSq (logCoordinatesToQuaternion v) = 1 := by
  by_cases hv : v = 0
  · subst hv
    simp [logCoordinatesToQuaternion, logCoordinatesToAxisAngle, axisAngleToQuaternion, qnormSq]
  · unfold logCoordinatesToQuaternion
    rw [logCoordinatesToAxisAngle_eq hv]
    exact axisAngleToQuaternion_unit (unit_ne (normalize_unit hv)) _

theorem logCoordinatesToQuaternion_mat (v : Vec) : quatMat (logCoordinatesToQuaternion v) = logCoordinatesToMatrix v := by
  by_cases hv : v = 0
  · subst hv
    rw [logCoordinatesToMatrix_zero]
    ext i j
    fin_cases i <;> fin_cases j <;>
    simp [logCoordinatesToQuaternion, logCoordinatesToAxisAngle, axisAngleToQuaternion, quatMat]
  · rw [logCoordinatesToMatrix_eq]
    unfold logCoordinatesToQuaternion
    rw [logCoordinatesToAxisAngle_eq hv]
    have hn := normalize_unit hv
    rw [axisAngleToQuaternion_mat (unit_ne hn), axisAngleToMatrix_rodrigues (unit_ne hn)]

theorem rodrigues_turns {n : Vec} (hn : vnormSq n = 1) (t : ℝ) : TurnsAround n t (rodrigues n t) := by
  unfold vnormSq at hn
  constructor
  · funext i
    fin_cases i <;> simp [rodrigues, Matrix.mulVec, dotProduct, Fin.sum_univ_three] <;> grind
  · intro w hw
    simp [dotProduct, Fin.sum_univ_three] at hw
    funext i
    fin_cases i <;> simp [rodrigues, Matrix.mulVec, dotProduct, Fin.sum_univ_three, crossProduct] <;> grind

theorem turns_unique {n : Vec} (hn : vnormSq n = 1) {t : ℝ} {R S : Mat} (hR : TurnsAround n t R) (hS : TurnsAround n t S) :
    R = S := by
  have h : ∀ w, R *ᵥ w = S *ᵥ w := by
    intro w
    have hd : n ⬝ᵥ n = 1 := by simp [dotProduct, Fin.sum_univ_three]; unfold vnormSq at hn; linarith
    have hw : n ⬝ᵥ (w - (n ⬝ᵥ w) • n) = 0 := by
      rw [dotProduct_sub, dotProduct_smul, hd]; simp
    have e : w = (w - (n ⬝ᵥ w) • n) + (n ⬝ᵥ w) • n := by simp
    rw [e, Matrix.mulVec_add, Matrix.mulVec_add, Matrix.mulVec_smul, Matrix.mulVec_smul, hR.1, hS.1, hR.2 _ hw, hS.2 _ hw]
  ext i j
  have := congrFun (h (Pi.single j 1)) i
  simpa using this

theorem normalize_direction {v : Vec} (hv : v ≠ 0) : normalize v = direction v := by
  funext i
  rw [normalize_eq hv, direction, Pi.smul_apply, smul_eq_mul, div_eq_inv_mul]

theorem direction_unit {v : Vec} (hv : v ≠ 0) : vnormSq (direction v) = 1 := by
  rw [← normalize_direction hv, normalize_unit hv]

theorem matrixToAxisAngle_rodrigues {n : Vec} (hn : vnormSq n = 1) {t : ℝ} (h0 : 0 < t) (h1 : t < Real.pi) :
    matrixToAxisAngle (rodrigues n t) = (n, t) := by
  unfold vnormSq at hn
  have hs : 0 < Real.sin t := Real.sin_pos_of_pos_of_lt_pi h0 h1
  unfold matrixToAxisAngle rotationAngleFromMatrix
  have e1 : (rodrigues n t 0 0 + rodrigues n t 1 1 + rodrigues n t 2 2 - 1) / 2 = Real.cos t := by
    simp [rodrigues]; grind
  have e2 : (![rodrigues n t 2 1 - rodrigues n t 1 2, rodrigues n t 0 2 - rodrigues n t 2 0,
      rodrigues n t 1 0 - rodrigues n t 0 1] : Vec) = fun i => (2 * Real.sin t) * n i := by
    funext i; fin_cases i <;> simp [rodrigues] <;> ring
  rw [e1, e2, clip_of_mem (Real.neg_one_le_cos t) (Real.cos_le_one t), Real.arccos_cos h0.le h1.le]
  congr 1
  have hc : 0 < 2 * Real.sin t := by linarith
  generalize 2 * Real.sin t = c at hc
  have hv : vnormSq (fun i => c * n i) = c ^ 2 := by simp [vnormSq]; grind
  have hne : (fun i => c * n i) ≠ 0 := by
    intro h; rw [h] at hv; simp [vnormSq] at hv; exact hc.ne' (pow_eq_zero_iff two_ne_zero |>.mp hv.symm)
  funext i
  rw [normalize_eq hne, hv, Real.sqrt_sq hc.le]
  field_simp

end E3nn.Rot
