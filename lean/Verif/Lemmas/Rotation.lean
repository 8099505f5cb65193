import Verif.Model.Rotation
import Verif.Spec.Rotation
import Mathlib.Tactic

namespace E3nn.Rot

open Matrix

/-- Rotation by the angle `t` around the unit vector `n` (Rodrigues). -/
noncomputable def rodrigues (n : Vec) (t : ℝ) : Mat := fun i j =>
  Real.cos t * (if i = j then 1 else 0) + (1 - Real.cos t) * (n i * n j) +
    Real.sin t * !![0, -n 2, n 1; n 2, 0, -n 0; -n 1, n 0, 0] i j

/-- The rotation of a unit quaternion. -/
def quatMat (q : Quat) : Mat :=
  !![q 0 ^ 2 + q 1 ^ 2 - q 2 ^ 2 - q 3 ^ 2, 2 * (q 1 * q 2 - q 0 * q 3), 2 * (q 1 * q 3 + q 0 * q 2);
     2 * (q 1 * q 2 + q 0 * q 3), q 0 ^ 2 - q 1 ^ 2 + q 2 ^ 2 - q 3 ^ 2, 2 * (q 2 * q 3 - q 0 * q 1);
     2 * (q 1 * q 3 - q 0 * q 2), 2 * (q 2 * q 3 + q 0 * q 1), q 0 ^ 2 - q 1 ^ 2 - q 2 ^ 2 + q 3 ^ 2]

theorem vnormSq_pos {v : Vec} (h : v ≠ 0) : 0 < vnormSq v := by
  by_contra hn
  apply h
  have h0 := sq_nonneg (v 0)
  have h1 := sq_nonneg (v 1)
  have h2 := sq_nonneg (v 2)
  unfold vnormSq at hn
  funext i
  fin_cases i
  · exact pow_eq_zero_iff (two_ne_zero) |>.mp (show v 0 ^ 2 = 0 by linarith)
  · exact pow_eq_zero_iff (two_ne_zero) |>.mp (show v 1 ^ 2 = 0 by linarith)
  · exact pow_eq_zero_iff (two_ne_zero) |>.mp (show v 2 ^ 2 = 0 by linarith)

theorem normalize_eq {v : Vec} (h : v ≠ 0) (i : Fin 3) : normalize v i = v i / Real.sqrt (vnormSq v) := by
  have := vnormSq_pos h
  unfold normalize vnormSq at *
  simp [this]

theorem normalize_unit {v : Vec} (h : v ≠ 0) : vnormSq (normalize v) = 1 := by
  have hp := vnormSq_pos h
  unfold vnormSq
  simp only [normalize_eq h, div_pow, Real.sq_sqrt hp.le]
  rw [← add_div, ← add_div]
  exact div_self hp.ne'

theorem normalize_zero : normalize 0 = 0 := by
  funext i; simp [normalize]

theorem normalize_of_unit {v : Vec} (h : vnormSq v = 1) : normalize v = v := by
  have hv : v ≠ 0 := by rintro rfl; simp [vnormSq] at h
  funext i
  rw [normalize_eq hv, h]; simp

theorem clip_of_mem {x : ℝ} (h1 : -1 ≤ x) (h2 : x ≤ 1) : clip x = x := by
  unfold clip; rw [min_eq_left h2, max_eq_right h1]

theorem abs_le_of_unit {x y z : ℝ} (h : x ^ 2 + y ^ 2 + z ^ 2 = 1) : (-1 ≤ x ∧ x ≤ 1) ∧ (-1 ≤ y ∧ y ≤ 1) ∧ (-1 ≤ z ∧ z ≤ 1) := by
  refine ⟨⟨?_, ?_⟩, ⟨?_, ?_⟩, ?_, ?_⟩ <;> nlinarith [sq_nonneg x, sq_nonneg y, sq_nonneg z]

theorem sin_arctan2 {y x : ℝ} (h : ¬ (x = 0 ∧ y = 0)) : Real.sin (arctan2 y x) = y / Real.sqrt (x ^ 2 + y ^ 2) := by
  unfold arctan2
  rw [Complex.sin_arg, Complex.norm_eq_sqrt_sq_add_sq]

theorem cos_arctan2 {y x : ℝ} (h : ¬ (x = 0 ∧ y = 0)) : Real.cos (arctan2 y x) = x / Real.sqrt (x ^ 2 + y ^ 2) := by
  unfold arctan2
  rw [Complex.cos_arg, Complex.norm_eq_sqrt_sq_add_sq]
  intro hc
  apply h
  exact ⟨congrArg Complex.re hc, congrArg Complex.im hc⟩

theorem unitToAngles_spec {x y z : ℝ} (h : x ^ 2 + y ^ 2 + z ^ 2 = 1) :
    Real.sin (unitToAngles x y z).2 * Real.sin (unitToAngles x y z).1 = x ∧ Real.cos (unitToAngles x y z).2 = y ∧
      Real.sin (unitToAngles x y z).2 * Real.cos (unitToAngles x y z).1 = z ∧
      0 ≤ (unitToAngles x y z).2 ∧ (unitToAngles x y z).2 ≤ Real.pi := by
  by_cases h0 : x = 0 ∧ z = 0
  · obtain ⟨rfl, rfl⟩ := h0
    have : (y - 1) * (y + 1) = 0 := by linarith
    rcases mul_eq_zero.mp this with h1 | h1
    · have : y = 1 := by linarith
      subst this
      simp [unitToAngles, Real.pi_pos.le]
    · have : y = -1 := by linarith
      subst this
      have e : (unitToAngles 0 (-1) 0).2 = Real.pi := by
        unfold unitToAngles
        simp only
        rw [if_neg (by norm_num), if_pos trivial]
      rw [e]
      simp [Real.pi_pos.le]
  · have hp : 0 < x ^ 2 + z ^ 2 := by
      rcases not_and_or.mp h0 with h1 | h1
      · have := sq_pos_of_ne_zero h1; nlinarith [sq_nonneg z]
      · have := sq_pos_of_ne_zero h1; nlinarith [sq_nonneg x]
    have hy1 : y ≠ 1 := by rintro rfl; linarith
    have hy2 : y ≠ -1 := by rintro rfl; linarith
    obtain ⟨_, ⟨hl, hu⟩, _⟩ := abs_le_of_unit h
    have hb : (unitToAngles x y z).2 = Real.arccos y := by simp [unitToAngles, h0, hy1, hy2]
    have ha : (unitToAngles x y z).1 = arctan2 x z := by simp [unitToAngles, h0]
    rw [hb, ha, Real.cos_arccos hl hu, Real.sin_arccos, sin_arctan2 (fun h' => h0 ⟨h'.2, h'.1⟩), cos_arctan2 (fun h' => h0 ⟨h'.2, h'.1⟩)]
    have e : 1 - y ^ 2 = z ^ 2 + x ^ 2 := by linarith
    have hs : Real.sqrt (z ^ 2 + x ^ 2) ≠ 0 := by rw [Real.sqrt_ne_zero']; linarith
    rw [e]
    refine ⟨?_, rfl, ?_, Real.arccos_nonneg y, Real.arccos_le_pi y⟩
    · field_simp
    · field_simp

theorem unitToAngles_fst_mem (x y z : ℝ) : -Real.pi < (unitToAngles x y z).1 ∧ (unitToAngles x y z).1 ≤ Real.pi :=
  ⟨Complex.neg_pi_lt_arg _, Complex.arg_le_pi _⟩

theorem xyzToAngles_spec {v : Vec} (hv : v ≠ 0) :
    anglesToXyz (xyzToAngles v).1 (xyzToAngles v).2 = normalize v ∧ 0 ≤ (xyzToAngles v).2 ∧ (xyzToAngles v).2 ≤ Real.pi := by
  have hu := normalize_unit hv
  obtain ⟨⟨a1, a2⟩, ⟨b1, b2⟩, ⟨c1, c2⟩⟩ := abs_le_of_unit hu
  unfold xyzToAngles
  rw [clip_of_mem a1 a2, clip_of_mem b1 b2, clip_of_mem c1 c2]
  obtain ⟨h1, h2, h3, h4, h5⟩ := unitToAngles_spec hu
  refine ⟨?_, h4, h5⟩
  funext i
  fin_cases i
  · exact h1
  · exact h2
  · exact h3

theorem matrixY_rot (t : ℝ) : IsRotation (matrixY t) := by
  have h := Real.sin_sq_add_cos_sq t
  constructor
  · ext i j
    fin_cases i <;> fin_cases j <;> simp [matrixY, Matrix.mul_apply, Fin.sum_univ_three] <;> grind
  · simp [matrixY, Matrix.det_fin_three]; grind

theorem matrixX_rot (t : ℝ) : IsRotation (matrixX t) := by
  have h := Real.sin_sq_add_cos_sq t
  constructor
  · ext i j
    fin_cases i <;> fin_cases j <;> simp [matrixX, Matrix.mul_apply, Fin.sum_univ_three] <;> grind
  · simp [matrixX, Matrix.det_fin_three]; grind

theorem matrixZ_rot (t : ℝ) : IsRotation (matrixZ t) := by
  have h := Real.sin_sq_add_cos_sq t
  constructor
  · ext i j
    fin_cases i <;> fin_cases j <;> simp [matrixZ, Matrix.mul_apply, Fin.sum_univ_three] <;> grind
  · simp [matrixZ, Matrix.det_fin_three]; grind

theorem IsRotation.mul {R S : Mat} (hR : IsRotation R) (hS : IsRotation S) : IsRotation (R * S) := by
  constructor
  · rw [Matrix.transpose_mul, Matrix.mul_assoc, ← Matrix.mul_assoc S, hS.1, Matrix.one_mul, hR.1]
  · rw [Matrix.det_mul, hR.2, hS.2, one_mul]

theorem IsRotation.left {R : Mat} (hR : IsRotation R) : Rᵀ * R = 1 := mul_eq_one_comm.mp hR.1

theorem IsRotation.transpose {R : Mat} (hR : IsRotation R) : IsRotation Rᵀ :=
  ⟨by rw [Matrix.transpose_transpose]; exact hR.left, by rw [Matrix.det_transpose, hR.2]⟩

theorem anglesToMatrix_rot (a b c : ℝ) : IsRotation (anglesToMatrix a b c) :=
  ((matrixY_rot a).mul (matrixX_rot b)).mul (matrixY_rot c)

theorem anglesToMatrix_ey (a b : ℝ) : anglesToMatrix a b 0 *ᵥ ![0, 1, 0] = anglesToXyz a b := by
  funext i
  fin_cases i <;> simp [anglesToMatrix, matrixY, matrixX, anglesToXyz, Matrix.mulVec, dotProduct, Fin.sum_univ_three, Matrix.mul_apply] <;> ring

/-- A rotation that fixes `e_y` is a rotation around `y`. -/
theorem fix_ey {R : Mat} (hR : IsRotation R) (h : R *ᵥ ![0, 1, 0] = ![0, 1, 0]) :
    R = matrixY (arctan2 (R 0 2) (R 0 0)) := by
  have h0 := congrFun h 0
  have h1 := congrFun h 1
  have h2 := congrFun h 2
  simp [Matrix.mulVec, dotProduct, Fin.sum_univ_three] at h0 h1 h2
  have o00 := congrFun (congrFun hR.1 0) 0
  have o11 := congrFun (congrFun hR.1 1) 1
  have o02 := congrFun (congrFun hR.1 0) 2
  simp [Matrix.mul_apply, Fin.sum_univ_three, h0, h1, h2] at o00 o11 o02
  have hd := hR.2
  rw [Matrix.det_fin_three] at hd
  simp only [h0, h1, h2] at hd
  have h10 : R 1 0 = 0 := by nlinarith [sq_nonneg (R 1 0), sq_nonneg (R 1 2)]
  have h12 : R 1 2 = 0 := by nlinarith [sq_nonneg (R 1 0), sq_nonneg (R 1 2)]
  simp only [h10, h12] at hd
  have h20 : R 2 0 = - R 0 2 := by grind
  have h22 : R 2 2 = R 0 0 := by grind
  have hne : ¬ (R 0 0 = 0 ∧ R 0 2 = 0) := by rintro ⟨e1, e2⟩; rw [e1, e2] at o00; norm_num at o00
  have hs := sin_arctan2 hne
  have hc := cos_arctan2 hne
  have e : R 0 0 ^ 2 + R 0 2 ^ 2 = 1 := by linarith
  rw [e, Real.sqrt_one, div_one] at hs hc
  ext i j
  fin_cases i <;> fin_cases j <;> simp [matrixY, hs, hc, h0, h1, h2, h10, h12, h20, h22]

theorem anglesToMatrix_split (a b c : ℝ) : anglesToMatrix a b c = anglesToMatrix a b 0 * matrixY c := by
  have : matrixY 0 = 1 := by
    ext i j; fin_cases i <;> fin_cases j <;> simp [matrixY]
  simp [anglesToMatrix, this]

theorem col_unit {R : Mat} (hR : IsRotation R) : vnormSq (R *ᵥ ![0, 1, 0]) = 1 := by
  have h := congrFun (congrFun hR.left 1) 1
  simp [Matrix.mul_apply, Fin.sum_univ_three] at h
  simp [vnormSq, Matrix.mulVec, dotProduct, Fin.sum_univ_three]
  linarith

theorem matrixToAngles_spec {R : Mat} (hR : IsRotation R) :
    anglesToMatrix (matrixToAngles R).1 (matrixToAngles R).2.1 (matrixToAngles R).2.2 = R := by
  have hu := col_unit hR
  have hv : R *ᵥ ![0, 1, 0] ≠ 0 := by intro h; rw [h] at hu; simp [vnormSq] at hu
  obtain ⟨h1, h2, h3⟩ := xyzToAngles_spec hv
  rw [normalize_of_unit hu] at h1
  unfold matrixToAngles
  simp only
  generalize xyzToAngles (R *ᵥ ![0, 1, 0]) = ab at *
  have hS := anglesToMatrix_rot ab.1 ab.2 0
  have hfix : ((anglesToMatrix ab.1 ab.2 0)ᵀ * R) *ᵥ ![0, 1, 0] = ![0, 1, 0] := by
    rw [← Matrix.mulVec_mulVec, ← h1, ← anglesToMatrix_ey, Matrix.mulVec_mulVec, hS.left, Matrix.one_mulVec]
  rw [anglesToMatrix_split, ← fix_ey (hS.transpose.mul hR) hfix, ← Matrix.mul_assoc, hS.1, Matrix.one_mul]

theorem axisAngleToMatrix_rodrigues {v : Vec} (hv : v ≠ 0) (t : ℝ) :
    axisAngleToMatrix v t = rodrigues (normalize v) t := by
  obtain ⟨h1, -, -⟩ := xyzToAngles_spec hv
  rw [← h1]
  unfold axisAngleToMatrix
  simp only
  generalize xyzToAngles v = ab
  have ha := Real.sin_sq_add_cos_sq ab.1
  have hb := Real.sin_sq_add_cos_sq ab.2
  ext i j
  fin_cases i <;> fin_cases j <;>
    simp [anglesToMatrix, matrixY, matrixX, anglesToXyz, Matrix.mul_apply, Fin.sum_univ_three, rodrigues] <;> grind

end E3nn.Rot
