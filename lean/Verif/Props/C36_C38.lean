import Verif.Lemmas.Rotation2

/-!
# C36 Euler angles, C37 quaternions, C38 axis-angle, C57 log coordinates

`IsRotation` (orthogonal, determinant one), `TurnsAround n t R` (fixes `n`, turns the orthogonal
plane by `t` with the right hand rule), `direction v` are in `Verif.Spec.Rotation`.
-/

namespace E3nn.Rot

open Matrix

/-! ## C36 -/

/-- `angles_to_matrix` always gives a rotation. -/
theorem C36_rotation (a b c : ℝ) : IsRotation (anglesToMatrix a b c) := anglesToMatrix_rot a b c

/-- It is `R_y(a) R_x(b) R_y(c)`, each factor turning around its axis by the right hand rule. -/
theorem C36_factors (t : ℝ) : TurnsAround ![0, 1, 0] t (anglesToMatrix t 0 0) ∧
    TurnsAround ![1, 0, 0] t (anglesToMatrix 0 t 0) ∧ TurnsAround ![0, 0, 1] t (matrixZ t) ∧
    ∀ a b c, anglesToMatrix a b c = anglesToMatrix a 0 0 * anglesToMatrix 0 b 0 * anglesToMatrix c 0 0 := by
  have hx : matrixX 0 = 1 := by ext i j; fin_cases i <;> fin_cases j <;> simp [matrixX]
  refine ⟨?_, ?_, ?_, ?_⟩
  · have := rodrigues_turns (n := ![0, 1, 0]) (by simp [vnormSq]) t
    rw [rodrigues_ey] at this
    simpa [anglesToMatrix, matrixY_zero, hx] using this
  · have := rodrigues_turns (n := ![1, 0, 0]) (by simp [vnormSq]) t
    rw [rodrigues_ex] at this
    simpa [anglesToMatrix, matrixY_zero] using this
  · have := rodrigues_turns (n := ![0, 0, 1]) (by simp [vnormSq]) t
    have e : rodrigues ![0, 0, 1] t = matrixZ t := by
      ext i j; fin_cases i <;> fin_cases j <;> simp [rodrigues, matrixZ]
    rwa [e] at this
  · intro a b c
    simp [anglesToMatrix, matrixY_zero, hx]

/-- `angles_to_matrix(*matrix_to_angles(R)) = R` for every rotation, gimbal lock included. -/
theorem C36_round_trip (R : Mat) (hR : IsRotation R) :
    anglesToMatrix (matrixToAngles R).1 (matrixToAngles R).2.1 (matrixToAngles R).2.2 = R := matrixToAngles_spec hR

theorem arctan2_sin_cos {t : ℝ} (h0 : -Real.pi < t) (h1 : t ≤ Real.pi) : arctan2 (Real.sin t) (Real.cos t) = t := by
  unfold arctan2
  have := Complex.arg_cos_add_sin_mul_I (θ := t) ⟨h0, h1⟩
  convert this using 2
  apply Complex.ext <;> simp [Complex.cos_ofReal_re, Complex.sin_ofReal_re]

/-- The angles lie in the documented ranges. -/
theorem C36_ranges (R : Mat) (hR : IsRotation R) :
    (-Real.pi < (matrixToAngles R).1 ∧ (matrixToAngles R).1 ≤ Real.pi) ∧
    (0 ≤ (matrixToAngles R).2.1 ∧ (matrixToAngles R).2.1 ≤ Real.pi) ∧
    (-Real.pi < (matrixToAngles R).2.2 ∧ (matrixToAngles R).2.2 ≤ Real.pi) := by
  have hu := col_unit hR
  have hv : R *ᵥ ![0, 1, 0] ≠ 0 := by intro h; rw [h] at hu; simp [vnormSq] at hu
  obtain ⟨-, h2, h3⟩ := xyzToAngles_spec hv
  exact ⟨⟨Complex.neg_pi_lt_arg _, Complex.arg_le_pi _⟩, ⟨h2, h3⟩, ⟨Complex.neg_pi_lt_arg _, Complex.arg_le_pi _⟩⟩

theorem arctan2_scale {s y x : ℝ} (hs : 0 < s) : arctan2 (s * y) (s * x) = arctan2 y x := by
  unfold arctan2
  have : (⟨s * x, s * y⟩ : ℂ) = (s : ℂ) * ⟨x, y⟩ := by apply Complex.ext <;> simp
  rw [this, Complex.arg_real_mul _ hs]

/-- Away from gimbal lock the angles are recovered exactly. -/
theorem C36_angles_recovered (a b c : ℝ) (ha : -Real.pi < a ∧ a ≤ Real.pi) (hb : 0 < b ∧ b < Real.pi)
    (hc : -Real.pi < c ∧ c ≤ Real.pi) : matrixToAngles (anglesToMatrix a b c) = (a, b, c) := by
  have hs : 0 < Real.sin b := Real.sin_pos_of_pos_of_lt_pi hb.1 hb.2
  have hx : anglesToMatrix a b c *ᵥ ![0, 1, 0] = anglesToXyz a b := by
    rw [anglesToMatrix_split, ← Matrix.mulVec_mulVec, ← anglesToMatrix_ey]
    congr 1
    funext i; fin_cases i <;> simp [matrixY, Matrix.mulVec, dotProduct, Fin.sum_univ_three]
  have hu : vnormSq (anglesToXyz a b) = 1 := by rw [← hx]; exact col_unit (anglesToMatrix_rot a b c)
  have hab : xyzToAngles (anglesToXyz a b) = (a, b) := by
    have hu' : (Real.sin b * Real.sin a) ^ 2 + Real.cos b ^ 2 + (Real.sin b * Real.cos a) ^ 2 = 1 := hu
    obtain ⟨⟨a1, a2⟩, ⟨b1, b2⟩, ⟨c1, c2⟩⟩ := abs_le_of_unit hu'
    have hne : ¬ (Real.sin b * Real.sin a = 0 ∧ Real.sin b * Real.cos a = 0) := by
      rintro ⟨h1, h2⟩
      have := Real.sin_sq_add_cos_sq a
      rw [(mul_eq_zero.mp h1).resolve_left hs.ne', (mul_eq_zero.mp h2).resolve_left hs.ne'] at this
      norm_num at this
    have hsq := Real.sin_sq_add_cos_sq b
    have hy1 : Real.cos b ≠ 1 := by intro h; rw [h] at hsq; nlinarith
    have hy2 : Real.cos b ≠ -1 := by intro h; rw [h] at hsq; nlinarith
    unfold xyzToAngles
    rw [normalize_of_unit hu]
    show unitToAngles (clip (Real.sin b * Real.sin a)) (clip (Real.cos b)) (clip (Real.sin b * Real.cos a)) = _
    rw [clip_of_mem a1 a2, clip_of_mem b1 b2, clip_of_mem c1 c2]
    unfold unitToAngles
    simp only [if_neg hne, if_neg hy1, if_neg hy2]
    rw [arctan2_scale hs, arctan2_sin_cos ha.1 ha.2, Real.arccos_cos hb.1.le hb.2.le]
  unfold matrixToAngles
  simp only [hx, hab]
  congr 2
  rw [anglesToMatrix_split a b c, ← Matrix.mul_assoc, (anglesToMatrix_rot a b 0).left, Matrix.one_mul]
  simp [matrixY, arctan2_sin_cos hc.1 hc.2]

/-- `inverse_angles` gives the inverse rotation. -/
theorem C36_inverse (a b c : ℝ) :
    anglesToMatrix (inverseAngles a b c).1 (inverseAngles a b c).2.1 (inverseAngles a b c).2.2 = (anglesToMatrix a b c)ᵀ := by
  have hy : ∀ t, matrixY (-t) = (matrixY t)ᵀ := by
    intro t; ext i j; fin_cases i <;> fin_cases j <;> simp [matrixY]
  have hx : ∀ t, matrixX (-t) = (matrixX t)ᵀ := by
    intro t; ext i j; fin_cases i <;> fin_cases j <;> simp [matrixX]
  simp [inverseAngles, anglesToMatrix, hx, hy, Matrix.transpose_mul, Matrix.mul_assoc]

/-- `compose_angles` gives the product of the rotations. -/
theorem C36_compose (a1 b1 c1 a2 b2 c2 : ℝ) :
    let r := composeAngles a1 b1 c1 a2 b2 c2
    anglesToMatrix r.1 r.2.1 r.2.2 = anglesToMatrix a1 b1 c1 * anglesToMatrix a2 b2 c2 :=
  matrixToAngles_spec ((anglesToMatrix_rot _ _ _).mul (anglesToMatrix_rot _ _ _))

/-- `identity_angles` is the identity rotation. -/
theorem C36_identity : anglesToMatrix identityAngles.1 identityAngles.2.1 identityAngles.2.2 = 1 := by
  have hx : matrixX 0 = 1 := by ext i j; fin_cases i <;> fin_cases j <;> simp [matrixX]
  simp [identityAngles, anglesToMatrix, matrixY_zero, hx]

/-- `xyz_to_angles(v)` are the angles of a rotation taking `e_y` to the direction of `v`, and
`angles_to_xyz` undoes it, for every nonzero `v` (the poles included). -/
theorem C36_xyz (v : Vec) (hv : v ≠ 0) :
    anglesToXyz (xyzToAngles v).1 (xyzToAngles v).2 = direction v ∧
    anglesToMatrix (xyzToAngles v).1 (xyzToAngles v).2 0 *ᵥ ![0, 1, 0] = direction v := by
  rw [anglesToMatrix_ey, (xyzToAngles_spec hv).1, normalize_direction hv]
  exact ⟨rfl, rfl⟩

/-- `rotation_angle_from_matrix` of a rotation is the angle in `[0, π]` with
`1 + 2 cos = trace`; it is zero for the identity only. -/
theorem C36_rotation_angle (R : Mat) (hR : IsRotation R) :
    0 ≤ rotationAngleFromMatrix R ∧ rotationAngleFromMatrix R ≤ Real.pi ∧
    1 + 2 * Real.cos (rotationAngleFromMatrix R) = R.trace ∧ (rotationAngleFromMatrix R = 0 ↔ R = 1) := by
  refine ⟨Real.arccos_nonneg _, Real.arccos_le_pi _, ?_, ?_⟩
  all_goals obtain ⟨q, hq, rfl⟩ := exists_quat hR
  all_goals have hq' := hq; unfold qnormSq at hq'
  all_goals have hle : |q 0| ≤ 1 := by
              rw [abs_le]; constructor <;> nlinarith [sq_nonneg (q 1), sq_nonneg (q 2), sq_nonneg (q 3)]
  · rw [rotationAngle_quatMat hq, trace_quatMat hq, Real.cos_two_mul,
      Real.cos_arccos (by linarith [abs_nonneg (q 0)]) hle, sq_abs]
    ring
  · rw [rotationAngle_quatMat hq]
    constructor
    · intro h
      have h1 : Real.arccos |q 0| = 0 := by linarith
      have h2 : |q 0| = 1 := le_antisymm hle (Real.arccos_eq_zero.mp h1)
      have h3 : q 0 ^ 2 = 1 := by rw [← sq_abs, h2]; norm_num
      have z1 : q 1 = 0 := by nlinarith [sq_nonneg (q 1), sq_nonneg (q 2), sq_nonneg (q 3)]
      have z2 : q 2 = 0 := by nlinarith [sq_nonneg (q 1), sq_nonneg (q 2), sq_nonneg (q 3)]
      have z3 : q 3 = 0 := by nlinarith [sq_nonneg (q 1), sq_nonneg (q 2), sq_nonneg (q 3)]
      ext i j
      fin_cases i <;> fin_cases j <;> simp [quatMat, z1, z2, z3, h3]
    · intro h
      have := trace_quatMat hq
      rw [h] at this
      simp at this
      have h3 : q 0 ^ 2 = 1 := by linarith
      have h2 : |q 0| = 1 := by rw [← sq_abs] at h3; nlinarith [abs_nonneg (q 0)]
      rw [h2, Real.arccos_one, mul_zero]

/-- `rotation_angle_from_angles` is the angle between the two rotations (without leading axes). -/
theorem C36_angle_between (a1 b1 c1 a2 b2 c2 : ℝ) :
    rotationAngleFromAngles a1 b1 c1 a2 b2 c2 = 0 ↔ anglesToMatrix a1 b1 c1 = anglesToMatrix a2 b2 c2 := by
  have h2 := anglesToMatrix_rot a2 b2 c2
  unfold rotationAngleFromAngles
  rw [(C36_rotation_angle _ ((anglesToMatrix_rot a1 b1 c1).mul h2.transpose)).2.2.2]
  constructor
  · intro h
    have := congrArg (· * anglesToMatrix a2 b2 c2) h
    simpa [Matrix.mul_assoc, h2.left] using this
  · intro h; rw [h]; exact h2.1

/-- The hypotheses of the theorems above are met by a rotation in gimbal lock. -/
theorem C36_concrete : IsRotation (!![0, 0, 1; 0, 1, 0; -1, 0, 0] : Mat) := by
  constructor
  · ext i j; fin_cases i <;> fin_cases j <;> simp [Matrix.vecMul, dotProduct, Fin.sum_univ_three]
  · simp [Matrix.det_fin_three]

/-! ## C37 -/

/-- On unit quaternions, composing is multiplying the rotations; the result is a unit quaternion. -/
theorem C37_compose (p q : Quat) (hp : qnormSq p = 1) (hq : qnormSq q = 1) :
    qnormSq (composeQuaternion p q) = 1 ∧
    quaternionToMatrix (composeQuaternion p q) = quaternionToMatrix p * quaternionToMatrix q := by
  have h : qnormSq (composeQuaternion p q) = 1 := by rw [qnormSq_compose, hp, hq, one_mul]
  exact ⟨h, by rw [quaternionToMatrix_eq h, quaternionToMatrix_eq hp, quaternionToMatrix_eq hq, quatMat_mul]⟩

/-- `quaternion_to_matrix` gives a rotation for *every* quaternion (unit or not, even zero). -/
theorem C37_rotation (q : Quat) : IsRotation (quaternionToMatrix q) := axisAngleToMatrix_rot _ _

/-- `inverse_quaternion` is the inverse rotation, and the inverse for `compose_quaternion`. -/
theorem C37_inverse (q : Quat) (hq : qnormSq q = 1) :
    quaternionToMatrix (inverseQuaternion q) = (quaternionToMatrix q)ᵀ ∧
    composeQuaternion q (inverseQuaternion q) = identityQuaternion ∧
    composeQuaternion (inverseQuaternion q) q = identityQuaternion := by
  refine ⟨?_, ?_, ?_⟩
  · rw [quaternionToMatrix_eq hq, quaternionToMatrix_eq (by rw [qnormSq_inv, hq]), quatMat_inv]
  · unfold qnormSq at hq
    funext i; fin_cases i <;> simp [composeQuaternion, inverseQuaternion, identityQuaternion] <;> grind
  · unfold qnormSq at hq
    funext i; fin_cases i <;> simp [composeQuaternion, inverseQuaternion, identityQuaternion] <;> grind

/-- `compose_quaternion` is associative with unit `identity_quaternion`, whose matrix is `1`. -/
theorem C37_monoid (p q r : Quat) :
    composeQuaternion (composeQuaternion p q) r = composeQuaternion p (composeQuaternion q r) ∧
    composeQuaternion identityQuaternion q = q ∧ composeQuaternion q identityQuaternion = q ∧
    quaternionToMatrix identityQuaternion = 1 := by
  refine ⟨?_, ?_, ?_, ?_⟩
  · funext i; fin_cases i <;> simp [composeQuaternion] <;> ring
  · funext i; fin_cases i <;> simp [composeQuaternion, identityQuaternion]
  · funext i; fin_cases i <;> simp [composeQuaternion, identityQuaternion]
  · rw [quaternionToMatrix_eq (by simp [qnormSq, identityQuaternion])]
    ext i j; fin_cases i <;> fin_cases j <;> simp [quatMat, identityQuaternion]

/-- `q` and `-q` are the same rotation, and no other unit quaternion is. -/
theorem C37_double_cover (p q : Quat) (hp : qnormSq p = 1) (hq : qnormSq q = 1) :
    quaternionToMatrix p = quaternionToMatrix q ↔ p = q ∨ p = -q := by
  rw [quaternionToMatrix_eq hp, quaternionToMatrix_eq hq]
  constructor
  · intro h
    -- r = p q⁻¹ has matrix one, so r = ±1
    have hr : qnormSq (composeQuaternion p (inverseQuaternion q)) = 1 := by
      rw [qnormSq_compose, qnormSq_inv, hp, hq, one_mul]
    have hm : quatMat (composeQuaternion p (inverseQuaternion q)) = 1 := by
      rw [quatMat_mul, quatMat_inv, h, ← quaternionToMatrix_eq hq]
      exact (C37_rotation q).1
    have ht := trace_quatMat hr
    rw [hm] at ht
    simp at ht
    have hpq : composeQuaternion (composeQuaternion p (inverseQuaternion q)) q = p := by
      rw [(C37_monoid _ _ _).1, (C37_inverse q hq).2.2, (C37_monoid p p p).2.2.1]
    generalize composeQuaternion p (inverseQuaternion q) = r at *
    unfold qnormSq at hr
    have h3 : r 0 ^ 2 = 1 := by linarith
    have z1 : r 1 = 0 := by nlinarith [sq_nonneg (r 1), sq_nonneg (r 2), sq_nonneg (r 3)]
    have z2 : r 2 = 0 := by nlinarith [sq_nonneg (r 1), sq_nonneg (r 2), sq_nonneg (r 3)]
    have z3 : r 3 = 0 := by nlinarith [sq_nonneg (r 1), sq_nonneg (r 2), sq_nonneg (r 3)]
    rw [← hpq]
    rcases (show r 0 = 1 ∨ r 0 = -1 by
      have : (r 0 - 1) * (r 0 + 1) = 0 := by linarith
      rcases mul_eq_zero.mp this with h | h
      · left; linarith
      · right; linarith) with h | h
    · left; funext i; fin_cases i <;> simp [composeQuaternion, z1, z2, z3, h]
    · right; funext i; fin_cases i <;> simp [composeQuaternion, z1, z2, z3, h]
  · rintro (rfl | rfl)
    · rfl
    · rw [quatMat_neg]

/-- `axis_angle_to_quaternion` and `angles_to_quaternion` give unit quaternions of the right rotation. -/
theorem C37_conversions (v : Vec) (hv : v ≠ 0) (t a b c : ℝ) :
    qnormSq (axisAngleToQuaternion v t) = 1 ∧
    quaternionToMatrix (axisAngleToQuaternion v t) = axisAngleToMatrix v t ∧
    qnormSq (anglesToQuaternion a b c) = 1 ∧ quaternionToMatrix (anglesToQuaternion a b c) = anglesToMatrix a b c := by
  have h1 := axisAngleToQuaternion_unit hv t
  have h2 := anglesToQuaternion_unit a b c
  exact ⟨h1, by rw [quaternionToMatrix_eq h1, axisAngleToQuaternion_mat hv, axisAngleToMatrix_rodrigues hv], h2,
    by rw [quaternionToMatrix_eq h2, anglesToQuaternion_mat]⟩

/-- `quaternion_to_angles` gives the Euler angles of the same rotation. -/
theorem C37_to_angles (q : Quat) :
    anglesToMatrix (quaternionToAngles q).1 (quaternionToAngles q).2.1 (quaternionToAngles q).2.2 = quaternionToMatrix q :=
  matrixToAngles_spec (C37_rotation q)

/-- `rotation_angle_from_quaternion` is the rotation angle of the relative rotation. -/
theorem C37_rotation_angle (p q : Quat) (hp : qnormSq p = 1) (hq : qnormSq q = 1) :
    rotationAngleFromQuaternion p q = rotationAngleFromMatrix (quaternionToMatrix p * (quaternionToMatrix q)ᵀ) := by
  have hr : qnormSq (composeQuaternion p (inverseQuaternion q)) = 1 := by
    rw [qnormSq_compose, qnormSq_inv, hp, hq, one_mul]
  rw [quaternionToMatrix_eq hp, quaternionToMatrix_eq hq, ← quatMat_inv, ← quatMat_mul, rotationAngle_quatMat hr]
  have e : composeQuaternion p (inverseQuaternion q) 0 = p 0 * q 0 + p 1 * q 1 + p 2 * q 2 + p 3 * q 3 := by
    simp [composeQuaternion, inverseQuaternion]
  rw [e]
  unfold rotationAngleFromQuaternion
  have hle : |p 0 * q 0 + p 1 * q 1 + p 2 * q 2 + p 3 * q 3| ≤ 1 := by
    rw [← e]
    unfold qnormSq at hr
    generalize composeQuaternion p (inverseQuaternion q) = r at hr
    rw [abs_le]; constructor <;> nlinarith [sq_nonneg (r 1), sq_nonneg (r 2), sq_nonneg (r 3)]
  rw [min_eq_left hle]

/-- A unit quaternion that is neither real nor of real part zero, as required above. -/
theorem C37_concrete : qnormSq ![3/5, 0, 4/5, 0] = 1 := by simp [qnormSq]; norm_num

/-! ## C38 -/

/-- `axis_angle_to_matrix(v, t)` is the rotation by `t` around `v`, whatever the length of `v`. -/
theorem C38_turns (v : Vec) (hv : v ≠ 0) (t : ℝ) :
    IsRotation (axisAngleToMatrix v t) ∧ TurnsAround (direction v) t (axisAngleToMatrix v t) ∧
    ∀ R, TurnsAround (direction v) t R → R = axisAngleToMatrix v t := by
  have h : TurnsAround (direction v) t (axisAngleToMatrix v t) := by
    rw [axisAngleToMatrix_rodrigues hv, normalize_direction hv]
    exact rodrigues_turns (direction_unit hv) t
  exact ⟨axisAngleToMatrix_rot v t, h, fun R hR => turns_unique (direction_unit hv) hR h⟩

/-- Rotations around one axis add their angles. -/
theorem C38_add (v : Vec) (s t : ℝ) :
    axisAngleToMatrix v (s + t) = axisAngleToMatrix v s * axisAngleToMatrix v t ∧ axisAngleToMatrix v 0 = 1 ∧
    axisAngleToMatrix v (-t) = (axisAngleToMatrix v t)ᵀ := by
  have hy : matrixY (s + t) = matrixY s * matrixY t := by
    ext i j
    fin_cases i <;> fin_cases j <;>
      simp [matrixY, Matrix.vecMul, dotProduct, Fin.sum_univ_three, Real.cos_add, Real.sin_add] <;> ring
  refine ⟨?_, axisAngleToMatrix_one matrixY_zero, ?_⟩
  · unfold axisAngleToMatrix
    simp only
    have hR := (anglesToMatrix_rot (xyzToAngles v).1 (xyzToAngles v).2 0).left
    generalize anglesToMatrix (xyzToAngles v).1 (xyzToAngles v).2 0 = R at *
    calc R * matrixY (s + t) * Rᵀ = R * matrixY s * (1 * (matrixY t * Rᵀ)) := by
          rw [hy, Matrix.one_mul]; simp only [Matrix.mul_assoc]
      _ = _ := by rw [← hR]; simp only [Matrix.mul_assoc]
  · have hy : ∀ t, matrixY (-t) = (matrixY t)ᵀ := by
      intro t; ext i j; fin_cases i <;> fin_cases j <;> simp [matrixY]
    unfold axisAngleToMatrix
    simp [hy, Matrix.transpose_mul, Matrix.mul_assoc]

/-- `matrix_to_axis_angle` inverts `axis_angle_to_matrix` for angles strictly between 0 and π. -/
theorem C38_recovered (v : Vec) (hv : v ≠ 0) (t : ℝ) (h0 : 0 < t) (h1 : t < Real.pi) :
    matrixToAxisAngle (axisAngleToMatrix v t) = (direction v, t) := by
  rw [axisAngleToMatrix_rodrigues hv, normalize_direction hv, matrixToAxisAngle_rodrigues (direction_unit hv) h0 h1]

/-- Matrix to axis-angle and back is the identity for every rotation that is not a half turn ... -/
theorem C38_round_trip (R : Mat) (hR : IsRotation R) (h : R.trace ≠ -1) :
    axisAngleToMatrix (matrixToAxisAngle R).1 (matrixToAxisAngle R).2 = R ∧
    quaternionToMatrix (matrixToQuaternion R) = R ∧ qnormSq (matrixToQuaternion R) = 1 := by
  obtain ⟨q, hq, rfl, h0⟩ := exists_quat_nonneg hR
  have hpos : 0 < q 0 := by
    rcases h0.lt_or_eq with h0 | h0
    · exact h0
    · exfalso; apply h; rw [trace_quatMat hq, ← h0]; norm_num
  have e1 : axisAngleToMatrix (matrixToAxisAngle (quatMat q)).1 (matrixToAxisAngle (quatMat q)).2 = quatMat q := by
    rw [matrixToAxisAngle_quatMat hq hpos]; exact quaternionToMatrix_eq hq
  refine ⟨e1, ?_⟩
  unfold matrixToQuaternion
  by_cases hz : (matrixToAxisAngle (quatMat q)).1 = 0
  · rw [matrixToAxisAngle_quatMat hq hpos] at hz ⊢
    have hv : (![q 1, q 2, q 3] : Vec) = 0 := by
      by_contra hv
      have hn := normalize_unit hv
      simp only [quaternionToAxisAngle] at hz
      rw [hz] at hn
      simp [vnormSq] at hn
    have z1 : q 1 = 0 := congrFun hv 0
    have z2 : q 2 = 0 := congrFun hv 1
    have z3 : q 3 = 0 := congrFun hv 2
    have hq0 : q 0 = 1 := by unfold qnormSq at hq; rw [z1, z2, z3] at hq; nlinarith
    have e : axisAngleToQuaternion (quaternionToAxisAngle q).1 (quaternionToAxisAngle q).2 = q := by
      rw [hz]
      funext i
      fin_cases i <;> simp [axisAngleToQuaternion, normalize_zero, quaternionToAxisAngle, hq0, z1, z2, z3, clip]
    rw [e]
    exact ⟨quaternionToMatrix_eq hq, hq⟩
  · have hu := axisAngleToQuaternion_unit hz (matrixToAxisAngle (quatMat q)).2
    exact ⟨by rw [quaternionToMatrix_eq hu, axisAngleToQuaternion_mat hz, ← axisAngleToMatrix_rodrigues hz, e1], hu⟩

/-- ... but every half turn loses its axis: the result is always the half turn around `z`, and
`matrix_to_quaternion` returns the zero quaternion. -/
theorem C38_half_turn (R : Mat) (hR : IsRotation R) (h : R.trace = -1) :
    matrixToAxisAngle R = (0, Real.pi) ∧
    axisAngleToMatrix (matrixToAxisAngle R).1 (matrixToAxisAngle R).2 = !![-1, 0, 0; 0, -1, 0; 0, 0, 1] ∧
    matrixToQuaternion R = 0 := by
  obtain ⟨q, hq, rfl⟩ := exists_quat hR
  rw [trace_quatMat hq] at h
  have h0 : q 0 = 0 := by nlinarith
  have e : matrixToAxisAngle (quatMat q) = (0, Real.pi) := by
    unfold matrixToAxisAngle
    rw [rotationAngle_quatMat hq, h0, abs_zero, Real.arccos_zero]
    congr 1
    · have : (![quatMat q 2 1 - quatMat q 1 2, quatMat q 0 2 - quatMat q 2 0, quatMat q 1 0 - quatMat q 0 1] : Vec) = 0 := by
        funext i; fin_cases i <;> simp [quatMat, h0]
      rw [this, normalize_zero]
    · ring
  refine ⟨e, by rw [e]; exact zero_axis_pi, ?_⟩
  unfold matrixToQuaternion
  rw [e]
  funext i
  fin_cases i <;> simp [axisAngleToQuaternion, normalize_zero]

/-- Half turns exist: the half turn around `x`, whose axis is not recovered. -/
theorem C38_half_turn_witness : IsRotation (!![1, 0, 0; 0, -1, 0; 0, 0, -1] : Mat) ∧
    axisAngleToMatrix (matrixToAxisAngle !![1, 0, 0; 0, -1, 0; 0, 0, -1]).1
      (matrixToAxisAngle !![1, 0, 0; 0, -1, 0; 0, 0, -1]).2 ≠ !![1, 0, 0; 0, -1, 0; 0, 0, -1] := by
  have hR : IsRotation (!![1, 0, 0; 0, -1, 0; 0, 0, -1] : Mat) := by
    constructor
    · ext i j; fin_cases i <;> fin_cases j <;> simp [Matrix.vecMul, dotProduct, Fin.sum_univ_three]
    · simp [Matrix.det_fin_three]
  refine ⟨hR, ?_⟩
  rw [(C38_half_turn _ hR (by simp [Matrix.trace, Fin.sum_univ_three])).2.1]
  intro h
  have := congrFun (congrFun h 0) 0
  norm_num at this

/-- `compose_axis_angle` multiplies the rotations. -/
theorem C38_compose (v w : Vec) (hv : v ≠ 0) (hw : w ≠ 0) (s t : ℝ) :
    axisAngleToMatrix (composeAxisAngle v s w t).1 (composeAxisAngle v s w t).2 =
      axisAngleToMatrix v s * axisAngleToMatrix w t := by
  have h1 := (C37_conversions v hv s 0 0 0)
  have h2 := (C37_conversions w hw t 0 0 0)
  rw [← h1.2.1, ← h2.2.1]
  exact (C37_compose _ _ h1.1 h2.1).2

/-- `axis_angle_to_angles` and `angles_to_axis_angle` describe the same rotation (for the latter,
when it is not a half turn). -/
theorem C38_angles (v : Vec) (t a b c : ℝ) :
    anglesToMatrix (axisAngleToAngles v t).1 (axisAngleToAngles v t).2.1 (axisAngleToAngles v t).2.2 = axisAngleToMatrix v t ∧
    ((anglesToMatrix a b c).trace ≠ -1 →
      axisAngleToMatrix (anglesToAxisAngle a b c).1 (anglesToAxisAngle a b c).2 = anglesToMatrix a b c) :=
  ⟨matrixToAngles_spec (axisAngleToMatrix_rot v t), fun h => (C38_round_trip _ (anglesToMatrix_rot a b c) h).1⟩

/-- `rotation_angle_from_axis_angle` is the angle of the relative rotation. -/
theorem C38_rotation_angle (v w : Vec) (hv : v ≠ 0) (hw : w ≠ 0) (s t : ℝ) :
    rotationAngleFromAxisAngle v s w t = rotationAngleFromMatrix (axisAngleToMatrix v s * (axisAngleToMatrix w t)ᵀ) := by
  have h1 := (C37_conversions v hv s 0 0 0)
  have h2 := (C37_conversions w hw t 0 0 0)
  rw [← h1.2.1, ← h2.2.1]
  exact C37_rotation_angle _ _ h1.1 h2.1

/-- A rotation meeting the hypotheses of `C38_round_trip`. -/
theorem C38_concrete : IsRotation (!![0, 0, 1; 1, 0, 0; 0, 1, 0] : Mat) ∧ (!![0, 0, 1; 1, 0, 0; 0, 1, 0] : Mat).trace ≠ -1 := by
  refine ⟨⟨?_, ?_⟩, ?_⟩
  · ext i j; fin_cases i <;> fin_cases j <;> simp [Matrix.vecMul, dotProduct, Fin.sum_univ_three]
  · simp [Matrix.det_fin_three]
  · simp [Matrix.trace, Fin.sum_univ_three]

/-! ## C57 -/

/-- The matrix exponential of log coordinates `v` turns by `|v|` around `v`; `0` gives the identity. -/
theorem C57_matrix (v : Vec) :
    IsRotation (logCoordinatesToMatrix v) ∧ logCoordinatesToMatrix 0 = 1 ∧
    (v ≠ 0 → TurnsAround (direction v) (Real.sqrt (vnormSq v)) (logCoordinatesToMatrix v)) := by
  refine ⟨?_, logCoordinatesToMatrix_zero, ?_⟩
  · rw [logCoordinatesToMatrix_eq]; exact axisAngleToMatrix_rot _ _
  · intro hv
    have hn := direction_unit hv
    have e : v = fun i => direction v i * Real.sqrt (vnormSq v) := by
      rw [← normalize_direction hv]; exact eq_normalize_mul hv
    have : logCoordinatesToMatrix v = rodrigues (direction v) (Real.sqrt (vnormSq v)) := by
      conv_lhs => rw [e]
      exact exp_rodrigues hn _
    rw [this]
    exact rodrigues_turns hn _

/-- All the conversions from log coordinates describe that rotation. -/
theorem C57_conversions (v : Vec) :
    axisAngleToMatrix (logCoordinatesToAxisAngle v).1 (logCoordinatesToAxisAngle v).2 = logCoordinatesToMatrix v ∧
    qnormSq (logCoordinatesToQuaternion v) = 1 ∧
    quaternionToMatrix (logCoordinatesToQuaternion v) = logCoordinatesToMatrix v ∧
    anglesToMatrix (logCoordinatesToAngles v).1 (logCoordinatesToAngles v).2.1 (logCoordinatesToAngles v).2.2 =
      logCoordinatesToMatrix v := by
  have h := logCoordinatesToQuaternion_unit v
  exact ⟨(logCoordinatesToMatrix_eq v).symm, h, by rw [quaternionToMatrix_eq h, logCoordinatesToQuaternion_mat],
    matrixToAngles_spec (C57_matrix v).1⟩

/-- `compose_log_coordinates` multiplies the rotations, `inverse_log_coordinates` inverts. -/
theorem C57_compose_inverse (v w : Vec) :
    logCoordinatesToMatrix (composeLogCoordinates v w) = logCoordinatesToMatrix v * logCoordinatesToMatrix w ∧
    logCoordinatesToMatrix (inverseLogCoordinates v) = (logCoordinatesToMatrix v)ᵀ := by
  constructor
  · unfold composeLogCoordinates
    rw [axisAngleToLog_mat, quatMat_mul, logCoordinatesToQuaternion_mat, logCoordinatesToQuaternion_mat]
    rw [qnormSq_compose, logCoordinatesToQuaternion_unit, logCoordinatesToQuaternion_unit, one_mul]
  · unfold logCoordinatesToMatrix inverseLogCoordinates
    rw [← Matrix.exp_transpose]
    congr 1
    ext i j; fin_cases i <;> fin_cases j <;> simp [logGenerator]

/-- Log coordinates of a quaternion or of a rotation that is not a half turn give it back. -/
theorem C57_round_trip (q : Quat) (hq : qnormSq q = 1) (R : Mat) (hR : IsRotation R) (h : R.trace ≠ -1) :
    logCoordinatesToMatrix (quaternionToLogCoordinates q) = quaternionToMatrix q ∧
    logCoordinatesToMatrix (matrixToLogCoordinates R) = R := by
  refine ⟨by rw [axisAngleToLog_mat hq, quaternionToMatrix_eq hq], ?_⟩
  obtain ⟨q, hq, rfl, h0⟩ := exists_quat_nonneg hR
  have hpos : 0 < q 0 := by
    rcases h0.lt_or_eq with h0 | h0
    · exact h0
    · exfalso; apply h; rw [trace_quatMat hq, ← h0]; norm_num
  unfold matrixToLogCoordinates
  rw [matrixToAxisAngle_quatMat hq hpos]
  exact axisAngleToLog_mat hq

/-- Shorter than a half turn, log coordinates are recovered from the matrix. -/
theorem C57_recovered (v : Vec) (hv : v ≠ 0) (h : Real.sqrt (vnormSq v) < Real.pi) :
    matrixToLogCoordinates (logCoordinatesToMatrix v) = v := by
  have hn := normalize_unit hv
  have e := eq_normalize_mul hv
  have : logCoordinatesToMatrix v = rodrigues (normalize v) (Real.sqrt (vnormSq v)) := by
    conv_lhs => rw [e]
    exact exp_rodrigues hn _
  unfold matrixToLogCoordinates
  rw [this, matrixToAxisAngle_rodrigues hn (Real.sqrt_pos.mpr (vnormSq_pos hv)) h]
  exact e.symm

/-- Hypotheses of `C57_recovered`. -/
theorem C57_concrete : (![0, 0, 1] : Vec) ≠ 0 ∧ Real.sqrt (vnormSq ![0, 0, 1]) < Real.pi := by
  refine ⟨?_, ?_⟩
  · intro h; have := congrFun h 2; simp at this
  · simp [vnormSq]; linarith [Real.two_le_pi]

end E3nn.Rot
