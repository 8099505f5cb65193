import Verif.Lemmas.Wigner

/-!
# C39: the Wigner matrices are a representation of O(3)

`dMatrix ir R`, `dAngles ir a b c k`, `dQuaternion ir q k`, `dLog ir v k`, `dAxisAngle ir v t k` are the
matrices returned by `Irrep.D_from_matrix`, `D_from_angles`, `D_from_quaternion`,
`D_from_log_coordinates`, `D_from_axis_angle`, with the literal tables of `J.py` for `l < 12`.
-/

namespace E3nn.Wig

open Matrix E3nn.SU2 E3nn.Rot Kronecker

/-- Orthogonal matrices: the elements of O(3). -/
def IsOrth (R : Matrix (Fin 3) (Fin 3) ℝ) : Prop := R * Rᵀ = 1

/-- `(-1)^k` for the odd parity, `1` for the even one. -/
def parityFactor (p : Parity) (k : ℕ) : ℝ := match p with
  | .e => 1
  | .o => (-1) ^ k

theorem parityPow_nat (p : Parity) (k : ℕ) : parityPow p k = parityFactor p k := by
  unfold parityPow parityFactor
  rw [Real.rpow_natCast]
  cases p <;> simp [Parity.toInt]

theorem IsOrth.det_cases {R : Mat} (h : IsOrth R) : R.det = 1 ∨ R.det = -1 := by
  have := congrArg Matrix.det h
  rw [Matrix.det_mul, Matrix.det_transpose, Matrix.det_one] at this
  exact mul_self_eq_one_iff.mp this

theorem IsOrth.rot {R : Mat} (h : IsOrth R) : IsRotation (R.det • R) := by
  have hd : R.det * R.det = 1 := by rcases h.det_cases with e | e <;> rw [e] <;> norm_num
  constructor
  · rw [Matrix.transpose_smul, Matrix.smul_mul, Matrix.mul_smul, smul_smul, h, hd, one_smul]
  · rw [Matrix.det_smul]
    simp only [Fintype.card_fin]
    linear_combination (R.det * R.det + 1) * hd

theorem IsOrth.sign {R : Mat} (h : IsOrth R) : ((SignType.sign R.det : SignType) : ℝ) = R.det := by
  rcases h.det_cases with e | e <;> rw [e] <;> simp

/-- The parity factor of an orthogonal matrix. -/
noncomputable def pf (p : Parity) (R : Mat) : ℝ := match p with
  | .e => 1
  | .o => R.det

theorem dMatrix_eq (ir : Irrep) {R : Mat} (h : IsOrth R) : dMatrix ir R = pf ir.p R • repD ir.l (R.det • R) := by
  unfold dMatrix dAngles
  simp only [h.sign]
  rw [wignerAngles_rep]
  simp only [Angle.val]
  rw [matrixToAngles_spec h.rot]
  congr 1
  rcases h.det_cases with e | e
  · rw [e, show (1 - 1 : ℝ) / 2 = ((0 : ℕ) : ℝ) by norm_num, parityPow_nat]
    unfold parityFactor pf
    cases ir.p <;> simp [e]
  · rw [e, show (1 - -1 : ℝ) / 2 = ((1 : ℕ) : ℝ) by norm_num, parityPow_nat]
    unfold parityFactor pf
    cases ir.p <;> simp [e]

theorem IsRotation.isOrth {R : Mat} (h : IsRotation R) : IsOrth R := h.1

theorem dMatrix_rot (ir : Irrep) {R : Mat} (h : IsRotation R) : dMatrix ir R = repD ir.l R := by
  rw [dMatrix_eq ir h.1, h.2, one_smul]
  unfold pf
  rw [h.2]
  cases ir.p <;> simp

theorem IsOrth.mul {R S : Mat} (hR : IsOrth R) (hS : IsOrth S) : IsOrth (R * S) := by
  unfold IsOrth at *
  rw [Matrix.transpose_mul, Matrix.mul_assoc, ← Matrix.mul_assoc S, hS, Matrix.one_mul, hR]

theorem IsOrth.transpose {R : Mat} (hR : IsOrth R) : IsOrth Rᵀ := by
  unfold IsOrth at *
  rw [Matrix.transpose_transpose]
  exact mul_eq_one_comm.mp hR

/-- **C39 (homomorphism).** `D(R S) = D(R) D(S)` for all `R`, `S` in O(3), every degree and parity. -/
theorem C39_homomorphism (ir : Irrep) {R S : Matrix (Fin 3) (Fin 3) ℝ} (hR : IsOrth R) (hS : IsOrth S) :
    dMatrix ir (R * S) = dMatrix ir R * dMatrix ir S := by
  rw [dMatrix_eq ir (hR.mul hS), dMatrix_eq ir hR, dMatrix_eq ir hS, Matrix.smul_mul, Matrix.mul_smul, smul_smul,
    ← repD_mul _ hR.rot hS.rot, Matrix.det_mul, Matrix.smul_mul, Matrix.mul_smul, smul_smul]
  congr 1
  unfold pf
  cases ir.p <;> simp

/-- **C39 (identity).** -/
theorem C39_identity (ir : Irrep) : dMatrix ir 1 = 1 := by
  rw [dMatrix_rot ir isRotation_one, repD_one]

/-- **C39 (orthogonal).** The matrices are orthogonal, and `D(R^T) = D(R)^T`. -/
theorem C39_orthogonal (ir : Irrep) {R : Matrix (Fin 3) (Fin 3) ℝ} (hR : IsOrth R) :
    dMatrix ir R * (dMatrix ir R)ᵀ = 1 ∧ dMatrix ir Rᵀ = (dMatrix ir R)ᵀ := by
  constructor
  · rw [dMatrix_eq ir hR, Matrix.transpose_smul, Matrix.smul_mul, Matrix.mul_smul, smul_smul, repD_orth _ hR.rot]
    unfold pf
    rcases hR.det_cases with e | e <;> cases ir.p <;> simp [e]
  · rw [dMatrix_eq ir hR, dMatrix_eq ir hR.transpose, Matrix.det_transpose, Matrix.transpose_smul, ← repD_transpose _ hR.rot,
      Matrix.transpose_smul]
    unfold pf
    cases ir.p <;> simp [Matrix.det_transpose]

/-- **C39 (vectors and scalars).** The irrep `1o` is the defining action on vectors, `1e` the action on
axial vectors, `0e` is trivial and `0o` is the determinant. -/
theorem C39_defining {R : Matrix (Fin 3) (Fin 3) ℝ} (hR : IsOrth R) :
    dMatrix ⟨1, .o⟩ R = R ∧ dMatrix ⟨1, .e⟩ R = R.det • R ∧ dMatrix ⟨0, .e⟩ R = 1 ∧ dMatrix ⟨0, .o⟩ R = R.det • 1 := by
  have h0 : ∀ S : Mat, repD 0 S = 1 := by
    intro S; simp [repD, dWord, wignerLog_zero_deg]
  refine ⟨?_, ?_, ?_, ?_⟩ <;> rw [dMatrix_eq _ hR]
  · show R.det • repD 1 (R.det • R) = R
    rw [repD_deg_one hR.rot, smul_smul]
    rcases hR.det_cases with e | e <;> rw [e] <;> simp
  · show (1 : ℝ) • repD 1 (R.det • R) = _
    rw [repD_deg_one hR.rot, one_smul]
  · show (1 : ℝ) • repD 0 (R.det • R) = _
    rw [h0, one_smul]
  · show R.det • repD 0 (R.det • R) = _
    rw [h0]

/-- **C39 (inversion).** The inversion multiplies by the parity. -/
theorem C39_inversion (ir : Irrep) : dMatrix ir (-1) = (ir.p.toInt : ℝ) • 1 := by
  have h : IsOrth (-1 : Mat) := by unfold IsOrth; simp
  have hd : (-1 : Mat).det = -1 := by rw [Matrix.det_neg]; simp; norm_num
  rw [dMatrix_eq ir h, hd]
  have : (-1 : ℝ) • (-1 : Mat) = 1 := by simp
  rw [this, repD_one]
  unfold pf
  cases ir.p <;> simp [Parity.toInt, hd]

/-- **C39 (angles).** `D_from_angles(a, b, c, k)`, whatever mixture of Python numbers and arrays is
passed, is `p^k` times the matrix of the rotation with these Euler angles. -/
theorem C39_angles (ir : Irrep) (a b c : Angle) (k : ℕ) :
    dAngles ir a b c k = parityFactor ir.p k • dMatrix ir (anglesToMatrix a.val b.val c.val) := by
  unfold dAngles
  rw [wignerAngles_rep, parityPow_nat, dMatrix_rot ir (anglesToMatrix_rot _ _ _)]

/-- **C39 (quaternions).** -/
theorem C39_quaternion (ir : Irrep) {q : Fin 4 → ℝ} (hq : qnormSq q = 1) (k : ℕ) :
    dQuaternion ir q k = parityFactor ir.p k • dMatrix ir (quaternionToMatrix q) := by
  unfold dQuaternion
  have hr : IsRotation (quaternionToMatrix q) := axisAngleToMatrix_rot _ _
  simp only [C39_angles, Angle.val]
  congr 2
  exact matrixToAngles_spec hr

/-- **C39 (log coordinates).** -/
theorem C39_log (ir : Irrep) (v : Fin 3 → ℝ) (k : ℕ) :
    dLog ir v k = parityFactor ir.p k • dMatrix ir (logCoordinatesToMatrix v) := by
  have hr : IsRotation (logCoordinatesToMatrix v) := by
    rw [logCoordinatesToMatrix_eq]; exact axisAngleToMatrix_rot _ _
  unfold dLog
  rw [parityPow_nat, repD_log, dMatrix_rot ir hr]

/-- **C39 (axis and angle).** For an axis of length one. -/
theorem C39_axis_angle (ir : Irrep) {n : Fin 3 → ℝ} (hn : vnormSq n = 1) (t : ℝ) (k : ℕ) :
    dAxisAngle ir n t k = parityFactor ir.p k • dMatrix ir (axisAngleToMatrix n t) := by
  unfold dAxisAngle axisAngleToLogCoordinates
  rw [C39_log, exp_rodrigues hn, axisAngleToMatrix_rodrigues (unit_ne hn), normalize_of_unit hn]

/-- For an axis that is not of length one, `D_from_axis_angle` and `axis_angle_to_matrix` disagree: the
former does not normalise the axis (a quarter turn around `(0, 2, 0)` becomes a half turn). -/
theorem C39_axis_not_normalised :
    dAxisAngle ⟨1, .o⟩ ![0, 2, 0] (Real.pi / 2) 0 ≠ dMatrix ⟨1, .o⟩ (axisAngleToMatrix ![0, 2, 0] (Real.pi / 2)) := by
  have hv : (![0, 2, 0] : Vec) ≠ 0 := by intro h; have := congrFun h 1; simp at this
  have hn : Rot.normalize ![0, 2, 0] = ![0, 1, 0] := by
    funext i
    rw [normalize_eq hv]
    have : Real.sqrt (vnormSq ![0, 2, 0]) = 2 := by
      simp only [vnormSq]
      rw [show ((![0, 2, 0] : Vec) 0 ^ 2 + (![0, 2, 0] : Vec) 1 ^ 2 + (![0, 2, 0] : Vec) 2 ^ 2) = 2 ^ 2 by simp]
      exact Real.sqrt_sq (by norm_num)
    rw [this]
    fin_cases i <;> simp
  have h1 : axisAngleToMatrix ![0, 2, 0] (Real.pi / 2) = matrixY (Real.pi / 2) := by
    rw [axisAngleToMatrix_rodrigues hv, hn, rodrigues_ey]
  have h2 : logCoordinatesToMatrix (axisAngleToLogCoordinates ![0, 2, 0] (Real.pi / 2)) = matrixY Real.pi := by
    rw [← log_ey]
    congr 1
    funext i
    fin_cases i <;> simp [axisAngleToLogCoordinates]
    ring
  have h3 := C39_log ⟨1, .o⟩ (axisAngleToLogCoordinates ![0, 2, 0] (Real.pi / 2)) 0
  rw [Nat.cast_zero] at h3
  unfold dAxisAngle
  rw [h3, h1, h2, (C39_defining (matrixY_rot _).1).1, (C39_defining (matrixY_rot _).1).1]
  intro h
  have := congrFun (congrFun h 0) 0
  simp [parityFactor, matrixY] at this

/-- **C39 (one-parameter group).** Rotations around y: `M(s + t) = M(s) M(t)`, `M(0) = 1`,
`M(-t) = M(t)^T`, and a full turn does nothing. -/
theorem C39_one_parameter (ir : Irrep) (s t : ℝ) (n : ℤ) :
    let M := fun t : ℝ => dAngles ir (.arr t) (.py 0) (.py 0) ((0 : ℕ) : ℝ)
    M (s + t) = M s * M t ∧ M 0 = 1 ∧ M (-t) = (M t)ᵀ ∧ M (t + n * (2 * Real.pi)) = M t := by
  intro M
  have hM : ∀ t, M t = dMatrix ir (matrixY t) := by
    intro t
    simp only [M, C39_angles, Angle.val]
    have h0 : matrixX 0 = 1 := by ext i j; fin_cases i <;> fin_cases j <;> simp [matrixX]
    have : anglesToMatrix t 0 0 = matrixY t := by simp [anglesToMatrix, h0, matrixY_zero]
    rw [this]
    cases h : ir.p <;> simp [parityFactor]
  simp only [hM]
  refine ⟨?_, ?_, ?_, ?_⟩
  · rw [← C39_homomorphism ir (matrixY_rot s).1 (matrixY_rot t).1]
    congr 1
    ext i j
    fin_cases i <;> fin_cases j <;> simp [matrixY, Matrix.mul_apply, Fin.sum_univ_three, Real.cos_add, Real.sin_add] <;> ring
  · rw [matrixY_zero, C39_identity]
  · rw [← (C39_orthogonal ir (matrixY_rot t).1).2]
    congr 1
    ext i j
    fin_cases i <;> fin_cases j <;> simp [matrixY]
  · congr 1
    simp only [matrixY, Real.cos_add_int_mul_two_pi, Real.sin_add_int_mul_two_pi]

/-- **C39 (Clebsch-Gordan).** `clebsch_gordan(l1, l2, l3)` intertwines the matrices of O(3), for all
parities with `p3 = p1 p2`. -/
theorem C39_clebsch_gordan (l1 l2 l3 : ℕ) (p1 p2 : Parity) {R : Matrix (Fin 3) (Fin 3) ℝ} (hR : IsOrth R)
    (x : Fin (2 * l1 + 1) → ℝ) (y : Fin (2 * l2 + 1) → ℝ) :
    let C := fun (x : Fin (2 * l1 + 1) → ℝ) (y : Fin (2 * l2 + 1) → ℝ) (c : Fin (2 * l3 + 1)) =>
      ∑ a, ∑ b, clebschGordan l1 l2 l3 a b c * x a * y b
    C (dMatrix ⟨l1, p1⟩ R *ᵥ x) (dMatrix ⟨l2, p2⟩ R *ᵥ y) = dMatrix ⟨l3, p1.mul p2⟩ R *ᵥ C x y := by
  intro C
  have hC : ∀ x y, C x y = toMat (clebschGordan l1 l2 l3) *ᵥ (fun p : Fin (2 * l1 + 1) × Fin (2 * l2 + 1) => x p.1 * y p.2) := by
    intro x y
    funext c
    simp only [C, Matrix.mulVec, dotProduct, toMat, Fintype.sum_prod_type, mul_assoc]
  have hp : pf (p1.mul p2) R = pf p1 R * pf p2 R := by
    unfold pf
    rcases hR.det_cases with e | e <;> cases p1 <;> cases p2 <;> simp [Parity.mul, e]
  rw [dMatrix_eq _ hR, dMatrix_eq _ hR, dMatrix_eq _ hR, hC, hC]
  simp only [Matrix.smul_mulVec, hp]
  rw [Matrix.mulVec_mulVec, ← cg_rep l1 l2 l3 hR.rot, ← Matrix.mulVec_mulVec]
  funext c
  simp only [Pi.smul_apply, smul_eq_mul, Matrix.mulVec, dotProduct, Matrix.kroneckerMap_apply, Fintype.sum_prod_type]
  rw [Finset.mul_sum _ _ (pf p1 R * pf p2 R)]
  apply Finset.sum_congr rfl
  intro a _
  rw [Finset.mul_sum _ _ (pf p1 R * pf p2 R)]
  apply Finset.sum_congr rfl
  intro b _
  have e : (∑ i, ∑ j, repD l1 (R.det • R) a i * repD l2 (R.det • R) b j * (x i * y j) : ℝ) =
      (∑ i, repD l1 (R.det • R) a i * x i) * ∑ j, repD l2 (R.det • R) b j * y j := by
    rw [Finset.sum_mul_sum]
    apply Finset.sum_congr rfl
    intro i _
    apply Finset.sum_congr rfl
    intro j _
    ring
  rw [e]
  ring

section schur

theorem commute_gen {m n : ℕ} {X : Matrix (Fin m) (Fin m) ℝ} {Y : Matrix (Fin n) (Fin n) ℝ} {T : Matrix (Fin n) (Fin m) ℝ}
    (h : ∀ t : ℝ, T * NormedSpace.exp (t • X) = NormedSpace.exp (t • Y) * T) : T * X = Y * T := by
  have d : ∀ {k : ℕ} (X : Matrix (Fin k) (Fin k) ℝ) (a b : Fin k), HasDerivAt (fun t : ℝ => NormedSpace.exp (t • X) a b) (X a b) 0 := by
    intro k X a b
    open scoped Matrix.Norms.Operator in
    have h1 := hasDerivAt_exp_smul_const (𝕂 := ℝ) X 0
    rw [zero_smul, NormedSpace.exp_zero, one_mul] at h1
    let L : Matrix (Fin k) (Fin k) ℝ →ₗ[ℝ] ℝ := Matrix.entryLinearMap ℝ ℝ a b
    open scoped Matrix.Norms.Operator in
    exact (L.toContinuousLinearMap.hasFDerivAt.comp_hasDerivAt (0 : ℝ) h1)
  ext i j
  have e1 : HasDerivAt (fun t : ℝ => (T * NormedSpace.exp (t • X)) i j) ((T * X) i j) 0 := by
    simp only [Matrix.mul_apply]
    exact HasDerivAt.fun_sum fun c _ => (d X c j).const_mul (T i c)
  have e2 : HasDerivAt (fun t : ℝ => (NormedSpace.exp (t • Y) * T) i j) ((Y * T) i j) 0 := by
    simp only [Matrix.mul_apply]
    exact HasDerivAt.fun_sum fun c _ => (d Y i c).mul_const (T c j)
  simp only [h] at e1
  exact e1.unique e2

theorem inter_gen_of_rep {l l' : ℕ} {T : Matrix (Fin (2 * l' + 1)) (Fin (2 * l + 1)) ℝ}
    (h : ∀ R, IsRotation R → T * repD l R = repD l' R * T) (i : Fin 3) : T * so3Generators l i = so3Generators l' i * T := by
  apply commute_gen
  intro t
  have hv : ∀ l, wignerLog l (Pi.single i t) = NormedSpace.exp (t • so3Generators l i) := by
    intro l
    unfold wignerLog
    congr 1
    rw [Finset.sum_eq_single i]
    · simp
    · intro b _ hb; simp [hb]
    · simp
  have hr : IsRotation (logCoordinatesToMatrix (Pi.single i t)) := by
    rw [logCoordinatesToMatrix_eq]; exact axisAngleToMatrix_rot _ _
  rw [← hv, ← hv, repD_log, repD_log, h _ hr]

/-- **C39 (irreducible).** A matrix that commutes with all rotations is a multiple of the identity. -/
theorem C39_irreducible (ir : Irrep) (T : Matrix (Fin (2 * ir.l + 1)) (Fin (2 * ir.l + 1)) ℝ)
    (h : ∀ R : Matrix (Fin 3) (Fin 3) ℝ, IsRotation R → T * dMatrix ir R = dMatrix ir R * T) : ∃ c : ℝ, T = c • 1 :=
  so3_commutant ir.l T (inter_gen_of_rep fun R hR => by rw [← dMatrix_rot ir hR, h R hR])

/-- Between representations of different degrees, the only linear map that commutes with the rotations is zero. -/
theorem so3_inequivalent {l l' : ℕ} (hl : l ≠ l') (T : Matrix (Fin (2 * l' + 1)) (Fin (2 * l + 1)) ℝ)
    (h : ∀ R, IsRotation R → T * repD l R = repD l' R * T) : T = 0 := by
  have hg := inter_gen_of_rep h
  have sq : ∀ i, T * (so3Generators l i * so3Generators l i) = (so3Generators l' i * so3Generators l' i) * T := by
    intro i
    rw [← Matrix.mul_assoc, hg, Matrix.mul_assoc, hg, Matrix.mul_assoc]
  have c1 : T * ((-((l : ℝ) * (l + 1))) • (1 : Matrix (Fin (2 * l + 1)) (Fin (2 * l + 1)) ℝ)) =
      ((-((l' : ℝ) * (l' + 1))) • (1 : Matrix (Fin (2 * l' + 1)) (Fin (2 * l' + 1)) ℝ)) * T := by
    rw [← so3_casimir, ← so3_casimir, Matrix.mul_add, Matrix.mul_add, Matrix.add_mul, Matrix.add_mul, sq, sq, sq]
  rw [Matrix.mul_smul, Matrix.smul_mul, Matrix.mul_one, Matrix.one_mul] at c1
  ext i j
  have h2 := congrFun (congrFun c1 i) j
  simp only [Matrix.smul_apply, smul_eq_mul, Matrix.zero_apply] at h2 ⊢
  have hne' : (-((l : ℝ) * (l + 1))) ≠ (-((l' : ℝ) * (l' + 1))) := by
    intro e
    have e' : ((l : ℝ) - l') * (l + l' + 1) = 0 := by linear_combination -e
    rcases mul_eq_zero.mp e' with e1 | e1
    · exact hl (by exact_mod_cast sub_eq_zero.mp e1)
    · have : (0 : ℝ) < l + l' + 1 := by positivity
      linarith
  have h3 : (-((l : ℝ) * (l + 1)) - (-((l' : ℝ) * (l' + 1)))) * T i j = 0 := by linear_combination h2
  rcases mul_eq_zero.mp h3 with e | e
  · exact absurd (sub_eq_zero.mp e) hne'
  · exact e

/-- **C39 (inequivalent).** Between different irreps, the only linear map that commutes with O(3) is
zero. -/
theorem C39_inequivalent (ir ir' : Irrep) (hne : ir ≠ ir') (T : Matrix (Fin (2 * ir'.l + 1)) (Fin (2 * ir.l + 1)) ℝ)
    (h : ∀ R : Matrix (Fin 3) (Fin 3) ℝ, IsOrth R → T * dMatrix ir R = dMatrix ir' R * T) : T = 0 := by
  by_cases hl : ir.l = ir'.l
  · have hp : ir.p ≠ ir'.p := fun hp => hne (by cases ir; cases ir'; simp_all)
    have h1 := h (-1) (by unfold IsOrth; simp)
    rw [C39_inversion, C39_inversion, Matrix.mul_smul, Matrix.smul_mul, Matrix.mul_one, Matrix.one_mul] at h1
    ext i j
    have h2 := congrFun (congrFun h1 i) j
    simp only [Matrix.smul_apply, smul_eq_mul, Matrix.zero_apply] at h2 ⊢
    cases e : ir.p <;> cases e' : ir'.p <;> rw [e, e'] at h2 hp <;> simp [Parity.toInt] at h2 hp <;> linarith
  · exact so3_inequivalent hl T fun R hR => by rw [← dMatrix_rot ir hR, ← dMatrix_rot ir' hR, h R hR.1]

end schur

/-- The hypotheses are met by a genuine rotation and by a genuine reflection. -/
theorem C39_example : IsOrth (matrixY 1) ∧ IsOrth (-matrixX 2) ∧ (-matrixX 2).det = -1 := by
  refine ⟨(matrixY_rot 1).1, ?_, ?_⟩
  · unfold IsOrth
    simp [(matrixX_rot 2).1]
  · rw [Matrix.det_neg, (matrixX_rot 2).2]; simp; norm_num

end E3nn.Wig
