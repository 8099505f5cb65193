import Verif.Lemmas.SHCore
import Verif.Lemmas.CGGrad
import Mathlib.Analysis.Calculus.FDeriv.Pi
import Mathlib.Analysis.Calculus.FDeriv.Mul
import Mathlib.Analysis.Calculus.FDeriv.Prod
import Mathlib.Analysis.Calculus.ContDiff.Operations
import Mathlib.Analysis.Calculus.Deriv.Pow
import Mathlib.Analysis.Calculus.Deriv.Prod

/-! # The gradient of the spherical harmonics -/

namespace E3nn.SH

open E3nn.SU2 E3nn.Wig E3nn.Rot Matrix

theorem Y_contDiff (nrm : Normalization) (l : ℕ) : ContDiff ℝ ⊤ (Y nrm l) := by
  induction l using shInduction with
  | h0 =>
    have : Y nrm 0 = fun _ _ => cst0 nrm := by funext x; rw [Y_zero]
    rw [this]; exact contDiff_const
  | h1 =>
    have : Y nrm 1 = fun x (i : Fin 3) => cst1 nrm * x i := by funext x; rw [Y_one]
    rw [this]
    fun_prop
  | hs l1 l2 l hl1 hl2 hl ih1 ih2 hY =>
    rw [funext (hY nrm)]
    have h1 : ∀ i, ContDiff ℝ ⊤ fun x => Y nrm l1 x i := fun i => contDiff_pi.mp ih1 i
    have h2 : ∀ i, ContDiff ℝ ⊤ fun x => Y nrm l2 x i := fun i => contDiff_pi.mp ih2 i
    rw [contDiff_pi]
    intro k
    refine contDiff_const.mul (ContDiff.div_const (ContDiff.sum fun i _ => ContDiff.sum fun j _ => ?_) _)
    exact ((h1 i).mul (h2 j)).mul contDiff_const

theorem Y_differentiable (nrm : Normalization) (l : ℕ) : Differentiable ℝ (Y nrm l) := (Y_contDiff nrm l).differentiable (by simp)

/-- The derivative. -/
noncomputable def DY (nrm : Normalization) (l : ℕ) (x v : Fin 3 → ℝ) : Fin (2 * l + 1) → ℝ := fderiv ℝ (Y nrm l) x v

theorem DY_line (nrm : Normalization) (l : ℕ) (x v : Fin 3 → ℝ) {g : ℝ → Fin 3 → ℝ} {t : ℝ} (hg : HasDerivAt g v t) (hx : g t = x) :
    HasDerivAt (fun t => Y nrm l (g t)) (DY nrm l x v) t := by
  subst hx
  exact ((Y_differentiable nrm l) (g t)).hasFDerivAt.comp_hasDerivAt t hg

theorem hasDerivAt_mulVec {m : ℕ} {M : ℝ → Matrix (Fin m) (Fin m) ℝ} {M' : Matrix (Fin m) (Fin m) ℝ} {t : ℝ}
    (h : ∀ a b, HasDerivAt (fun s => M s a b) (M' a b) t) (u : Fin m → ℝ) : HasDerivAt (fun s => M s *ᵥ u) (M' *ᵥ u) t := by
  rw [hasDerivAt_pi]
  intro a
  simp only [Matrix.mulVec, dotProduct]
  exact HasDerivAt.fun_sum fun b _ => (h a b).mul_const _

/-- Equivariance of the derivative. -/
theorem DY_rot (nrm : Normalization) {R : Mat} (hR : IsRotation R) (l : ℕ) (x v : Fin 3 → ℝ) :
    DY nrm l (R *ᵥ x) (R *ᵥ v) = repD l R *ᵥ DY nrm l x v := by
  have h0 : HasDerivAt (fun t : ℝ => x + t • v) v 0 := by
    have := ((hasDerivAt_id (0 : ℝ)).smul_const v).const_add x
    simpa using this
  have h1 : HasDerivAt (fun t : ℝ => R *ᵥ (x + t • v)) (R *ᵥ v) 0 := by
    rw [hasDerivAt_pi] at h0 ⊢
    intro a
    simp only [Matrix.mulVec, dotProduct]
    exact HasDerivAt.fun_sum fun b _ => (h0 b).const_mul _
  have h2 := DY_line nrm l (R *ᵥ x) (R *ᵥ v) h1 (by simp)
  have h3 := DY_line nrm l x v h0 (by simp)
  have h4 : HasDerivAt (fun t : ℝ => repD l R *ᵥ Y nrm l (x + t • v)) (repD l R *ᵥ DY nrm l x v) 0 := by
    rw [hasDerivAt_pi] at h3 ⊢
    intro a
    simp only [Matrix.mulVec, dotProduct]
    exact HasDerivAt.fun_sum fun b _ => (h3 b).const_mul _
  simp only [Y_rot nrm hR] at h2
  exact h2.unique h4

/-- Homogeneity of the derivative. -/
theorem DY_smul (nrm : Normalization) (c : ℝ) (l : ℕ) (x v : Fin 3 → ℝ) : c • DY nrm l (c • x) v = c ^ l • DY nrm l x v := by
  have h0 : HasDerivAt (fun t : ℝ => x + t • v) v 0 := by
    have := ((hasDerivAt_id (0 : ℝ)).smul_const v).const_add x
    simpa using this
  have h2 := DY_line nrm l (c • x) (c • v) (h0.const_smul c) (by simp)
  have h3 := (DY_line nrm l x v h0 (by simp)).const_smul (c ^ l)
  have e : (fun t : ℝ => Y nrm l ((c • fun t : ℝ => x + t • v) t)) = c ^ l • fun t : ℝ => Y nrm l (x + t • v) := by
    funext t
    exact Y_smul nrm c l _
  rw [e] at h2
  have := h2.unique h3
  rw [← this]
  unfold DY
  rw [map_smul]

/-- Euler's theorem. -/
theorem DY_euler (nrm : Normalization) (l : ℕ) (x : Fin 3 → ℝ) : DY nrm l x x = (l : ℝ) • Y nrm l x := by
  have h0 : HasDerivAt (fun t : ℝ => t • x) x 1 := by
    simpa using (hasDerivAt_id (1 : ℝ)).smul_const x
  have h2 := DY_line nrm l x x h0 (by simp)
  simp only [Y_smul] at h2
  have h3 : HasDerivAt (fun t : ℝ => t ^ l • Y nrm l x) ((l : ℝ) • Y nrm l x) 1 := by
    simpa using (hasDerivAt_pow l (1 : ℝ)).smul_const (Y nrm l x)
  exact h2.unique h3

open scoped Matrix.Norms.Operator in
theorem exp_entry_deriv {n : ℕ} (K : Matrix (Fin n) (Fin n) ℝ) (a b : Fin n) : HasDerivAt (fun t : ℝ => NormedSpace.exp (t • K) a b) (K a b) 0 := by
  have h := hasDerivAt_exp_smul_const (𝕂 := ℝ) K (0 : ℝ)
  rw [zero_smul, NormedSpace.exp_zero, one_mul] at h
  exact (Matrix.entryLinearMap ℝ ℝ a b).toContinuousLinearMap.hasFDerivAt.comp_hasDerivAt (0 : ℝ) h

theorem rotX_deriv (l : ℕ) (a b : Fin (2 * l + 1)) : HasDerivAt (fun t => rotX l t a b) (so3Generators l 0 a b) 0 := by
  simp only [rotX_eq]
  exact exp_entry_deriv _ a b

theorem repD_matrixX (l : ℕ) (t : ℝ) : repD l (matrixX t) = rotX l t := by
  rw [← log_ex, ← repD_log, wignerLog_ex]

/-- The derivative along the rotations around `e_x`. -/
theorem DY_gen (nrm : Normalization) (l : ℕ) (x : Fin 3 → ℝ) : DY nrm l x (so3Generators 1 0 *ᵥ x) = so3Generators l 0 *ᵥ Y nrm l x := by
  have h1 : HasDerivAt (fun t => rotX 1 t *ᵥ x) (so3Generators 1 0 *ᵥ x) 0 := hasDerivAt_mulVec (rotX_deriv 1) x
  have h2 := DY_line nrm l x _ h1 (by rw [rotX_zero]; simp)
  have h3 : HasDerivAt (fun t => rotX l t *ᵥ Y nrm l x) (so3Generators l 0 *ᵥ Y nrm l x) 0 := hasDerivAt_mulVec (rotX_deriv l) _
  have e : ∀ t, Y nrm l (rotX 1 t *ᵥ x) = rotX l t *ᵥ Y nrm l x := by
    intro t
    have : rotX 1 t = matrixX t := by rw [← repD_matrixX, repD_deg_one (matrixX_rot t)]
    rw [this, Y_rot nrm (matrixX_rot t), repD_matrixX]
  simp only [e] at h2
  exact h2.unique h3

/-- The Clebsch-Gordan tensor with the first argument fixed. -/
noncomputable def cgMat {l1 : ℕ} (l2 l3 : ℕ) (u : Fin (2 * l1 + 1) → ℝ) : Matrix (Fin (2 * l3 + 1)) (Fin (2 * l2 + 1)) ℝ :=
  Matrix.of fun k j => ∑ i, clebschGordan l1 l2 l3 i j k * u i

theorem cgMat_rot {l1 : ℕ} (l2 l3 : ℕ) {R : Mat} (hR : IsRotation R) (u : Fin (2 * l1 + 1) → ℝ) :
    cgMat l2 l3 (repD l1 R *ᵥ u) = repD l3 R * cgMat l2 l3 u * (repD l2 R)ᵀ := by
  have h : cgMat l2 l3 (repD l1 R *ᵥ u) * repD l2 R = repD l3 R * cgMat l2 l3 u := by
    refine Matrix.ext_of_mulVec_single fun j => ?_
    rw [← Matrix.mulVec_mulVec, ← Matrix.mulVec_mulVec]
    have hC := C39_clebsch_gordan l1 l2 l3 .e .e hR.1 u (Pi.single j 1)
    simp only [dMatrix_rot _ hR] at hC
    have e : ∀ (u : Fin (2 * l1 + 1) → ℝ) (v : Fin (2 * l2 + 1) → ℝ), cgMat l2 l3 u *ᵥ v = fun c => ∑ a, ∑ b, clebschGordan l1 l2 l3 a b c * u a * v b := by
      intro u v
      funext c
      simp only [Matrix.mulVec, dotProduct, cgMat, Matrix.of_apply]
      simp only [Finset.sum_mul]
      rw [Finset.sum_comm]
    rw [e, e]
    exact hC
  rw [← h, Matrix.mul_assoc, repD_orth l2 hR, Matrix.mul_one]

/-- The derivative rule. -/
noncomputable def JY (nrm : Normalization) (n : ℕ) (x v : Fin 3 → ℝ) : Fin (2 * (n + 1) + 1) → ℝ :=
  gradW nrm (n + 1) • ((cgMat (n + 1) 1 (Y nrm n x))ᵀ *ᵥ v)

theorem JY_rot (nrm : Normalization) {R : Mat} (hR : IsRotation R) (n : ℕ) (x v : Fin 3 → ℝ) :
    JY nrm n (R *ᵥ x) (R *ᵥ v) = repD (n + 1) R *ᵥ JY nrm n x v := by
  unfold JY
  rw [Y_rot nrm hR, cgMat_rot _ _ hR, Matrix.mulVec_smul]
  congr 1
  simp only [Matrix.transpose_mul, Matrix.transpose_transpose]
  rw [repD_deg_one hR]
  have h : Rᵀ * R = 1 := hR.left
  have e : ∀ (A : Matrix (Fin (2 * (n + 1) + 1)) (Fin (2 * (n + 1) + 1)) ℝ) (B : Matrix (Fin (2 * (n + 1) + 1)) (Fin 3) ℝ), (A * (B * Rᵀ)) *ᵥ (R *ᵥ v) = A *ᵥ (B *ᵥ v) := by
    intro A B
    rw [Matrix.mulVec_mulVec, Matrix.mul_assoc, Matrix.mul_assoc, h, Matrix.mul_one, Matrix.mulVec_mulVec]
  exact e _ _

theorem cgMat_smul {l1 : ℕ} (l2 l3 : ℕ) (c : ℝ) (u : Fin (2 * l1 + 1) → ℝ) : cgMat l2 l3 (c • u) = c • cgMat l2 l3 u := by
  ext k j
  simp only [cgMat, Matrix.of_apply, Matrix.smul_apply, smul_eq_mul, Pi.smul_apply, Finset.mul_sum]
  exact Finset.sum_congr rfl fun i _ => by ring

theorem JY_smul (nrm : Normalization) (c : ℝ) (n : ℕ) (x v : Fin 3 → ℝ) : JY nrm n (c • x) v = c ^ n • JY nrm n x v := by
  unfold JY
  rw [Y_smul, cgMat_smul, Matrix.transpose_smul, Matrix.smul_mulVec, smul_comm]

theorem JY_pole (nrm : Normalization) (n : ℕ) (v : Fin 3 → ℝ) (j : Fin (2 * (n + 1) + 1)) :
    JY nrm n ey v j = gradW nrm (n + 1) * poleVal nrm n * ∑ k : Fin 3, clebschGordan n (n + 1) 1 (mid n) j k * v k := by
  unfold JY
  have : cgMat (n + 1) 1 (Y nrm n ey) = Matrix.of fun k j => clebschGordan n (n + 1) 1 (mid n) j k * poleVal nrm n := by
    ext k j
    simp only [cgMat, Matrix.of_apply, Y_pole]
    rw [Finset.sum_eq_single (mid n)]
    · rw [if_pos rfl]
    · intro i _ hi; rw [if_neg hi, mul_zero]
    · intro h; exact absurd (Finset.mem_univ _) h
  rw [this]
  simp only [Pi.smul_apply, smul_eq_mul, Matrix.mulVec, dotProduct, Matrix.transpose_apply, Matrix.of_apply]
  rw [mul_assoc, Finset.mul_sum (a := poleVal nrm n)]
  congr 1
  exact Finset.sum_congr rfl fun k _ => by ring

theorem gradW_eq (nrm : Normalization) (n : ℕ) : gradW nrm (n + 1) * poleVal nrm n = poleVal nrm (n + 1) * Real.sqrt ((2 * n + 3) * (n + 1) * (2 * n + 1)) := by
  have e1 : (2 * ((n + 1 : ℕ) : ℝ) + 1) = 2 * n + 3 := by push_cast; ring
  have e2 : (2 * ((n + 1 : ℕ) : ℝ) - 1) = 2 * n + 1 := by push_cast; ring
  have h3 : (0 : ℝ) ≤ 2 * n + 3 := by positivity
  have h1 : (0 : ℝ) ≤ 2 * n + 1 := by positivity
  have h2 : (0 : ℝ) ≤ n + 1 := by positivity
  have hq := Real.mul_self_sqrt h3
  cases nrm
  · simp only [gradW, poleVal, e1]
    rw [Real.sqrt_div h3, Real.sqrt_div h1, Real.sqrt_mul (show (0 : ℝ) ≤ (2 * n + 3) * (n + 1) by positivity), Real.sqrt_mul h3]
    push_cast
    linear_combination (-Real.sqrt (n + 1) * Real.sqrt (2 * n + 1) / Real.sqrt (4 * Real.pi)) * hq
  · simp only [gradW, poleVal, e1]
    rw [Real.sqrt_mul (by positivity), Real.sqrt_mul h3]
    push_cast
    linear_combination (-Real.sqrt (n + 1) * Real.sqrt (2 * n + 1)) * hq
  · simp only [gradW, poleVal, e1, e2, one_mul, mul_one]
    push_cast
    rfl

/-- The unit vector along `z`. -/
def ez : Fin 3 → ℝ := ![0, 0, 1]
/-- The unit vector along `x`. -/
def ex : Fin 3 → ℝ := ![1, 0, 0]

theorem pole_y (nrm : Normalization) (n : ℕ) : DY nrm (n + 1) ey ey = JY nrm n ey ey := by
  funext j
  rw [DY_euler, JY_pole, Y_pole, Fin.sum_univ_three]
  simp only [ey, Matrix.cons_val_zero, Matrix.cons_val_one, Matrix.cons_val, mul_zero, zero_add, add_zero, mul_one]
  rw [cg_grad_one, gradW_eq]
  simp only [Pi.smul_apply, smul_eq_mul]
  by_cases h : j = mid (n + 1)
  · rw [if_pos h, if_pos h, mul_assoc, ← Real.sqrt_mul (by positivity)]
    rw [show (2 * (n : ℝ) + 3) * (n + 1) * (2 * n + 1) * ((n + 1) / ((2 * n + 1) * (2 * n + 3))) = (n + 1) ^ 2 by field_simp,
      Real.sqrt_sq (by positivity)]
    push_cast; ring
  · rw [if_neg h, if_neg h, mul_zero, mul_zero]

theorem pole_z (nrm : Normalization) (n : ℕ) : DY nrm (n + 1) ey ez = JY nrm n ey ez := by
  have hz : ez = so3Generators 1 0 *ᵥ ey := by
    rw [so3_vec_0]
    funext i
    fin_cases i <;> simp [ez, ey, Matrix.mulVec, dotProduct, Fin.sum_univ_three]
  funext j
  rw [JY_pole, hz, DY_gen, ← hz, Y_pole, Fin.sum_univ_three]
  simp only [ez, Matrix.cons_val_zero, Matrix.cons_val_one, Matrix.cons_val, mul_zero, zero_add, mul_one]
  rw [cg_grad_two, gradW_eq]
  simp only [Matrix.mulVec, dotProduct]
  rw [Finset.sum_eq_single (mid (n + 1))]
  · rw [if_pos rfl, so3_gen_zero]
    have hm : (mid (n + 1)).val = n + 1 := rfl
    rw [hm]
    by_cases h : j.val = n + 2
    · rw [if_pos (by omega), if_pos h, mul_assoc, ← Real.sqrt_mul (by positivity), mul_comm]
      congr 1
      unfold xUpR
      rw [if_neg (by omega), if_pos rfl]
      rw [show Real.sqrt 2 / 2 = Real.sqrt (1 / 2) by
        rw [Real.sqrt_div zero_le_one, Real.sqrt_one]
        have := Real.mul_self_sqrt (show (0 : ℝ) ≤ 2 by norm_num)
        field_simp; linarith, ← Real.sqrt_mul (by norm_num)]
      congr 1
      push_cast
      field_simp
      ring
    · rw [if_neg (by omega), if_neg h, mul_zero]
      by_cases h' : n + 1 = j.val + 1
      · rw [if_pos h']
        unfold xUpR
        rw [if_pos (by omega), if_pos (by omega)]; simp
      · rw [if_neg h', zero_mul]
  · intro b _ hb; rw [if_neg hb, mul_zero]
  · intro h; exact absurd (Finset.mem_univ _) h

theorem quarter_y : matrixY (Real.pi / 2) *ᵥ ey = ey ∧ matrixY (Real.pi / 2) *ᵥ ez = ex := by
  constructor <;> funext i <;> fin_cases i <;> simp [matrixY, ey, ez, ex, Matrix.mulVec, dotProduct, Fin.sum_univ_three]

theorem pole_x (nrm : Normalization) (n : ℕ) : DY nrm (n + 1) ey ex = JY nrm n ey ex := by
  obtain ⟨h1, h2⟩ := quarter_y
  have hR := matrixY_rot (Real.pi / 2)
  have a := DY_rot nrm hR (n + 1) ey ez
  have b := JY_rot nrm hR n ey ez
  rw [h1, h2] at a b
  rw [a, b, pole_z]

theorem DY_add (nrm : Normalization) (l : ℕ) (x v w : Fin 3 → ℝ) : DY nrm l x (v + w) = DY nrm l x v + DY nrm l x w := by
  unfold DY; rw [map_add]
theorem DY_smul_right (nrm : Normalization) (l : ℕ) (x v : Fin 3 → ℝ) (c : ℝ) : DY nrm l x (c • v) = c • DY nrm l x v := by
  unfold DY; rw [map_smul]
theorem JY_add (nrm : Normalization) (l : ℕ) (x v w : Fin 3 → ℝ) : JY nrm l x (v + w) = JY nrm l x v + JY nrm l x w := by
  unfold JY; rw [Matrix.mulVec_add, smul_add]
theorem JY_smul_right (nrm : Normalization) (l : ℕ) (x v : Fin 3 → ℝ) (c : ℝ) : JY nrm l x (c • v) = c • JY nrm l x v := by
  unfold JY; rw [Matrix.mulVec_smul, smul_comm]

theorem pole_all (nrm : Normalization) (n : ℕ) (v : Fin 3 → ℝ) : DY nrm (n + 1) ey v = JY nrm n ey v := by
  have hv : v = v 0 • ex + v 1 • ey + v 2 • ez := by
    funext i; fin_cases i <;> simp [ex, ey, ez]
  rw [hv, DY_add, DY_add, JY_add, JY_add]
  simp only [DY_smul_right, JY_smul_right, pole_x, pole_y, pole_z]

theorem DY_eq_JY (nrm : Normalization) (n : ℕ) (x v : Fin 3 → ℝ) : DY nrm (n + 1) x v = JY nrm n x v := by
  have key : ∀ x, x ≠ 0 → DY nrm (n + 1) x v = JY nrm n x v := by
    intro x hx
    obtain ⟨R, hR, he⟩ := exists_rot x
    have hc : Real.sqrt (r2 x) ≠ 0 := by
      intro h; rw [h, zero_smul] at he; exact hx he
    have hRR : R *ᵥ (Rᵀ *ᵥ v) = v := by rw [Matrix.mulVec_mulVec, hR.1, Matrix.one_mulVec]
    have h1 : DY nrm (n + 1) (R *ᵥ ey) v = JY nrm n (R *ᵥ ey) v := by
      rw [← hRR, DY_rot nrm hR, JY_rot nrm hR, pole_all]
    have h2 := DY_smul nrm (Real.sqrt (r2 x)) (n + 1) (R *ᵥ ey) v
    rw [← he, h1, pow_succ', mul_smul] at h2
    have h3 := smul_right_injective _ hc h2
    rw [h3]
    conv_rhs => rw [he, JY_smul]
  have hD : Continuous fun x => DY nrm (n + 1) x v := by
    unfold DY
    exact ((Y_contDiff nrm (n + 1)).continuous_fderiv (by simp)).clm_apply continuous_const
  have hJ : Continuous fun x => JY nrm n x v := by
    have hY := (Y_contDiff nrm n).continuous
    unfold JY cgMat
    refine continuous_pi fun j => ?_
    simp only [Pi.smul_apply, Matrix.mulVec, dotProduct, Matrix.transpose_apply, Matrix.of_apply]
    fun_prop
  have := Continuous.ext_on (dense_compl_singleton (0 : Fin 3 → ℝ)) hD hJ (fun x hx => key x hx)
  exact congrFun this x

end E3nn.SH
