import Verif.Lemmas.TPSH
import Verif.Props.C39
import Verif.Props.C67
import Verif.Props.C71
import Verif.Lemmas.SHGrad
import Verif.Lemmas.SO3Haar

/-!
# The reflection `x ↦ -x` and the stabiliser of the `y` axis
-/

namespace E3nn.LSH

open E3nn.Rot E3nn.Wig E3nn.SU2 E3nn.SH Matrix

/-- The reflection of the first coordinate. -/
def flipX : Mat := Matrix.diagonal ![-1, 1, 1]

/-- `-1` for the components of negative order. -/
def sg (l : ℕ) (k : Fin (2 * l + 1)) : ℝ := if k.val < l then -1 else 1

/-- The diagonal matrix of signs. -/
def sgM (l : ℕ) : Matrix (Fin (2 * l + 1)) (Fin (2 * l + 1)) ℝ := Matrix.diagonal (sg l)

theorem sg_sq (l : ℕ) (k : Fin (2 * l + 1)) : sg l k * sg l k = 1 := by unfold sg; split <;> norm_num

theorem sgM_sq (l : ℕ) : sgM l * sgM l = 1 := by
  unfold sgM
  rw [Matrix.diagonal_mul_diagonal]
  simp [sg_sq]

theorem flipX_orth : IsOrth flipX := by
  unfold IsOrth flipX
  rw [Matrix.diagonal_transpose, Matrix.diagonal_mul_diagonal, ← Matrix.diagonal_one]
  congr 1
  funext i
  fin_cases i <;> simp

theorem flipX_sq : flipX * flipX = 1 := by
  have := flipX_orth
  unfold IsOrth at this
  rwa [show flipXᵀ = flipX from Matrix.diagonal_transpose _] at this

theorem flipX_det : flipX.det = -1 := by
  unfold flipX
  rw [Matrix.det_diagonal]
  simp [Fin.prod_univ_three]

theorem flipX_conj_Y (t : ℝ) : flipX * matrixY t * flipX = matrixY (-t) := by
  ext i j
  fin_cases i <;> fin_cases j <;> simp [flipX, matrixY, Matrix.diagonal_mul, Matrix.mul_diagonal]

theorem flipX_conj_X (t : ℝ) : flipX * matrixX t * flipX = matrixX t := by
  ext i j
  fin_cases i <;> fin_cases j <;> simp [flipX, matrixX, Matrix.diagonal_mul, Matrix.mul_diagonal]

theorem sgM_rotY (l : ℕ) (t : ℝ) : sgM l * rotY l t * sgM l = rotY l (-t) := by
  ext a b
  unfold sgM
  rw [Matrix.mul_diagonal, Matrix.diagonal_mul]
  unfold rotY
  have ha := a.isLt
  have hb := b.isLt
  split_ifs with h1 h2
  · subst h1
    rw [mul_comm (sg l a) _, mul_assoc, sg_sq, mul_one]
    rw [show ((l : ℝ) - a) * -t = -(((l : ℝ) - a) * t) by ring, Real.cos_neg]
  · rw [show ((l : ℝ) - a) * -t = -(((l : ℝ) - a) * t) by ring, Real.sin_neg]
    have h3 : a.val ≠ b.val := fun e => h1 (Fin.ext e)
    unfold sg
    split_ifs <;> first | omega | ring
  · ring

theorem sgM_gen (l : ℕ) : sgM l * so3Generators l 0 = so3Generators l 0 * sgM l := by
  ext a b
  unfold sgM
  rw [Matrix.mul_diagonal, Matrix.diagonal_mul, so3_gen_zero]
  have key : ∀ k : ℕ, k + 1 = l → xUpR l k = 0 := by
    intro k hk
    unfold xUpR
    rw [if_pos (by omega), if_pos hk, zero_mul]
  unfold sg
  split_ifs <;> first | omega | ring1 | (rw [key _ (by omega)]; ring1)

theorem sgM_rotX (l : ℕ) (t : ℝ) : sgM l * rotX l t * sgM l = rotX l t := by
  have h : Commute (sgM l) (NormedSpace.exp (t • so3Generators l 0)) := by
    open scoped Matrix.Norms.Operator in
    exact Commute.exp_right ((show Commute (sgM l) (so3Generators l 0) from sgM_gen l).smul_right t)
  rw [rotX_eq]
  rw [h.eq, mul_assoc, sgM_sq, mul_one]

theorem angles_YXY (a b c : ℝ) : anglesToMatrix a b c = matrixY a * matrixX b * matrixY c := rfl

theorem conj_mul {n : Type*} [Fintype n] [DecidableEq n] {F A B : Matrix n n ℝ} (h : F * F = 1) : F * (A * B) * F = (F * A * F) * (F * B * F) := by
  simp only [Matrix.mul_assoc]
  rw [← Matrix.mul_assoc F F (B * F), h, Matrix.one_mul]

/-- Conjugation by the reflection. -/
theorem sgM_conj (l : ℕ) {R : Mat} (hR : IsRotation R) : sgM l * repD l R * sgM l = repD l (flipX * R * flipX) := by
  obtain ⟨a, b, c, rfl⟩ : ∃ a b c, R = anglesToMatrix a b c := ⟨_, _, _, (matrixToAngles_spec hR).symm⟩
  have e : flipX * anglesToMatrix a b c * flipX = matrixY (-a) * matrixX b * matrixY (-c) := by
    rw [angles_YXY, conj_mul flipX_sq, conj_mul flipX_sq, flipX_conj_X, flipX_conj_Y, flipX_conj_Y]
  rw [e, angles_YXY, repD_mul l ((matrixY_rot _).mul (matrixX_rot _)) (matrixY_rot _), repD_mul l (matrixY_rot _) (matrixX_rot _),
    repD_mul l ((matrixY_rot _).mul (matrixX_rot _)) (matrixY_rot _), repD_mul l (matrixY_rot _) (matrixX_rot _),
    repD_matrixX, repD_matrixY, repD_matrixY, repD_matrixY, repD_matrixY, conj_mul (sgM_sq l), conj_mul (sgM_sq l), sgM_rotX, sgM_rotY, sgM_rotY]

theorem negFlip_rot : IsRotation (-flipX) := by
  constructor
  · have := flipX_orth
    unfold IsOrth at this
    simpa using this
  · rw [Matrix.det_neg, flipX_det]; norm_num

theorem negFlip_sq : (-flipX) * (-flipX) = 1 := by simpa using flipX_sq

/-- The half turn around the `x` axis. -/
theorem repD_negFlip (l : ℕ) : repD l (-flipX) = (-1 : ℝ) ^ l • sgM l := by
  have hinv : repD l (-flipX) * repD l (-flipX) = 1 := by rw [← repD_mul l negFlip_rot negFlip_rot, negFlip_sq, repD_one]
  obtain ⟨c, hc⟩ := C39_irreducible ⟨l, .e⟩ (sgM l * repD l (-flipX)) (by
    intro R hR
    have hR' : IsRotation (flipX * R * flipX) := by
      have := (negFlip_rot.mul hR).mul negFlip_rot
      simpa using this
    simp only [dMatrix_rot _ hR]
    have e : repD l (-flipX) * repD l R = repD l (flipX * R * flipX) * repD l (-flipX) := by
      rw [← repD_mul l negFlip_rot hR, ← repD_mul l hR' negFlip_rot]
      congr 1
      simp only [Matrix.mul_neg, Matrix.neg_mul, Matrix.mul_assoc, flipX_sq, Matrix.mul_one]
    rw [Matrix.mul_assoc, e, ← sgM_conj l hR]
    simp only [← Matrix.mul_assoc]
    rw [sgM_sq, Matrix.one_mul])
  have h1 : repD l (-flipX) = c • sgM l := by
    have := congrArg (fun M => sgM l * M) hc
    simp only at this
    rw [← Matrix.mul_assoc, sgM_sq, Matrix.one_mul, Matrix.mul_smul, Matrix.mul_one] at this
    exact this
  have hc' : c = (-1) ^ l := by
    have hs := Y_spec .norm l
    have e1 := congrFun (hs.equivariant .e _ negFlip_rot.1 ![0, 1, 0]) ⟨l, by omega⟩
    have e2 : dMatrix ⟨1, .e⟩ (-flipX) *ᵥ ![0, 1, 0] = dMatrix ⟨1, .o⟩ (-1) *ᵥ ![0, 1, 0] := by
      rw [TPSH.dMatrix_one .e negFlip_rot, C39_inversion]
      funext i
      fin_cases i <;> simp [flipX, Matrix.mulVec, dotProduct, Fin.sum_univ_three, Parity.toInt, Matrix.neg_apply, Matrix.diagonal, Matrix.one_apply, Matrix.smul_apply]
    have h' : IsOrth (-1 : Mat) := by unfold IsOrth; simp
    have e3 := congrFun (hs.equivariant .o _ h' ![0, 1, 0]) ⟨l, by omega⟩
    rw [e2, e3, C39_inversion, dMatrix_rot _ negFlip_rot, h1] at e1
    simp only [Matrix.smul_mulVec, Pi.smul_apply, smul_eq_mul, Matrix.one_mulVec, sgM, Matrix.mulVec_diagonal, hs.pole, if_true] at e1
    have hne : sphLength .norm l ≠ 0 := by simp [sphLength]
    have hsg : sg l ⟨l, by omega⟩ = 1 := by simp [sg]
    rw [hsg, one_mul] at e1
    have := mul_right_cancel₀ hne e1
    rw [← this]
    unfold Parity.pow Parity.ofPow Parity.toInt
    rcases Nat.even_or_odd l with h | h
    · rw [h.neg_one_pow]; simp [Nat.even_iff.mp h]
    · rw [h.neg_one_pow]; simp [Nat.odd_iff.mp h]
  rw [h1, hc']

/-- The reflection in an irreducible representation. -/
theorem dMatrix_flip (ir : Irrep) : dMatrix ir flipX = ((ir.p.toInt : ℝ) * (-1) ^ ir.l) • sgM ir.l := by
  have h' : IsOrth (-1 : Mat) := by unfold IsOrth; simp
  have e : flipX = (-1) * (-flipX) := by simp
  rw [e, C39_homomorphism ir h' negFlip_rot.1, C39_inversion, dMatrix_rot ir negFlip_rot, repD_negFlip, Matrix.smul_mul, Matrix.one_mul, smul_smul]

theorem dMatrix_Y (ir : Irrep) (t : ℝ) : dMatrix ir (matrixY t) = rotY ir.l t := by
  rw [dMatrix_rot ir (matrixY_rot t), repD_matrixY]

end E3nn.LSH
