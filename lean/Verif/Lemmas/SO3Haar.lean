import Verif.Props.C75
import Verif.Lemmas.CGOrth

/-!
# The Wigner matrices as functions of the axis and of the angle
-/

namespace E3nn.SO3

open E3nn.SU2 E3nn.Rot E3nn.SH E3nn.Wig E3nn.S2
open scoped Matrix Kronecker

/-- Conjugated rotations of the same axis. -/
theorem axisAngle_of {g : Mat} (hg : IsRotation g) (t : ℝ) : axisAngleToMatrix (g *ᵥ ![0, 1, 0]) t = g * matrixY t * gᵀ := by
  have hu := col_unit hg
  have hv : g *ᵥ ![0, 1, 0] ≠ 0 := by intro h; rw [h] at hu; simp [vnormSq] at hu
  obtain ⟨h1, -, -⟩ := xyzToAngles_spec hv
  rw [normalize_of_unit hu] at h1
  unfold axisAngleToMatrix
  simp only
  generalize xyzToAngles (g *ᵥ ![0, 1, 0]) = ab at *
  set S := anglesToMatrix ab.1 ab.2 0 with hSd
  have hS : IsRotation S := anglesToMatrix_rot ab.1 ab.2 0
  have hfix : (Sᵀ * g) *ᵥ ![0, 1, 0] = ![0, 1, 0] := by
    rw [← Matrix.mulVec_mulVec, ← h1, ← anglesToMatrix_ey, Matrix.mulVec_mulVec, hS.left, Matrix.one_mulVec]
  have hy := fix_ey (hS.transpose.mul hg) hfix
  have hgS : g = S * matrixY (Rot.arctan2 ((Sᵀ * g) 0 2) ((Sᵀ * g) 0 0)) := by
    rw [← hy, ← Matrix.mul_assoc, hS.1, Matrix.one_mul]
  generalize Rot.arctan2 ((Sᵀ * g) 0 2) ((Sᵀ * g) 0 0) = u at hgS
  rw [hgS]
  have hc : matrixY u * matrixY t * (matrixY u)ᵀ = matrixY t := by
    have h1 : matrixY u * matrixY t = matrixY t * matrixY u := by
      ext i j
      fin_cases i <;> fin_cases j <;> simp [matrixY, Matrix.mul_apply, Fin.sum_univ_three] <;> ring
    rw [h1, Matrix.mul_assoc, (matrixY_rot u).1, Matrix.mul_one]
  rw [Matrix.transpose_mul]
  calc S * matrixY t * Sᵀ = S * (matrixY u * matrixY t * (matrixY u)ᵀ) * Sᵀ := by rw [hc]
    _ = _ := by simp only [Matrix.mul_assoc]

/-- Every unit vector is the image of the pole. -/
theorem exists_pole {n : Fin 3 → ℝ} (hn : vnormSq n = 1) : ∃ g : Mat, IsRotation g ∧ g *ᵥ ![0, 1, 0] = n := by
  have hv : n ≠ 0 := by intro h; rw [h] at hn; simp [vnormSq] at hn
  obtain ⟨h1, -, -⟩ := xyzToAngles_spec hv
  rw [normalize_of_unit hn] at h1
  exact ⟨anglesToMatrix (xyzToAngles n).1 (xyzToAngles n).2 0, anglesToMatrix_rot _ _ _, by rw [anglesToMatrix_ey, h1]⟩

theorem axisAngle_conj {g : Mat} (hg : IsRotation g) {n : Fin 3 → ℝ} (hn : vnormSq n = 1) (t : ℝ) :
    axisAngleToMatrix (g *ᵥ n) t = g * axisAngleToMatrix n t * gᵀ := by
  obtain ⟨h, hh, rfl⟩ := exists_pole hn
  rw [Matrix.mulVec_mulVec, axisAngle_of (hg.mul hh), axisAngle_of hh, Matrix.transpose_mul]
  simp only [Matrix.mul_assoc]

theorem repD_matrixY (l : ℕ) (t : ℝ) : repD l (matrixY t) = rotY l t := by
  rw [← log_ey, ← repD_log, wignerLog_ey]

/-- An equivariant function on the sphere is a multiple of the spherical harmonics. -/
theorem equiv_sphere {l : ℕ} (f : (Fin 3 → ℝ) → Fin (2 * l + 1) → ℝ) (hf : ∀ R, IsRotation R → ∀ x, vnormSq x = 1 → f (R *ᵥ x) = repD l R *ᵥ f x) :
    ∃ a : ℝ, ∀ x, vnormSq x = 1 → ∀ k, f x k = a * Y .integral l x k := by
  have hey : vnormSq (![0, 1, 0] : Fin 3 → ℝ) = 1 := by simp [vnormSq]
  have hinv : ∀ t, rotY l t *ᵥ f ![0, 1, 0] = f ![0, 1, 0] := by
    intro t
    rw [← repD_matrixY, ← hf _ (matrixY_rot t) _ hey]
    congr 1
    funext i
    fin_cases i <;> simp [matrixY, Matrix.mulVec, dotProduct, Fin.sum_univ_three]
  have h0 : ∀ k, k ≠ mid l → f ![0, 1, 0] k = 0 := by
    intro k hk
    have hkl : (l : ℝ) - k ≠ 0 := by
      intro h
      apply hk
      apply Fin.ext
      have : (k.val : ℝ) = l := by linarith
      exact_mod_cast this
    have h := congrFun (hinv (Real.pi / ((l : ℝ) - k))) k
    simp only [Matrix.mulVec, dotProduct, rotY_eq, mul_div_cancel₀ _ hkl, Real.cos_pi, Real.sin_pi] at h
    rw [Finset.sum_eq_single k] at h
    · simp at h
      linarith
    · intro b _ hb
      rw [if_neg (fun e => hb e.symm)]
      simp
    · simp
  have hp := poleVal_pos .integral l
  refine ⟨f ![0, 1, 0] (mid l) / poleVal .integral l, fun x hx k => ?_⟩
  obtain ⟨g, hg, rfl⟩ := exists_pole hx
  have hY : Y .integral l (g *ᵥ ![0, 1, 0]) = repD l g *ᵥ Y .integral l ![0, 1, 0] := (Y_spec .integral l).rot hg _
  have hYp : Y .integral l ![0, 1, 0] = fun k => if k = mid l then poleVal .integral l else 0 := Y_pole .integral l
  have hfp : f ![0, 1, 0] = (f ![0, 1, 0] (mid l) / poleVal .integral l) • Y .integral l ![0, 1, 0] := by
    funext k
    rw [Pi.smul_apply, hYp, smul_eq_mul]
    simp only
    split
    · rename_i h
      rw [h, div_mul_cancel₀ _ hp.ne']
    · rename_i h
      rw [h0 k h, mul_zero]
  rw [hf g hg _ hey, hY]
  conv_lhs => rw [hfp]
  rw [Matrix.mulVec_smul, Pi.smul_apply, smul_eq_mul]

/-- Clebsch-Gordan tensors and rotations. -/
theorem cg_rep (l1 l2 l3 : ℕ) {R : Mat} (hR : IsRotation R) : toMat (clebschGordan l1 l2 l3) * (repD l1 R ⊗ₖ repD l2 R) = repD l3 R * toMat (clebschGordan l1 l2 l3) := by
  obtain ⟨w, hw⟩ := exists_word hR
  rw [← repD_word hR hw, ← repD_word hR hw, ← repD_word hR hw]
  exact cg_word l1 l2 l3 w

/-- The degree of a slice. -/
def deg (l1 l2 : ℕ) (k : Fin (2 * min l1 l2 + 1)) : ℕ := max l1 l2 - min l1 l2 + k.val

theorem cgAll_rep (l1 l2 : ℕ) {R : Mat} (hR : IsRotation R) (k : Fin (2 * min l1 l2 + 1)) (c : Fin (2 * deg l1 l2 k + 1)) (p : Fin (2 * l1 + 1) × Fin (2 * l2 + 1)) :
    ∑ p' : Fin (2 * l1 + 1) × Fin (2 * l2 + 1), cgAll l1 l2 ⟨k, c⟩ p' * (repD l1 R p'.1 p.1 * repD l2 R p'.2 p.2) = ∑ c', repD (deg l1 l2 k) R c c' * cgAll l1 l2 ⟨k, c'⟩ p := by
  have h := congrFun (congrFun (cg_rep l1 l2 (deg l1 l2 k) hR) c) p
  rw [Matrix.mul_apply, Matrix.mul_apply] at h
  simp only [toMat, Matrix.kroneckerMap_apply] at h
  simp only [cgAll]
  calc _ = Real.sqrt (2 * ((deg l1 l2 k : ℕ) : ℝ) + 1) * ∑ p' : Fin (2 * l1 + 1) × Fin (2 * l2 + 1), clebschGordan l1 l2 (deg l1 l2 k) p'.1 p'.2 c * (repD l1 R p'.1 p.1 * repD l2 R p'.2 p.2) := by
        rw [Finset.mul_sum]
        exact Finset.sum_congr rfl fun p' _ => by unfold deg; ring
    _ = _ := by
        rw [h, Finset.mul_sum]
        exact Finset.sum_congr rfl fun p' _ => by unfold deg; ring

/-- The expansion of a tensor in slices. -/
theorem cgAll_expand (l1 l2 : ℕ) (M : Fin (2 * l1 + 1) × Fin (2 * l2 + 1) → ℝ) (p : Fin (2 * l1 + 1) × Fin (2 * l2 + 1)) :
    M p = ∑ q : CGIdx l1 l2, cgAll l1 l2 q p * ∑ p', cgAll l1 l2 q p' * M p' := by
  have h := cgAll_complete l1 l2
  have e : ((cgAll l1 l2)ᵀ * cgAll l1 l2) *ᵥ M = M := by rw [h, Matrix.one_mulVec]
  conv_lhs => rw [← e, ← Matrix.mulVec_mulVec]
  rfl

/-- For a fixed angle, the entries of the Wigner matrices are series of spherical harmonics of the axis. -/
theorem axis_series (l : ℕ) (t : ℝ) : ∃ a : Fin (2 * min l l + 1) → ℝ, ∀ n, vnormSq n = 1 → ∀ i j,
    repD l (axisAngleToMatrix n t) i j = ∑ q : CGIdx l l, cgAll l l q (i, j) * (a q.1 * Y .integral (deg l l q.1) n q.2) := by
  have hF : ∀ k : Fin (2 * min l l + 1), ∃ a : ℝ, ∀ n, vnormSq n = 1 → ∀ c : Fin (2 * deg l l k + 1),
      (∑ p' : Fin (2 * l + 1) × Fin (2 * l + 1), cgAll l l ⟨k, c⟩ p' * repD l (axisAngleToMatrix n t) p'.1 p'.2) = a * Y .integral (deg l l k) n c := by
    intro k
    refine equiv_sphere (fun n c => ∑ p' : Fin (2 * l + 1) × Fin (2 * l + 1), cgAll l l ⟨k, c⟩ p' * repD l (axisAngleToMatrix n t) p'.1 p'.2) ?_
    intro R hR n hn
    funext c
    have hA := axisAngleToMatrix_rot n t
    have e : ∀ p' : Fin (2 * l + 1) × Fin (2 * l + 1), repD l (axisAngleToMatrix (R *ᵥ n) t) p'.1 p'.2 =
        ∑ p : Fin (2 * l + 1) × Fin (2 * l + 1), (repD l R p'.1 p.1 * repD l R p'.2 p.2) * repD l (axisAngleToMatrix n t) p.1 p.2 := by
      intro p'
      rw [axisAngle_conj hR hn, repD_mul l (hR.mul hA) hR.transpose, repD_mul l hR hA, repD_transpose l hR, Matrix.mul_apply, Fintype.sum_prod_type, Finset.sum_comm]
      refine Finset.sum_congr rfl fun b _ => ?_
      rw [Matrix.mul_apply, Matrix.transpose_apply, Finset.sum_mul]
      exact Finset.sum_congr rfl fun a _ => by ring
    simp_rw [e, Finset.mul_sum]
    rw [Finset.sum_comm]
    have e2 : ∀ p : Fin (2 * l + 1) × Fin (2 * l + 1), ∑ p' : Fin (2 * l + 1) × Fin (2 * l + 1), cgAll l l ⟨k, c⟩ p' * (repD l R p'.1 p.1 * repD l R p'.2 p.2 * repD l (axisAngleToMatrix n t) p.1 p.2) =
        (∑ c', repD (deg l l k) R c c' * cgAll l l ⟨k, c'⟩ p) * repD l (axisAngleToMatrix n t) p.1 p.2 := by
      intro p
      rw [← cgAll_rep l l hR k c p, Finset.sum_mul]
      exact Finset.sum_congr rfl fun p' _ => by ring
    rw [Finset.sum_congr rfl fun p _ => e2 p]
    simp only [Matrix.mulVec, dotProduct]
    simp_rw [Finset.sum_mul, Finset.mul_sum]
    rw [Finset.sum_comm]
    exact Finset.sum_congr rfl fun c' _ => Finset.sum_congr rfl fun p _ => mul_assoc _ _ _
  choose a ha using hF
  refine ⟨a, fun n hn i j => ?_⟩
  rw [cgAll_expand l l (fun p => repD l (axisAngleToMatrix n t) p.1 p.2) (i, j)]
  refine Finset.sum_congr rfl fun q _ => ?_
  rw [ha q.1 n hn q.2]

/-- The trace. -/
theorem trace_axis (l : ℕ) {n : Fin 3 → ℝ} (hn : vnormSq n = 1) (t : ℝ) : ∑ i, repD l (axisAngleToMatrix n t) i i = ∑ a ∈ Finset.range (2 * l + 1), Real.cos (((l : ℝ) - a) * t) := by
  obtain ⟨g, hg, rfl⟩ := exists_pole hn
  rw [axisAngle_of hg, repD_mul l (hg.mul (matrixY_rot t)) hg.transpose, repD_mul l hg (matrixY_rot t), repD_transpose l hg]
  change Matrix.trace (repD l g * repD l (matrixY t) * (repD l g)ᵀ) = _
  rw [Matrix.mul_assoc, Matrix.trace_mul_comm, Matrix.mul_assoc, mul_eq_one_comm.mp (repD_orth l hg), Matrix.mul_one, repD_matrixY, Finset.sum_range]
  unfold Matrix.trace
  refine Finset.sum_congr rfl fun a _ => ?_
  rw [Matrix.diag_apply, rotY_eq, if_pos rfl]
  split
  · rename_i h
    have : (a.val : ℝ) = l := by exact_mod_cast (show a.val = l by omega)
    rw [this]; simp
  · simp

end E3nn.SO3
