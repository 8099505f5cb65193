import Verif.Lemmas.JTable
import Verif.Lemmas.CGNorm
import Verif.Lemmas.SO3Vec
import Verif.Lemmas.Rotation2

namespace E3nn.Wig

open Matrix E3nn.SU2 E3nn.Rot Kronecker

/-! ### rotations around y -/

theorem exp_ode_banach {A : Type*} [NormedRing A] [NormedAlgebra ℝ A] [CompleteSpace A] (K : A) (f : ℝ → A) (h0 : f 0 = 1)
    (hf : ∀ s, HasDerivAt f (K * f s) s) (t : ℝ) : NormedSpace.exp (t • K) = f t := by
  let g : ℝ → A := fun s => NormedSpace.exp (s • (-K)) * f s
  have hg : ∀ s, HasDerivAt g 0 s := by
    intro s
    have h1 := hasDerivAt_exp_smul_const (𝕂 := ℝ) (-K) s
    have h2 := h1.mul (hf s)
    refine h2.congr_deriv ?_
    rw [mul_assoc, ← mul_add, neg_mul, neg_add_cancel, mul_zero]
  have hconst : ∀ s, g s = g 0 := fun s =>
    is_const_of_deriv_eq_zero (fun s => (hg s).differentiableAt) (fun s => (hg s).deriv) s 0
  have hg0 : g 0 = 1 := by
    show NormedSpace.exp ((0 : ℝ) • (-K)) * f 0 = 1
    simp [h0]
  have h1 : NormedSpace.exp (t • (-K)) * f t = 1 := (hconst t).trans hg0
  have hcomm : NormedSpace.exp (t • K) * NormedSpace.exp (t • (-K)) = 1 := by
    let _ : NormedAlgebra ℚ A := NormedAlgebra.restrictScalars ℚ ℝ A
    have : IsUnit (NormedSpace.exp (t • K)) := NormedSpace.isUnit_exp _
    rw [smul_neg, ← Ring.inverse_exp, Ring.mul_inverse_cancel _ this]
  calc NormedSpace.exp (t • K) = NormedSpace.exp (t • K) * (NormedSpace.exp (t • (-K)) * f t) := by rw [h1, mul_one]
    _ = f t := by rw [← mul_assoc, hcomm, one_mul]

theorem exp_ode {n : ℕ} (K : Matrix (Fin n) (Fin n) ℝ) (f df : Fin n → Fin n → ℝ → ℝ)
    (h0 : ∀ a b, f a b 0 = (1 : Matrix (Fin n) (Fin n) ℝ) a b)
    (hf : ∀ a b s, HasDerivAt (f a b) (df a b s) s) (hK : ∀ s a b, df a b s = ∑ c, K a c * f c b s) (t : ℝ) :
    NormedSpace.exp (t • K) = Matrix.of fun a b => f a b t := by
  have hsum : ∀ g : Fin n → Fin n → ℝ, (Matrix.of g : Matrix (Fin n) (Fin n) ℝ) = ∑ a, ∑ b, g a b • Matrix.single a b (1 : ℝ) := by
    intro g
    conv_lhs => rw [Matrix.matrix_eq_sum_single (Matrix.of g)]
    apply Finset.sum_congr rfl
    intro a _
    apply Finset.sum_congr rfl
    intro b _
    rw [Matrix.smul_single]; simp
  open scoped Matrix.Norms.Operator in
  refine exp_ode_banach K (fun s => Matrix.of fun a b => f a b s) ?_ ?_ t
  · ext a b; exact h0 a b
  · intro s
    have e : K * Matrix.of (fun a b => f a b s) = ∑ a, ∑ b, df a b s • Matrix.single a b (1 : ℝ) := by
      rw [← hsum]
      ext a b
      rw [Matrix.mul_apply]
      simp only [Matrix.of_apply]
      rw [hK]
    rw [e]
    simp only [hsum]
    refine HasDerivAt.fun_sum fun a _ => HasDerivAt.fun_sum fun b _ => ?_
    exact (hf a b s).smul_const _

theorem rotY_eq (l : ℕ) (t : ℝ) (a b : Fin (2 * l + 1)) :
    rotY l t a b = (if a = b then Real.cos (((l : ℝ) - a) * t) else 0) + (if b.val + a.val = 2 * l then Real.sin (((l : ℝ) - a) * t) else 0) := by
  unfold rotY
  have ha := a.isLt
  by_cases h : a = b
  · subst h
    rw [if_pos rfl, if_pos rfl]
    split
    · rename_i h
      have : (a.val : ℝ) = l := by exact_mod_cast (show a.val = l by omega)
      rw [this]; simp
    · simp
  · rw [if_neg h, if_neg h, zero_add]
    by_cases h2 : b.val + a.val = 2 * l
    · rw [if_pos h2, if_pos (by omega)]
    · rw [if_neg h2, if_neg (by omega)]

/-- `rot_y` is the exponential of the second generator. -/
theorem exp_gen_one (l : ℕ) (t : ℝ) : NormedSpace.exp (t • so3Generators l 1) = rotY l t := by
  rw [exp_ode (so3Generators l 1) (fun a b t => rotY l t a b)
    (fun a b t => (if a = b then -Real.sin (((l : ℝ) - a) * t) * ((l : ℝ) - a) else 0) +
      (if b.val + a.val = 2 * l then Real.cos (((l : ℝ) - a) * t) * ((l : ℝ) - a) else 0))]
  · rfl
  · intro a b
    rw [rotY_eq, Matrix.one_apply]
    simp
  · intro a b s
    have hlin : HasDerivAt (fun t : ℝ => ((l : ℝ) - a) * t) ((l : ℝ) - a) s := by
      simpa using (hasDerivAt_id s).const_mul ((l : ℝ) - a)
    have e : (fun t => rotY l t a b) = fun t => (if a = b then Real.cos (((l : ℝ) - a) * t) else 0) +
        (if b.val + a.val = 2 * l then Real.sin (((l : ℝ) - a) * t) else 0) := by
      funext t; exact rotY_eq l t a b
    rw [e]
    apply HasDerivAt.add
    · split
      · exact hlin.cos
      · exact hasDerivAt_const _ _
    · split
      · exact hlin.sin
      · exact hasDerivAt_const _ _
  · intro s a b
    have ha := a.isLt
    rw [Finset.sum_eq_single a.rev]
    · have hv : (a.rev).val + a.val = 2 * l := by rw [rev_sub]; omega
      rw [so3_gen_one, if_pos hv, rotY_eq]
      have hr : ((a.rev.val : ℕ) : ℝ) = 2 * l - a.val := by
        rw [rev_sub, Nat.cast_sub (by omega)]; push_cast; ring
      rw [hr, show (l : ℝ) - (2 * l - a.val) = -((l : ℝ) - a.val) by ring, neg_mul ((l : ℝ) - a.val) s, Real.cos_neg, Real.sin_neg]
      have h1 : (a.rev = b) ↔ b.val + a.val = 2 * l := by
        constructor
        · rintro rfl; rw [rev_sub]; omega
        · intro h; exact Fin.ext (by rw [rev_sub]; omega)
      have h2 : (b.val + (a.rev).val = 2 * l) ↔ a = b := by
        rw [rev_sub]
        constructor
        · intro h; exact Fin.ext (by omega)
        · rintro rfl; omega
      simp only [h1, h2]
      split <;> split <;> ring
    · intro c _ hc
      rw [so3_gen_one, if_neg, zero_mul]
      intro h
      exact hc (Fin.ext (by rw [rev_sub]; omega))
    · simp

theorem exp_add_smul {n : ℕ} (X : Matrix (Fin n) (Fin n) ℝ) (s t : ℝ) :
    NormedSpace.exp ((s + t) • X) = NormedSpace.exp (s • X) * NormedSpace.exp (t • X) := by
  rw [add_smul, Matrix.exp_add_of_commute]
  exact ((Commute.refl X).smul_left s).smul_right t

theorem rotX_small {l : ℕ} (hl : l < 12) (t : ℝ) : jMatrix l * rotY l t * jMatrix l = NormedSpace.exp (t • so3Generators l 0) := by
  have h : jMatrix l * (t • so3Generators l 1) = (t • so3Generators l 0) * jMatrix l := by
    rw [← jMatrix_gen hl, Matrix.smul_mul, Matrix.mul_assoc (jMatrix l * so3Generators l 1), jMatrix_sq hl, Matrix.mul_one, Matrix.mul_smul]
  rw [← exp_gen_one, exp_intertwine h, Matrix.mul_assoc, jMatrix_sq hl, Matrix.mul_one]

theorem rotX_eq (l : ℕ) (t : ℝ) : rotX l t = NormedSpace.exp (t • so3Generators l 0) := by
  unfold rotX
  split
  · rename_i h
    exact rotX_small (by simpa [jTables] using h) t
  · rfl

/-! ### words of rotations -/

/-- Product of the Wigner matrices of a list of log coordinates. -/
noncomputable def dWord (l : ℕ) (w : List Vec) : Matrix (Fin (2 * l + 1)) (Fin (2 * l + 1)) ℝ := (w.map (wignerLog l)).prod

theorem dWord_append (l : ℕ) (u w : List Vec) : dWord l (u ++ w) = dWord l u * dWord l w := by
  simp [dWord]

theorem cg_log (l1 l2 l3 : ℕ) (v : Vec) : toMat (clebschGordan l1 l2 l3) * (wignerLog l1 v ⊗ₖ wignerLog l2 v) =
    wignerLog l3 v * toMat (clebschGordan l1 l2 l3) := by
  apply Inter.exp
  simp only [Fin.sum_univ_three]
  exact (((inter_real l1 l2 l3 0).smul _).add ((inter_real l1 l2 l3 1).smul _)).add ((inter_real l1 l2 l3 2).smul _)

theorem cg_word (l1 l2 l3 : ℕ) (w : List Vec) : toMat (clebschGordan l1 l2 l3) * (dWord l1 w ⊗ₖ dWord l2 w) =
    dWord l3 w * toMat (clebschGordan l1 l2 l3) := by
  induction w with
  | nil => simp [dWord]
  | cons v w ih =>
    have h1 : ∀ l, dWord l (v :: w) = wignerLog l v * dWord l w := by intro l; simp [dWord]
    rw [h1, h1, h1, Matrix.mul_kronecker_mul, ← Matrix.mul_assoc, cg_log, Matrix.mul_assoc, ih, Matrix.mul_assoc]

theorem wignerLog_zero_deg (v : Vec) : wignerLog 0 v = 1 := by
  have h : ∀ i, so3Generators 0 i = 0 := by
    intro i
    have := so3_antisymm 0 i
    ext a b
    have hab : a = b := by omega
    subst hab
    have h := congrFun (congrFun this a) a
    simp only [Matrix.transpose_apply, Matrix.neg_apply] at h
    simp only [Matrix.zero_apply]; linarith
  unfold wignerLog
  simp [h]

/-- The matrices of all degrees are determined by those of degree one. -/
theorem dWord_det {w u : List Vec} (h : dWord 1 w = dWord 1 u) (l : ℕ) : dWord l w = dWord l u := by
  induction l with
  | zero =>
    have : ∀ w, dWord 0 w = 1 := by
      intro w
      induction w with
      | nil => simp [dWord]
      | cons v w ih =>
        have : dWord 0 (v :: w) = wignerLog 0 v * dWord 0 w := by simp [dWord]
        rw [this, ih, wignerLog_zero_deg, Matrix.one_mul]
    rw [this, this]
  | succ l ih =>
    have hr : inRange (2 * l) (2 * 1) (2 * (l + 1)) := inRange_iff.mpr ⟨2, 2 * l, 0, by omega, by omega, by omega⟩
    have hg := cg_gram hr
    have key : ∀ w, dWord (l + 1) w = (2 * ((l + 1 : ℕ) : ℝ) + 1) • (toMat (clebschGordan l 1 (l + 1)) * (dWord l w ⊗ₖ dWord 1 w) *
        (toMat (clebschGordan l 1 (l + 1)))ᵀ) := by
      intro w
      rw [cg_word, Matrix.mul_assoc, hg, Matrix.mul_smul, Matrix.mul_one, smul_smul, mul_one_div_cancel (by positivity), one_smul]
    rw [key, key, ih, h]

theorem wignerLog_one (v : Vec) : wignerLog 1 v = logCoordinatesToMatrix v := by
  unfold wignerLog logCoordinatesToMatrix
  congr 1
  rw [Fin.sum_univ_three, so3_vec_0, so3_vec_1, so3_vec_2]
  rfl

theorem dWord_one (w : List Vec) : dWord 1 w = (w.map logCoordinatesToMatrix).prod := by
  unfold dWord
  congr 1
  apply List.map_congr_left
  intro v _
  exact wignerLog_one v

/-- Words with the same rotation have the same matrix in all degrees. -/
theorem dWord_congr {w u : List Vec} (h : (w.map logCoordinatesToMatrix).prod = (u.map logCoordinatesToMatrix).prod) (l : ℕ) :
    dWord l w = dWord l u := dWord_det (by rw [dWord_one, dWord_one, h]) l

/-! ### `D_from_angles` -/

theorem wignerLog_ey (l : ℕ) (t : ℝ) : wignerLog l ![0, t, 0] = rotY l t := by
  unfold wignerLog
  rw [Fin.sum_univ_three]
  simp only [Matrix.cons_val_zero, Matrix.cons_val_one, Matrix.cons_val, zero_smul, zero_add, add_zero]
  exact exp_gen_one l t

theorem wignerLog_ex (l : ℕ) (t : ℝ) : wignerLog l ![t, 0, 0] = rotX l t := by
  unfold wignerLog
  rw [Fin.sum_univ_three, rotX_eq]
  simp

theorem log_ey (t : ℝ) : logCoordinatesToMatrix ![0, t, 0] = matrixY t := by
  have := exp_rodrigues (n := ![0, 1, 0]) (by simp [vnormSq]) t
  rw [rodrigues_ey] at this
  rw [← this]
  congr 1
  funext i; fin_cases i <;> simp

theorem log_ex (t : ℝ) : logCoordinatesToMatrix ![t, 0, 0] = matrixX t := by
  have := exp_rodrigues (n := ![1, 0, 0]) (by simp [vnormSq]) t
  rw [rodrigues_ex] at this
  rw [← this]
  congr 1
  funext i; fin_cases i <;> simp

theorem cos_modTwoPi (x : ℝ) : Real.cos (modTwoPi x) = Real.cos x := by
  unfold modTwoPi
  rw [mul_comm (2 * Real.pi), Real.cos_sub_int_mul_two_pi]

theorem sin_modTwoPi (x : ℝ) : Real.sin (modTwoPi x) = Real.sin x := by
  unfold modTwoPi
  rw [mul_comm (2 * Real.pi), Real.sin_sub_int_mul_two_pi]

theorem rotY_mod (l : ℕ) (x : ℝ) : rotY l (modTwoPi x) = rotY l x := by
  have h := dWord_congr (w := [![0, modTwoPi x, 0]]) (u := [![0, x, 0]])
    (by simp only [List.map_cons, List.map_nil, log_ey, matrixY, cos_modTwoPi, sin_modTwoPi]) l
  simpa [dWord, wignerLog_ey] using h

theorem rotX_mod (l : ℕ) (x : ℝ) : rotX l (modTwoPi x) = rotX l x := by
  have h := dWord_congr (w := [![modTwoPi x, 0, 0]]) (u := [![x, 0, 0]])
    (by simp only [List.map_cons, List.map_nil, log_ex, matrixX, cos_modTwoPi, sin_modTwoPi]) l
  simpa [dWord, wignerLog_ex] using h

theorem rotY_zero (l : ℕ) : rotY l 0 = 1 := by rw [← exp_gen_one]; simp
theorem rotX_zero (l : ℕ) : rotX l 0 = 1 := by rw [rotX_eq]; simp

theorem wignerAngles_eq (l : ℕ) (a b c : Option ℝ) :
    wignerAngles l a b c = rotY l (a.getD 0) * rotX l (b.getD 0) * rotY l (c.getD 0) := by
  unfold wignerAngles
  cases a <;> cases b <;> cases c <;>
    simp [rotY_mod, rotX_mod, rotY_zero, rotX_zero]

theorem Angle.opt_getD (a : Angle) : a.opt.getD 0 = a.val := by
  cases a with
  | py x =>
    simp only [Angle.opt, Angle.val]
    split
    · rename_i h; simp [h]
    · rfl
  | arr x => rfl

theorem wignerAngles_word (l : ℕ) (a b c : Angle) :
    wignerAngles l a.opt b.opt c.opt = dWord l [![0, a.val, 0], ![b.val, 0, 0], ![0, c.val, 0]] := by
  rw [wignerAngles_eq, Angle.opt_getD, Angle.opt_getD, Angle.opt_getD]
  simp [dWord, wignerLog_ey, wignerLog_ex, mul_assoc]

theorem angles_word (a b c : ℝ) :
    ([![0, a, 0], ![b, 0, 0], ![0, c, 0]].map logCoordinatesToMatrix).prod = anglesToMatrix a b c := by
  simp [log_ey, log_ex, anglesToMatrix, mul_assoc]

/-! ### the representation -/

/-- The matrix of degree `l` of a rotation (given by any word). -/
noncomputable def repD (l : ℕ) (R : Mat) : Matrix (Fin (2 * l + 1)) (Fin (2 * l + 1)) ℝ :=
  let a := matrixToAngles R
  dWord l [![0, a.1, 0], ![a.2.1, 0, 0], ![0, a.2.2, 0]]

theorem repD_word {R : Mat} (hR : IsRotation R) {w : List Vec} (h : (w.map logCoordinatesToMatrix).prod = R) (l : ℕ) :
    dWord l w = repD l R := by
  unfold repD
  apply dWord_congr
  rw [h, angles_word, matrixToAngles_spec hR]

theorem exists_word {R : Mat} (hR : IsRotation R) : ∃ w : List Vec, (w.map logCoordinatesToMatrix).prod = R :=
  ⟨_, (angles_word _ _ _).trans (matrixToAngles_spec hR)⟩

theorem repD_mul (l : ℕ) {R S : Mat} (hR : IsRotation R) (hS : IsRotation S) : repD l (R * S) = repD l R * repD l S := by
  obtain ⟨u, hu⟩ := exists_word hR
  obtain ⟨w, hw⟩ := exists_word hS
  rw [← repD_word hR hu, ← repD_word hS hw, ← dWord_append, ← repD_word (hR.mul hS) (w := u ++ w)]
  rw [List.map_append, List.prod_append, hu, hw]

theorem isRotation_one : IsRotation (1 : Mat) := ⟨by simp, by simp⟩

theorem repD_one (l : ℕ) : repD l 1 = 1 := by
  rw [← repD_word isRotation_one (w := []) (by simp)]
  simp [dWord]

theorem repD_deg_one {R : Mat} (hR : IsRotation R) : repD 1 R = R := by
  obtain ⟨u, hu⟩ := exists_word hR
  rw [← repD_word hR hu, dWord_one, hu]

theorem repD_log (l : ℕ) (v : Vec) : wignerLog l v = repD l (logCoordinatesToMatrix v) := by
  have hR : IsRotation (logCoordinatesToMatrix v) := by
    rw [logCoordinatesToMatrix_eq]; exact axisAngleToMatrix_rot _ _
  rw [← repD_word hR (w := [v]) (by simp)]
  simp [dWord]

theorem wignerLog_orth (l : ℕ) (v : Vec) : wignerLog l v * (wignerLog l v)ᵀ = 1 := by
  unfold wignerLog
  have h : (∑ a, v a • so3Generators l a)ᵀ = -∑ a, v a • so3Generators l a := by
    rw [Matrix.transpose_sum, ← Finset.sum_neg_distrib]
    apply Finset.sum_congr rfl
    intro a _
    rw [Matrix.transpose_smul, so3_antisymm, smul_neg]
  rw [← Matrix.exp_transpose, h, Matrix.exp_neg, Matrix.mul_nonsing_inv]
  exact (Matrix.isUnit_iff_isUnit_det _).mp (Matrix.isUnit_exp _)

theorem repD_orth (l : ℕ) {R : Mat} (hR : IsRotation R) : repD l R * (repD l R)ᵀ = 1 := by
  obtain ⟨u, hu⟩ := exists_word hR
  rw [← repD_word hR hu]
  clear hu hR
  induction u with
  | nil => simp [dWord]
  | cons v u ih =>
    have h1 : dWord l (v :: u) = wignerLog l v * dWord l u := by simp [dWord]
    rw [h1, Matrix.transpose_mul, Matrix.mul_assoc, ← Matrix.mul_assoc (dWord l u), ih, Matrix.one_mul, wignerLog_orth]

theorem repD_transpose (l : ℕ) {R : Mat} (hR : IsRotation R) : repD l Rᵀ = (repD l R)ᵀ := by
  have h := repD_mul l hR.transpose hR
  rw [hR.left, repD_one] at h
  calc repD l Rᵀ = repD l Rᵀ * (repD l R * (repD l R)ᵀ) := by rw [repD_orth l hR, Matrix.mul_one]
    _ = (repD l R)ᵀ := by rw [← Matrix.mul_assoc, ← h, Matrix.one_mul]

theorem cg_rep (l1 l2 l3 : ℕ) {R : Mat} (hR : IsRotation R) : toMat (clebschGordan l1 l2 l3) * (repD l1 R ⊗ₖ repD l2 R) =
    repD l3 R * toMat (clebschGordan l1 l2 l3) := by
  obtain ⟨u, hu⟩ := exists_word hR
  rw [← repD_word hR hu, ← repD_word hR hu, ← repD_word hR hu, cg_word]

theorem wignerAngles_rep (l : ℕ) (a b c : Angle) :
    wignerAngles l a.opt b.opt c.opt = repD l (anglesToMatrix a.val b.val c.val) := by
  rw [wignerAngles_word, repD_word (anglesToMatrix_rot _ _ _) (angles_word _ _ _)]

end E3nn.Wig
