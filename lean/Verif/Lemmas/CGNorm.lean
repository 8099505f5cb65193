import Verif.Lemmas.CGReal

namespace E3nn.SU2

open Nat Finset Matrix Kronecker

/-- The sum of the squares of the coefficients of the largest component. -/
theorem cg_top_sum (a b c : ℕ) :
    ∑ A : Fin (b + c + 1), ∑ B : Fin (a + c + 1), (if a + b + c = A.val + B.val then cgVal a b c A B else 0) ^ 2 =
      1 / ((a : ℝ) + b + 1) := by
  have hsq : ∀ k, k ≤ c → cgVal a b c (b + (c - k)) (a + k) ^ 2 =
      ((c)! * (a + b)! : ℝ) / ((a + b + c + 1)! : ℝ) * (((a + k).choose a * (b + (c - k)).choose b : ℕ) : ℝ) := by
    intro k hk
    obtain ⟨d, rfl⟩ := Nat.exists_eq_add_of_le hk
    rw [show k + d - k = d by omega,
      cgVal_eq (A := b + d) (B := a + k) (A' := k) (B' := d) (C := a + b) (D := 0) (by omega) (by omega) (by omega) (by omega)]
    unfold wval sval
    rw [tsum_top (by omega), show b + (k + d) - (b + d) + a = a + k by omega, mul_pow, Real.sq_sqrt (by positivity)]
    have c1 : (((a + k).choose a : ℕ) : ℝ) = ((a + k)! : ℝ) / (a ! * k !) := by rw [Nat.cast_add_choose]
    have c2 : (((b + d).choose b : ℕ) : ℝ) = ((b + d)! : ℝ) / (b ! * d !) := by rw [Nat.cast_add_choose]
    have f1 : ((a)! : ℝ) ≠ 0 := by positivity
    have f2 : ((b)! : ℝ) ≠ 0 := by positivity
    have f3 : ((k)! : ℝ) ≠ 0 := by positivity
    have f4 : ((d)! : ℝ) ≠ 0 := by positivity
    have f5 : ((a + k)! : ℝ) ≠ 0 := by positivity
    have f6 : ((b + d)! : ℝ) ≠ 0 := by positivity
    have f7 : ((a + b + (k + d) + 1)! : ℝ) ≠ 0 := by positivity
    push_cast
    rw [c1, c2]
    have hs : ((-1 : ℝ) ^ (a + k) * ((-1) ^ a * ((b + d)! : ℝ) * ((a + k)! : ℝ)) / (a ! * b !)) ^ 2 =
        (((b + d)! : ℝ) * ((a + k)! : ℝ) / (a ! * b !)) ^ 2 := by
      have h1 : ((-1 : ℝ) ^ (a + k)) ^ 2 = 1 := by rw [← pow_mul, mul_comm, pow_mul]; norm_num
      have h2 : ((-1 : ℝ) ^ a) ^ 2 = 1 := by rw [← pow_mul, mul_comm, pow_mul]; norm_num
      rw [div_pow, div_pow, mul_pow, mul_pow, mul_pow, h1, h2]; ring
    rw [hs]
    simp only [Nat.factorial_zero, Nat.cast_one]
    field_simp
  have step : ∀ A : Fin (b + c + 1), ∑ B : Fin (a + c + 1), (if a + b + c = A.val + B.val then cgVal a b c A B else 0) ^ 2 =
      if b ≤ A.val then ((c)! * (a + b)! : ℝ) / ((a + b + c + 1)! : ℝ) *
        (((a + (b + c - A.val)).choose a * (b + (c - (b + c - A.val))).choose b : ℕ) : ℝ) else 0 := by
    intro A
    have hA := A.isLt
    split
    · rename_i h
      rw [Finset.sum_eq_single (⟨a + b + c - A.val, by omega⟩ : Fin (a + c + 1))]
      · rw [if_pos (by simp only; omega), ← hsq (b + c - A.val) (by omega)]
        congr 2 <;> first | omega | (simp only; omega)
      · intro B _ hB
        rw [if_neg (fun h' => hB (by ext; simp only; omega))]; simp
      · simp
    · apply Finset.sum_eq_zero
      intro B _
      have hB := B.isLt
      rw [if_neg (by omega)]; simp
  simp only [step]
  rw [Fin.sum_univ_eq_sum_range (fun A => if b ≤ A then ((c)! * (a + b)! : ℝ) / ((a + b + c + 1)! : ℝ) *
        (((a + (b + c - A)).choose a * (b + (c - (b + c - A))).choose b : ℕ) : ℝ) else 0) (b + c + 1),
    ← Finset.sum_range_reflect, show b + c + 1 = (c + 1) + b by ring, Finset.sum_range_add]
  have z : ∑ x ∈ range b, (fun j => if b ≤ c + 1 + b - 1 - j then ((c)! * (a + b)! : ℝ) / ((a + b + c + 1)! : ℝ) *
        (((a + (b + c - (c + 1 + b - 1 - j))).choose a * (b + (c - (b + c - (c + 1 + b - 1 - j)))).choose b : ℕ) : ℝ) else 0) (c + 1 + x) = 0 := by
    apply Finset.sum_eq_zero
    intro x hx
    have := Finset.mem_range.mp hx
    simp only
    rw [if_neg (by omega)]
  rw [z, add_zero]
  have e : ∀ j ∈ range (c + 1), (if b ≤ c + 1 + b - 1 - j then ((c)! * (a + b)! : ℝ) / ((a + b + c + 1)! : ℝ) *
        (((a + (b + c - (c + 1 + b - 1 - j))).choose a * (b + (c - (b + c - (c + 1 + b - 1 - j)))).choose b : ℕ) : ℝ) else 0) =
      ((c)! * (a + b)! : ℝ) / ((a + b + c + 1)! : ℝ) * (((a + j).choose a * (b + (c - j)).choose b : ℕ) : ℝ) := by
    intro j hj
    have := Finset.mem_range.mp hj
    rw [if_pos (by omega), show b + c - (c + 1 + b - 1 - j) = j by omega]
  rw [Finset.sum_congr rfl e, ← Finset.mul_sum, ← Nat.cast_sum, choose_conv]
  have hc : (((a + b + c + 1).choose c : ℕ) : ℝ) = ((a + b + c + 1)! : ℝ) / ((c)! * (a + b + 1)!) := by
    rw [Nat.cast_choose ℝ (show c ≤ a + b + c + 1 by omega), show a + b + c + 1 - c = a + b + 1 by omega]
  rw [hc, Nat.factorial_succ (a + b)]
  have f1 : ((c)! : ℝ) ≠ 0 := by positivity
  have f2 : ((a + b)! : ℝ) ≠ 0 := by positivity
  have f3 : ((a + b + c + 1)! : ℝ) ≠ 0 := by positivity
  have f4 : ((a : ℝ) + b + 1) ≠ 0 := by positivity
  push_cast
  field_simp

section comm
variable {N1 N2 N3 : Type*} [Fintype N1] [Fintype N2] [Fintype N3] [DecidableEq N1] [DecidableEq N2] [DecidableEq N3]

theorem gram_commute {X1 : Matrix N1 N1 ℂ} {X2 : Matrix N2 N2 ℂ} {X3 : Matrix N3 N3 ℂ} {E : N1 → N2 → N3 → ℂ}
    (h : Inter X1 X2 X3 E) (h1 : X1ᴴ = -X1) (h2 : X2ᴴ = -X2) (h3 : X3ᴴ = -X3) :
    (toMat E * (toMat E)ᴴ) * X3 = X3 * (toMat E * (toMat E)ᴴ) := by
  rw [inter_iff] at h
  have hK : (X1 ⊗ₖ (1 : Matrix N2 N2 ℂ) + (1 : Matrix N1 N1 ℂ) ⊗ₖ X2)ᴴ = -(X1 ⊗ₖ 1 + 1 ⊗ₖ X2) := by
    rw [Matrix.conjTranspose_add, Matrix.conjTranspose_kronecker, Matrix.conjTranspose_kronecker, h1, h2, Matrix.conjTranspose_one,
      Matrix.conjTranspose_one]
    ext p q
    simp
    ring
  have h' := congrArg Matrix.conjTranspose h
  rw [Matrix.conjTranspose_mul, Matrix.conjTranspose_mul, hK, h3, Matrix.neg_mul, Matrix.mul_neg, neg_inj] at h'
  rw [Matrix.mul_assoc, ← h', ← Matrix.mul_assoc, h, Matrix.mul_assoc]
end comm

/-- Orthogonality of the complex coefficients. -/
theorem cgC_gram {n1 n2 n3 : ℕ} (h : inRange n1 n2 n3) :
    toMat (cgC n1 n2 n3) * (toMat (cgC n1 n2 n3))ᴴ = (1 / ((n3 : ℂ) + 1)) • 1 := by
  obtain ⟨k, hk⟩ := gen_commutant n3 (toMat (cgC n1 n2 n3) * (toMat (cgC n1 n2 n3))ᴴ) fun i =>
    gram_commute (inter_gen n1 n2 n3 i) (gen_antiHermitian _ _) (gen_antiHermitian _ _) (gen_antiHermitian _ _)
  rw [hk]
  congr 1
  have h1 := congrFun (congrFun hk (Fin.last n3)) (Fin.last n3)
  obtain ⟨a, b, c, rfl, rfl, rfl⟩ := inRange_iff.mp h
  rw [Matrix.mul_apply, Fintype.sum_prod_type] at h1
  have h2 := cg_top_sum a b c
  simp only [toMat, Matrix.conjTranspose_apply, cgC, su2CG_eq, Fin.val_last, Matrix.smul_apply, Matrix.one_apply_eq, smul_eq_mul,
    mul_one, RCLike.star_def, Complex.conj_ofReal] at h1
  rw [← h1]
  have h3 := congrArg (fun x : ℝ => (x : ℂ)) h2
  push_cast at h3 ⊢
  rw [← h3]
  apply Finset.sum_congr rfl
  intro A _
  apply Finset.sum_congr rfl
  intro B _
  split <;> simp [sq]

/-- Orthogonality of the real coefficients. -/
theorem cg_gram {l1 l2 l3 : ℕ} (h : inRange (2 * l1) (2 * l2) (2 * l3)) :
    toMat (clebschGordan l1 l2 l3) * (toMat (clebschGordan l1 l2 l3))ᵀ = (1 / (2 * (l3 : ℝ) + 1)) • 1 := by
  apply ofReal_inj
  have hm : (toMat (clebschGordan l1 l2 l3)).map ((↑) : ℝ → ℂ) = toMat (cgComplex l1 l2 l3) := by
    ext m p; simp only [toMat, Matrix.map_apply, cg_ofReal]
  have hm2 : ((toMat (clebschGordan l1 l2 l3))ᵀ).map ((↑) : ℝ → ℂ) = (toMat (cgComplex l1 l2 l3))ᴴ := by
    rw [← hm]; ext m p; simp
  have hmul : (toMat (clebschGordan l1 l2 l3) * (toMat (clebschGordan l1 l2 l3))ᵀ).map ((↑) : ℝ → ℂ) =
      (toMat (clebschGordan l1 l2 l3)).map ((↑) : ℝ → ℂ) * ((toMat (clebschGordan l1 l2 l3))ᵀ).map ((↑) : ℝ → ℂ) :=
    Matrix.map_mul (f := Complex.ofRealHom)
  have hu : (changeBasis l1 ⊗ₖ changeBasis l2) * (changeBasis l1 ⊗ₖ changeBasis l2)ᴴ = 1 := by
    rw [Matrix.conjTranspose_kronecker, ← Matrix.mul_kronecker_mul, Q_mul_conj, Q_mul_conj, Matrix.one_kronecker_one]
  rw [hmul, hm, hm2, cgComplex_mat, Matrix.conjTranspose_mul, Matrix.conjTranspose_mul, Matrix.conjTranspose_conjTranspose]
  have g := cgC_gram h
  calc _ = (changeBasis l3)ᴴ * toMat (cgC (2 * l1) (2 * l2) (2 * l3)) * ((changeBasis l1 ⊗ₖ changeBasis l2) *
        (changeBasis l1 ⊗ₖ changeBasis l2)ᴴ) * (toMat (cgC (2 * l1) (2 * l2) (2 * l3)))ᴴ * changeBasis l3 := by
        simp only [Matrix.mul_assoc]
    _ = (changeBasis l3)ᴴ * (toMat (cgC (2 * l1) (2 * l2) (2 * l3)) * (toMat (cgC (2 * l1) (2 * l2) (2 * l3)))ᴴ) * changeBasis l3 := by
        rw [hu, Matrix.mul_one]; simp only [Matrix.mul_assoc]
    _ = _ := by
        rw [g, Matrix.mul_smul, Matrix.mul_one, Matrix.smul_mul, Q_conj_mul]
        ext x y
        by_cases hxy : x = y
        · subst hxy; simp
        · simp [hxy]

section exp
variable {N M : Type*} [Fintype N] [Fintype M] [DecidableEq N] [DecidableEq M]

open scoped Matrix.Norms.Operator in
theorem hasSum_exp (X : Matrix N N ℝ) : HasSum (fun n : ℕ => ((n ! : ℝ)⁻¹) • X ^ n) (NormedSpace.exp X) :=
  NormedSpace.exp_series_hasSum_exp' X

/-- An intertwiner of matrices intertwines their exponentials. -/
theorem exp_intertwine {X : Matrix N N ℝ} {Y : Matrix M M ℝ} {T : Matrix N M ℝ} (h : T * Y = X * T) :
    T * NormedSpace.exp Y = NormedSpace.exp X * T := by
  have hp : ∀ n : ℕ, T * Y ^ n = X ^ n * T := by
    intro n
    induction n with
    | zero => simp
    | succ n ih => rw [pow_succ, ← Matrix.mul_assoc, ih, Matrix.mul_assoc, h, ← Matrix.mul_assoc, ← pow_succ]
  have h1 : HasSum (fun n : ℕ => T * (((n ! : ℝ)⁻¹) • Y ^ n)) (T * NormedSpace.exp Y) :=
    (hasSum_exp Y).map (AddMonoidHom.mk' (fun Z : Matrix M M ℝ => T * Z) (Matrix.mul_add T)) (continuous_const.matrix_mul continuous_id)
  have h2 : HasSum (fun n : ℕ => (((n ! : ℝ)⁻¹) • X ^ n) * T) (NormedSpace.exp X * T) :=
    (hasSum_exp X).map (AddMonoidHom.mk' (fun Z : Matrix N N ℝ => Z * T) (fun a b => Matrix.add_mul a b T)) (continuous_id.matrix_mul continuous_const)
  have e : (fun n : ℕ => T * (((n ! : ℝ)⁻¹) • Y ^ n)) = fun n : ℕ => (((n ! : ℝ)⁻¹) • X ^ n) * T := by
    funext n; rw [Matrix.mul_smul, hp, Matrix.smul_mul]
  rw [e] at h1
  exact h1.unique h2

theorem exp_kron_one (X : Matrix N N ℝ) : NormedSpace.exp (X ⊗ₖ (1 : Matrix M M ℝ)) = NormedSpace.exp X ⊗ₖ 1 := by
  have hp : ∀ n : ℕ, (X ⊗ₖ (1 : Matrix M M ℝ)) ^ n = (X ^ n) ⊗ₖ 1 := by
    intro n
    induction n with
    | zero => simp
    | succ n ih => rw [pow_succ, ih, ← Matrix.mul_kronecker_mul, ← pow_succ, Matrix.mul_one]
  have h1 := hasSum_exp (X ⊗ₖ (1 : Matrix M M ℝ))
  have h2 : HasSum (fun n : ℕ => (((n ! : ℝ)⁻¹) • X ^ n) ⊗ₖ (1 : Matrix M M ℝ)) (NormedSpace.exp X ⊗ₖ 1) := by
    refine (hasSum_exp X).map (AddMonoidHom.mk' (fun Z : Matrix N N ℝ => Z ⊗ₖ (1 : Matrix M M ℝ)) (fun a b => Matrix.add_kronecker a b _)) ?_
    apply continuous_matrix
    intro p q
    show Continuous fun Z : Matrix N N ℝ => Z p.1 q.1 * (1 : Matrix M M ℝ) p.2 q.2
    exact (continuous_id.matrix_elem p.1 q.1).mul continuous_const
  have e : (fun n : ℕ => ((n ! : ℝ)⁻¹) • (X ⊗ₖ (1 : Matrix M M ℝ)) ^ n) = fun n : ℕ => (((n ! : ℝ)⁻¹) • X ^ n) ⊗ₖ (1 : Matrix M M ℝ) := by
    funext n; rw [hp, Matrix.smul_kronecker]
  rw [e] at h1
  exact h1.unique h2

theorem exp_one_kron (X : Matrix N N ℝ) : NormedSpace.exp ((1 : Matrix M M ℝ) ⊗ₖ X) = 1 ⊗ₖ NormedSpace.exp X := by
  have hp : ∀ n : ℕ, ((1 : Matrix M M ℝ) ⊗ₖ X) ^ n = 1 ⊗ₖ (X ^ n) := by
    intro n
    induction n with
    | zero => simp
    | succ n ih => rw [pow_succ, ih, ← Matrix.mul_kronecker_mul, ← pow_succ, Matrix.mul_one]
  have h1 := hasSum_exp ((1 : Matrix M M ℝ) ⊗ₖ X)
  have h2 : HasSum (fun n : ℕ => (1 : Matrix M M ℝ) ⊗ₖ (((n ! : ℝ)⁻¹) • X ^ n)) (1 ⊗ₖ NormedSpace.exp X) := by
    refine (hasSum_exp X).map (AddMonoidHom.mk' (fun Z : Matrix N N ℝ => (1 : Matrix M M ℝ) ⊗ₖ Z) (fun a b => Matrix.kronecker_add _ a b)) ?_
    apply continuous_matrix
    intro p q
    show Continuous fun Z : Matrix N N ℝ => (1 : Matrix M M ℝ) p.1 q.1 * Z p.2 q.2
    exact continuous_const.mul (continuous_id.matrix_elem p.2 q.2)
  have e : (fun n : ℕ => ((n ! : ℝ)⁻¹) • ((1 : Matrix M M ℝ) ⊗ₖ X) ^ n) = fun n : ℕ => (1 : Matrix M M ℝ) ⊗ₖ (((n ! : ℝ)⁻¹) • X ^ n) := by
    funext n; rw [hp, Matrix.kronecker_smul]
  rw [e] at h1
  exact h1.unique h2

theorem exp_kron (X : Matrix N N ℝ) (Y : Matrix M M ℝ) :
    NormedSpace.exp (X ⊗ₖ (1 : Matrix M M ℝ) + (1 : Matrix N N ℝ) ⊗ₖ Y) = NormedSpace.exp X ⊗ₖ NormedSpace.exp Y := by
  rw [Matrix.exp_add_of_commute, exp_kron_one, exp_one_kron, ← Matrix.mul_kronecker_mul, Matrix.mul_one, Matrix.one_mul]
  show _ * _ = _ * _
  rw [← Matrix.mul_kronecker_mul, ← Matrix.mul_kronecker_mul]
  simp

/-- From generators to the group. -/
theorem Inter.exp {P : Type*} [Fintype P] [DecidableEq P] {X1 : Matrix N N ℝ} {X2 : Matrix M M ℝ} {X3 : Matrix P P ℝ} {E : N → M → P → ℝ}
    (h : Inter X1 X2 X3 E) :
    toMat E * (NormedSpace.exp X1 ⊗ₖ NormedSpace.exp X2) = NormedSpace.exp X3 * toMat E := by
  rw [← exp_kron]
  exact exp_intertwine (inter_iff.mp h)

end exp

end E3nn.SU2
