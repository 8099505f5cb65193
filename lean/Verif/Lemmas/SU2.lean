import Verif.Model.SU2
import Mathlib.Tactic

namespace E3nn.SU2

open Matrix

section Band
variable {K : Type*} [Semiring K] {n : ℕ}

/-- Diagonal matrix. -/
def dg (n : ℕ) (f : ℕ → K) : Matrix (Fin (n + 1)) (Fin (n + 1)) K := fun a b => if a = b then f a else 0
/-- Subdiagonal matrix. -/
def up (n : ℕ) (f : ℕ → K) : Matrix (Fin (n + 1)) (Fin (n + 1)) K := fun a b => if a.val = b.val + 1 then f b else 0
/-- Superdiagonal matrix. -/
def dn (n : ℕ) (f : ℕ → K) : Matrix (Fin (n + 1)) (Fin (n + 1)) K := fun a b => if b.val = a.val + 1 then f a else 0
/-- Antidiagonal matrix. -/
def an (n : ℕ) (f : ℕ → K) : Matrix (Fin (n + 1)) (Fin (n + 1)) K := fun a b => if b.val + a.val = n then f a else 0

theorem dg_mul (f : ℕ → K) (X : Matrix (Fin (n + 1)) (Fin (n + 1)) K) (a b : Fin (n + 1)) :
    (dg n f * X) a b = f a * X a b := by
  rw [Matrix.mul_apply, Finset.sum_eq_single a]
  · simp [dg]
  · intro k _ hk; simp [dg, Ne.symm hk]
  · simp

theorem mul_dg (f : ℕ → K) (X : Matrix (Fin (n + 1)) (Fin (n + 1)) K) (a b : Fin (n + 1)) :
    (X * dg n f) a b = X a b * f b := by
  rw [Matrix.mul_apply, Finset.sum_eq_single b]
  · simp [dg]
  · intro k _ hk; simp [dg, hk]
  · simp

theorem up_mul (f : ℕ → K) (X : Matrix (Fin (n + 1)) (Fin (n + 1)) K) (a b : Fin (n + 1)) :
    (up n f * X) a b = if h : 0 < a.val then f (a.val - 1) * X ⟨a.val - 1, by omega⟩ b else 0 := by
  rw [Matrix.mul_apply]
  split
  · rename_i h
    rw [Finset.sum_eq_single ⟨a.val - 1, by omega⟩]
    · have : a.val = a.val - 1 + 1 := by omega
      simp [up, ← this]
    · intro k _ hk
      have : ¬ a.val = k.val + 1 := fun h' => hk (by ext; simp; omega)
      simp [up, this]
    · simp
  · apply Finset.sum_eq_zero
    intro k _
    have : ¬ a.val = k.val + 1 := by omega
    simp [up, this]

theorem mul_up (f : ℕ → K) (X : Matrix (Fin (n + 1)) (Fin (n + 1)) K) (a b : Fin (n + 1)) :
    (X * up n f) a b = if h : b.val < n then X a ⟨b.val + 1, by omega⟩ * f b.val else 0 := by
  rw [Matrix.mul_apply]
  split
  · rename_i h
    rw [Finset.sum_eq_single ⟨b.val + 1, by omega⟩]
    · simp [up]
    · intro k _ hk
      have : ¬ k.val = b.val + 1 := fun h' => hk (by ext; simp; omega)
      simp [up, this]
    · simp
  · apply Finset.sum_eq_zero
    intro k _
    have : ¬ k.val = b.val + 1 := by omega
    simp [up, this]

theorem dn_mul (f : ℕ → K) (X : Matrix (Fin (n + 1)) (Fin (n + 1)) K) (a b : Fin (n + 1)) :
    (dn n f * X) a b = if h : a.val < n then f a.val * X ⟨a.val + 1, by omega⟩ b else 0 := by
  rw [Matrix.mul_apply]
  split
  · rename_i h
    rw [Finset.sum_eq_single ⟨a.val + 1, by omega⟩]
    · simp [dn]
    · intro k _ hk
      have : ¬ k.val = a.val + 1 := fun h' => hk (by ext; simp; omega)
      simp [dn, this]
    · simp
  · apply Finset.sum_eq_zero
    intro k _
    have : ¬ k.val = a.val + 1 := by omega
    simp [dn, this]

theorem mul_dn (f : ℕ → K) (X : Matrix (Fin (n + 1)) (Fin (n + 1)) K) (a b : Fin (n + 1)) :
    (X * dn n f) a b = if h : 0 < b.val then X a ⟨b.val - 1, by omega⟩ * f (b.val - 1) else 0 := by
  rw [Matrix.mul_apply]
  split
  · rename_i h
    rw [Finset.sum_eq_single ⟨b.val - 1, by omega⟩]
    · have : b.val = b.val - 1 + 1 := by omega
      simp [dn, ← this]
    · intro k _ hk
      have : ¬ b.val = k.val + 1 := fun h' => hk (by ext; simp; omega)
      simp [dn, this]
    · simp
  · apply Finset.sum_eq_zero
    intro k _
    have : ¬ b.val = k.val + 1 := by omega
    simp [dn, this]

theorem an_mul (f : ℕ → K) (X : Matrix (Fin (n + 1)) (Fin (n + 1)) K) (a b : Fin (n + 1)) :
    (an n f * X) a b = f a * X a.rev b := by
  rw [Matrix.mul_apply, Finset.sum_eq_single a.rev]
  · simp only [an, Fin.val_rev]
    rw [if_pos (by omega)]
  · intro k _ hk
    have : ¬ k.val + a.val = n := fun h' => hk (by ext; simp only [Fin.val_rev]; omega)
    simp [an, this]
  · simp

theorem mul_an (f : ℕ → K) (X : Matrix (Fin (n + 1)) (Fin (n + 1)) K) (a b : Fin (n + 1)) :
    (X * an n f) a b = X a b.rev * f (n - b.val) := by
  rw [Matrix.mul_apply, Finset.sum_eq_single b.rev]
  · simp only [an, Fin.val_rev]
    rw [if_pos (by omega), show n + 1 - (b.val + 1) = n - b.val by omega]
  · intro k _ hk
    have : ¬ b.val + k.val = n := fun h' => hk (by ext; simp only [Fin.val_rev]; omega)
    simp [an, this]
  · simp

end Band

/-- `r_b = sqrt((n - b) (b + 1))`. -/
noncomputable def rc (n b : ℕ) : ℂ := ((Real.sqrt (((n : ℝ) - b) * (b + 1)) : ℝ) : ℂ)

theorem rc_sq {n b : ℕ} (h : b ≤ n) : rc n b * rc n b = ((n : ℂ) - b) * (b + 1) := by
  unfold rc
  rw [← Complex.ofReal_mul, Real.mul_self_sqrt]
  · push_cast; ring
  · have : (b : ℝ) ≤ n := by exact_mod_cast h
    apply mul_nonneg <;> [linarith; positivity]

theorem rc_ne {n b : ℕ} (h : b < n) : rc n b ≠ 0 := by
  unfold rc
  rw [Ne, Complex.ofReal_eq_zero, Real.sqrt_eq_zero']
  have : (b : ℝ) < n := by exact_mod_cast h
  have h2 : 0 < ((n : ℝ) - b) * (b + 1) := by
    apply mul_pos <;> [linarith; positivity]
  linarith

theorem rc_conj (n b : ℕ) : (starRingEnd ℂ) (rc n b) = rc n b := Complex.conj_ofReal _

theorem rc_rev {n b : ℕ} (h : b < n) : rc n (n - 1 - b) = rc n b := by
  unfold rc
  have : ((n - 1 - b : ℕ) : ℝ) = n - 1 - b := by
    rw [Nat.cast_sub (by omega), Nat.cast_sub (by omega)]; simp
  rw [this]
  congr 2
  ring

theorem raising_eq (n : ℕ) : raising n = up n fun b => -rc n b := by
  ext a b
  simp only [raising, up, rc, mval]
  split
  · rw [← Complex.ofReal_neg]
    congr 3
    ring
  · rfl

theorem lowering_eq (n : ℕ) : lowering n = dn n fun b => rc n b := by
  ext a b
  simp only [lowering, dn, rc, mval]
  split
  · congr 2
    push_cast
    ring
  · rfl

/-- The diagonal entry `i m`. -/
noncomputable def im (n b : ℕ) : ℂ := Complex.I * (-((n : ℂ) / 2) + b)

theorem gen_zero (n : ℕ) : generators n 0 = (1 / 2 : ℂ) • (up n (fun b => -rc n b) + dn n (fun b => rc n b)) := by
  simp only [generators, raising_eq, lowering_eq]

theorem gen_one (n : ℕ) : generators n 1 = dg n (im n) := by
  ext a b
  simp only [generators, dg, Matrix.diagonal_apply, im, mval]
  push_cast
  rfl

theorem gen_two (n : ℕ) : generators n 2 =
    -((1 / 2 : ℂ) * Complex.I) • (up n (fun b => -rc n b) - dn n (fun b => rc n b)) := by
  simp only [generators, raising_eq, lowering_eq]

theorem comm_dg_up (n : ℕ) (f : ℕ → ℂ) : dg n (im n) * up n f - up n f * dg n (im n) = Complex.I • up n f := by
  ext a b
  simp only [Matrix.sub_apply, dg_mul, mul_dg, Matrix.smul_apply, up]
  split
  · rename_i h
    simp only [im, h, smul_eq_mul]
    push_cast
    ring
  · simp

theorem comm_dg_dn (n : ℕ) (f : ℕ → ℂ) : dg n (im n) * dn n f - dn n f * dg n (im n) = -Complex.I • dn n f := by
  ext a b
  simp only [Matrix.sub_apply, dg_mul, mul_dg, Matrix.smul_apply, dn]
  split
  · rename_i h
    simp only [im, h, smul_eq_mul]
    push_cast
    ring
  · simp

theorem up_mul_dn (n : ℕ) : up n (fun b => -rc n b) * dn n (fun b => rc n b) =
    dg n fun a => -(((n : ℂ) - a + 1) * a) := by
  ext a b
  rw [up_mul]
  simp only [dn, dg]
  split
  · rename_i h
    by_cases hab : a = b
    · subst hab
      rw [if_pos (by omega), if_pos rfl]
      obtain ⟨k, hk⟩ : ∃ k, a.val = k + 1 := ⟨a.val - 1, by omega⟩
      rw [hk, Nat.add_sub_cancel, neg_mul, rc_sq (by omega)]
      push_cast; ring
    · rw [if_neg (fun h' => hab (by ext; omega)), if_neg hab, mul_zero]
  · rename_i h
    have : a.val = 0 := by omega
    split <;> simp [this]

theorem dn_mul_up (n : ℕ) : dn n (fun b => rc n b) * up n (fun b => -rc n b) =
    dg n fun a => -(((n : ℂ) - a) * (a + 1)) := by
  ext a b
  rw [dn_mul]
  simp only [up, dg]
  split
  · rename_i h
    by_cases hab : a = b
    · subst hab
      rw [if_pos rfl, if_pos rfl, mul_neg, rc_sq (by omega)]
    · rw [if_neg (fun h' => hab (by ext; omega)), if_neg hab, mul_zero]
  · rename_i h
    have : a.val = n := by omega
    split <;> simp [this]

theorem dg_smul (n : ℕ) (c : ℂ) (f : ℕ → ℂ) : c • dg n f = dg n fun a => c * f a := by
  ext a b; simp [dg]

theorem comm_01 (n : ℕ) : generators n 0 * generators n 1 - generators n 1 * generators n 0 = generators n 2 := by
  rw [gen_zero, gen_one, gen_two]
  have h1 := comm_dg_up n fun b => -rc n b
  have h2 := comm_dg_dn n fun b => rc n b
  generalize dg n (im n) = D at *
  generalize up n (fun b => -rc n b) = U at *
  generalize dn n (fun b => rc n b) = L at *
  have e1 : U * D = D * U - Complex.I • U := by rw [← h1]; abel
  have e2 : L * D = D * L + Complex.I • L := by rw [← sub_eq_iff_eq_add', ← neg_sub, h2]; module
  rw [Matrix.smul_mul, Matrix.mul_smul, Matrix.add_mul, Matrix.mul_add, e1, e2]
  module

theorem comm_12 (n : ℕ) : generators n 1 * generators n 2 - generators n 2 * generators n 1 = generators n 0 := by
  rw [gen_zero, gen_one, gen_two]
  have h1 := comm_dg_up n fun b => -rc n b
  have h2 := comm_dg_dn n fun b => rc n b
  generalize dg n (im n) = D at *
  generalize up n (fun b => -rc n b) = U at *
  generalize dn n (fun b => rc n b) = L at *
  have e1 : D * U = U * D + Complex.I • U := by rw [← h1]; abel
  have e2 : D * L = L * D - Complex.I • L := by
    have : D * L = (D * L - L * D) + L * D := by abel
    rw [this, h2]; module
  have hI : Complex.I * Complex.I = -1 := Complex.I_mul_I
  rw [Matrix.smul_mul, Matrix.mul_smul, Matrix.sub_mul, Matrix.mul_sub, e1, e2]
  have : ∀ M : Matrix (Fin (n+1)) (Fin (n+1)) ℂ, Complex.I • Complex.I • M = -M := by
    intro M; rw [smul_smul, hI, neg_one_smul]
  calc _ = (-(1 / 2 : ℂ)) • (Complex.I • Complex.I • U + Complex.I • Complex.I • L) := by module
    _ = _ := by rw [this, this]; module

theorem comm_20 (n : ℕ) : generators n 2 * generators n 0 - generators n 0 * generators n 2 = generators n 1 := by
  rw [gen_zero, gen_one, gen_two]
  have h1 := up_mul_dn n
  have h2 := dn_mul_up n
  have h3 : dg n (im n) = -(1 / 2 * Complex.I : ℂ) • ((up n (fun b => -rc n b) * dn n (fun b => rc n b)) -
      dn n (fun b => rc n b) * up n (fun b => -rc n b)) := by
    rw [h1, h2]
    ext a b
    simp only [Matrix.smul_apply, Matrix.sub_apply, dg, im, smul_eq_mul]
    split <;> ring
  rw [h3]
  generalize up n (fun b => -rc n b) = U at *
  generalize dn n (fun b => rc n b) = L at *
  simp only [Matrix.smul_mul, Matrix.mul_smul, Matrix.add_mul, Matrix.mul_add, Matrix.sub_mul, Matrix.mul_sub]
  module

theorem up_conj (n : ℕ) (f : ℕ → ℂ) : (up n f)ᴴ = dn n fun b => (starRingEnd ℂ) (f b) := by
  ext a b
  simp only [Matrix.conjTranspose_apply, up, dn]
  split <;> simp

theorem dn_conj (n : ℕ) (f : ℕ → ℂ) : (dn n f)ᴴ = up n fun b => (starRingEnd ℂ) (f b) := by
  ext a b
  simp only [Matrix.conjTranspose_apply, up, dn]
  split <;> simp

theorem dg_conj (n : ℕ) (f : ℕ → ℂ) : (dg n f)ᴴ = dg n fun b => (starRingEnd ℂ) (f b) := by
  ext a b
  simp only [Matrix.conjTranspose_apply, dg]
  by_cases h : a = b
  · subst h; simp
  · simp [h, Ne.symm h]

theorem an_conj (n : ℕ) (f : ℕ → ℂ) : (an n f)ᴴ = an n fun b => (starRingEnd ℂ) (f (n - b)) := by
  ext a b
  simp only [Matrix.conjTranspose_apply, an]
  by_cases h : a.val + b.val = n
  · rw [if_pos h, if_pos (by omega), show n - a.val = b.val by omega]; rfl
  · rw [if_neg h, if_neg (by omega)]; simp

theorem gen_antiHermitian (n : ℕ) (i : Fin 3) : (generators n i)ᴴ = -generators n i := by
  have hU : (up n fun b => -rc n b)ᴴ = -dn n fun b => rc n b := by
    rw [up_conj]; ext a b; simp only [dn, map_neg, rc_conj, Matrix.neg_apply]; split <;> simp
  have hL : (dn n fun b => rc n b)ᴴ = -up n fun b => -rc n b := by
    rw [dn_conj]; ext a b; simp only [up, rc_conj, Matrix.neg_apply]; split <;> simp
  fin_cases i
  · show (generators n 0)ᴴ = -generators n 0
    rw [gen_zero, Matrix.conjTranspose_smul, Matrix.conjTranspose_add, hU, hL]
    have : star (1 / 2 : ℂ) = 1 / 2 := by simp
    rw [this]; module
  · show (generators n 1)ᴴ = -generators n 1
    rw [gen_one, dg_conj]
    ext a b
    simp only [dg, im, Matrix.neg_apply]
    split
    · simp [map_ofNat]
    · simp
  · show (generators n 2)ᴴ = -generators n 2
    rw [gen_two, Matrix.conjTranspose_smul, Matrix.conjTranspose_sub, hU, hL]
    have : star (-(1 / 2 * Complex.I) : ℂ) = 1 / 2 * Complex.I := by simp
    rw [this]; module

theorem casimir (n : ℕ) : generators n 0 * generators n 0 + generators n 1 * generators n 1 + generators n 2 * generators n 2 =
    (-((n : ℂ) / 2 * (n / 2 + 1))) • (1 : Matrix (Fin (n + 1)) (Fin (n + 1)) ℂ) := by
  rw [gen_zero, gen_one, gen_two]
  have h1 := up_mul_dn n
  have h2 := dn_mul_up n
  have key : (1 / 2 : ℂ) • (up n (fun b => -rc n b) * dn n (fun b => rc n b) + dn n (fun b => rc n b) * up n (fun b => -rc n b)) +
      dg n (im n) * dg n (im n) = (-((n : ℂ) / 2 * (n / 2 + 1))) • (1 : Matrix (Fin (n + 1)) (Fin (n + 1)) ℂ) := by
    rw [h1, h2]
    ext a b
    simp only [Matrix.add_apply, Matrix.smul_apply, dg_mul, dg, Matrix.one_apply, im, smul_eq_mul]
    have hI : Complex.I * Complex.I = -1 := Complex.I_mul_I
    split <;> grind
  rw [← key]
  generalize up n (fun b => -rc n b) = U at *
  generalize dn n (fun b => rc n b) = L at *
  simp only [Matrix.smul_mul, Matrix.mul_smul, Matrix.add_mul, Matrix.mul_add, Matrix.sub_mul, Matrix.mul_sub]
  have hI : (-(1 / 2 * Complex.I)) * -(1 / 2 * Complex.I) = (-(1 / 4) : ℂ) := by
    have : Complex.I * Complex.I = -1 := Complex.I_mul_I
    grind
  have hI' : ∀ M : Matrix (Fin (n+1)) (Fin (n+1)) ℂ,
      (-(1 / 2 * Complex.I)) • (-(1 / 2 * Complex.I)) • M = (-(1 / 4) : ℂ) • M := by
    intro M; rw [smul_smul, hI]
  simp only [smul_sub, smul_add, hI']
  module

/-- Schur: only scalars commute with the generators. -/
theorem gen_commutant (n : ℕ) (T : Matrix (Fin (n + 1)) (Fin (n + 1)) ℂ)
    (h : ∀ i, T * generators n i = generators n i * T) : ∃ c : ℂ, T = c • 1 := by
  have h0 := h 0
  have h1 := h 1
  have h2 := h 2
  rw [gen_zero] at h0
  rw [gen_one] at h1
  rw [gen_two] at h2
  have hU : T * up n (fun b => -rc n b) = up n (fun b => -rc n b) * T := by
    generalize up n (fun b => -rc n b) = U at *
    generalize dn n (fun b => rc n b) = L at *
    simp only [Matrix.smul_mul, Matrix.mul_smul, Matrix.add_mul, Matrix.mul_add, Matrix.sub_mul, Matrix.mul_sub] at h0 h2
    have h0' : T * U + T * L = U * T + L * T := smul_right_injective _ (by norm_num : (1 / 2 : ℂ) ≠ 0) h0
    have h2' : T * U - T * L = U * T - L * T := smul_right_injective _ (by simp : (-(1 / 2 * Complex.I) : ℂ) ≠ 0) h2
    have : (2 : ℂ) • (T * U) = (2 : ℂ) • (U * T) := by
      calc (2 : ℂ) • (T * U) = (T * U + T * L) + (T * U - T * L) := by module
        _ = (2 : ℂ) • (U * T) := by rw [h0', h2']; module
    exact smul_right_injective _ (by norm_num : (2 : ℂ) ≠ 0) this
  have hdiag : ∀ a b : Fin (n + 1), a ≠ b → T a b = 0 := by
    intro a b hab
    have := congrFun (congrFun h1 a) b
    rw [mul_dg, dg_mul] at this
    have hne : im n b ≠ im n a := by
      intro h'
      unfold im at h'
      have h3 := mul_left_cancel₀ Complex.I_ne_zero h'
      have h4 : (b.val : ℂ) = a.val := add_left_cancel h3
      exact hab (by ext; exact_mod_cast h4.symm)
    have h5 : T a b * (im n b - im n a) = 0 := by rw [mul_sub, this]; ring
    exact (mul_eq_zero.mp h5).resolve_right (sub_ne_zero.mpr hne)
  have hconst : ∀ k (hk : k < n + 1), T ⟨k, hk⟩ ⟨k, hk⟩ = T 0 0 := by
    intro k
    induction k with
    | zero => intro _; rfl
    | succ k ih =>
      intro hk
      have := congrFun (congrFun hU ⟨k + 1, hk⟩) ⟨k, by omega⟩
      rw [mul_up, up_mul, dif_pos (by simp; omega), dif_pos (by simp)] at this
      simp only [Nat.add_sub_cancel] at this
      rw [ih (by omega), mul_comm] at this
      exact mul_left_cancel₀ (neg_ne_zero.mpr (rc_ne (by omega))) this
  refine ⟨T 0 0, ?_⟩
  ext a b
  by_cases hab : a = b
  · subst hab
    rw [hconst a.val a.isLt]; simp
  · rw [hdiag a b hab]; simp [hab]

end E3nn.SU2
