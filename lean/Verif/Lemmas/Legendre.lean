import Verif.Lemmas.SHGrad
import Mathlib.Algebra.Polynomial.Derivative
import Mathlib.Analysis.Calculus.Deriv.Polynomial
import Mathlib.Analysis.SpecialFunctions.Trigonometric.Deriv
import Mathlib.Analysis.Calculus.MeanValue

/-! # The Legendre polynomials and the columns of the Wigner matrices -/

namespace E3nn.SH

open E3nn.SU2 E3nn.Wig E3nn.Rot Matrix Polynomial

/-- `(X^2 - 1)^l`. -/
noncomputable def wl (l : ℕ) : ℝ[X] := (X ^ 2 - 1) ^ l

theorem wl_ode0 (l : ℕ) : (X ^ 2 - 1) * derivative (wl l) = C (2 * (l : ℝ)) * X * wl l := by
  unfold wl
  cases l with
  | zero => simp
  | succ l =>
    rw [derivative_pow]
    simp only [derivative_sub, derivative_one, derivative_X_pow, Nat.add_sub_cancel]
    simp only [Nat.cast_add, Nat.cast_one, map_add, map_one, map_mul, Nat.cast_ofNat]
    have : (C (2 : ℝ)) = (2 : ℝ[X]) := map_ofNat C 2
    rw [this, pow_succ]
    simp
    ring

theorem wl_ode (l N : ℕ) : (X ^ 2 - 1) * derivative^[N + 2] (wl l) + C (2 * ((N : ℝ) + 1 - l)) * X * derivative^[N + 1] (wl l) +
    C (((N : ℝ) + 1) * (N - 2 * l)) * derivative^[N] (wl l) = 0 := by
  induction N with
  | zero =>
    have h := congrArg derivative (wl_ode0 l)
    simp only [derivative_mul, derivative_sub, derivative_one, derivative_X_pow, derivative_C, derivative_X, Nat.cast_ofNat] at h
    simp only [Function.iterate_succ, Function.iterate_zero, Function.comp_apply, id]
    simp only [map_mul, map_sub, map_add, map_one, Nat.cast_zero, map_zero] at h ⊢
    have : (C (2 : ℝ)) = (2 : ℝ[X]) := map_ofNat C 2
    rw [this] at h ⊢
    simp only [Nat.add_one_sub_one, pow_one, sub_zero, zero_mul, zero_add, mul_one, add_zero, mul_zero, Nat.reduceSub] at h
    linear_combination h
  | succ N ih =>
    have h := congrArg derivative ih
    simp only [derivative_add, derivative_mul, derivative_sub, derivative_one, derivative_X_pow, derivative_C, derivative_X, Nat.cast_ofNat, derivative_zero] at h
    simp only [← Function.iterate_succ_apply' derivative] at h
    have : (C (2 : ℝ)) = (2 : ℝ[X]) := map_ofNat C 2
    simp only [map_mul, map_sub, map_add, map_one, Nat.cast_add, Nat.cast_one] at h ⊢
    rw [this] at h ⊢
    simp only [Nat.add_one_sub_one, pow_one, sub_zero, zero_mul, zero_add, mul_one, add_zero, mul_zero, Nat.reduceSub] at h
    rw [show N + 1 + 2 = (N + 2).succ from rfl, show N + 1 + 1 = (N + 1).succ from rfl]
    linear_combination h

/-- The `m`-th derivative of the Legendre polynomial. -/
noncomputable def PD (l m : ℕ) (z : ℝ) : ℝ := (derivative^[m] (legendrePoly l)).eval z

theorem PD_eq (l m : ℕ) (z : ℝ) : PD l m z = 1 / (2 ^ l * l.factorial) * (derivative^[l + m] (wl l)).eval z := by
  unfold PD legendrePoly
  rw [iterate_derivative_C_mul, eval_mul, eval_C, ← Function.iterate_add_apply, add_comm m l]
  rfl

theorem PD_ode (l m : ℕ) (hm : 0 < l + m) (z : ℝ) :
    (z ^ 2 - 1) * PD l (m + 1) z + 2 * m * z * PD l m z - ((l : ℝ) + m) * (l - m + 1) * (1 / (2 ^ l * l.factorial) * (derivative^[l + m - 1] (wl l)).eval z) = 0 := by
  obtain ⟨N, hN⟩ : ∃ N, l + m = N + 1 := ⟨l + m - 1, by omega⟩
  have h := congrArg (eval z) (wl_ode l N)
  simp only [eval_add, eval_mul, eval_sub, eval_pow, eval_X, eval_one, eval_C, eval_zero] at h
  rw [PD_eq, PD_eq, show l + (m + 1) = N + 2 by omega, hN, Nat.add_sub_cancel]
  have e : (N : ℝ) = l + m - 1 := by
    have : ((N + 1 : ℕ) : ℝ) = ((l + m : ℕ) : ℝ) := by rw [hN]
    push_cast at this; linarith
  rw [e] at h
  linear_combination (1 / (2 ^ l * (l.factorial : ℝ))) * h

theorem PD_ode' (l m : ℕ) (z : ℝ) :
    (z ^ 2 - 1) * PD l (m + 2) z + 2 * (m + 1) * z * PD l (m + 1) z - ((l : ℝ) + (m + 1)) * (l - m) * PD l m z = 0 := by
  have h := PD_ode l (m + 1) (by omega) z
  rw [show l + (m + 1) - 1 = l + m by omega, ← PD_eq] at h
  push_cast at h
  linear_combination h

theorem PD_top (l : ℕ) (z : ℝ) : PD l (l + 1) z = 0 := by
  unfold PD
  rw [iterate_derivative_eq_zero]
  · simp
  · unfold legendrePoly
    refine lt_of_le_of_lt (natDegree_C_mul_le _ _) ?_
    refine lt_of_le_of_lt (natDegree_iterate_derivative _ _) ?_
    have : ((X ^ 2 - 1 : ℝ[X]) ^ l).natDegree ≤ l * 2 := by
      refine natDegree_pow_le_of_le l ?_
      exact (natDegree_sub_le _ _).trans (by simp)
    omega

theorem PD_one (l : ℕ) : PD l 0 1 = 1 := by
  rw [PD_eq, Nat.add_zero]
  have : wl l = (X - C 1) ^ l * (X + C 1) ^ l := by
    unfold wl
    rw [← mul_pow]; congr 1; simp; ring
  have key : (derivative^[l] (wl l)).eval 1 = l.factorial * 2 ^ l := by
    rw [this, iterate_derivative_mul, eval_finset_sum, Finset.sum_eq_single 0]
    · simp only [Nat.choose_zero_right, Nat.sub_zero, Function.iterate_zero, id]
      rw [iterate_derivative_X_sub_pow_self]
      simp
      norm_num
    · intro k hk hk0
      have hk' : k ≤ l := by have := Finset.mem_range.mp hk; omega
      rw [iterate_derivative_X_sub_pow]
      have : l - (l - k) = k := by omega
      rw [this]
      simp [hk0]
    · intro h; exact absurd (Finset.mem_range.mpr (by omega)) h
  rw [key]
  have hl : (l.factorial : ℝ) ≠ 0 := by exact_mod_cast Nat.factorial_ne_zero l
  field_simp

theorem PD_deriv (l m : ℕ) (z : ℝ) : HasDerivAt (PD l m) (PD l (m + 1) z) z := by
  have h := (derivative^[m] (legendrePoly l)).hasDerivAt z
  rw [← Function.iterate_succ_apply' derivative] at h
  exact h

/-- `(sin b)^m P_l^{(m)}(cos b)`. -/
noncomputable def pm (l m : ℕ) (b : ℝ) : ℝ := Real.sin b ^ m * PD l m (Real.cos b)

theorem pm_deriv_zero (l : ℕ) (b : ℝ) : HasDerivAt (pm l 0) (-pm l 1 b) b := by
  have h := (PD_deriv l 0 (Real.cos b)).comp b (Real.hasDerivAt_cos b)
  have e : pm l 0 = PD l 0 ∘ Real.cos := by funext b; simp [pm]
  rw [e]
  refine h.congr_deriv ?_
  unfold pm
  ring

theorem pm_deriv (l m : ℕ) (b : ℝ) : HasDerivAt (pm l (m + 1)) (1 / 2 * (((l : ℝ) + (m + 1)) * (l - m) * pm l m b - pm l (m + 2) b)) b := by
  have h := (PD_deriv l (m + 1) (Real.cos b)).comp b (Real.hasDerivAt_cos b)
  have h1 := ((Real.hasDerivAt_sin b).pow (m + 1)).mul h
  have o := PD_ode' l m (Real.cos b)
  have cs := Real.sin_sq_add_cos_sq b
  refine HasDerivAt.congr_deriv (f := pm l (m + 1)) h1 ?_
  simp only [pm, Function.comp_apply, Pi.pow_apply, Nat.add_sub_cancel]
  push_cast
  have e : Real.cos b ^ 2 - 1 = - Real.sin b ^ 2 := by linarith
  rw [e] at o
  rw [show m + 1 + 1 = m + 2 from rfl]
  linear_combination ((1 / 2) * Real.sin b ^ m) * o

/-- The column `rotX(b) e_mid`, from the Legendre functions. -/
noncomputable def uvec (l : ℕ) (b : ℝ) (a : Fin (2 * l + 1)) : ℝ :=
  if a.val < l then 0 else if a.val = l then pm l 0 b
  else Real.sqrt 2 * Real.sqrt ((2 * l - a.val).factorial / a.val.factorial) * pm l (a.val - l) b

theorem uvec_zero (l : ℕ) : uvec l 0 = eMid l := by
  funext a
  unfold uvec eMid
  by_cases h : a.val < l
  · rw [if_pos h, if_neg]; intro e; rw [e] at h; simp [mid] at h
  · rw [if_neg h]
    by_cases h' : a.val = l
    · rw [if_pos h', if_pos (Fin.ext h')]
      simp [pm, PD_one]
    · rw [if_neg h', if_neg (fun e => h' (by rw [e]; rfl))]
      have : pm l (a.val - l) 0 = 0 := by
        unfold pm
        rw [Real.sin_zero, zero_pow (by omega)]; ring
      rw [this, mul_zero]

theorem fac_step (a b : ℕ) : ((a + 1).factorial : ℝ) / (b.factorial : ℝ) = (((a : ℝ) + 1) * (b + 1)) * ((a.factorial : ℝ) / ((b + 1).factorial : ℝ)) := by
  rw [Nat.factorial_succ, Nat.factorial_succ]
  have : (b.factorial : ℝ) ≠ 0 := by exact_mod_cast Nat.factorial_ne_zero b
  have : ((b : ℝ) + 1) ≠ 0 := by positivity
  push_cast
  field_simp

theorem sqrt_fac_step (a b : ℕ) : Real.sqrt (((a + 1).factorial : ℝ) / (b.factorial : ℝ)) =
    Real.sqrt (((a : ℝ) + 1) * (b + 1)) * Real.sqrt ((a.factorial : ℝ) / ((b + 1).factorial : ℝ)) := by
  rw [fac_step, Real.sqrt_mul (by positivity)]

theorem sum_gen_zero (l : ℕ) (a : Fin (2 * l + 1)) (f : Fin (2 * l + 1) → ℝ) : ∑ b, so3Generators l 0 a b * f b =
    (if h : 0 < a.val then xUpR l (a.val - 1) * f ⟨a.val - 1, by omega⟩ else 0) - (if h : a.val + 1 < 2 * l + 1 then xUpR l a.val * f ⟨a.val + 1, h⟩ else 0) := by
  have hsplit : ∀ b : Fin (2 * l + 1), so3Generators l 0 a b * f b = (if a.val = b.val + 1 then xUpR l b.val * f b else 0) - (if b.val = a.val + 1 then xUpR l a.val * f b else 0) := by
    intro b
    rw [so3_gen_zero]
    split_ifs <;> first | omega | ring
  simp only [hsplit, Finset.sum_sub_distrib]
  congr 1
  · split
    · rename_i h
      rw [Finset.sum_eq_single ⟨a.val - 1, by omega⟩]
      · rw [if_pos (by simp only; omega)]
      · intro b _ hb
        rw [if_neg]; intro e; exact hb (Fin.ext (by simp only; omega))
      · intro h; exact absurd (Finset.mem_univ _) h
    · apply Finset.sum_eq_zero
      intro b _
      rw [if_neg (by omega)]
  · split
    · rename_i h
      rw [Finset.sum_eq_single ⟨a.val + 1, h⟩]
      · rw [if_pos rfl]
      · intro b _ hb
        rw [if_neg]; intro e; exact hb (Fin.ext e)
      · intro h; exact absurd (Finset.mem_univ _) h
    · apply Finset.sum_eq_zero
      intro b _
      rw [if_neg (by omega)]

theorem sqrt_half : Real.sqrt 2 * Real.sqrt 2 = 2 := Real.mul_self_sqrt (by norm_num)

/-- The ladder relations. -/
theorem uvec_deriv (l : ℕ) (a : Fin (2 * l + 1)) (t : ℝ) : HasDerivAt (fun t => uvec l t a) (∑ b, so3Generators l 0 a b * uvec l t b) t := by
  rw [sum_gen_zero]
  have ha := a.isLt
  rcases lt_trichotomy a.val l with h | h | h
  · -- below the middle
    have e : (fun t => uvec l t a) = fun _ => 0 := by funext t; unfold uvec; rw [if_pos h]
    rw [e]
    refine (hasDerivAt_const t (0 : ℝ)).congr_deriv ?_
    have e1 : (if h : 0 < a.val then xUpR l (a.val - 1) * uvec l t ⟨a.val - 1, by omega⟩ else 0) = 0 := by
      split
      · have : uvec l t ⟨a.val - 1, by omega⟩ = 0 := by unfold uvec; rw [if_pos (by simp only; omega)]
        rw [this, mul_zero]
      · rfl
    rw [e1, dif_pos (by omega)]
    by_cases h1 : a.val + 1 = l
    · have : xUpR l a.val = 0 := by unfold xUpR; rw [if_pos h, if_pos h1, zero_mul]
      rw [this]; ring
    · have : uvec l t ⟨a.val + 1, by omega⟩ = 0 := by unfold uvec; rw [if_pos (by simp only; omega)]
      rw [this]; ring
  · -- the middle
    have e : (fun t => uvec l t a) = pm l 0 := by funext t; unfold uvec; rw [if_neg (by omega), if_pos h]
    rw [e]
    refine (pm_deriv_zero l t).congr_deriv ?_
    have e1 : (if h : 0 < a.val then xUpR l (a.val - 1) * uvec l t ⟨a.val - 1, by omega⟩ else 0) = 0 := by
      split
      · have : uvec l t ⟨a.val - 1, by omega⟩ = 0 := by unfold uvec; rw [if_pos (by simp only; omega)]
        rw [this, mul_zero]
      · rfl
    rw [e1]
    cases l with
    | zero =>
      rw [dif_neg (by omega)]
      have : pm 0 1 t = 0 := by unfold pm; rw [PD_top 0]; ring
      rw [this]; ring
    | succ k =>
      rw [dif_pos (by omega)]
      unfold xUpR uvec
      rw [if_neg (by omega), if_pos h, if_neg (by simp only; omega), if_neg (by simp only; omega)]
      simp only
      rw [h, show k + 1 + 1 - (k + 1) = 1 by omega, show 2 * (k + 1) - (k + 1 + 1) = k by omega]
      have hs := sqrt_fac_step k (k + 1)
      have hone : Real.sqrt (((k + 1).factorial : ℝ) / ((k + 1).factorial : ℝ)) = 1 := by
        rw [div_self (by exact_mod_cast Nat.factorial_ne_zero _), Real.sqrt_one]
      rw [hone] at hs
      have e2 : (2 * ((k + 1 : ℕ) : ℝ) - ((k + 1 : ℕ) : ℝ)) * (((k + 1 : ℕ) : ℝ) + 1) = ((k : ℝ) + 1) * (((k + 1 : ℕ) : ℝ) + 1) := by push_cast; ring
      rw [e2]
      have h2 := sqrt_half
      linear_combination (-pm (k + 1) 1 t) * hs + (1 / 2 * pm (k + 1) 1 t * (Real.sqrt (((k : ℝ) + 1) * (((k + 1 : ℕ) : ℝ) + 1)) * Real.sqrt ((k.factorial : ℝ) / ((k + 1 + 1).factorial : ℝ)))) * h2
  · -- above the middle
    obtain ⟨m, hm⟩ : ∃ m, a.val = l + m + 1 := ⟨a.val - l - 1, by omega⟩
    have e : (fun t => uvec l t a) = fun t => Real.sqrt 2 * Real.sqrt ((l - m - 1).factorial / (l + m + 1).factorial) * pm l (m + 1) t := by
      funext t; unfold uvec; rw [if_neg (by omega), if_neg (by omega), hm, show 2 * l - (l + m + 1) = l - m - 1 by omega, show l + m + 1 - l = m + 1 by omega]
    rw [e]
    refine ((pm_deriv l m t).const_mul _).congr_deriv ?_
    obtain ⟨k, hk⟩ : ∃ k, l = k + m + 1 := ⟨l - m - 1, by omega⟩
    have hs := sqrt_fac_step k (l + m)
    have h2 := sqrt_half
    -- the lower neighbour
    have low : xUpR l (a.val - 1) * uvec l t ⟨a.val - 1, by omega⟩ =
        1 / 2 * Real.sqrt 2 * Real.sqrt (((k : ℝ) + 1) * ((l + m : ℕ) + 1)) * (Real.sqrt (((k + 1).factorial : ℝ) / ((l + m).factorial : ℝ)) * pm l m t) := by
      unfold xUpR uvec
      simp only
      rw [if_neg (by omega)]
      have e0 : (2 * (l : ℝ) - ((a.val - 1 : ℕ) : ℝ)) * (((a.val - 1 : ℕ) : ℝ) + 1) = ((k : ℝ) + 1) * ((l + m : ℕ) + 1) := by
        rw [show a.val - 1 = l + m by omega, hk]; push_cast; ring
      rw [e0]
      by_cases h0 : m = 0
      · rw [if_pos (by omega), if_neg (by omega), if_pos (by omega), h0]
        have : (k + 1).factorial = (l + 0).factorial := by congr 1; omega
        rw [this, div_self (by exact_mod_cast Nat.factorial_ne_zero _), Real.sqrt_one]
        ring
      · rw [if_neg (by omega), if_neg (by omega), if_neg (by omega)]
        rw [show a.val - 1 = l + m by omega, show 2 * l - (l + m) = k + 1 by omega, show l + m - l = m by omega]
        ring
    rw [dif_pos (by omega), low, hs]
    have hsq : Real.sqrt (((k : ℝ) + 1) * ((l + m : ℕ) + 1)) * Real.sqrt (((k : ℝ) + 1) * ((l + m : ℕ) + 1)) = ((k : ℝ) + 1) * ((l + m : ℕ) + 1) := Real.mul_self_sqrt (by positivity)
    rw [show l - m - 1 = k by omega]
    have hkr : (l : ℝ) = k + m + 1 := by rw [hk]; push_cast; ring
    by_cases htop : a.val + 1 < 2 * l + 1
    · rw [dif_pos htop]
      obtain ⟨j, hj⟩ : ∃ j, k = j + 1 := ⟨k - 1, by omega⟩
      have hs' := sqrt_fac_step j (l + m + 1)
      have up : xUpR l a.val * uvec l t ⟨a.val + 1, htop⟩ =
          1 / 2 * Real.sqrt 2 * (Real.sqrt (((j : ℝ) + 1) * ((l + m + 1 : ℕ) + 1)) * Real.sqrt ((j.factorial : ℝ) / ((l + m + 1 + 1).factorial : ℝ))) * pm l (m + 2) t := by
        unfold xUpR uvec
        simp only
        rw [if_neg (by omega), if_neg (by omega), if_neg (by omega), if_neg (by omega)]
        have e0 : (2 * (l : ℝ) - (a.val : ℝ)) * ((a.val : ℝ) + 1) = ((j : ℝ) + 1) * ((l + m + 1 : ℕ) + 1) := by
          rw [hm, hk, hj]; push_cast; ring
        rw [e0, hm, show 2 * l - (l + m + 1 + 1) = j by omega, show l + m + 1 + 1 - l = m + 2 by omega]
        ring
      rw [up, ← hs', ← hj]
      have e1 : ((l : ℝ) + (m + 1)) * (l - m) = ((k : ℝ) + 1) * ((l + m : ℕ) + 1) := by push_cast; rw [hkr]; ring
      rw [e1]
      linear_combination (-(1 / 2) * Real.sqrt 2 * Real.sqrt ((k.factorial : ℝ) / ((l + m + 1).factorial : ℝ)) * pm l m t) * hsq
    · rw [dif_neg htop]
      have hk0 : k = 0 := by omega
      have htop' : pm l (m + 2) t = 0 := by
        unfold pm
        rw [show m + 2 = l + 1 by omega, PD_top]; ring
      rw [htop']
      have e1 : ((l : ℝ) + (m + 1)) * (l - m) = ((k : ℝ) + 1) * ((l + m : ℕ) + 1) := by push_cast; rw [hkr]; ring
      rw [e1]
      linear_combination (-(1 / 2) * Real.sqrt 2 * Real.sqrt ((k.factorial : ℝ) / ((l + m + 1).factorial : ℝ)) * pm l m t) * hsq

open scoped Matrix.Norms.Operator in
theorem exp_entry_deriv_at {n : ℕ} (K : Matrix (Fin n) (Fin n) ℝ) (a b : Fin n) (t : ℝ) :
    HasDerivAt (fun t : ℝ => NormedSpace.exp (t • K) a b) ((K * NormedSpace.exp (t • K)) a b) t := by
  have h := hasDerivAt_exp_smul_const' (𝕂 := ℝ) K t
  exact (Matrix.entryLinearMap ℝ ℝ a b).toContinuousLinearMap.hasFDerivAt.comp_hasDerivAt t h

/-- A linear equation with an antisymmetric matrix has one solution. -/
theorem ode_unique {n : ℕ} {K : Matrix (Fin n) (Fin n) ℝ} (hK : Kᵀ = -K) {u v : ℝ → Fin n → ℝ} (hu : ∀ t, HasDerivAt u (K *ᵥ u t) t)
    (hv : ∀ t, HasDerivAt v (K *ᵥ v t) t) (h0 : u 0 = v 0) (t : ℝ) : u t = v t := by
  have hw : ∀ t, HasDerivAt (fun t => u t - v t) (K *ᵥ (u t - v t)) t := by
    intro t; rw [Matrix.mulVec_sub]; exact (hu t).sub (hv t)
  have hg : ∀ t, HasDerivAt (fun t => ∑ i, (u t - v t) i ^ 2) 0 t := by
    intro t
    have h1 : ∀ i, HasDerivAt (fun t => (u t - v t) i ^ 2) (2 * (u t - v t) i * (K *ᵥ (u t - v t)) i) t := by
      intro i
      have := ((hasDerivAt_pi.mp (hw t)) i).pow 2
      refine this.congr_deriv ?_
      simp
    refine (HasDerivAt.fun_sum fun i _ => h1 i).congr_deriv ?_
    have : (u t - v t) ⬝ᵥ (K *ᵥ (u t - v t)) = 0 := by
      have e : (u t - v t) ⬝ᵥ (K *ᵥ (u t - v t)) = -((u t - v t) ⬝ᵥ (K *ᵥ (u t - v t))) := by
        conv_lhs => rw [Matrix.dotProduct_mulVec, ← Matrix.mulVec_transpose, hK, Matrix.neg_mulVec, neg_dotProduct, dotProduct_comm]
      linarith
    simp only [dotProduct] at this
    simp only [mul_assoc]
    rw [← Finset.mul_sum, this, mul_zero]
  have hc := is_const_of_deriv_eq_zero (fun s => (hg s).differentiableAt) (fun s => (hg s).deriv) t 0
  simp only [h0, sub_self, Pi.zero_apply] at hc
  have hz : ∑ i, (u t - v t) i ^ 2 = 0 := by rw [hc]; simp
  rw [Finset.sum_eq_zero_iff_of_nonneg (fun i _ => sq_nonneg _)] at hz
  funext i
  have := hz i (Finset.mem_univ i)
  have := pow_eq_zero_iff (two_ne_zero) |>.mp this
  simp only [Pi.sub_apply] at this
  linarith

/-- The middle column of the rotations around `e_x`. -/
theorem rotX_mid (l : ℕ) (t : ℝ) : rotX l t *ᵥ eMid l = uvec l t := by
  refine ode_unique (K := so3Generators l 0) (so3_antisymm l 0) (u := fun t => rotX l t *ᵥ eMid l) (v := uvec l) ?_ ?_ ?_ t
  · intro t
    rw [Matrix.mulVec_mulVec]
    exact hasDerivAt_mulVec (fun a b => by simp only [rotX_eq]; exact exp_entry_deriv_at _ a b t) _
  · intro t
    rw [hasDerivAt_pi]
    intro a
    exact uvec_deriv l a t
  · show rotX l 0 *ᵥ eMid l = uvec l 0
    rw [rotX_zero, Matrix.one_mulVec, uvec_zero]

end E3nn.SH
