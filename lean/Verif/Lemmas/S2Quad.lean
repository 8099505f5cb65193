import Verif.Lemmas.LegendreCore
import Verif.Spec.S2
import Mathlib.Analysis.SpecialFunctions.Integrals.Basic
import Mathlib.MeasureTheory.Integral.IntervalIntegral.FundThmCalculus

/-! # Integrals of products of Legendre functions -/

namespace E3nn.S2

open E3nn.SH Polynomial intervalIntegral

/-- The mean of a polynomial over `[-1, 1]`. -/
noncomputable def avg (p : ℝ[X]) : ℝ := (∫ y in (-1 : ℝ)..1, p.eval y) / 2

theorem poly_int (p : ℝ[X]) (a b : ℝ) : IntervalIntegrable (fun y => p.eval y) MeasureTheory.volume a b := p.continuous.intervalIntegrable _ _

theorem avg_add (p q : ℝ[X]) : avg (p + q) = avg p + avg q := by
  unfold avg
  simp only [eval_add]
  rw [integral_add (poly_int p _ _) (poly_int q _ _)]
  ring

theorem avg_C_mul (c : ℝ) (p : ℝ[X]) : avg (C c * p) = c * avg p := by
  unfold avg
  simp only [eval_mul, eval_C]
  rw [integral_const_mul]
  ring

theorem avg_zero : avg 0 = 0 := by simp [avg]

theorem avg_neg (p : ℝ[X]) : avg (-p) = -avg p := by
  unfold avg
  simp only [eval_neg, integral_neg]
  ring

theorem avg_sum {s : Type*} (t : Finset s) (f : s → ℝ[X]) : avg (∑ i ∈ t, f i) = ∑ i ∈ t, avg (f i) := by
  classical
  induction t using Finset.induction_on with
  | empty => simp [avg_zero]
  | insert a t ha ih => rw [Finset.sum_insert ha, Finset.sum_insert ha, avg_add, ih]

theorem avg_derivative (p : ℝ[X]) : avg (derivative p) = (p.eval 1 - p.eval (-1)) / 2 := by
  unfold avg
  rw [integral_eq_sub_of_hasDerivAt (fun y _ => p.hasDerivAt y) (poly_int _ _ _)]

theorem avg_C (c : ℝ) : avg (C c) = c := by
  unfold avg
  simp only [eval_C, integral_const, smul_eq_mul]
  ring

/-- `D^m P_l`. -/
noncomputable def DP (l m : ℕ) : ℝ[X] := derivative^[m] (legendrePoly l)

theorem DP_eval (l m : ℕ) (z : ℝ) : (DP l m).eval z = PD l m z := rfl

theorem DP_derivative (l m : ℕ) : derivative (DP l m) = DP l (m + 1) := by
  unfold DP
  rw [Function.iterate_succ_apply']

theorem legendrePoly_degree (l : ℕ) : (legendrePoly l).natDegree ≤ l := by
  unfold legendrePoly
  refine (natDegree_C_mul_le _ _).trans ((natDegree_iterate_derivative _ _).trans ?_)
  have : ((X ^ 2 - 1 : ℝ[X]) ^ l).natDegree ≤ l * 2 := by
    refine natDegree_pow_le_of_le l ?_
    exact (natDegree_sub_le _ _).trans (by simp)
  omega

theorem DP_degree (l m : ℕ) : (DP l m).natDegree ≤ l - m := (natDegree_iterate_derivative _ _).trans (Nat.sub_le_sub_right (legendrePoly_degree l) m)

/-- `(1 - X^2)^m P_l^{(m)} P_j^{(m)}`. -/
noncomputable def prodP (m l j : ℕ) : ℝ[X] := (1 - X ^ 2) ^ m * (DP l m * DP j m)

theorem prodP_comm (m l j : ℕ) : prodP m l j = prodP m j l := by unfold prodP; ring

theorem prodP_degree {m l j : ℕ} (hl : m ≤ l) (hj : m ≤ j) : (prodP m l j).natDegree ≤ l + j := by
  unfold prodP
  refine natDegree_mul_le.trans ?_
  have h1 : ((1 - X ^ 2 : ℝ[X]) ^ m).natDegree ≤ m * 2 := natDegree_pow_le_of_le m ((natDegree_sub_le _ _).trans (by simp))
  have h2 : (DP l m * DP j m).natDegree ≤ (l - m) + (j - m) := natDegree_mul_le.trans (Nat.add_le_add (DP_degree l m) (DP_degree j m))
  omega

theorem sturm (m l j : ℕ) : derivative ((1 - X ^ 2) ^ (m + 1) * (DP l (m + 1) * DP j m)) = prodP (m + 1) l j + C (-(((l : ℝ) + (m + 1)) * (l - m))) * prodP m l j := by
  apply Polynomial.funext
  intro z
  have o := PD_ode' l m z
  have e1 : derivative ((1 - X ^ 2 : ℝ[X]) ^ (m + 1)) = C ((m : ℝ) + 1) * (1 - X ^ 2) ^ m * (-(C 2 * X)) := by
    have h2 : (C (2 : ℝ)) = (2 : ℝ[X]) := map_ofNat C 2
    rw [derivative_pow, h2]
    simp only [derivative_sub, derivative_one, derivative_X_pow, Nat.add_sub_cancel, Nat.cast_add, Nat.cast_one, map_add, map_one, map_natCast]
    simp
  unfold prodP
  rw [derivative_mul, derivative_mul, DP_derivative, DP_derivative, e1]
  simp only [eval_add, eval_mul, eval_pow, eval_sub, eval_one, eval_X, eval_neg, eval_C, DP_eval]
  rw [show m + 1 + 1 = m + 2 from rfl]
  linear_combination (-(1 - z ^ 2) ^ m * PD j m z) * o

theorem avg_step (m l j : ℕ) : avg (prodP (m + 1) l j) = ((l : ℝ) + (m + 1)) * (l - m) * avg (prodP m l j) := by
  have h := avg_derivative ((1 - X ^ 2) ^ (m + 1) * (DP l (m + 1) * DP j m))
  rw [sturm, avg_add, avg_C_mul] at h
  simp only [eval_mul, eval_pow, eval_sub, eval_one, eval_X] at h
  norm_num at h
  linarith

theorem avg_ne {l j : ℕ} (h : l ≠ j) (m : ℕ) : avg (prodP m l j) = 0 := by
  have h1 := avg_step m l j
  have h2 := avg_step m j l
  rw [prodP_comm (m + 1) j l, prodP_comm m j l, h1] at h2
  have h3 : ((l : ℝ) - j) * (l + j + 1) * avg (prodP m l j) = 0 := by linear_combination h2
  have h4 : ((l : ℝ) - j) ≠ 0 := sub_ne_zero.mpr (by exact_mod_cast h)
  have h5 : ((l : ℝ) + j + 1) ≠ 0 := by positivity
  rcases mul_eq_zero.mp h3 with h | h
  · exact absurd h (mul_ne_zero h4 h5)
  · exact h

/-- `(l - m)! / (l + m)!`. -/
noncomputable def facR (l m : ℕ) : ℝ := ((l - m).factorial : ℝ) / (l + m).factorial

theorem facR_nonneg (l m : ℕ) : 0 ≤ facR l m := by unfold facR; positivity

theorem facR_succ {l m : ℕ} (h : m < l) : facR l (m + 1) * (((l : ℝ) + (m + 1)) * (l - m)) = facR l m := by
  unfold facR
  obtain ⟨k, hk⟩ : ∃ k, l = m + k + 1 := ⟨l - m - 1, by omega⟩
  subst hk
  rw [show m + k + 1 - (m + 1) = k by omega, show m + k + 1 - m = k + 1 by omega, show m + k + 1 + (m + 1) = (m + k + 1 + m) + 1 by omega, Nat.factorial_succ, Nat.factorial_succ]
  push_cast
  have h1 : (((m + k + 1 + m).factorial : ℕ) : ℝ) ≠ 0 := by exact_mod_cast Nat.factorial_ne_zero _
  have h2 : ((m : ℝ) + k + 1 + m + 1) ≠ 0 := by positivity
  field_simp
  ring

theorem avg_const {l m : ℕ} (h : m ≤ l) : facR l m * avg (prodP m l l) = avg (prodP 0 l l) := by
  induction m with
  | zero =>
    unfold facR
    have : ((l.factorial : ℕ) : ℝ) ≠ 0 := by exact_mod_cast Nat.factorial_ne_zero _
    rw [Nat.sub_zero, Nat.add_zero, div_self this, one_mul]
  | succ m ih =>
    rw [avg_step, ← ih (by omega), ← facR_succ (by omega : m < l)]
    ring

/-- The sum of the squares of the components is constant. -/
theorem sum_sq (l : ℕ) : prodP 0 l l + ∑ m ∈ Finset.range l, C (2 * facR l (m + 1)) * prodP (m + 1) l l = 1 := by
  have key : ∀ b : ℝ, (prodP 0 l l + ∑ m ∈ Finset.range l, C (2 * facR l (m + 1)) * prodP (m + 1) l l).eval (Real.cos b) = 1 := by
    intro b
    have h1 : uvec l b ⬝ᵥ uvec l b = 1 := by
      rw [← rotX_mid, Matrix.dotProduct_mulVec, Matrix.vecMul_mulVec]
      have h := Wig.repD_orth l (Rot.matrixX_rot b)
      rw [repD_matrixX] at h
      rw [mul_eq_one_comm.mp h, Matrix.vecMul_one]
      simp [eMid, dotProduct]
    have h2 : uvec l b ⬝ᵥ uvec l b = ∑ k ∈ Finset.range (l + 1 + l), (if h : k < 2 * l + 1 then uvec l b ⟨k, h⟩ ^ 2 else 0) := by
      rw [show l + 1 + l = 2 * l + 1 by omega, Finset.sum_range]
      unfold dotProduct
      refine Finset.sum_congr rfl fun i _ => ?_
      rw [dif_pos i.isLt, sq]
    rw [h2, Finset.sum_range_add, Finset.sum_range_succ, Finset.sum_eq_zero] at h1
    · rw [zero_add, dif_pos (by omega)] at h1
      rw [eval_add, eval_finset_sum, ← h1]
      congr 1
      · simp [prodP, uvec, pm, DP_eval, sq]
      · apply Finset.sum_congr rfl
        intro m hm
        have hm' := Finset.mem_range.mp hm
        rw [dif_pos (by omega)]
        unfold uvec pm
        rw [if_neg (by simp; omega), if_neg (by simp; omega)]
        simp only
        have e1 : 2 * l - (l + 1 + m) = l - (m + 1) := by omega
        have e2 : l + 1 + m - l = m + 1 := by omega
        have e3 : l + 1 + m = l + (m + 1) := by omega
        rw [e1, e2, e3, mul_pow, mul_pow, mul_pow, Real.sq_sqrt (by norm_num), Real.sq_sqrt (by positivity)]
        simp only [prodP, eval_mul, eval_C, eval_pow, eval_sub, eval_one, eval_X, DP_eval, facR]
        rw [← pow_mul, mul_comm (m + 1) 2, pow_mul, Real.sin_sq]
        ring
    · intro k hk
      have := Finset.mem_range.mp hk
      rw [dif_pos (by omega)]
      simp [uvec, this]
  have hinf : Set.Infinite (Set.range Real.cos) := by
    rw [Real.range_cos]
    exact Set.Icc_infinite (by norm_num)
  refine Polynomial.eq_of_infinite_eval_eq _ _ (hinf.mono ?_)
  rintro y ⟨b, rfl⟩
  simp only [Set.mem_setOf_eq, key b, eval_one]

theorem avg_self (l : ℕ) : avg (prodP 0 l l) = 1 / (2 * l + 1) := by
  have h := congrArg avg (sum_sq l)
  rw [avg_add, avg_sum, ← map_one C, avg_C] at h
  have h2 : ∀ m ∈ Finset.range l, avg (C (2 * facR l (m + 1)) * prodP (m + 1) l l) = 2 * avg (prodP 0 l l) := by
    intro m hm
    rw [avg_C_mul, mul_assoc, avg_const (by have := Finset.mem_range.mp hm; omega)]
  rw [Finset.sum_congr rfl h2, Finset.sum_const, Finset.card_range, nsmul_eq_mul] at h
  have h3 : (2 * (l : ℝ) + 1) ≠ 0 := by positivity
  field_simp
  linarith

/-- The functions of `beta` are orthogonal. -/
theorem avg_prod {m l j : ℕ} (hl : m ≤ l) : facR l m * avg (prodP m l j) = if l = j then 1 / (2 * (l : ℝ) + 1) else 0 := by
  split
  · rename_i h; subst h; rw [avg_const hl, avg_self]
  · rename_i h; rw [avg_ne h, mul_zero]

/-- The product of two functions of `beta`. -/
theorem shBeta_mul {m l j : ℕ} (hl : m ≤ l) (hj : m ≤ j) {y : ℝ} (hy : y ^ 2 ≤ 1) :
    shBeta l m y * shBeta j m y = Real.sqrt ((2 * l + 1) / (4 * Real.pi) * facR l m) * Real.sqrt ((2 * j + 1) / (4 * Real.pi) * facR j m) * (prodP m l j).eval y := by
  unfold shBeta lpmn
  rw [if_neg (by omega), if_neg (by omega)]
  have e : Real.sqrt (1 - y ^ 2) ^ m * Real.sqrt (1 - y ^ 2) ^ m = (1 - y ^ 2) ^ m := by
    rw [← mul_pow, Real.mul_self_sqrt (by linarith)]
  have e2 : ((-1 : ℝ) ^ m) * (-1) ^ m = 1 := by rw [← mul_pow]; norm_num
  simp only [prodP, eval_mul, eval_pow, eval_sub, eval_one, eval_X, DP_eval, facR, PD]
  linear_combination (Real.sqrt ((2 * l + 1) / (4 * Real.pi) * ((l - m).factorial / (l + m).factorial)) * Real.sqrt ((2 * j + 1) / (4 * Real.pi) * ((j - m).factorial / (j + m).factorial)) *
    (derivative^[m] (legendrePoly l)).eval y * (derivative^[m] (legendrePoly j)).eval y) * (e * ((-1 : ℝ) ^ m * (-1) ^ m) ^ 2 + (1 - y ^ 2) ^ m * (((-1 : ℝ) ^ m * (-1) ^ m + 1) * e2))

/-- With an exact quadrature the discrete sums of products of the functions of `beta` are those of the integral. -/
theorem Exact.shBeta {D n : ℕ} {y w : Fin n → ℝ} (h : Exact D y w) {m l j : ℕ} (hl : m ≤ l) (hj : m ≤ j) (hD : l + j ≤ D) :
    ∑ b, w b * (shBeta l m (y b) * shBeta j m (y b)) = if l = j then 1 / (4 * Real.pi) else 0 := by
  have e : ∀ b, w b * (SH.shBeta l m (y b) * SH.shBeta j m (y b)) =
      Real.sqrt ((2 * l + 1) / (4 * Real.pi) * facR l m) * Real.sqrt ((2 * j + 1) / (4 * Real.pi) * facR j m) * (w b * (prodP m l j).eval (y b)) := by
    intro b
    rw [shBeta_mul hl hj (h.nodes b)]
    ring
  rw [Finset.sum_congr rfl fun b _ => e b, ← Finset.mul_sum, h.exact' _ ((prodP_degree hl hj).trans hD)]
  change _ * avg (prodP m l j) = _
  have ha := avg_prod (j := j) hl
  split
  · rename_i e; subst e
    rw [if_pos rfl] at ha
    rw [Real.mul_self_sqrt (mul_nonneg (by positivity) (facR_nonneg _ _)), mul_assoc, ha]
    have : (2 * (l : ℝ) + 1) ≠ 0 := by positivity
    field_simp
  · rename_i e
    rw [avg_ne e, mul_zero]

end E3nn.S2
