import Verif.Model.Radial
import Mathlib.Algebra.Polynomial.FieldDivision
import Mathlib.Algebra.Polynomial.Derivative
import Mathlib.Analysis.Calculus.Deriv.Polynomial
import Mathlib.Analysis.Calculus.IteratedDeriv.Lemmas
import Mathlib.Analysis.Calculus.ContDiff.Deriv
import Mathlib.Analysis.Calculus.Deriv.MeanValue
import Mathlib.RingTheory.Coprime.Lemmas
import Mathlib.RingTheory.Polynomial.Content
import Mathlib.Tactic.LinearCombination
import Mathlib.Tactic.FieldSimp
import Mathlib.Tactic.NormNum
import Mathlib.LinearAlgebra.Matrix.ToLinearEquiv

/-! Polynomials with prescribed derivatives at two points. -/

namespace E3nn.Radial

open Polynomial

/-- The polynomial with the coefficients `c`. -/
noncomputable def polyOf {n : ℕ} (c : Fin n → ℝ) : ℝ[X] := ∑ N : Fin n, C (c N) * X ^ (N : ℕ)

theorem constraint_eq (x : ℝ) (d N : ℕ) : constraint x d N = (derivative^[d] (X ^ N : ℝ[X])).eval x := by
  rw [iterate_derivative_X_pow_eq_natCast_mul]
  unfold constraint
  split
  · rename_i h
    rw [Nat.descFactorial_of_lt h]; simp
  · rename_i h
    rw [Nat.descFactorial_eq_div (by omega)]
    simp

theorem polyOf_degree {n : ℕ} (c : Fin n → ℝ) : (polyOf c).degree < n := by
  unfold polyOf
  refine (degree_sum_le _ _).trans_lt ?_
  rw [Finset.sup_lt_iff (by exact WithBot.bot_lt_coe n)]
  intro i _
  refine (degree_C_mul_X_pow_le _ _).trans_lt ?_
  exact_mod_cast i.2

theorem polyOf_coeff {n : ℕ} (c : Fin n → ℝ) (i : Fin n) : (polyOf c).coeff i = c i := by
  unfold polyOf
  rw [finset_sum_coeff]
  simp only [coeff_C_mul, coeff_X_pow]
  rw [Finset.sum_eq_single i]
  · simp
  · intro b _ hb
    rw [if_neg (fun e => hb (Fin.ext e.symm))]; simp
  · simp

theorem constraint_polyOf {n : ℕ} (c : Fin n → ℝ) (x : ℝ) (d : ℕ) : ∑ N : Fin n, constraint x d N * c N = (derivative^[d] (polyOf c)).eval x := by
  unfold polyOf
  rw [iterate_derivative_sum, eval_finset_sum]
  refine Finset.sum_congr rfl fun N _ => ?_
  rw [iterate_derivative_C_mul, eval_mul, eval_C, constraint_eq, mul_comm]

theorem system_mulVec (cs : List (ℝ × ℕ × ℝ)) (c : Fin cs.length → ℝ) (i : Fin cs.length) :
    (system cs).mulVec c i = (derivative^[(cs.get i).2.1] (polyOf c)).eval (cs.get i).1 := by
  rw [← constraint_polyOf]; rfl

/-- Vanishing derivatives mean divisibility. -/
theorem dvd_of_derivs {P : ℝ[X]} {a : ℝ} {n : ℕ} (h : ∀ d ≤ n, (derivative^[d] P).eval a = 0) : (X - C a) ^ (n + 1) ∣ P := by
  by_cases h0 : P = 0
  · simp [h0]
  · rw [← le_rootMultiplicity_iff h0]
    exact lt_rootMultiplicity_of_isRoot_iterate_derivative h0 h

theorem derivs_of_dvd {P : ℝ[X]} {a : ℝ} {n : ℕ} (h : (X - C a) ^ (n + 1) ∣ P) : ∀ d ≤ n, (derivative^[d] P).eval a = 0 := by
  by_cases h0 : P = 0
  · intro d _; rw [h0, iterate_derivative_zero]; simp
  · rw [← le_rootMultiplicity_iff h0] at h
    exact (lt_rootMultiplicity_iff_isRoot_iterate_derivative h0).mp h

/-- A polynomial of degree less than `n0 + n1 + 2` with zero data at two points is zero. -/
theorem hermite_zero {P : ℝ[X]} {a b : ℝ} (hab : a ≠ b) {n0 n1 : ℕ} (hd : P.degree < ((n0 + n1 + 2 : ℕ) : WithBot ℕ)) (h0 : (X - C a) ^ (n0 + 1) ∣ P) (h1 : (X - C b) ^ (n1 + 1) ∣ P) :
    P = 0 := by
  have hc : IsCoprime ((X - C a) ^ (n0 + 1) : ℝ[X]) ((X - C b) ^ (n1 + 1)) :=
    IsCoprime.pow (isCoprime_X_sub_C_of_isUnit_sub (by simpa [sub_eq_zero] using hab))
  have hm := hc.mul_dvd h0 h1
  refine eq_zero_of_dvd_of_degree_lt hm ?_
  refine hd.trans_le ?_
  rw [degree_mul, degree_pow, degree_pow, degree_X_sub_C, degree_X_sub_C]
  apply le_of_eq
  simp only [nsmul_eq_mul, mul_one]
  norm_cast
  omega

theorem envelopeConstraints_length (n0 n1 : ℕ) : (envelopeConstraints n0 n1).length = n0 + n1 + 2 := by
  unfold envelopeConstraints; simp; omega

theorem mem_env {n0 n1 : ℕ} {q : ℝ × ℕ × ℝ} (h : q ∈ envelopeConstraints n0 n1) :
    (∃ d ≤ n0, q = (-0.5, d, if d = 0 then 1 else 0)) ∨ (∃ d ≤ n1, q = (0.5, d, 0)) := by
  unfold envelopeConstraints at h
  simp only [List.cons_append, List.mem_cons, List.mem_append, List.mem_map, List.mem_range] at h
  rcases h with rfl | ⟨d, hd, rfl⟩ | rfl | ⟨d, hd, rfl⟩
  · exact .inl ⟨0, by omega, by simp⟩
  · exact .inl ⟨d + 1, by omega, by simp⟩
  · exact .inr ⟨0, by omega, by simp⟩
  · exact .inr ⟨d + 1, by omega, by simp⟩

theorem env_mem0 {n0 n1 d : ℕ} (h : d ≤ n0) : ((-0.5, d, if d = 0 then 1 else 0) : ℝ × ℕ × ℝ) ∈ envelopeConstraints n0 n1 := by
  unfold envelopeConstraints
  simp only [List.cons_append, List.mem_cons, List.mem_append, List.mem_map, List.mem_range]
  rcases d with _ | d
  · left; simp
  · right; left; exact ⟨d, by omega, by simp⟩

theorem env_mem1 {n0 n1 d : ℕ} (h : d ≤ n1) : ((0.5, d, 0) : ℝ × ℕ × ℝ) ∈ envelopeConstraints n0 n1 := by
  unfold envelopeConstraints
  simp only [List.cons_append, List.mem_cons, List.mem_append, List.mem_map, List.mem_range]
  rcases d with _ | d
  · right; right; left; simp
  · right; right; right; exact ⟨d, by omega, by simp⟩

theorem system_det (n0 n1 : ℕ) : (system (envelopeConstraints n0 n1)).det ≠ 0 := by
  intro hdet
  obtain ⟨c, hc0, hc⟩ := Matrix.exists_mulVec_eq_zero_iff.mpr hdet
  apply hc0
  have hz : ∀ q ∈ envelopeConstraints n0 n1, (derivative^[q.2.1] (polyOf c)).eval q.1 = 0 := by
    intro q hq
    obtain ⟨i, hi⟩ := List.get_of_mem hq
    have := congrFun hc i
    rw [system_mulVec, hi] at this
    simpa using this
  have hP : polyOf c = 0 := by
    refine hermite_zero (a := -0.5) (b := 0.5) (n0 := n0) (n1 := n1) (by norm_num) ?_ (dvd_of_derivs fun d hd => hz _ (env_mem0 hd))
      (dvd_of_derivs fun d hd => hz _ (env_mem1 hd))
    exact (polyOf_degree c).trans_le (by rw [envelopeConstraints_length])
  funext i
  rw [← polyOf_coeff c i, hP]; simp

theorem polyval_snoc (p : List ℝ) (a x : ℝ) : polyval (p ++ [a]) x = polyval p x * x + a := by
  unfold polyval; rw [List.foldl_append]; rfl

theorem polyval_ofFn {n : ℕ} (c : Fin n → ℝ) (x : ℝ) : polyval (List.ofFn c).reverse x = (polyOf c).eval x := by
  induction n with
  | zero => simp [polyval, polyOf]
  | succ n ih =>
    rw [List.ofFn_succ, List.reverse_cons, polyval_snoc, ih]
    unfold polyOf
    rw [Fin.sum_univ_succ, eval_add, eval_finset_sum, eval_finset_sum, Finset.sum_mul]
    simp only [eval_mul, eval_C, eval_pow, eval_X, Fin.val_zero, pow_zero, mul_one, Fin.val_succ, pow_succ]
    rw [add_comm]
    congr 1
    exact Finset.sum_congr rfl fun i _ => by ring

/-- What `solve_polynomial` returns for the constraints of the envelope. -/
theorem solve_env (n0 n1 : ℕ) : ∃ P : ℝ[X], solvePolynomial (envelopeConstraints n0 n1) = .ok (fun x => P.eval x) ∧ P.degree < ((n0 + n1 + 2 : ℕ) : WithBot ℕ) ∧
    (X - C (-0.5)) ^ (n0 + 1) ∣ P - 1 ∧ (X - C 0.5) ^ (n1 + 1) ∣ P := by
  have hdet := system_det n0 n1
  set A := system (envelopeConstraints n0 n1) with hA
  set B : Fin (envelopeConstraints n0 n1).length → ℝ := fun i => ((envelopeConstraints n0 n1).get i).2.2 with hB
  set c := A⁻¹.mulVec B with hc
  have hsol : A.mulVec c = B := by
    rw [hc, Matrix.mulVec_mulVec, Matrix.mul_nonsing_inv _ (isUnit_iff_ne_zero.mpr hdet), Matrix.one_mulVec]
  have hz : ∀ q ∈ envelopeConstraints n0 n1, (derivative^[q.2.1] (polyOf c)).eval q.1 = q.2.2 := by
    intro q hq
    obtain ⟨i, hi⟩ := List.get_of_mem hq
    have := congrFun hsol i
    rw [hA, system_mulVec, hi] at this
    rw [this, hB]; simp only; rw [hi]
  refine ⟨polyOf c, ?_, ?_, ?_, ?_⟩
  · unfold solvePolynomial
    rw [if_neg hdet]
    congr 1
    funext x
    exact polyval_ofFn c x
  · exact (polyOf_degree c).trans_le (by rw [envelopeConstraints_length])
  · refine dvd_of_derivs fun d hd => ?_
    have := hz _ (env_mem0 (n1 := n1) hd)
    simp only at this
    rcases d with _ | d
    · simp only [Function.iterate_zero, id] at this ⊢
      rw [eval_sub, this]; simp
    · rw [iterate_derivative_sub, eval_sub, this]
      have h1 : derivative^[d + 1] (1 : ℝ[X]) = 0 := by
        rw [← C_1]; exact iterate_derivative_C (by omega)
      rw [h1]; simp
  · exact dvd_of_derivs fun d hd => hz _ (env_mem1 (n0 := n0) hd)

theorem iteratedDeriv_poly (P : ℝ[X]) (d : ℕ) : iteratedDeriv d (fun x => P.eval x) = fun x => (derivative^[d] P).eval x := by
  induction d with
  | zero => simp
  | succ d ih =>
    rw [iteratedDeriv_succ, ih]
    funext x
    rw [Function.iterate_succ_apply']
    exact (derivative^[d] P).deriv

/-- A polynomial that vanishes to order `k + 1` at `a`, cut at `a`, is `C^k`. -/
theorem cut_contDiff (a : ℝ) (k : ℕ) (R : ℝ[X]) : ContDiff ℝ k (fun x => if x < a then ((X - C a) ^ (k + 1) * R).eval x else 0) := by
  induction k generalizing R with
  | zero =>
    rw [Nat.cast_zero, contDiff_zero]
    have : (fun x => if x < a then ((X - C a) ^ (0 + 1) * R).eval x else 0) = fun x => if a ≤ x then 0 else ((X - C a) ^ (0 + 1) * R).eval x := by
      funext x
      by_cases h : x < a
      · rw [if_pos h, if_neg (by linarith)]
      · rw [if_neg h, if_pos (by linarith)]
    rw [this]
    refine Continuous.if_le continuous_const (Polynomial.differentiable _).continuous continuous_const continuous_id ?_
    rintro x rfl
    simp
  | succ k ih =>
    set R' : ℝ[X] := C ((k : ℝ) + 2) * R + (X - C a) * derivative R with hR'
    have hder : derivative ((X - C a) ^ (k + 1 + 1) * R) = (X - C a) ^ (k + 1) * R' := by
      rw [derivative_mul, derivative_pow, derivative_X_sub_C, hR']
      simp only [Nat.add_sub_cancel, Nat.cast_add, Nat.cast_one, map_add, map_natCast, map_one, map_ofNat]
      ring
    have hd : ∀ x, HasDerivAt (fun x => if x < a then ((X - C a) ^ (k + 1 + 1) * R).eval x else 0) (if x < a then ((X - C a) ^ (k + 1) * R').eval x else 0) x := by
      intro x
      rcases lt_trichotomy x a with h | rfl | h
      · rw [if_pos h, ← hder]
        refine (Polynomial.hasDerivAt _ x).congr_of_eventuallyEq ?_
        filter_upwards [Iio_mem_nhds h] with y hy
        rw [if_pos (Set.mem_Iio.mp hy)]
      · rw [if_neg (lt_irrefl x)]
        have hp : HasDerivAt (fun y => ((X - C x) ^ (k + 1 + 1) * R).eval y) 0 x := by
          have := Polynomial.hasDerivAt ((X - C x) ^ (k + 1 + 1) * R) x
          rw [hder] at this
          simpa using this
        rw [hasDerivAt_iff_isLittleO] at hp ⊢
        simp only [lt_irrefl, if_false, smul_zero, sub_zero] at hp ⊢
        have hx : ((X - C x) ^ (k + 1 + 1) * R).eval x = 0 := by simp
        rw [hx] at hp
        simp only [sub_zero] at hp
        refine Asymptotics.IsLittleO.of_norm_norm (Asymptotics.IsLittleO.trans_isBigO (g := fun y => (y - x)) ?_ (Asymptotics.isBigO_norm_right.mpr (Asymptotics.isBigO_refl _ _)))
        refine Asymptotics.IsBigO.trans_isLittleO (g := fun y => ((X - C x) ^ (k + 1 + 1) * R).eval y) ?_ hp
        refine Asymptotics.IsBigO.of_bound 1 (Filter.Eventually.of_forall fun y => ?_)
        rw [norm_norm, one_mul]
        split
        · exact le_rfl
        · rw [norm_zero]; exact norm_nonneg _
      · rw [if_neg (by linarith)]
        refine (hasDerivAt_const x (0 : ℝ)).congr_of_eventuallyEq ?_
        filter_upwards [Ioi_mem_nhds h] with y hy
        rw [if_neg (by have : a < y := hy; linarith)]
    have hcast : ((k + 1 : ℕ) : WithTop ℕ∞) = (k : WithTop ℕ∞) + 1 := by push_cast; rfl
    rw [hcast, contDiff_succ_iff_deriv]
    refine ⟨fun x => (hd x).differentiableAt, ?_, ?_⟩
    · intro h; exact absurd h (by exact_mod_cast WithTop.coe_ne_top)
    · have : deriv (fun x => if x < a then ((X - C a) ^ (k + 1 + 1) * R).eval x else 0) = fun x => if x < a then ((X - C a) ^ (k + 1) * R').eval x else 0 :=
        funext fun x => (hd x).deriv
      rw [this]
      exact ih R'

/-- The shape of the derivative. -/
theorem deriv_shape {Q : ℝ[X]} {a : ℝ} (ha : 0 < a) {n0 n1 : ℕ} (hd : Q.degree < ((n0 + n1 + 2 : ℕ) : WithBot ℕ)) (h0 : X ^ (n0 + 1) ∣ Q - 1) (h1 : (X - C a) ^ (n1 + 1) ∣ Q) :
    ∃ c : ℝ, derivative Q = C c * (X ^ n0 * (X - C a) ^ n1) := by
  have e0 : (X : ℝ[X]) ^ n0 ∣ derivative Q := by
    obtain ⟨R, hR⟩ := h0
    have : derivative Q = derivative (Q - 1) := by simp
    rw [this, hR, derivative_mul, derivative_X_pow]
    refine dvd_add ?_ ?_
    · simp only [Nat.add_sub_cancel]; exact ⟨C ((n0 + 1 : ℕ) : ℝ) * R, by ring⟩
    · exact ⟨X * derivative R, by ring⟩
  have e1 : ((X : ℝ[X]) - C a) ^ n1 ∣ derivative Q := by
    obtain ⟨R, hR⟩ := h1
    rw [hR, derivative_mul, derivative_pow, derivative_X_sub_C]
    refine dvd_add ?_ ?_
    · simp only [Nat.add_sub_cancel]; exact ⟨C ((n1 + 1 : ℕ) : ℝ) * R, by ring⟩
    · exact ⟨(X - C a) * derivative R, by ring⟩
  have hc : IsCoprime ((X : ℝ[X]) ^ n0) ((X - C a) ^ n1) := by
    have h := isCoprime_X_sub_C_of_isUnit_sub (R := ℝ) (a := 0) (b := a) (by simpa using ne_of_gt ha)
    rw [C_0, sub_zero] at h
    exact h.pow
  obtain ⟨S, hS⟩ := hc.mul_dvd e0 e1
  by_cases hz : derivative Q = 0
  · exact ⟨0, by rw [hz]; simp⟩
  · have hS0 : S ≠ 0 := fun e => hz (by rw [hS, e, mul_zero])
    have hQ0 : Q ≠ 0 := fun e => hz (by rw [e, derivative_zero])
    have h2 := degree_derivative_lt hQ0
    rw [hS, degree_mul, degree_mul, degree_pow, degree_pow, degree_X, degree_X_sub_C] at h2
    rw [degree_eq_natDegree hS0, degree_eq_natDegree hQ0] at h2
    rw [degree_eq_natDegree hQ0] at hd
    simp only [nsmul_eq_mul, mul_one] at h2
    norm_cast at h2 hd
    have hn : S.natDegree = 0 := by
      omega
    rw [eq_C_of_natDegree_eq_zero hn] at hS
    exact ⟨S.coeff 0, by rw [hS]; ring⟩

end E3nn.Radial
