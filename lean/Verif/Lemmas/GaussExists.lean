import Verif.Lemmas.SoftQuad
import Mathlib.Analysis.Matrix.Spectrum
import Mathlib.Algebra.Polynomial.Sequence

/-! # Gauss-Legendre quadratures exist (eigenvalues of the matrix of Jacobi) -/

namespace E3nn.S2

open Polynomial E3nn.SH
open scoped Matrix

/-- Orthonormal polynomials. -/
noncomputable def onP (k : ℕ) : ℝ[X] := C (Real.sqrt (2 * k + 1)) * legendrePoly k

theorem avg_onP (i j : ℕ) : avg (onP i * onP j) = if i = j then 1 else 0 := by
  have e : onP i * onP j = C (Real.sqrt (2 * i + 1) * Real.sqrt (2 * j + 1)) * prodP 0 i j := by
    unfold onP prodP DP
    rw [C_mul]
    simp only [pow_zero, one_mul, Function.iterate_zero, id]
    ring
  rw [e, avg_C_mul]
  by_cases h : i = j
  · subst h
    rw [if_pos rfl, avg_self, Real.mul_self_sqrt (by positivity)]
    have : (2 * (i : ℝ) + 1) ≠ 0 := by positivity
    field_simp
  · rw [if_neg h, avg_ne h, mul_zero]

theorem legendre_natDegree (l : ℕ) : (legendrePoly l).coeff l ≠ 0 := by
  unfold legendrePoly
  rw [coeff_C_mul, coeff_iterate_derivative]
  have hm : ((X ^ 2 - 1 : ℝ[X]) ^ l).coeff (l + l) = 1 := by
    have h1 : (X ^ 2 - 1 : ℝ[X]).Monic := by
      have := monic_X_pow_sub_C (1 : ℝ) (n := 2) (by norm_num)
      simpa using this
    have h2 := (h1.pow l).coeff_natDegree
    rw [h1.natDegree_pow] at h2
    have h3 : (X ^ 2 - 1 : ℝ[X]).natDegree = 2 := by
      have := natDegree_X_pow_sub_C (n := 2) (r := (1 : ℝ))
      simpa using this
    rw [h3] at h2
    rwa [show l + l = l * 2 by ring]
  rw [hm]
  have hd : ((l + l).descFactorial l : ℝ) ≠ 0 := by
    have : (l + l).descFactorial l ≠ 0 := by
      intro h
      rw [Nat.descFactorial_eq_zero_iff_lt] at h
      omega
    exact_mod_cast this
  simp only [nsmul_eq_mul, mul_one]
  exact mul_ne_zero (by positivity) hd

theorem onP_degree (k : ℕ) : (onP k).degree = k := by
  unfold onP
  rw [degree_C_mul (by positivity)]
  apply le_antisymm
  · exact degree_le_of_natDegree_le (legendrePoly_degree k)
  · exact le_degree_of_ne_zero (legendre_natDegree k)

noncomputable def onSeq : Polynomial.Sequence ℝ := ⟨onP, onP_degree⟩

theorem onP_expand {n : ℕ} {p : ℝ[X]} (hp : p.degree < n) : p = ∑ j ∈ Finset.range n, C (avg (p * onP j)) * onP j := by
  have hmem : p ∈ degreeLT ℝ n := by rwa [mem_degreeLT]
  rw [← Sequence.span_degreeLT onSeq (fun i _ => by rw [isUnit_iff_ne_zero, leadingCoeff_ne_zero]; exact onSeq.ne_zero i), show Set.Iio n = (Finset.range n : Set ℕ) by simp,
    Submodule.mem_span_image_finset_iff_exists_fun'] at hmem
  obtain ⟨c, rfl⟩ := hmem
  refine Finset.sum_congr rfl fun j hj => ?_
  have : avg ((∑ i ∈ Finset.range n, c i • onSeq i) * onP j) = c j := by
    rw [Finset.sum_mul, avg_sum]
    have e : ∀ i ∈ Finset.range n, avg (c i • onSeq i * onP j) = if i = j then c i else 0 := by
      intro i _
      rw [smul_eq_C_mul, mul_assoc, avg_C_mul]
      change _ * avg (onP i * onP j) = _
      rw [avg_onP]; split <;> simp
    rw [Finset.sum_congr rfl e, Finset.sum_ite_eq', if_pos hj]
  rw [this, smul_eq_C_mul]
  rfl

/-- The matrix of the multiplication by the variable, cut to `n` polynomials. -/
noncomputable def jacobi (n : ℕ) : Matrix (Fin n) (Fin n) ℝ := fun i j => avg (X * onP i * onP j)

theorem jacobi_herm (n : ℕ) : (jacobi n).IsHermitian := by
  ext i j
  simp only [Matrix.conjTranspose_apply, jacobi, star_trivial]
  congr 1
  ring

/-- The coordinates of a power of the variable. -/
noncomputable def powVec (n k : ℕ) : Fin n → ℝ := fun i => avg (X ^ k * onP i)

theorem dot_powVec {n a : ℕ} (ha : a < n) (p : ℝ[X]) : ∑ j : Fin n, avg (p * onP j) * powVec n a j = avg (p * X ^ a) := by
  conv_rhs => rw [onP_expand (p := X ^ a) (n := n) (by rw [degree_X_pow]; exact_mod_cast ha), Finset.mul_sum, avg_sum, Finset.sum_range]
  refine Finset.sum_congr rfl fun j _ => ?_
  rw [show p * (C (avg (X ^ a * onP ↑j)) * onP ↑j) = C (avg (X ^ a * onP ↑j)) * (p * onP j) by ring, avg_C_mul]
  unfold powVec
  ring

theorem jacobi_pow {n k : ℕ} (hk : k < n) : jacobi n *ᵥ powVec n k = powVec n (k + 1) := by
  funext i
  change ∑ j : Fin n, jacobi n i j * powVec n k j = _
  unfold jacobi
  rw [dot_powVec hk (X * onP i)]
  unfold powVec
  congr 1
  ring

theorem avg_mono_abs (q : ℝ[X]) : |avg (X * (q * q))| ≤ avg (q * q) := by
  unfold avg
  rw [abs_div, abs_of_pos (by norm_num : (0 : ℝ) < 2)]
  apply div_le_div_of_nonneg_right _ (by norm_num)
  refine (intervalIntegral.abs_integral_le_integral_abs (by norm_num)).trans ?_
  apply intervalIntegral.integral_mono_on (by norm_num)
  · exact ((X * (q * q)).continuous.abs).intervalIntegrable _ _
  · exact poly_int _ _ _
  · intro t ht
    have h1 : |t| ≤ 1 := abs_le.mpr ⟨ht.1, ht.2⟩
    rw [eval_mul, eval_X, eval_mul, abs_mul, abs_mul_self]
    have := mul_self_nonneg (eval t q)
    nlinarith

theorem inner_eq {n : ℕ} (x y : EuclideanSpace ℝ (Fin n)) : inner ℝ x y = ∑ i, x i * y i := by
  rw [PiLp.inner_apply]
  exact Finset.sum_congr rfl fun i _ => by simp [mul_comm]

theorem gauss_exists : ∃ lg : LegGauss, GaussLegendre lg := by
  have key : ∀ n, 0 < n → ∃ (x w : Fin n → ℝ), (∀ i, -1 ≤ x i ∧ x i ≤ 1) ∧ ∀ p : ℝ[X], p.natDegree ≤ 2 * n - 1 → ∑ i, w i * p.eval (x i) = ∫ t in (-1 : ℝ)..1, p.eval t := by
    intro n hn
    let h := jacobi_herm n
    let v := h.eigenvectorBasis
    let vec : ℕ → EuclideanSpace ℝ (Fin n) := fun k => WithLp.toLp 2 (powVec n k)
    have hsym : ∀ a b : Fin n → ℝ, ∑ i, a i * (jacobi n *ᵥ b) i = ∑ i, (jacobi n *ᵥ a) i * b i := by
      intro a b
      change a ⬝ᵥ (jacobi n *ᵥ b) = (jacobi n *ᵥ a) ⬝ᵥ b
      rw [Matrix.dotProduct_mulVec, ← Matrix.mulVec_transpose]
      congr 2
    have hstep : ∀ b k, k ≤ n → inner ℝ (v b) (vec k) = h.eigenvalues b ^ k * inner ℝ (v b) (vec 0) := by
      intro b k
      induction k with
      | zero => intro _; simp
      | succ k ih =>
        intro hk
        rw [pow_succ', mul_assoc, ← ih (by omega), inner_eq, inner_eq]
        have e1 : ∀ i, (vec (k + 1)) i = (jacobi n *ᵥ powVec n k) i := fun i => by rw [jacobi_pow (by omega)]
        simp_rw [e1]
        rw [hsym]
        have e2 := h.mulVec_eigenvectorBasis b
        rw [Finset.mul_sum]
        refine Finset.sum_congr rfl fun i _ => ?_
        have e3 : (jacobi n *ᵥ (v b).ofLp) i = h.eigenvalues b * (v b) i := by
          have := congrFun e2 i
          simpa using this
        rw [e3, mul_assoc]
    have hmom : ∀ a c, a < n → c ≤ n → ∑ b, inner ℝ (v b) (vec 0) ^ 2 * h.eigenvalues b ^ (a + c) = avg (X ^ (a + c)) := by
      intro a c ha hc
      have e1 := v.sum_inner_mul_inner (vec c) (vec a)
      have e2 : inner ℝ (vec c) (vec a) = avg (X ^ (a + c)) := by
        rw [inner_eq]
        have := dot_powVec ha (X ^ c)
        rw [← pow_add, add_comm c a] at this
        exact this
      rw [← e2, ← e1]
      refine Finset.sum_congr rfl fun b _ => ?_
      rw [real_inner_comm (v b) (vec c), hstep b c hc, hstep b a ha.le]
      ring
    refine ⟨h.eigenvalues, fun b => 2 * inner ℝ (v b) (vec 0) ^ 2, ?_, ?_⟩
    · intro b
      apply abs_le.mp
      let q : ℝ[X] := ∑ i : Fin n, C ((v b) i) * onP i
      have hq : avg (q * q) = 1 := by
        have e : q * q = ∑ i : Fin n, ∑ j : Fin n, C ((v b) i * (v b) j) * (onP i * onP j) := by
          simp only [q, Finset.sum_mul, Finset.mul_sum, C_mul]
          rw [Finset.sum_comm]
          exact Finset.sum_congr rfl fun i _ => Finset.sum_congr rfl fun j _ => by ring
        rw [e, avg_sum]
        have e2 : ∀ i : Fin n, avg (∑ j : Fin n, C ((v b) i * (v b) j) * (onP i * onP j)) = (v b) i * (v b) i := by
          intro i
          rw [avg_sum]
          simp_rw [avg_C_mul, avg_onP]
          rw [Finset.sum_eq_single i]
          · simp
          · intro j _ hj
            rw [if_neg (fun h => hj (Fin.ext h.symm)), mul_zero]
          · intro h; exact absurd (Finset.mem_univ _) h
        simp_rw [e2]
        rw [← inner_eq, real_inner_self_eq_norm_sq, v.orthonormal.1 b]
        norm_num
      have hX : avg (X * (q * q)) = h.eigenvalues b := by
        have e : X * (q * q) = ∑ i : Fin n, ∑ j : Fin n, C ((v b) i * (v b) j) * (X * onP i * onP j) := by
          simp only [q, Finset.sum_mul, Finset.mul_sum, C_mul]
          rw [Finset.sum_comm]
          exact Finset.sum_congr rfl fun i _ => Finset.sum_congr rfl fun j _ => by ring
        rw [e, avg_sum]
        have e2 : ∀ i : Fin n, avg (∑ j : Fin n, C ((v b) i * (v b) j) * (X * onP i * onP j)) = (v b) i * (jacobi n *ᵥ (v b).ofLp) i := by
          intro i
          rw [avg_sum]
          simp_rw [avg_C_mul]
          change _ = _ * ∑ j, jacobi n i j * (v b) j
          rw [Finset.mul_sum]
          refine Finset.sum_congr rfl fun j _ => ?_
          unfold jacobi
          ring
        simp_rw [e2]
        have e3 : ∀ i, (jacobi n *ᵥ (v b).ofLp) i = h.eigenvalues b * (v b) i := by
          intro i
          have := congrFun (h.mulVec_eigenvectorBasis b) i
          simpa using this
        have e4 : ∑ i, (v b) i * (v b) i = 1 := by
          rw [← inner_eq, real_inner_self_eq_norm_sq, v.orthonormal.1 b]; norm_num
        calc _ = h.eigenvalues b * ∑ i, (v b) i * (v b) i := by
              rw [Finset.mul_sum]
              exact Finset.sum_congr rfl fun i _ => by rw [e3]; ring
          _ = _ := by rw [e4, mul_one]
      rw [← hX, ← hq]
      exact avg_mono_abs q
    · intro p hp
      have hlin : ∑ i, 2 * inner ℝ (v i) (vec 0) ^ 2 * p.eval (h.eigenvalues i) = 2 * avg p := by
        have hpe : p = ∑ k ∈ Finset.range (2 * n), C (p.coeff k) * X ^ k := by
          conv_lhs => rw [as_sum_range_C_mul_X_pow' p (show p.natDegree < 2 * n by omega)]
        have ev : ∀ t : ℝ, p.eval t = ∑ k ∈ Finset.range (2 * n), p.coeff k * t ^ k := fun t => by
          conv_lhs => rw [hpe]
          rw [eval_finsetSum]
          exact Finset.sum_congr rfl fun k _ => by simp
        have av : avg p = ∑ k ∈ Finset.range (2 * n), p.coeff k * avg (X ^ k) := by
          conv_lhs => rw [hpe]
          rw [avg_sum]
          exact Finset.sum_congr rfl fun k _ => avg_C_mul _ _
        simp_rw [ev, av, Finset.mul_sum]
        rw [Finset.sum_comm]
        refine Finset.sum_congr rfl fun k hk => ?_
        have hk := Finset.mem_range.mp hk
        have hm := hmom (min k (n - 1)) (k - min k (n - 1)) (by omega) (by omega)
        rw [show min k (n - 1) + (k - min k (n - 1)) = k by omega] at hm
        rw [← hm, Finset.mul_sum, Finset.mul_sum]
        exact Finset.sum_congr rfl fun b _ => by ring
      rw [hlin]
      unfold avg
      ring
  choose x w h1 h2 using key
  refine ⟨fun n => if hn : 0 < n then (x n hn, w n hn) else (0, 0), fun n hn => ?_⟩
  simp only [dif_pos hn]
  exact ⟨h1 n hn, h2 n hn⟩

end E3nn.S2
