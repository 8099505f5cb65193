import Verif.Lemmas.S2Quad
import Verif.Model.S2Grid
import Mathlib.Analysis.SpecialFunctions.Trigonometric.Chebyshev.ChebyshevGauss

/-! # The quadrature "soft" is Fejér's rule: exact for polynomials of degree less than the number of points -/

namespace E3nn.S2

open Polynomial Polynomial.Chebyshev

/-- The angle of a node. -/
noncomputable def nodeAngle (b j : ℕ) : ℝ := (2 * j + 1) / (2 * b) * Real.pi

/-- Discrete orthogonality: the sum of cosines. -/
theorem cos_sum {b : ℕ} {k : ℤ} (hk : ¬ (2 * b : ℤ) ∣ k) : ∑ j ∈ Finset.range b, Real.cos (k * nodeAngle b j) = 0 := by
  have h := sumZeroes_T_of_not_dvd hk
  unfold sumZeroes at h
  by_cases hb : b = 0
  · subst hb; simp
  have hp : Real.pi / b ≠ 0 := div_ne_zero Real.pi_ne_zero (by exact_mod_cast hb)
  have h2 := (mul_eq_zero.mp h).resolve_left hp
  simpa [T_real_cos, nodeAngle] using h2

theorem cos_cos_sum {b : ℕ} {p n : ℕ} (hb : b ≠ 0) (hp : p ≤ b) (hn : n < b) :
    ∑ j ∈ Finset.range b, Real.cos (p * nodeAngle b j) * Real.cos (n * nodeAngle b j) = if p = n then (if n = 0 then (b : ℝ) else b / 2) else 0 := by
  have e : ∀ j, Real.cos (p * nodeAngle b j) * Real.cos (n * nodeAngle b j) = (Real.cos (((p + n : ℕ) : ℤ) * nodeAngle b j) + Real.cos (((p : ℤ) - n : ℤ) * nodeAngle b j)) / 2 := by
    intro j
    push_cast
    rw [add_mul, sub_mul, Real.cos_add, Real.cos_sub]
    ring
  rw [Finset.sum_congr rfl fun j _ => e j, ← Finset.sum_div, Finset.sum_add_distrib]
  have hd : ∀ k : ℤ, k ≠ 0 → |k| < 2 * b → ¬ (2 * b : ℤ) ∣ k := by
    intro k h0 hk hdvd
    exact h0 (Int.eq_zero_of_abs_lt_dvd hdvd hk)
  by_cases hpn : p = n
  · subst hpn
    rw [if_pos rfl]
    by_cases h0 : p = 0
    · subst h0
      simp
    · rw [if_neg h0, cos_sum (hd _ (by omega) (by rw [abs_of_nonneg (by omega)]; omega))]
      simp
  · rw [if_neg hpn]
    rw [cos_sum (hd _ (by omega) (by rw [abs_of_nonneg (by omega)]; omega)), cos_sum (hd _ (by omega) (by rw [abs_lt]; omega))]
    simp

theorem list_range_sum (f : ℕ → ℝ) (n : ℕ) : ((List.range n).map f).sum = ∑ k ∈ Finset.range n, f k := by
  induction n with
  | zero => rfl
  | succ n ih => rw [List.range_succ, List.map_append, List.sum_append, ih, Finset.sum_range_succ]; simp

/-- The weights as a sum of cosines. -/
theorem softWeight_cos (b j : ℕ) :
    softWeight b j / 2 = 1 / b * ∑ k ∈ Finset.range (b / 2), (Real.cos ((2 * k : ℕ) * nodeAngle b j) - Real.cos ((2 * k + 2 : ℕ) * nodeAngle b j)) / (2 * k + 1) := by
  unfold softWeight
  rw [list_range_sum, mul_div_right_comm, Finset.mul_sum, Finset.mul_sum]
  refine Finset.sum_congr rfl fun k _ => ?_
  have e1 : Real.pi * (2 * (j : ℝ) + 1) / (2 * b) = nodeAngle b j := by unfold nodeAngle; ring
  have e2 : (2 * (j : ℝ) + 1) * (2 * k + 1) * Real.pi / (2 * b) = (2 * k + 1) * nodeAngle b j := by unfold nodeAngle; ring
  rw [e1, e2]
  have e3 : Real.cos ((2 * k : ℕ) * nodeAngle b j) - Real.cos ((2 * k + 2 : ℕ) * nodeAngle b j) = 2 * Real.sin (nodeAngle b j) * Real.sin ((2 * k + 1) * nodeAngle b j) := by
    have a1 : ((2 * k : ℕ) : ℝ) * nodeAngle b j = (2 * k + 1) * nodeAngle b j - nodeAngle b j := by push_cast; ring
    have a2 : ((2 * k + 2 : ℕ) : ℝ) * nodeAngle b j = (2 * k + 1) * nodeAngle b j + nodeAngle b j := by push_cast; ring
    rw [a1, a2, Real.cos_add, Real.cos_sub]
    ring
  rw [e3]
  ring


/-- The discrete means of the Chebyshev polynomials. -/
theorem soft_T {b : ℕ} (hb : b % 2 = 0) (h0 : b ≠ 0) {n : ℕ} (hn : n < b) :
    ∑ j ∈ Finset.range b, softWeight b j / 2 * Real.cos (n * nodeAngle b j) = if n % 2 = 0 then 1 / (1 - (n : ℝ) ^ 2) else 0 := by
  have hbr : (b : ℝ) ≠ 0 := by exact_mod_cast h0
  have e : ∑ j ∈ Finset.range b, softWeight b j / 2 * Real.cos (n * nodeAngle b j) =
      1 / b * ∑ k ∈ Finset.range (b / 2), ((if 2 * k = n then (if n = 0 then (b : ℝ) else b / 2) else 0) - (if 2 * k + 2 = n then (if n = 0 then (b : ℝ) else b / 2) else 0)) / (2 * k + 1) := by
    calc _ = ∑ j ∈ Finset.range b, 1 / b * ∑ k ∈ Finset.range (b / 2),
          (Real.cos ((2 * k : ℕ) * nodeAngle b j) * Real.cos (n * nodeAngle b j) - Real.cos ((2 * k + 2 : ℕ) * nodeAngle b j) * Real.cos (n * nodeAngle b j)) / (2 * k + 1) := by
          refine Finset.sum_congr rfl fun j _ => ?_
          rw [softWeight_cos, mul_assoc, Finset.sum_mul]
          congr 1
          exact Finset.sum_congr rfl fun k _ => by ring
      _ = _ := by
          rw [← Finset.mul_sum, Finset.sum_comm]
          congr 1
          refine Finset.sum_congr rfl fun k hk => ?_
          have hk := Finset.mem_range.mp hk
          rw [← Finset.sum_div, Finset.sum_sub_distrib, cos_cos_sum h0 (by omega) hn, cos_cos_sum h0 (by omega) hn]
  rw [e]
  by_cases hodd : n % 2 = 0
  · rw [if_pos hodd]
    obtain ⟨q, rfl⟩ : ∃ q, n = 2 * q := ⟨n / 2, by omega⟩
    by_cases hq : q = 0
    · subst hq
      rw [Finset.sum_eq_single 0]
      · simp [hbr]
      · intro k _ hk
        rw [if_neg (by omega), if_neg (by omega)]; simp
      · intro h; exact absurd (Finset.mem_range.mpr (by omega)) h
    · obtain ⟨r, rfl⟩ : ∃ r, q = r + 1 := ⟨q - 1, by omega⟩
      have hs : ∀ k ∈ Finset.range (b / 2), ((if 2 * k = 2 * (r + 1) then (if 2 * (r + 1) = 0 then (b : ℝ) else b / 2) else 0) - (if 2 * k + 2 = 2 * (r + 1) then (if 2 * (r + 1) = 0 then (b : ℝ) else b / 2) else 0)) / (2 * k + 1)
          = (if k = r + 1 then (b : ℝ) / 2 / (2 * r + 3) else 0) - (if k = r then (b : ℝ) / 2 / (2 * r + 1) else 0) := by
        intro k _
        by_cases h1 : k = r + 1
        · subst h1
          simp; ring
        · by_cases h2 : k = r
          · subst h2
            rw [if_neg (by omega), if_pos (by omega), if_neg (by omega), if_neg (by omega), if_pos rfl]; ring
          · rw [if_neg (by omega), if_neg (by omega), if_neg h1, if_neg h2]; simp
      rw [Finset.sum_congr rfl hs, Finset.sum_sub_distrib, Finset.sum_ite_eq', Finset.sum_ite_eq', if_pos (Finset.mem_range.mpr (by omega)), if_pos (Finset.mem_range.mpr (by omega))]
      push_cast
      have a1 : (2 * (r : ℝ) + 3) ≠ 0 := by positivity
      have a2 : (2 * (r : ℝ) + 1) ≠ 0 := by positivity
      have a3 : (1 - (2 * ((r : ℝ) + 1)) ^ 2) = -((2 * r + 3) * (2 * r + 1)) := by ring
      rw [a3]
      field_simp
      ring
  · rw [if_neg hodd, Finset.sum_eq_zero, mul_zero]
    intro k _
    rw [if_neg (by omega), if_neg (by omega)]; simp

/-- The means of the Chebyshev polynomials. -/
theorem avg_T (n : ℕ) : avg (T ℝ n) = if n % 2 = 0 then 1 / (1 - (n : ℝ) ^ 2) else 0 := by
  have key : ∀ k : ℕ, avg (U ℝ k) = if k % 2 = 0 then 1 / ((k : ℝ) + 1) else 0 := by
    intro k
    have hk : ((k : ℝ) + 1) ≠ 0 := by positivity
    have h := avg_derivative (T ℝ ((k : ℤ) + 1))
    rw [T_derivative_eq_U, T_eval_one, T_eval_neg_one, add_sub_cancel_right] at h
    have e : (((k : ℤ) + 1 : ℤ) : ℝ[X]) * U ℝ k = Polynomial.C ((k : ℝ) + 1) * U ℝ k := by
      push_cast; simp
    rw [e, avg_C_mul] at h
    have h3 : avg (U ℝ k) = (1 - (((k : ℤ) + 1).negOnePow : ℝ)) / 2 / (k + 1) := by
      field_simp; linarith
    rw [h3]
    by_cases hp : k % 2 = 0
    · rw [if_pos hp, Int.negOnePow_odd _ (by rw [Int.odd_iff]; omega)]
      push_cast; norm_num
    · rw [if_neg hp, Int.negOnePow_even _ (by rw [Int.even_iff]; omega)]
      push_cast; norm_num
  match n with
  | 0 => simpa using avg_C 1
  | 1 =>
    have h := key 1
    have e : U ℝ ((1 : ℕ) : ℤ) = Polynomial.C 2 * T ℝ ((1 : ℕ) : ℤ) := by simp; rfl
    rw [e, avg_C_mul] at h
    simp at h ⊢
    exact h
  | k + 2 =>
    have h := two_mul_T_eq_U_sub_U ℝ (k : ℤ)
    have h2 : Polynomial.C 2 * T ℝ (((k + 2 : ℕ)) : ℤ) = U ℝ ((k + 2 : ℕ) : ℤ) + -U ℝ k := by
      push_cast
      rw [← sub_eq_add_neg, ← h]; rfl
    have h3 := congrArg avg h2
    rw [avg_C_mul, avg_add, avg_neg, key, key] at h3
    by_cases hp : k % 2 = 0
    · rw [if_pos (by omega)] at h3 ⊢
      rw [if_pos hp] at h3
      push_cast at h3 ⊢
      have a1 : ((k : ℝ) + 1) ≠ 0 := by positivity
      have a2 : ((k : ℝ) + 2 + 1) ≠ 0 := by positivity
      have a3 : 1 - ((k : ℝ) + 2) ^ 2 = -((k + 1) * (k + 2 + 1)) := by ring
      rw [a3]
      field_simp at h3 ⊢
      linarith
    · rw [if_neg (by omega)] at h3 ⊢
      rw [if_neg hp] at h3
      linarith

theorem softWeight_pos {b : ℕ} (hb : b % 2 = 0) (h0 : b ≠ 0) (j : ℕ) : 0 < softWeight b j := by
  obtain ⟨c, rfl⟩ : ∃ c, b = 2 * (c + 1) := ⟨b / 2 - 1, by omega⟩
  have h := softWeight_cos (2 * (c + 1)) j
  rw [Nat.mul_div_cancel_left _ (by norm_num)] at h
  have hcos : Real.cos ((2 * (c + 1) : ℕ) * nodeAngle (2 * (c + 1)) j) = 0 := by
    rw [Real.cos_eq_zero_iff]
    refine ⟨j, ?_⟩
    unfold nodeAngle
    have : ((2 * (c + 1) : ℕ) : ℝ) ≠ 0 := by positivity
    field_simp
    push_cast; ring
  generalize nodeAngle (2 * (c + 1)) j = t at h hcos
  -- Abel summation
  have bound : ∀ n : ℕ, 1 / (2 * (n : ℝ) + 1) - Real.cos ((2 * (n + 1) : ℕ) * t) / (2 * n + 1) ≤
      ∑ k ∈ Finset.range (n + 1), (Real.cos ((2 * k : ℕ) * t) - Real.cos ((2 * k + 2 : ℕ) * t)) / (2 * k + 1) := by
    intro n
    induction n with
    | zero => simp
    | succ n ih =>
      rw [Finset.sum_range_succ]
      have hc : Real.cos ((2 * (n + 1) : ℕ) * t) ≤ 1 := Real.cos_le_one _
      have a1 : (0 : ℝ) < 2 * n + 1 := by positivity
      have a2 : (0 : ℝ) < 2 * (n + 1 : ℕ) + 1 := by positivity
      have hd : 1 / (2 * ((n + 1 : ℕ) : ℝ) + 1) ≤ 1 / (2 * (n : ℝ) + 1) := one_div_le_one_div_of_le a1 (by push_cast; linarith)
      have hm : (1 - Real.cos ((2 * (n + 1) : ℕ) * t)) * (1 / (2 * ((n + 1 : ℕ) : ℝ) + 1)) ≤ (1 - Real.cos ((2 * (n + 1) : ℕ) * t)) * (1 / (2 * (n : ℝ) + 1)) :=
        mul_le_mul_of_nonneg_left hd (by linarith)
      have e : 2 * (n + 1) + 2 = 2 * (n + 1 + 1) := by ring
      rw [e]
      have l1 : 1 / (2 * (n : ℝ) + 1) - Real.cos ((2 * (n + 1) : ℕ) * t) / (2 * n + 1) = (1 - Real.cos ((2 * (n + 1) : ℕ) * t)) * (1 / (2 * (n : ℝ) + 1)) := by ring
      have l2 : ∀ u v : ℝ, 1 / (2 * ((n + 1 : ℕ) : ℝ) + 1) - v / (2 * ((n + 1 : ℕ) : ℝ) + 1) = (1 - u) * (1 / (2 * ((n + 1 : ℕ) : ℝ) + 1)) + (u - v) / (2 * ((n + 1 : ℕ) : ℝ) + 1) := by
        intro u v; ring
      rw [l2 (Real.cos ((2 * (n + 1) : ℕ) * t))]
      linarith
  have hb := bound c
  rw [hcos, zero_div, sub_zero] at hb
  have hp : (0 : ℝ) < 1 / (2 * (c : ℝ) + 1) := by positivity
  have : 0 < softWeight (2 * (c + 1)) j / 2 := by
    rw [h]
    exact mul_pos (by positivity) (lt_of_lt_of_le hp hb)
  linarith

/-- The quadrature "soft" is exact for the polynomials of degree less than the number of points. -/
theorem soft_exact {b : ℕ} (hb : b % 2 = 0) (h0 : b ≠ 0) :
    Exact (b - 1) (fun i : Fin b => -Real.cos ((i + 0.5) / b * Real.pi)) (fun i : Fin b => softWeight b i / 2) := by
  have hang : ∀ i : Fin b, ((i : ℝ) + 0.5) / b * Real.pi = nodeAngle b i := by
    intro i; unfold nodeAngle
    have : (b : ℝ) ≠ 0 := by exact_mod_cast h0
    field_simp; ring
  refine ⟨fun i => by rw [neg_sq]; exact Real.cos_sq_le_one _, fun p hp => ?_⟩
  change _ = avg p
  have hmem : p ∈ degreeLT ℝ b := by
    rw [mem_degreeLT]
    exact (Polynomial.degree_le_natDegree).trans_lt (by exact_mod_cast (by omega : p.natDegree < b))
  rw [← Sequence.span_degreeLT (chebyshevTsequence ℝ) (by simp), show Set.Iio b = (Finset.range b : Set ℕ) by simp,
    Submodule.mem_span_image_finset_iff_exists_fun'] at hmem
  obtain ⟨c, rfl⟩ := hmem
  simp_rw [smul_eq_C_mul, eval_finsetSum, Finset.mul_sum]
  rw [avg_sum, Finset.sum_comm]
  refine Finset.sum_congr rfl fun n hn => ?_
  have hn := Finset.mem_range.mp hn
  rw [avg_C_mul]
  change _ = c n * avg (T ℝ n)
  rw [avg_T, ← soft_T hb h0 hn, Finset.mul_sum, Finset.sum_range]
  have hsum : ∀ i : Fin b, softWeight b i / 2 * eval (-Real.cos ((i + 0.5) / b * Real.pi)) (Polynomial.C (c n) * chebyshevTsequence ℝ n) =
      ((n : ℤ).negOnePow : ℝ) * (c n * (softWeight b i / 2 * Real.cos (n * nodeAngle b i))) := by
    intro i
    rw [eval_mul, eval_C]
    change _ * (_ * eval _ (T ℝ n)) = _
    rw [T_eval_neg, hang, T_real_cos]
    push_cast; ring
  rw [Finset.sum_congr rfl fun i _ => hsum i]
  by_cases hp : n % 2 = 0
  · rw [Int.negOnePow_even _ (by rw [Int.even_iff]; omega)]
    simp
  · rw [← Finset.mul_sum, ← Finset.mul_sum, ← Finset.sum_range (fun i => softWeight b i / 2 * Real.cos (n * nodeAngle b i)), soft_T hb h0 hn, if_neg hp]
    simp

end E3nn.S2
