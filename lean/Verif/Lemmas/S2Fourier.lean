import Verif.Lemmas.S2Expand
import Mathlib.RingTheory.RootsOfUnity.Complex

/-! # Sums over `alpha` -/

namespace E3nn.S2

open E3nn.SH

variable {ι : Type}

/-- The functions of `alpha`. -/
noncomputable def ang (mu : ℤ) (a : ℝ) : ℝ :=
  if mu < 0 then Real.sqrt 2 * Real.sin (mu.natAbs * a) else if mu = 0 then 1 else Real.sqrt 2 * Real.cos (mu.natAbs * a)

theorem shAlpha_ang {lmax m : ℕ} (h : m < 2 * lmax + 1) (a : ℝ) : (shAlpha lmax a).getD m 0 = ang ((m : ℤ) - lmax) a := by
  have := shAlpha_get (lmax := lmax) (m := (m : ℤ) - lmax) (by omega) a
  rw [show ((lmax : ℤ) + ((m : ℤ) - lmax)).toNat = m by omega] at this
  exact this

theorem sum_window (lmax : ℕ) (f : ℕ → ℝ) :
    ∑ m ∈ Finset.range (2 * lmax + 1), f m = f lmax + ∑ k ∈ Finset.range lmax, (f (lmax + 1 + k) + f (lmax - 1 - k)) := by
  rw [show 2 * lmax + 1 = lmax + (1 + lmax) by ring, Finset.sum_range_add, Finset.sum_range_add, Finset.sum_add_distrib, Finset.sum_range_one, add_zero]
  rw [← Finset.sum_range_reflect (fun k => f k)]
  simp only [add_assoc]
  ring

theorem irfftInput_get (l : ℕ) (x : ℕ → ℝ) (k : ℕ) :
    (irfftInput l x).getD (k + 1) 0 = if k < l then ((x (l + 1 + k) : ℂ) + (x (l - 1 - k) : ℂ) * -Complex.I) / (Real.sqrt 2 : ℂ) else 0 := by
  unfold irfftInput
  rw [List.append_assoc, List.singleton_append, List.getD_cons_succ]
  have hlen : (List.zipWith (fun u v : ℝ => ((u : ℂ) + (v : ℂ) * -Complex.I) / (Real.sqrt 2 : ℂ)) ((List.range l).map fun k => x (l + 1 + k)) (((List.range l).map x).reverse)).length = l := by simp
  by_cases h : k < l
  · rw [if_pos h, List.getD_append _ _ _ _ (by omega), List.getD_eq_getElem _ _ (by omega), List.getElem_zipWith]
    simp [List.getElem_reverse]
  · rw [if_neg h, List.getD_append_right _ _ _ _ (by omega), hlen, List.getD_eq_getElem?_getD, List.getElem?_replicate]
    split <;> rfl

theorem synthesize_ang (fft : Bool) {lmax n : ℕ} (h0 : 0 < n) (hn : fft = true → lmax ≤ n / 2) (sb : ℕ → ι → ℝ) (a : ℕ) (i : ι) :
    synthesize fft lmax n sb a i = ∑ m ∈ Finset.range (2 * lmax + 1), sb m i * ang ((m : ℤ) - lmax) (gridAlpha n a) := by
  unfold synthesize
  cases fft with
  | false =>
    simp only [Bool.false_eq_true, if_false]
    exact Finset.sum_congr rfl fun m hm => by rw [shAlpha_ang (Finset.mem_range.mp hm)]
  | true =>
    simp only [if_true]
    have hn := hn rfl
    unfold irfft
    rw [div_mul_cancel₀ _ (by positivity), sum_window]
    congr 1
    · simp [irfftInput, ang]
    · rw [Finset.mul_sum]
      rw [← Finset.sum_subset (s₁ := Finset.range lmax) (Finset.range_mono hn)]
      · refine Finset.sum_congr rfl fun k hk => ?_
        have hk := Finset.mem_range.mp hk
        rw [irfftInput_get, if_pos hk]
        have e1 : ((lmax + 1 + k : ℕ) : ℤ) - lmax = (k + 1 : ℕ) := by omega
        have e2 : ((lmax - 1 - k : ℕ) : ℤ) - lmax = -(k + 1 : ℕ) := by omega
        rw [e1, e2]
        have a1 : ang ((k + 1 : ℕ) : ℤ) (gridAlpha n a) = Real.sqrt 2 * Real.cos ((k + 1 : ℕ) * gridAlpha n a) := by
          unfold ang
          rw [if_neg (by omega), if_neg (by omega), Int.natAbs_natCast]
        have a2 : ang (-((k + 1 : ℕ) : ℤ)) (gridAlpha n a) = Real.sqrt 2 * Real.sin ((k + 1 : ℕ) * gridAlpha n a) := by
          unfold ang
          rw [if_pos (by omega), Int.natAbs_neg, Int.natAbs_natCast]
        rw [a1, a2]
        have e3 : (2 * Real.pi * Complex.I * (k + 1 : ℕ) * a / n : ℂ) = (((k + 1 : ℕ) * gridAlpha n a : ℝ) : ℂ) * Complex.I := by
          unfold gridAlpha; push_cast; ring
        rw [e3, Complex.exp_mul_I, ← Complex.ofReal_cos, ← Complex.ofReal_sin]
        generalize Real.cos ((k + 1 : ℕ) * gridAlpha n a) = c
        generalize Real.sin ((k + 1 : ℕ) * gridAlpha n a) = s
        generalize sb (lmax + 1 + k) i = u
        generalize sb (lmax - 1 - k) i = v
        have e4 : (((u : ℂ) + (v : ℂ) * -Complex.I) / (Real.sqrt 2 : ℂ) * ((c : ℂ) + (s : ℂ) * Complex.I)) = (((u * c + v * s) / Real.sqrt 2 : ℝ) : ℂ) + (((u * s - v * c) / Real.sqrt 2 : ℝ) : ℂ) * Complex.I := by
          push_cast
          linear_combination (-(v : ℂ) * s / (Real.sqrt 2 : ℂ)) * Complex.I_sq
        rw [e4]
        simp only [Complex.add_re, Complex.ofReal_re, Complex.mul_re, Complex.I_re, Complex.I_im, Complex.ofReal_im, mul_zero, mul_one, sub_zero, zero_mul, add_zero]
        have h2 : Real.sqrt 2 ≠ 0 := by positivity
        have h3 : Real.sqrt 2 * Real.sqrt 2 = 2 := Real.mul_self_sqrt (by norm_num)
        field_simp
        linear_combination (-(u * c) - v * s) * h3
      · intro k _ hk
        rw [irfftInput_get, if_neg (by simpa using hk)]
        simp

theorem rfft_eq (n : ℕ) (x : ℕ → ℝ) (k : ℕ) : rfft n x k = ((∑ a ∈ Finset.range n, x a * Real.cos (k * gridAlpha n a) : ℝ) : ℂ) + ((-∑ a ∈ Finset.range n, x a * Real.sin (k * gridAlpha n a) : ℝ) : ℂ) * Complex.I := by
  unfold rfft
  push_cast
  rw [← Finset.sum_neg_distrib, Finset.sum_mul, ← Finset.sum_add_distrib]
  refine Finset.sum_congr rfl fun a _ => ?_
  have e3 : (-2 * Real.pi * Complex.I * k * a / n : ℂ) = ((-(k * gridAlpha n a) : ℝ) : ℂ) * Complex.I := by
    unfold gridAlpha; push_cast; ring
  rw [e3, Complex.exp_mul_I, ← Complex.ofReal_cos, ← Complex.ofReal_sin, Real.cos_neg, Real.sin_neg]
  push_cast
  ring

theorem rfft_re (n : ℕ) (x : ℕ → ℝ) (k : ℕ) : (rfft n x k).re = ∑ a ∈ Finset.range n, x a * Real.cos (k * gridAlpha n a) := by
  rw [rfft_eq]; simp only [Complex.add_re, Complex.ofReal_re, Complex.mul_re, Complex.I_re, Complex.I_im, Complex.ofReal_im, mul_zero, mul_one, sub_zero, add_zero]

theorem rfft_im (n : ℕ) (x : ℕ → ℝ) (k : ℕ) : (rfft n x k).im = -∑ a ∈ Finset.range n, x a * Real.sin (k * gridAlpha n a) := by
  rw [rfft_eq]; simp only [Complex.add_im, Complex.ofReal_re, Complex.mul_im, Complex.I_re, Complex.I_im, Complex.ofReal_im, mul_zero, mul_one, zero_add, add_zero]

theorem rfftReal_ang {n lmax m : ℕ} (h : m < 2 * lmax + 1) (x : ℕ → ℝ) :
    rfftReal n x lmax m = ∑ a ∈ Finset.range n, x a * ang ((m : ℤ) - lmax) (gridAlpha n a) := by
  unfold rfftReal
  rw [List.append_assoc]
  by_cases h1 : m < lmax
  · rw [List.getD_append _ _ _ _ (by simp; omega), List.getD_eq_getElem _ _ (by simp; omega)]
    simp only [List.getElem_map, List.getElem_reverse, List.length_map, List.length_range, List.getElem_range]
    rw [rfft_im, neg_mul_neg, Finset.sum_mul]
    refine Finset.sum_congr rfl fun a _ => ?_
    unfold ang
    rw [if_pos (by omega), show ((m : ℤ) - lmax).natAbs = lmax - 1 - m + 1 by omega]
    ring
  · rw [List.getD_append_right _ _ _ _ (by simp; omega)]
    simp only [List.length_map, List.length_reverse, List.length_range]
    by_cases h2 : m = lmax
    · subst h2
      simp [rfft_re, ang]
    · obtain ⟨k, rfl⟩ : ∃ k, m = lmax + 1 + k := ⟨m - lmax - 1, by omega⟩
      rw [show lmax + 1 + k - lmax = k + 1 by omega, List.singleton_append, List.getD_cons_succ, List.getD_eq_getElem _ _ (by simp; omega)]
      simp only [List.getElem_map, List.getElem_range]
      rw [rfft_re, Finset.sum_mul]
      refine Finset.sum_congr rfl fun a _ => ?_
      unfold ang
      rw [if_neg (by omega), if_neg (by omega), show (((lmax + 1 + k : ℕ) : ℤ) - lmax).natAbs = k + 1 by omega]
      ring

theorem analyze_ang (fft : Bool) {n lmax m : ℕ} (h : m < 2 * lmax + 1) (x : ℕ → ℝ) :
    analyze fft lmax n x m = (∑ a ∈ Finset.range n, x a * ang ((m : ℤ) - lmax) (gridAlpha n a)) / n := by
  unfold analyze
  cases fft with
  | true => simp only [if_true]; rw [rfftReal_ang h]
  | false =>
    simp only [Bool.false_eq_true, if_false]
    congr 1
    exact Finset.sum_congr rfl fun a _ => by rw [shAlpha_ang h]

/-- Sums of exponentials over the grid. -/
theorem exp_sum {n : ℕ} (k : ℤ) : ∑ a ∈ Finset.range n, Complex.exp (((k * gridAlpha n a : ℝ) : ℂ) * Complex.I) = if (n : ℤ) ∣ k then (n : ℂ) else 0 := by
  by_cases hn : n = 0
  · subst hn; simp
  have hz := Complex.isPrimitiveRoot_exp n hn
  have e : ∀ a ∈ Finset.range n, Complex.exp (((k * gridAlpha n a : ℝ) : ℂ) * Complex.I) = (Complex.exp (2 * Real.pi * Complex.I / n) ^ k) ^ a := by
    intro a _
    rw [← Complex.exp_int_mul, ← Complex.exp_nat_mul]
    congr 1
    unfold gridAlpha
    push_cast; ring
  rw [Finset.sum_congr rfl e]
  by_cases hd : (n : ℤ) ∣ k
  · rw [if_pos hd, (hz.zpow_eq_one_iff_dvd k).mpr hd]
    simp
  · rw [if_neg hd]
    have hne : Complex.exp (2 * Real.pi * Complex.I / n) ^ k ≠ 1 := fun h => hd ((hz.zpow_eq_one_iff_dvd k).mp h)
    have hg := geom_sum_mul (Complex.exp (2 * Real.pi * Complex.I / n) ^ k) n
    have h1 : (Complex.exp (2 * Real.pi * Complex.I / n) ^ k) ^ n = 1 := by
      rw [← zpow_natCast, ← zpow_mul, mul_comm k, zpow_mul, zpow_natCast, hz.pow_eq_one, one_zpow]
    rw [h1, sub_self] at hg
    exact (mul_eq_zero.mp hg).resolve_right (sub_ne_zero.mpr hne)

theorem cos_grid {n : ℕ} (k : ℤ) : ∑ a ∈ Finset.range n, Real.cos (k * gridAlpha n a) = if (n : ℤ) ∣ k then (n : ℝ) else 0 := by
  have h := congrArg Complex.re (exp_sum (n := n) k)
  rw [Complex.re_sum] at h
  simp_rw [Complex.exp_ofReal_mul_I_re] at h
  rw [h]
  split <;> simp

theorem sin_grid {n : ℕ} (k : ℤ) : ∑ a ∈ Finset.range n, Real.sin (k * gridAlpha n a) = 0 := by
  have h := congrArg Complex.im (exp_sum (n := n) k)
  rw [Complex.im_sum] at h
  simp_rw [Complex.exp_ofReal_mul_I_im] at h
  rw [h]
  split <;> simp

/-- Discrete orthogonality of the functions of `alpha`. -/
theorem ang_orth {n : ℕ} {mu nu : ℤ} (h : mu.natAbs + nu.natAbs < n) :
    (∑ a ∈ Finset.range n, ang mu (gridAlpha n a) * ang nu (gridAlpha n a)) / n = if mu = nu then 1 else 0 := by
  have hn : (n : ℝ) ≠ 0 := by have : n ≠ 0 := by omega
                              exact_mod_cast this
  have hs : Real.sqrt 2 * Real.sqrt 2 = 2 := Real.mul_self_sqrt (by norm_num)
  have hd : ∀ k : ℤ, k ≠ 0 → |k| < n → ¬ (n : ℤ) ∣ k := fun k h0 hk hdvd => h0 (Int.eq_zero_of_abs_lt_dvd hdvd hk)
  have cosA : ∀ k : ℤ, k ≠ 0 → |k| < n → ∑ a ∈ Finset.range n, Real.cos (k * gridAlpha n a) = 0 := by
    intro k h0 hk; rw [cos_grid, if_neg (hd k h0 hk)]
  have cos0 : ∑ a ∈ Finset.range n, Real.cos ((0 : ℤ) * gridAlpha n a) = n := by rw [cos_grid, if_pos (dvd_zero _)]
  generalize hp : mu.natAbs = p at h
  generalize hq : nu.natAbs = q at h
  -- products
  have cc : ∀ a, Real.cos (p * gridAlpha n a) * Real.cos (q * gridAlpha n a) = (Real.cos (((p : ℤ) + q : ℤ) * gridAlpha n a) + Real.cos (((p : ℤ) - q : ℤ) * gridAlpha n a)) / 2 := by
    intro a; push_cast; rw [add_mul, sub_mul, Real.cos_add, Real.cos_sub]; ring
  have ss : ∀ a, Real.sin (p * gridAlpha n a) * Real.sin (q * gridAlpha n a) = (Real.cos (((p : ℤ) - q : ℤ) * gridAlpha n a) - Real.cos (((p : ℤ) + q : ℤ) * gridAlpha n a)) / 2 := by
    intro a; push_cast; rw [add_mul, sub_mul, Real.cos_add, Real.cos_sub]; ring
  have sc : ∀ a, Real.sin (p * gridAlpha n a) * Real.cos (q * gridAlpha n a) = (Real.sin (((p : ℤ) + q : ℤ) * gridAlpha n a) + Real.sin (((p : ℤ) - q : ℤ) * gridAlpha n a)) / 2 := by
    intro a; push_cast; rw [add_mul, sub_mul, Real.sin_add, Real.sin_sub]; ring
  have cs : ∀ a, Real.cos (p * gridAlpha n a) * Real.sin (q * gridAlpha n a) = (Real.sin (((p : ℤ) + q : ℤ) * gridAlpha n a) - Real.sin (((p : ℤ) - q : ℤ) * gridAlpha n a)) / 2 := by
    intro a; push_cast; rw [add_mul, sub_mul, Real.sin_add, Real.sin_sub]; ring
  have CC : ∑ a ∈ Finset.range n, Real.cos (p * gridAlpha n a) * Real.cos (q * gridAlpha n a) = if p = q then (if p = 0 then (n : ℝ) else n / 2) else 0 := by
    simp_rw [cc]
    rw [← Finset.sum_div, Finset.sum_add_distrib]
    by_cases e : p = q
    · subst e
      rw [if_pos rfl, show (p : ℤ) - p = 0 by ring, cos0]
      by_cases e0 : p = 0
      · subst e0
        rw [if_pos rfl, show ((0 : ℕ) : ℤ) + (0 : ℕ) = 0 by rfl, cos0]; ring
      · rw [if_neg e0, cosA _ (by omega) (by rw [abs_of_nonneg (by omega)]; omega)]; ring
    · rw [if_neg e, cosA _ (by omega) (by rw [abs_of_nonneg (by omega)]; omega), cosA _ (by omega) (by rw [abs_lt]; omega)]; ring
  have SS : ∑ a ∈ Finset.range n, Real.sin (p * gridAlpha n a) * Real.sin (q * gridAlpha n a) = if p = q then (if p = 0 then (0 : ℝ) else n / 2) else 0 := by
    simp_rw [ss]
    rw [← Finset.sum_div, Finset.sum_sub_distrib]
    by_cases e : p = q
    · subst e
      rw [if_pos rfl, show (p : ℤ) - p = 0 by ring, cos0]
      by_cases e0 : p = 0
      · subst e0
        rw [if_pos rfl, show ((0 : ℕ) : ℤ) + (0 : ℕ) = 0 by rfl, cos0]; ring
      · rw [if_neg e0, cosA _ (by omega) (by rw [abs_of_nonneg (by omega)]; omega)]; ring
    · rw [if_neg e, cosA _ (by omega) (by rw [abs_lt]; omega), cosA _ (by omega) (by rw [abs_of_nonneg (by omega)]; omega)]; ring
  have SC : ∑ a ∈ Finset.range n, Real.sin (p * gridAlpha n a) * Real.cos (q * gridAlpha n a) = 0 := by
    simp_rw [sc]; rw [← Finset.sum_div, Finset.sum_add_distrib, sin_grid, sin_grid]; simp
  have CS : ∑ a ∈ Finset.range n, Real.cos (p * gridAlpha n a) * Real.sin (q * gridAlpha n a) = 0 := by
    simp_rw [cs]; rw [← Finset.sum_div, Finset.sum_sub_distrib, sin_grid, sin_grid]; simp
  -- the functions as multiples of cosines and sines
  have form : ∀ (t : ℤ) (r : ℕ), t.natAbs = r → ∀ a, ang t a = if t < 0 then Real.sqrt 2 * Real.sin (r * a) else (if t = 0 then 1 else Real.sqrt 2) * Real.cos (r * a) := by
    intro t r hr a
    unfold ang
    subst hr
    by_cases h1 : t < 0
    · simp [h1]
    · by_cases h2 : t = 0
      · subst h2; simp
      · simp [h1, h2]
  simp_rw [form mu p hp, form nu q hq]
  by_cases m1 : mu < 0 <;> by_cases n1 : nu < 0
  · simp only [m1, n1, if_true]
    have : ∀ a, Real.sqrt 2 * Real.sin (p * gridAlpha n a) * (Real.sqrt 2 * Real.sin (q * gridAlpha n a)) = 2 * (Real.sin (p * gridAlpha n a) * Real.sin (q * gridAlpha n a)) := by
      intro a; linear_combination (Real.sin (p * gridAlpha n a) * Real.sin (q * gridAlpha n a)) * hs
    simp_rw [this]
    rw [← Finset.mul_sum, SS]
    by_cases e : mu = nu
    · rw [if_pos e, if_pos (by omega), if_neg (by omega)]; field_simp
    · rw [if_neg e, if_neg (by omega)]; simp
  · simp only [m1, n1, if_true, if_false]
    have : ∀ a, Real.sqrt 2 * Real.sin (p * gridAlpha n a) * ((if nu = 0 then 1 else Real.sqrt 2) * Real.cos (q * gridAlpha n a)) = (Real.sqrt 2 * (if nu = 0 then 1 else Real.sqrt 2)) * (Real.sin (p * gridAlpha n a) * Real.cos (q * gridAlpha n a)) := by
      intro a; ring
    simp_rw [this]
    rw [← Finset.mul_sum, SC, mul_zero, zero_div, if_neg (by omega)]
  · simp only [m1, n1, if_true, if_false]
    have : ∀ a, (if mu = 0 then 1 else Real.sqrt 2) * Real.cos (p * gridAlpha n a) * (Real.sqrt 2 * Real.sin (q * gridAlpha n a)) = (Real.sqrt 2 * (if mu = 0 then 1 else Real.sqrt 2)) * (Real.cos (p * gridAlpha n a) * Real.sin (q * gridAlpha n a)) := by
      intro a; ring
    simp_rw [this]
    rw [← Finset.mul_sum, CS, mul_zero, zero_div, if_neg (by omega)]
  · simp only [m1, n1, if_false]
    have : ∀ a, (if mu = 0 then 1 else Real.sqrt 2) * Real.cos (p * gridAlpha n a) * ((if nu = 0 then 1 else Real.sqrt 2) * Real.cos (q * gridAlpha n a)) = ((if mu = 0 then 1 else Real.sqrt 2) * (if nu = 0 then 1 else Real.sqrt 2)) * (Real.cos (p * gridAlpha n a) * Real.cos (q * gridAlpha n a)) := by
      intro a; ring
    simp_rw [this]
    rw [← Finset.mul_sum, CC]
    by_cases e : mu = nu
    · subst e
      have epq : p = q := by omega
      by_cases e0 : mu = 0
      · have : p = 0 := by omega
        simp only [e0, ← epq, this, if_true]; field_simp
      · have : p ≠ 0 := by omega
        simp only [e0, ← epq, this, if_true, if_false, hs]; field_simp
    · rw [if_neg (show p ≠ q by omega), mul_zero, zero_div, if_neg e]

end E3nn.S2
