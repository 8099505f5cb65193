import Verif.Model.Sample
import Verif.Spec.S2
import Mathlib.MeasureTheory.Integral.Prod
import Mathlib.MeasureTheory.Integral.IntervalIntegral.Basic
import Mathlib.Algebra.Polynomial.BigOperators
import Mathlib.Algebra.Polynomial.Roots
import Mathlib.Topology.Algebra.Polynomial
import Mathlib.MeasureTheory.Integral.Bochner.SumMeasure
import Mathlib.MeasureTheory.Measure.Lebesgue.Basic
import Mathlib.Analysis.SpecialFunctions.Trigonometric.Chebyshev.Basic

/-!
# Draws from a discrete distribution, positivity of the quadrature weights
-/

namespace E3nn.S2

open MeasureTheory

theorem sum_Iio_le {n : ℕ} (p : Fin n → ℝ) (k : Fin n) : ∑ j ∈ Finset.Iic k, p j = (∑ j ∈ Finset.Iio k, p j) + p k := by
  have : Finset.Iic k = insert k (Finset.Iio k) := by ext j; simp [le_iff_eq_or_lt]
  rw [this, Finset.sum_insert (by simp), add_comm]

theorem cum_lt_iff {n : ℕ} {p : Fin n → ℝ} (h0 : ∀ k, 0 ≤ p k) {r : ℝ} (hr : 0 < r) (k : Fin n) :
    (∀ j < k, ∑ i ∈ Finset.Iic j, p i < r) ↔ ∑ j ∈ Finset.Iio k, p j < r := by
  constructor
  · intro h
    rcases Nat.eq_zero_or_pos k.val with hk | hk
    · have : Finset.Iio k = ∅ := by
        ext j
        simp [Fin.lt_def, hk]
      rw [this, Finset.sum_empty]
      exact hr
    · have hlt : (⟨k.val - 1, by omega⟩ : Fin n) < k := by
        rw [Fin.lt_def]
        change k.val - 1 < k.val
        omega
      have : Finset.Iio k = Finset.Iic ⟨k.val - 1, by omega⟩ := by
        ext j
        rw [Finset.mem_Iio, Finset.mem_Iic, Fin.lt_def, Fin.le_def]
        change j.val < k.val ↔ j.val ≤ k.val - 1
        omega
      rw [this]
      exact h _ hlt
  · intro h j hj
    refine lt_of_le_of_lt (Finset.sum_le_sum_of_subset_of_nonneg ?_ fun i _ _ => h0 i) h
    intro i hi
    simp only [Finset.mem_Iic, Finset.mem_Iio] at *
    exact lt_of_le_of_lt hi hj

theorem choice_iff {n : ℕ} (hn : 0 < n) {p : Fin n → ℝ} (h0 : ∀ k, 0 ≤ p k) (hT : 0 < ∑ j, p j) {u : ℝ} (hu : 0 ≤ u ∧ u < 1) (k : Fin n) :
    choice hn p u = k ↔ ∑ j ∈ Finset.Iio k, p j < (∑ j, p j) * (1 - u) ∧ (∑ j, p j) * (1 - u) ≤ ∑ j ∈ Finset.Iic k, p j := by
  set r := (∑ j, p j) * (1 - u) with hr
  have hr0 : 0 < r := mul_pos hT (by linarith)
  have hrT : r ≤ ∑ j, p j := by
    rw [hr]
    nlinarith
  have hlast : ∑ j ∈ Finset.Iic (⟨n - 1, by omega⟩ : Fin n), p j = ∑ j, p j := by
    congr 1
    ext j
    simp [Fin.le_def]
    omega
  have hmono : ∀ j k : Fin n, j ≤ k → ∑ i ∈ Finset.Iic j, p i ≤ ∑ i ∈ Finset.Iic k, p i := fun j k h =>
    Finset.sum_le_sum_of_subset_of_nonneg (Finset.Iic_subset_Iic.mpr h) fun i _ _ => h0 i
  have key : ∀ k : Fin n, (∀ j < k, ∑ i ∈ Finset.Iic j, p i < r) → r ≤ ∑ j ∈ Finset.Iic k, p j → choice hn p u = k := by
    intro k h1 h2
    have : (Finset.univ.filter fun k : Fin n => ∑ j ∈ Finset.Iic k, p j < r) = Finset.Iio k := by
      ext j
      simp only [Finset.mem_filter, Finset.mem_univ, true_and, Finset.mem_Iio]
      refine ⟨fun h => ?_, h1 j⟩
      by_contra hj
      exact absurd h (not_lt.mpr (h2.trans (hmono k j (not_lt.mp hj))))
    apply Fin.ext
    change min (n - 1) (Finset.univ.filter fun k : Fin n => ∑ j ∈ Finset.Iic k, p j < r).card = k.val
    rw [this, Fin.card_Iio]
    have := k.isLt
    omega
  rw [← cum_lt_iff h0 hr0]
  constructor
  · intro h
    obtain ⟨k0, h1, h2⟩ : ∃ k0 : Fin n, (∀ j < k0, ∑ i ∈ Finset.Iic j, p i < r) ∧ r ≤ ∑ j ∈ Finset.Iic k0, p j := by
      have hne : (Finset.univ.filter fun k : Fin n => r ≤ ∑ j ∈ Finset.Iic k, p j).Nonempty := ⟨⟨n - 1, by omega⟩, by simp [hlast, hrT]⟩
      refine ⟨_, fun j hj => ?_, (Finset.mem_filter.mp (Finset.min'_mem _ hne)).2⟩
      by_contra h
      exact absurd (Finset.min'_le _ j (by simpa using h)) (not_le.mpr hj)
    have := key k0 h1 h2
    rw [h] at this
    subst this
    exact ⟨h1, h2⟩
  · rintro ⟨h1, h2⟩
    exact key k h1 h2

theorem choice_set {n : ℕ} (hn : 0 < n) {p : Fin n → ℝ} (h0 : ∀ k, 0 ≤ p k) (hT : 0 < ∑ j, p j) (k : Fin n) :
    Set.Ico (0 : ℝ) 1 ∩ {u | choice hn p u = k} = Set.Ico (1 - (∑ j ∈ Finset.Iic k, p j) / ∑ j, p j) (1 - (∑ j ∈ Finset.Iio k, p j) / ∑ j, p j) := by
  have hS : 0 ≤ ∑ j ∈ Finset.Iio k, p j := Finset.sum_nonneg fun j _ => h0 j
  have hS' : ∑ j ∈ Finset.Iic k, p j ≤ ∑ j, p j := Finset.sum_le_sum_of_subset_of_nonneg (Finset.subset_univ _) fun i _ _ => h0 i
  have hdiv : (∑ j ∈ Finset.Iic k, p j) / ∑ j, p j ≤ 1 := (div_le_one hT).mpr hS'
  have hdiv' : 0 ≤ (∑ j ∈ Finset.Iio k, p j) / ∑ j, p j := div_nonneg hS hT.le
  ext u
  simp only [Set.mem_inter_iff, Set.mem_Ico, Set.mem_setOf_eq]
  have e1 : (1 - (∑ j ∈ Finset.Iic k, p j) / ∑ j, p j ≤ u) ↔ (∑ j, p j) * (1 - u) ≤ ∑ j ∈ Finset.Iic k, p j := by
    rw [sub_le_comm, le_div_iff₀ hT, mul_comm]
  have e2 : (u < 1 - (∑ j ∈ Finset.Iio k, p j) / ∑ j, p j) ↔ ∑ j ∈ Finset.Iio k, p j < (∑ j, p j) * (1 - u) := by
    rw [lt_sub_comm, div_lt_iff₀ hT, mul_comm]
  rw [e1, e2]
  constructor
  · rintro ⟨hu, h⟩
    exact ((choice_iff hn h0 hT hu k).mp h).symm
  · rintro ⟨h1, h2⟩
    have hu : 0 ≤ u ∧ u < 1 := ⟨by have := e1.mpr h1; linarith, by have := e2.mpr h2; linarith⟩
    exact ⟨hu, (choice_iff hn h0 hT hu k).mpr ⟨h2, h1⟩⟩

/-- The uniform distribution on `[0, 1)`. -/
noncomputable abbrev unif : Measure ℝ := volume.restrict (Set.Ico 0 1)

instance : IsProbabilityMeasure unif := ⟨by simp⟩

theorem choice_measurable {n : ℕ} (hn : 0 < n) (p : Fin n → ℝ) : Measurable (choice hn p) := by
  have h : ∀ k : Fin n, Measurable fun u : ℝ => if ∑ j ∈ Finset.Iic k, p j < (∑ j, p j) * (1 - u) then 1 else 0 := by
    intro k
    refine Measurable.ite (measurableSet_lt (by fun_prop) (by fun_prop)) (by fun_prop) (by fun_prop)
  have h2 : Measurable fun u : ℝ => (Finset.univ.filter fun k : Fin n => ∑ j ∈ Finset.Iic k, p j < (∑ j, p j) * (1 - u)).card := by
    simp_rw [Finset.card_filter]
    exact Finset.measurable_sum _ fun k _ => h k
  have : choice hn p = (fun c : ℕ => (⟨min (n - 1) c, by omega⟩ : Fin n)) ∘ fun u : ℝ => (Finset.univ.filter fun k : Fin n => ∑ j ∈ Finset.Iic k, p j < (∑ j, p j) * (1 - u)).card := rfl
  rw [this]
  exact (measurable_of_countable _).comp h2

/-- A draw has the given probabilities. -/
theorem choice_prob {n : ℕ} (hn : 0 < n) {p : Fin n → ℝ} (h0 : ∀ k, 0 ≤ p k) (hT : 0 < ∑ j, p j) (k : Fin n) :
    unif {u | choice hn p u = k} = ENNReal.ofReal (p k / ∑ j, p j) := by
  have hms : MeasurableSet {u | choice hn p u = k} := choice_measurable hn p (measurableSet_singleton k)
  rw [Measure.restrict_apply hms, Set.inter_comm]
  change volume (Set.Ico (0 : ℝ) 1 ∩ {u | choice hn p u = k}) = _
  rw [choice_set hn h0 hT k, Real.volume_Ico, sum_Iio_le p k]
  congr 1
  field_simp
  ring

/-! ### The weights are not negative -/

theorem abel_nonneg (n : ℕ) (a s : ℕ → ℝ) (ha : ∀ k, a (k + 1) ≤ a k) (ha0 : ∀ k, 0 ≤ a k) (hs : ∀ m, 0 ≤ ∑ k ∈ Finset.range m, s k) : 0 ≤ ∑ k ∈ Finset.range n, a k * s k := by
  have key : ∀ n, a n * ∑ k ∈ Finset.range n, s k ≤ ∑ k ∈ Finset.range n, a k * s k := by
    intro n
    induction n with
    | zero => simp
    | succ n ih =>
      rw [Finset.sum_range_succ (fun k => a k * s k)]
      have h1 : a (n + 1) * ∑ k ∈ Finset.range (n + 1), s k ≤ a n * ∑ k ∈ Finset.range (n + 1), s k := mul_le_mul_of_nonneg_right (ha n) (hs _)
      rw [Finset.sum_range_succ, mul_add (a n)] at h1
      rw [Finset.sum_range_succ]
      linarith
  exact le_trans (mul_nonneg (ha0 n) (hs n)) (key n)

theorem sum_sin_odd (x : ℝ) (m : ℕ) : (∑ k ∈ Finset.range m, Real.sin ((2 * k + 1) * x)) * Real.sin x = Real.sin (m * x) ^ 2 := by
  induction m with
  | zero => simp
  | succ m ih =>
    rw [Finset.sum_range_succ, add_mul, ih]
    have h1 : Real.sin ((2 * m + 1) * x) = Real.sin (m * x) * Real.cos ((m + 1) * x) + Real.cos (m * x) * Real.sin ((m + 1) * x) := by
      rw [← Real.sin_add]; congr 1; ring
    have h2 : Real.sin x = Real.sin ((m + 1) * x) * Real.cos (m * x) - Real.cos ((m + 1) * x) * Real.sin (m * x) := by
      rw [← Real.sin_sub]; congr 1; ring
    push_cast
    have h3 := Real.sin_sq_add_cos_sq (m * x)
    have h4 := Real.sin_sq_add_cos_sq ((m + 1) * x)
    rw [h1, h2]
    linear_combination (-Real.sin (m * x) ^ 2) * h4 + Real.sin ((m + 1) * x) ^ 2 * h3

theorem softWeight_nonneg {n j : ℕ} (hj : j < n) : 0 ≤ softWeight n j := by
  have hn : (0 : ℝ) < n := by exact_mod_cast (by omega : 0 < n)
  have hx : 0 < Real.pi * (2 * j + 1) / (2 * n) := by positivity
  have hx' : Real.pi * (2 * j + 1) / (2 * n) < Real.pi := by
    rw [div_lt_iff₀ (by positivity)]
    have : (j : ℝ) + 1 ≤ n := by exact_mod_cast hj
    nlinarith [Real.pi_pos]
  have hsin := Real.sin_pos_of_pos_of_lt_pi hx hx'
  unfold softWeight
  refine mul_nonneg (mul_nonneg (by positivity) hsin.le) ?_
  rw [← List.sum_toFinset _ List.nodup_range, List.toFinset_range]
  have e : ∀ k ∈ Finset.range (n / 2), 1 / (2 * (k : ℝ) + 1) * Real.sin ((2 * j + 1) * (2 * k + 1) * Real.pi / (2 * n)) = 1 / (2 * (k : ℝ) + 1) * Real.sin ((2 * k + 1) * (Real.pi * (2 * j + 1) / (2 * n))) := by
    intro k _
    congr 2
    ring
  rw [Finset.sum_congr rfl e]
  refine abel_nonneg _ (fun k => 1 / (2 * (k : ℝ) + 1)) (fun k => Real.sin ((2 * k + 1) * (Real.pi * (2 * j + 1) / (2 * n)))) (fun k => ?_) (fun k => by positivity) (fun m => ?_)
  · refine one_div_le_one_div_of_le (by positivity) ?_
    push_cast
    linarith
  · have := sum_sin_odd (Real.pi * (2 * j + 1) / (2 * n)) m
    by_contra h
    push Not at h
    have h1 := mul_neg_of_neg_of_pos h hsin
    rw [this] at h1
    exact absurd h1 (not_lt.mpr (sq_nonneg _))

theorem gl_nonneg {lg : LegGauss} (hlg : GaussLegendre lg) {n : ℕ} (i : Fin n) : 0 ≤ (lg n).2 i := by
  obtain ⟨-, h⟩ := hlg n i.pos
  let q : Polynomial ℝ := ∏ j ∈ Finset.univ.erase i, (Polynomial.X - Polynomial.C ((lg n).1 j))
  have hq0 : q ≠ 0 := Finset.prod_ne_zero_iff.mpr fun j _ => Polynomial.X_sub_C_ne_zero _
  have hdeg : (q * q).natDegree ≤ 2 * n - 1 := by
    rw [Polynomial.natDegree_mul hq0 hq0]
    have : q.natDegree = n - 1 := by
      change (∏ j ∈ Finset.univ.erase i, (Polynomial.X - Polynomial.C ((lg n).1 j))).natDegree = n - 1
      rw [Polynomial.natDegree_prod _ _ fun j _ => Polynomial.X_sub_C_ne_zero _]
      simp
    omega
  have h1 := h (q * q) hdeg
  rw [Finset.sum_eq_single i] at h1
  · have hpos : 0 < ∫ t in (-1 : ℝ)..1, (q * q).eval t := by
      refine intervalIntegral.integral_pos (by norm_num) ((q * q).continuous.continuousOn) (fun t _ => by rw [Polynomial.eval_mul]; exact mul_self_nonneg _) ?_
      by_contra hno
      push Not at hno
      refine hq0 (Polynomial.eq_zero_of_infinite_isRoot q ((Set.Icc_infinite (show (-1 : ℝ) < 1 by norm_num)).mono fun t ht => ?_))
      have := hno t ht
      rw [Polynomial.eval_mul] at this
      exact mul_self_eq_zero.mp (le_antisymm this (mul_self_nonneg _))
    rw [← h1, Polynomial.eval_mul] at hpos
    by_contra hneg
    push Not at hneg
    have := mul_nonpos_of_nonpos_of_nonneg hneg.le (mul_self_nonneg (q.eval ((lg n).1 i)))
    linarith
  · intro j _ hj
    have : q.eval ((lg n).1 j) = 0 := by
      change (∏ j ∈ Finset.univ.erase i, (Polynomial.X - Polynomial.C ((lg n).1 j))).eval _ = 0
      rw [Polynomial.eval_prod]
      exact Finset.prod_eq_zero (Finset.mem_erase.mpr ⟨hj, Finset.mem_univ j⟩) (by simp)
    rw [Polynomial.eval_mul, this, mul_zero, mul_zero]
  · simp

theorem weights_nonneg {lg : LegGauss} (hlg : GaussLegendre lg) {q : Quad} {n : ℕ} {y w : Fin n → ℝ} (h : quadratureWeights lg q n = .ok (y, w)) (b : Fin n) : 0 ≤ w b := by
  cases q with
  | soft =>
    unfold quadratureWeights at h
    simp only at h
    split at h
    · cases h
      exact div_nonneg (softWeight_nonneg b.isLt) (by norm_num)
    · cases h
  | gauss =>
    unfold quadratureWeights at h
    simp only at h
    split at h
    · cases h
    · cases h
      exact div_nonneg (gl_nonneg hlg b) (by norm_num)

end E3nn.S2
