import Verif.Lemmas.SO3Haar
import Verif.Model.SO3Grid

/-!
# Quadrature over the axes and over the angles
-/

namespace E3nn.SO3

open E3nn.SU2 E3nn.Rot E3nn.SH E3nn.Wig E3nn.S2
open scoped Matrix

theorem gridVector_unit {y : ℝ} (hy : y ^ 2 ≤ 1) (a : ℝ) : vnormSq (gridVector y a) = 1 := by
  have h : Real.sqrt (1 - y ^ 2) * Real.sqrt (1 - y ^ 2) = 1 - y ^ 2 := Real.mul_self_sqrt (by linarith)
  have h2 := Real.sin_sq_add_cos_sq a
  simp [vnormSq, gridVector]
  linear_combination h + (Real.sqrt (1 - y ^ 2) * Real.sqrt (1 - y ^ 2)) * h2

theorem cg_deg_zero (l : ℕ) {d : ℕ} (hd : d = 0) (i j : Fin (2 * l + 1)) (c : Fin (2 * d + 1)) :
    Real.sqrt (2 * (d : ℝ) + 1) * clebschGordan l l d i j c = if i = j then 1 / Real.sqrt (2 * (l : ℝ) + 1) else 0 := by
  subst hd
  rw [cg_pair l i j c]
  simp

theorem avg_linear {Q : Type} [Fintype Q] {ra n : ℕ} (w : Fin n → ℝ) (c : Q → ℝ) (f : Q → Fin ra → Fin n → ℝ) :
    (∑ a, ∑ b, w b * ∑ q, c q * f q a b) / ra = ∑ q, c q * ((∑ a, ∑ b, w b * f q a b) / (ra : ℝ)) := by
  have e : ∀ a, ∑ b, w b * ∑ q, c q * f q a b = ∑ q, c q * ∑ b, w b * f q a b := by
    intro a
    simp_rw [Finset.mul_sum]
    rw [Finset.sum_comm]
    exact Finset.sum_congr rfl fun q _ => Finset.sum_congr rfl fun b _ => by ring
  simp_rw [e]
  rw [Finset.sum_comm, Finset.sum_div]
  exact Finset.sum_congr rfl fun q _ => by rw [← Finset.mul_sum, mul_div_assoc]

/-- The mean over the axes of an entry of the Wigner matrix. -/
theorem avg_entry {D n ra : ℕ} {y w : Fin n → ℝ} (h : Exact D y w) {l : ℕ} (hD : 2 * l ≤ D) (hra : 2 * l < ra) (t : ℝ) (i j : Fin (2 * l + 1)) :
    (∑ a : Fin ra, ∑ b, w b * repD l (axisAngleToMatrix (gridVector (y b) (gridAlpha ra a)) t) i j) / ra =
      if i = j then (∑ m ∈ Finset.range (2 * l + 1), Real.cos (((l : ℝ) - m) * t)) / (2 * l + 1) else 0 := by
  obtain ⟨A, hA⟩ := axis_series l t
  have hra0 : (ra : ℝ) ≠ 0 := by
    have : 0 < ra := by omega
    exact_mod_cast this.ne'
  have hw : ∑ b, w b = 1 := by
    have := h.exact' 1 (by simp)
    simpa using this
  have hs : (0 : ℝ) < Real.sqrt (2 * l + 1) := by positivity
  have hs2 : Real.sqrt (2 * (l : ℝ) + 1) * Real.sqrt (2 * l + 1) = 2 * l + 1 := Real.mul_self_sqrt (by positivity)
  have key : ∀ i j, (∑ a : Fin ra, ∑ b, w b * repD l (axisAngleToMatrix (gridVector (y b) (gridAlpha ra a)) t) i j) / ra =
      (if i = j then 1 / Real.sqrt (2 * (l : ℝ) + 1) else 0) * (A 0 * (1 / Real.sqrt (4 * Real.pi))) := by
    intro i j
    simp_rw [fun b a => hA _ (gridVector_unit (h.nodes b) (gridAlpha ra (a : Fin ra))) i j]
    have e : (∑ a : Fin ra, ∑ b, w b * ∑ q : CGIdx l l, cgAll l l q (i, j) * (A q.1 * Y .integral (deg l l q.1) (gridVector (y b) (gridAlpha ra a)) q.2)) / ra =
        ∑ q : CGIdx l l, cgAll l l q (i, j) * (A q.1 * ((∑ a : Fin ra, ∑ b, w b * Y .integral (deg l l q.1) (gridVector (y b) (gridAlpha ra a)) q.2) / ra)) := by
      rw [← Finset.sum_congr rfl fun q _ => mul_assoc _ _ _, ← avg_linear]
      simp_rw [mul_assoc]
    rw [e]
    have hdeg : ∀ k : Fin (2 * min l l + 1), deg l l k = k.val := fun k => by unfold deg; simp
    have e2 : ∀ q : CGIdx l l, ((∑ a : Fin ra, ∑ b, w b * Y .integral (deg l l q.1) (gridVector (y b) (gridAlpha ra a)) q.2) / ra) = if q.1.val = 0 then 1 / Real.sqrt (4 * Real.pi) else 0 := by
      intro q
      have hq := q.1.isLt
      have hq' : q.1.val ≤ 2 * l := by have : min l l = l := min_self l; omega
      have := quad_one h (l := deg l l q.1) (ra := ra) (by rw [hdeg]; omega) (by rw [hdeg]; omega) q.2
      rw [this]
      simp only [hdeg]
    simp_rw [e2]
    rw [Fintype.sum_sigma, Finset.sum_eq_single (0 : Fin (2 * min l l + 1))]
    · have hz : max l l - min l l + ((0 : Fin (2 * min l l + 1)).val) = 0 := by simp
      have e3 : ∀ c, cgAll l l ⟨(0 : Fin (2 * min l l + 1)), c⟩ (i, j) = if i = j then 1 / Real.sqrt (2 * (l : ℝ) + 1) else 0 := fun c => cg_deg_zero l hz i j c
      have e4 : ∀ (d : ℕ) (u : ℝ), d = 0 → ∑ _c : Fin (2 * d + 1), u = u := by rintro d u rfl; simp
      refine Eq.trans (Finset.sum_congr rfl fun c _ => ?_) (e4 _ _ hz)
      rw [e3 c, if_pos (show ((⟨(0 : Fin (2 * min l l + 1)), c⟩ : CGIdx l l).1 : ℕ) = 0 from rfl)]
    · intro k _ hk
      refine Finset.sum_eq_zero fun c _ => ?_
      rw [if_neg (show ¬ k.val = 0 from fun e => hk (Fin.ext (by simpa using e))), mul_zero, mul_zero]
    · simp
  have htr : ∑ i, (∑ a : Fin ra, ∑ b, w b * repD l (axisAngleToMatrix (gridVector (y b) (gridAlpha ra a)) t) i i) / ra = ∑ m ∈ Finset.range (2 * l + 1), Real.cos (((l : ℝ) - m) * t) := by
    rw [← Finset.sum_div, Finset.sum_comm]
    simp_rw [fun a => Finset.sum_comm (s := Finset.univ) (t := Finset.univ) (f := fun i b => w b * repD l (axisAngleToMatrix (gridVector (y b) (gridAlpha ra (a : Fin ra))) t) i i)]
    simp_rw [← Finset.mul_sum, fun b a => trace_axis l (gridVector_unit (h.nodes b) (gridAlpha ra (a : Fin ra))) t]
    rw [Finset.sum_const, ← Finset.sum_mul, hw, Finset.card_univ, Fintype.card_fin, nsmul_eq_mul, one_mul, mul_div_cancel_left₀ _ hra0]
  simp_rw [key] at htr
  rw [if_true, Finset.sum_const, Finset.card_univ, Fintype.card_fin, nsmul_eq_mul] at htr
  rw [key]
  by_cases hij : i = j
  · rw [if_pos hij, if_pos hij, ← htr]
    push_cast
    have : (2 * (l : ℝ) + 1) ≠ 0 := by positivity
    field_simp
  · rw [if_neg hij, if_neg hij, zero_mul]

/-- The sum over the angles. -/
theorem theta_sum {n l : ℕ} (hn : l + 3 ≤ n) :
    (∑ t : Fin n, (∑ m ∈ Finset.range (2 * l + 1), Real.cos (((l : ℝ) - m) * gridTheta n t)) * (1 - Real.cos (gridTheta n t))) * deltaTheta n = if l = 0 then 2 * Real.pi else 0 := by
  obtain ⟨N, rfl⟩ : ∃ N, n = N + 1 := ⟨n - 1, by omega⟩
  have hN : (N : ℝ) ≠ 0 := by
    have : 0 < N := by omega
    exact_mod_cast this.ne'
  have hg : ∀ t : ℕ, gridTheta (N + 1) t = gridAlpha N t := by
    intro t
    unfold gridTheta gridAlpha
    push_cast
    rw [add_sub_cancel_right]
    ring
  have hd : deltaTheta (N + 1) = 2 * Real.pi / N := by
    unfold deltaTheta
    rw [show min 1 (N + 1 - 1) = 1 by omega, hg, hg]
    unfold gridAlpha
    push_cast
    ring
  have hlast : gridAlpha N N = 2 * Real.pi := by
    unfold gridAlpha
    field_simp
  rw [hd, ← Finset.sum_range (fun t => (∑ m ∈ Finset.range (2 * l + 1), Real.cos (((l : ℝ) - m) * gridTheta (N + 1) t)) * (1 - Real.cos (gridTheta (N + 1) t))), Finset.sum_range_succ]
  simp_rw [hg]
  rw [hlast, Real.cos_two_pi, sub_self, mul_zero, add_zero]
  have e : ∀ t, (∑ m ∈ Finset.range (2 * l + 1), Real.cos (((l : ℝ) - m) * gridAlpha N t)) * (1 - Real.cos (gridAlpha N t)) =
      ∑ m ∈ Finset.range (2 * l + 1), (Real.cos ((((l : ℤ) - m : ℤ) : ℝ) * gridAlpha N t) - (1 / 2) * Real.cos ((((l : ℤ) - m + 1 : ℤ) : ℝ) * gridAlpha N t) - (1 / 2) * Real.cos ((((l : ℤ) - m - 1 : ℤ) : ℝ) * gridAlpha N t)) := by
    intro t
    rw [Finset.sum_mul]
    refine Finset.sum_congr rfl fun m _ => ?_
    push_cast
    rw [show ((l : ℝ) - m + 1) * gridAlpha N t = ((l : ℝ) - m) * gridAlpha N t + gridAlpha N t by ring, show ((l : ℝ) - m - 1) * gridAlpha N t = ((l : ℝ) - m) * gridAlpha N t - gridAlpha N t by ring, Real.cos_add, Real.cos_sub]
    ring
  simp_rw [e]
  rw [Finset.sum_comm]
  simp_rw [Finset.sum_sub_distrib, ← Finset.mul_sum, cos_grid]
  have hdvd : ∀ z : ℤ, |z| ≤ l + 1 → ((N : ℤ) ∣ z ↔ z = 0) := by
    intro z hz
    constructor
    · intro hd
      by_contra h0
      have := Int.le_of_dvd (abs_pos.mpr h0) ((dvd_abs _ _).mpr hd)
      omega
    · rintro rfl; exact dvd_zero _
  have hcount : ∀ s : ℤ, |s| ≤ 1 → ∑ m ∈ Finset.range (2 * l + 1), (if (N : ℤ) ∣ ((l : ℤ) - m + s) then (N : ℝ) else 0) = if |s| ≤ l then (N : ℝ) else 0 := by
    intro s hs
    have hs' := abs_le.mp hs
    have e1 : ∀ m ∈ Finset.range (2 * l + 1), (if (N : ℤ) ∣ ((l : ℤ) - m + s) then (N : ℝ) else 0) = if (m : ℤ) = l + s then (N : ℝ) else 0 := by
      intro m hm
      have hm := Finset.mem_range.mp hm
      have : ((N : ℤ) ∣ ((l : ℤ) - m + s)) ↔ (m : ℤ) = l + s := by
        rw [hdvd _ (abs_le.mpr ⟨by omega, by omega⟩)]
        constructor <;> intro h <;> omega
      simp only [this]
    rw [Finset.sum_congr rfl e1]
    by_cases hl : |s| ≤ l
    · have hl' := abs_le.mp hl
      rw [if_pos hl, Finset.sum_eq_single ((l + s).toNat)]
      · rw [if_pos (by omega)]
      · intro m _ hm
        rw [if_neg (by omega)]
      · intro hm
        simp at hm
        omega
    · rw [if_neg hl]
      refine Finset.sum_eq_zero fun m hm => ?_
      have hm := Finset.mem_range.mp hm
      rw [if_neg]
      intro h
      apply hl
      rw [abs_le]
      omega
  have h0 := hcount 0 (by simp)
  have h1 := hcount 1 (by simp)
  have h2 := hcount (-1) (by simp)
  simp only [add_zero, abs_zero] at h0
  simp only [← sub_eq_add_neg] at h2
  rw [h0, h1, h2]
  by_cases hl : l = 0
  · subst hl
    simp
    field_simp
  · have : (1 : ℤ) ≤ l := by omega
    simp [hl, this]
    left
    ring

end E3nn.SO3
