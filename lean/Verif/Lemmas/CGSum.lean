import Mathlib.Tactic
import Mathlib.Data.Nat.Choose.Basic
import Mathlib.Data.Nat.Factorial.Basic

/-! The recurrences of the Clebsch-Gordan sum. -/

namespace E3nn.SU2

open Nat Finset

/-- Binomial coefficient with an integer lower index. -/
def cb (b : ℕ) (k : ℤ) : ℚ := if 0 ≤ k then (b.choose k.toNat : ℚ) else 0

theorem cb_succ (b : ℕ) (k : ℤ) : ((k : ℚ) + 1) * cb b (k + 1) = (b - k) * cb b k := by
  unfold cb
  rcases lt_trichotomy k (-1) with h | h | h
  · rw [if_neg (by omega), if_neg (by omega)]; simp
  · subst h; simp
  · rw [if_pos (by omega), if_pos (by omega)]
    obtain ⟨m, rfl⟩ := Int.eq_ofNat_of_zero_le (show 0 ≤ k by omega)
    have h1 : ((m : ℤ) + 1).toNat = m + 1 := by omega
    rw [h1, Int.toNat_natCast]
    have := Nat.choose_succ_right_eq b m
    have h2 : ((b.choose (m + 1) * (m + 1) : ℕ) : ℚ) = ((b.choose m * (b - m) : ℕ) : ℚ) := by rw [this]
    push_cast at h2 ⊢
    rcases le_or_gt m b with hm | hm
    · rw [Nat.cast_sub hm] at h2; linarith
    · rw [Nat.choose_eq_zero_of_lt hm, Nat.choose_eq_zero_of_lt (by omega)]; simp

theorem cb_neg {b : ℕ} {k : ℤ} (h : k < 0) : cb b k = 0 := by unfold cb; rw [if_neg (by omega)]
theorem cb_gt {b : ℕ} {k : ℤ} (h : (b : ℤ) < k) : cb b k = 0 := by
  unfold cb; rw [if_pos (by omega), Nat.choose_eq_zero_of_lt (by omega)]; simp

theorem choose_shift (a v : ℕ) : ((v : ℚ) + 1) * (a.choose (v + 1) : ℚ) = (a.choose v : ℚ) * ((a - v : ℕ) : ℚ) := by
  have := Nat.choose_succ_right_eq a v
  have h2 : ((a.choose (v + 1) * (v + 1) : ℕ) : ℚ) = ((a.choose v * (a - v) : ℕ) : ℚ) := by rw [this]
  push_cast at h2
  linarith

/-- The sum in the Clebsch-Gordan coefficients. -/
def tsum (a b c A B : ℕ) : ℚ := ∑ v ∈ range (a + 1),
  (-1) ^ v * (a.choose v : ℚ) * cb b ((A : ℤ) + B - c - v) * ((a - v + A)! : ℚ) * ((b + c - A + v)! : ℚ)

theorem shift_up (a : ℕ) (g : ℕ → ℚ) : ∑ v ∈ range (a + 1), (v : ℚ) * ((a.choose v : ℚ) * g v) =
    ∑ v ∈ range (a + 1), (a.choose v : ℚ) * ((a - v : ℕ) : ℚ) * g (v + 1) := by
  rw [Finset.sum_range_succ', Finset.sum_range_succ]
  simp only [Nat.cast_zero, zero_mul, add_zero, Nat.sub_self, mul_zero]
  apply Finset.sum_congr rfl
  intro v _
  rw [← mul_assoc, Nat.cast_add, Nat.cast_one, choose_shift]

theorem shift_down (a : ℕ) (g : ℕ → ℚ) : ∑ v ∈ range (a + 1), ((a - v : ℕ) : ℚ) * ((a.choose v : ℚ) * g v) =
    ∑ v ∈ range (a + 1), (v : ℚ) * (a.choose v : ℚ) * g (v - 1) := by
  rw [Finset.sum_range_succ, Finset.sum_range_succ']
  simp only [Nat.cast_zero, zero_mul, add_zero, Nat.sub_self]
  apply Finset.sum_congr rfl
  intro v _
  rw [Nat.add_sub_cancel, Nat.cast_add, Nat.cast_one, choose_shift]
  ring

/-- Lowering recurrence. -/
theorem tsum_lower {a b c A B : ℕ} (hA : A ≤ b + c) (hB : B ≤ a + c) :
    ((A : ℚ) + B - c) * tsum a b c A B = A * tsum a b c (A - 1) B - B * tsum a b c A (B - 1) := by
  have e1 : ((A : ℚ) + B - c) * tsum a b c A B =
      ∑ v ∈ range (a + 1), ((A : ℚ) + B - c - v) * ((-1) ^ v * (a.choose v : ℚ) * cb b ((A : ℤ) + B - c - v) * ((a - v + A)! : ℚ) * ((b + c - A + v)! : ℚ)) +
      ∑ v ∈ range (a + 1), (v : ℚ) * ((a.choose v : ℚ) * ((-1) ^ v * cb b ((A : ℤ) + B - c - v) * ((a - v + A)! : ℚ) * ((b + c - A + v)! : ℚ))) := by
    unfold tsum
    rw [Finset.mul_sum, ← Finset.sum_add_distrib]
    apply Finset.sum_congr rfl
    intro v _
    ring
  rw [e1, shift_up, tsum, tsum, Finset.mul_sum, Finset.mul_sum, ← Finset.sum_add_distrib, ← Finset.sum_sub_distrib]
  apply Finset.sum_congr rfl
  intro v hv
  have hv : v ≤ a := by have := Finset.mem_range.mp hv; omega
  obtain ⟨u, rfl⟩ := Nat.exists_eq_add_of_le hv
  obtain ⟨A', hA'⟩ := Nat.exists_eq_add_of_le hA
  have h0 := cb_succ b ((A : ℤ) + B - c - v - 1)
  rw [show ((A : ℤ) + B - c - v - 1) + 1 = (A : ℤ) + B - c - v by ring] at h0
  push_cast at h0
  have hA2 : (b : ℚ) = A + A' - c := by
    have : ((b + c : ℕ) : ℚ) = ((A + A' : ℕ) : ℚ) := by rw [hA']
    push_cast at this; linarith
  have s1 : v + u - v = u := by omega
  have s2 : v + u - (v + 1) = u - 1 := by omega
  have s3 : b + c - A = A' := by omega
  have s4 : ((A : ℤ) + B - c - ((v + 1 : ℕ) : ℤ)) = (A : ℤ) + B - c - v - 1 := by push_cast; ring
  rw [s1, s2, s3, s4]
  by_cases hz : A = 0
  · subst hz
    simp only [Nat.cast_zero, zero_mul, zero_add, add_zero] at *
    rcases Nat.eq_zero_or_pos B with hB0 | hB0
    · subst hB0
      have hc : cb b ((0 : ℤ) + (0 : ℕ) - c - v - 1) = 0 := cb_neg (by push_cast; omega)
      simp only [Nat.cast_zero, zero_add] at *
      rw [hc] at h0 ⊢
      linear_combination ((-1 : ℚ) ^ v * ((v + u).choose v : ℚ) * ((u)! : ℚ) * ((A' + v)! : ℚ)) * h0
    · obtain ⟨B', rfl⟩ := Nat.exists_eq_add_of_lt hB0
      have s5 : ((0 : ℤ) + ((0 + B' + 1 - 1 : ℕ) : ℤ) - c - v) = (0 : ℤ) + ((0 + B' + 1 : ℕ) : ℤ) - c - v - 1 := by push_cast; omega
      simp only [zero_add] at *
      rw [s5]
      rcases Nat.eq_zero_or_pos u with hu | hu
      · subst hu
        have hc : cb b (((B' + 1 : ℕ) : ℤ) - c - v - 1) = 0 := cb_neg (by push_cast; omega)
        rw [hc] at h0 ⊢
        linear_combination ((-1 : ℚ) ^ v * ((v + 0).choose v : ℚ) * ((0)! : ℚ) * ((A' + v)! : ℚ)) * h0
      · obtain ⟨u', rfl⟩ := Nat.exists_eq_add_of_lt hu
        rw [show 0 + u' + 1 - 1 = u' by omega, show 0 + u' + 1 = u' + 1 by omega, Nat.factorial_succ u',
          show A' + (v + 1) = (A' + v) + 1 by omega, Nat.factorial_succ (A' + v)]
        push_cast at h0 ⊢
        linear_combination ((-1 : ℚ) ^ v * ((v + (u' + 1)).choose v : ℚ) * ((u' + 1) * (u')! : ℚ) * ((A' + v)! : ℚ)) * h0 +
          ((-1 : ℚ) ^ v * ((v + (u' + 1)).choose v : ℚ) * ((u' + 1) * (u')! : ℚ) * ((A' + v)! : ℚ)) * cb b ((B' : ℤ) + 1 - c - v - 1) * hA2
  · obtain ⟨A1, rfl⟩ : ∃ k, A = k + 1 := ⟨A - 1, by omega⟩
    have s6 : b + c - ((A1 + 1) - 1) = A' + 1 := by omega
    have s7 : (((A1 + 1 - 1 : ℕ) : ℤ) + B - c - v) = ((A1 + 1 : ℕ) : ℤ) + B - c - v - 1 := by push_cast; omega
    have s8 : A1 + 1 - 1 = A1 := rfl
    rw [s6, s7, s8]
    have hBt : (B : ℚ) * ((-1) ^ v * ((v + u).choose v : ℚ) * cb b (((A1 + 1 : ℕ) : ℤ) + ((B - 1 : ℕ) : ℤ) - c - v) * ((u + (A1 + 1))! : ℚ) * ((A' + v)! : ℚ)) =
        (B : ℚ) * ((-1) ^ v * ((v + u).choose v : ℚ) * cb b (((A1 + 1 : ℕ) : ℤ) + B - c - v - 1) * ((u + (A1 + 1))! : ℚ) * ((A' + v)! : ℚ)) := by
      rcases Nat.eq_zero_or_pos B with hB0 | hB0
      · subst hB0; simp
      · rw [show (((A1 + 1 : ℕ) : ℤ) + ((B - 1 : ℕ) : ℤ) - c - v) = ((A1 + 1 : ℕ) : ℤ) + B - c - v - 1 by omega]
    rw [hBt]
    have hut : (u : ℚ) * ((u - 1 + (A1 + 1))! : ℚ) = u * ((u + A1)! : ℚ) := by
      rcases Nat.eq_zero_or_pos u with hu | hu
      · subst hu; simp
      · congr 3; omega
    rw [show u + (A1 + 1) = (u + A1) + 1 by omega, Nat.factorial_succ (u + A1), show A' + (v + 1) = (A' + v) + 1 by omega,
      show A' + 1 + v = (A' + v) + 1 by omega, Nat.factorial_succ (A' + v)]
    push_cast at h0 hut hA2 ⊢
    linear_combination ((-1 : ℚ) ^ v * ((v + u).choose v : ℚ) * ((u + A1 + 1) * (u + A1)! : ℚ) * ((A' + v)! : ℚ)) * h0 -
      ((-1 : ℚ) ^ v * ((v + u).choose v : ℚ) * ((A' + v + 1) * (A' + v)! : ℚ)) * cb b ((A1 : ℤ) + 1 + B - c - v - 1) * hut +
      ((-1 : ℚ) ^ v * ((v + u).choose v : ℚ) * ((u + A1 + 1) * (u + A1)! : ℚ) * ((A' + v)! : ℚ)) * cb b ((A1 : ℤ) + 1 + B - c - v - 1) * hA2

/-- Raising recurrence. -/
theorem tsum_raise {a b c A B : ℕ} (hA : A ≤ b + c) (hB : B ≤ a + c) :
    ((a : ℚ) + b - (A + B - c)) * tsum a b c A B =
      ((b : ℚ) + c - A) * tsum a b c (A + 1) B - ((a : ℚ) + c - B) * tsum a b c A (B + 1) := by
  have e1 : ((a : ℚ) + b - (A + B - c)) * tsum a b c A B =
      ∑ v ∈ range (a + 1), ((b : ℚ) - (A + B - c - v)) * ((-1) ^ v * (a.choose v : ℚ) * cb b ((A : ℤ) + B - c - v) * ((a - v + A)! : ℚ) * ((b + c - A + v)! : ℚ)) +
      ∑ v ∈ range (a + 1), ((a - v : ℕ) : ℚ) * ((a.choose v : ℚ) * ((-1) ^ v * cb b ((A : ℤ) + B - c - v) * ((a - v + A)! : ℚ) * ((b + c - A + v)! : ℚ))) := by
    unfold tsum
    rw [Finset.mul_sum, ← Finset.sum_add_distrib]
    apply Finset.sum_congr rfl
    intro v hv
    have hv : v ≤ a := by have := Finset.mem_range.mp hv; omega
    rw [Nat.cast_sub hv]
    ring
  rw [e1, shift_down, tsum, tsum, Finset.mul_sum, Finset.mul_sum, ← Finset.sum_add_distrib, ← Finset.sum_sub_distrib]
  apply Finset.sum_congr rfl
  intro v hv
  have hv : v ≤ a := by have := Finset.mem_range.mp hv; omega
  obtain ⟨u, rfl⟩ := Nat.exists_eq_add_of_le hv
  obtain ⟨A', hA'⟩ := Nat.exists_eq_add_of_le hA
  have h0 := cb_succ b ((A : ℤ) + B - c - v)
  push_cast at h0
  have hA2 : (b : ℚ) = A + A' - c := by
    have : ((b + c : ℕ) : ℚ) = ((A + A' : ℕ) : ℚ) := by rw [hA']
    push_cast at this; linarith
  have s1 : v + u - v = u := by omega
  have s3 : b + c - A = A' := by omega
  have s4 : (((A + 1 : ℕ) : ℤ) + B - c - v) = (A : ℤ) + B - c - v + 1 := by push_cast; ring
  have s5 : ((A : ℤ) + ((B + 1 : ℕ) : ℤ) - c - v) = (A : ℤ) + B - c - v + 1 := by push_cast; ring
  have s6 : b + c - (A + 1) = A' - 1 := by omega
  rw [s1, s3, s4, s5, s6]
  rcases Nat.eq_zero_or_pos v with hv0 | hv0
  · subst hv0
    rcases Nat.eq_zero_or_pos A' with hA0 | hA0
    · subst hA0
      have hc : cb b ((A : ℤ) + B - c - (0 : ℕ) + 1) = 0 := cb_gt (by push_cast; omega)
      rw [hc] at h0 ⊢
      simp only [Nat.cast_zero, pow_zero] at *
      linear_combination -(((0 + u).choose 0 : ℚ) * ((u + A)! : ℚ) * ((0 + 0)! : ℚ)) * h0
    · obtain ⟨A1, rfl⟩ : ∃ k, A' = k + 1 := ⟨A' - 1, by omega⟩
      rw [show A1 + 1 - 1 = A1 by omega, show u + (A + 1) = (u + A) + 1 by omega, Nat.factorial_succ (u + A)]
      simp only [add_zero]
      rw [Nat.factorial_succ A1]
      push_cast at h0 hA2 ⊢
      linear_combination -(((0 + u).choose 0 : ℚ) * ((u + A)! : ℚ) * ((A1 + 1) * (A1)! : ℚ)) * h0 -
        (((0 + u).choose 0 : ℚ) * ((u + A + 1) * (u + A)! : ℚ) * ((A1)! : ℚ)) * cb b ((A : ℤ) + B - c - 0 + 1) * hA2
  · obtain ⟨w, rfl⟩ : ∃ k, v = k + 1 := ⟨v - 1, by omega⟩
    rw [show w + 1 - 1 = w by omega, show w + 1 + u - w = u + 1 by omega, show u + 1 + A = (u + A) + 1 by omega,
      show u + (A + 1) = (u + A) + 1 by omega, Nat.factorial_succ (u + A), show A' + (w + 1) = (A' + w) + 1 by omega,
      Nat.factorial_succ (A' + w), show ((A : ℤ) + B - c - (w : ℕ)) = (A : ℤ) + B - c - ((w + 1 : ℕ) : ℤ) + 1 by push_cast; ring]
    have hA3 : (b + c - A : ℚ) = A' := by rw [hA2]; ring
    have hz : (A' : ℚ) * ((A' - 1 + (w + 1))! : ℚ) = A' * ((A' + w)! : ℚ) := by
      rcases Nat.eq_zero_or_pos A' with hu | hu
      · subst hu; simp
      · congr 3; omega
    rw [hA3]
    push_cast at h0 hz ⊢
    linear_combination -((-1 : ℚ) ^ (w + 1) * ((w + 1 + u).choose (w + 1) : ℚ) * ((u + A)! : ℚ) * ((A' + w + 1) * (A' + w)! : ℚ)) * h0 -
      ((-1 : ℚ) ^ (w + 1) * ((w + 1 + u).choose (w + 1) : ℚ) * ((u + A + 1) * (u + A)! : ℚ)) * cb b ((A : ℤ) + B - c - (w + 1) + 1) * hz

end E3nn.SU2
