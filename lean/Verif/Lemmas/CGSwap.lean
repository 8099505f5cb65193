import Verif.Lemmas.CGScalar

/-! # Exchanging the first two arguments of the Clebsch-Gordan tensor -/

namespace E3nn.SU2

open Finset Matrix
open scoped Nat

theorem sval_top {a b c A B : ℕ} (h : A + B = a + b + c) (hA : A ≤ b + c) :
    sval a b c A B = (-1) ^ (B + a) * (A ! * B !) / (a ! * b !) := by
  unfold sval
  rw [tsum_top h, show b + c - A + a = B by omega, pow_add]
  ring

theorem sval_swap (a b c : ℕ) : ∀ D A B : ℕ, A + B + D = a + b + c → A ≤ b + c → B ≤ a + c →
    sval b a c B A = (-1) ^ c * sval a b c A B := by
  intro D
  induction D with
  | zero =>
    intro A B h hA hB
    rw [sval_top (by omega) hA, sval_top (by omega) hB]
    have hs : (-1 : ℚ) ^ (A + b) = (-1) ^ c * (-1) ^ (B + a) := by
      rw [← pow_add, neg_one_pow_eq_pow_mod_two, neg_one_pow_eq_pow_mod_two (n := c + (B + a))]
      congr 1
      omega
    rw [hs]; ring
  | succ D ih =>
    intro A B h hA hB
    have h1 := sval_raise hA hB
    have h2 := sval_raise (a := b) (b := a) (c := c) (A := B) (B := A) hB hA
    have hD : ((a : ℚ) + b - (A + B - c)) = D + 1 := by
      have : ((A + B + (D + 1) : ℕ) : ℚ) = ((a + b + c : ℕ) : ℚ) := by rw [h]
      push_cast at this; linarith
    have k1 : ((b : ℚ) + c - A) * sval b a c B (A + 1) = (-1) ^ c * (((b : ℚ) + c - A) * sval a b c (A + 1) B) := by
      rcases Nat.lt_or_ge A (b + c) with h0 | h0
      · rw [ih (A + 1) B (by omega) (by omega) hB]; ring
      · have : A = b + c := by omega
        rw [this]; push_cast; ring
    have k2 : ((a : ℚ) + c - B) * sval b a c (B + 1) A = (-1) ^ c * (((a : ℚ) + c - B) * sval a b c A (B + 1)) := by
      rcases Nat.lt_or_ge B (a + c) with h0 | h0
      · rw [ih A (B + 1) (by omega) hA (by omega)]; ring
      · have : B = a + c := by omega
        rw [this]; push_cast; ring
    have hne : (D : ℚ) + 1 ≠ 0 := by positivity
    apply mul_left_cancel₀ hne
    rw [hD] at h1
    have hD' : ((b : ℚ) + a - (B + A - c)) = D + 1 := by rw [← hD]; ring
    rw [hD'] at h2
    linear_combination h2 + k1 + k2 - (-1) ^ c * h1

theorem cgVal_swap {a b c A B : ℕ} (hA : A ≤ b + c) (hB : B ≤ a + c) (h1 : c ≤ A + B) (h2 : A + B ≤ a + b + c) :
    cgVal b a c B A = (-1) ^ c * cgVal a b c A B := by
  rw [cgVal_eq (a := b) (b := a) (A := B) (B := A) (A' := a + c - B) (B' := b + c - A) (C := A + B - c) (D := a + b + c - (A + B))
    (by omega) (by omega) (by omega) (by omega),
    cgVal_eq (a := a) (b := b) (A := A) (B := B) (A' := b + c - A) (B' := a + c - B) (C := A + B - c) (D := a + b + c - (A + B))
    (by omega) (by omega) (by omega) (by omega), sval_swap a b c (a + b + c - (A + B)) A B (by omega) hA hB]
  have : wval b a c (A + B - c) (a + b + c - (A + B)) B (a + c - B) A (b + c - A) =
      wval a b c (A + B - c) (a + b + c - (A + B)) A (b + c - A) B (a + c - B) := by
    unfold wval
    congr 1
    rw [Nat.add_comm b a]
    congr 1
    · push_cast; ring
    · push_cast; ring
  rw [this]
  push_cast
  ring

theorem su2CG_swap (l1 l2 l3 : ℕ) (A : Fin (2 * l1 + 1)) (B : Fin (2 * l2 + 1)) (C : Fin (2 * l3 + 1)) :
    su2ClebschGordan (2 * l2) (2 * l1) (2 * l3) B A C = (-1) ^ (l1 + l2 + l3) * su2ClebschGordan (2 * l1) (2 * l2) (2 * l3) A B C := by
  by_cases h : inRange (2 * l1) (2 * l2) (2 * l3)
  · obtain ⟨a, b, c, e1, e2, e3⟩ := inRange_iff.mp h
    rw [su2CG_eq' e1 e2 e3, su2CG_eq' (a := b) (b := a) (c := c) e2 e1 (by omega)]
    by_cases hC : C.val + c = A.val + B.val
    · rw [if_pos hC, if_pos (by omega), cgVal_swap (by omega) (by omega) (by omega) (by omega)]
      have : (-1 : ℝ) ^ (l1 + l2 + l3) = (-1) ^ c := by
        rw [show l1 + l2 + l3 = c + 2 * l3 by omega, pow_add, pow_mul]; norm_num
      rw [this]
    · rw [if_neg hC, if_neg (by omega)]; simp
  · rw [su2CG_zero h, su2CG_zero]
    · simp
    · intro h'
      apply h
      obtain ⟨a, b, c, e1, e2, e3⟩ := inRange_iff.mp h'
      exact inRange_iff.mpr ⟨b, a, c, e2, e1, by omega⟩

/-- Exchanging the first two arguments multiplies the tensor by `(-1) ^ (l1 + l2 + l3)`. -/
theorem cg_swap (l1 l2 l3 : ℕ) (a : Fin (2 * l1 + 1)) (b : Fin (2 * l2 + 1)) (c : Fin (2 * l3 + 1)) :
    clebschGordan l2 l1 l3 b a c = (-1) ^ (l1 + l2 + l3) * clebschGordan l1 l2 l3 a b c := by
  unfold clebschGordan
  have : cgComplex l2 l1 l3 b a c = (((-1 : ℝ) ^ (l1 + l2 + l3) : ℝ) : ℂ) * cgComplex l1 l2 l3 a b c := by
    unfold cgComplex
    rw [Finset.sum_comm]
    simp only [Finset.mul_sum]
    apply Finset.sum_congr rfl; intro i _
    apply Finset.sum_congr rfl; intro k _
    apply Finset.sum_congr rfl; intro n _
    rw [su2CG_swap]
    push_cast
    ring
  rw [this, Complex.re_ofReal_mul]

end E3nn.SU2
