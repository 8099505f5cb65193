import Verif.Lemmas.CGNorm
import Verif.Lemmas.CGReal

/-! # Clebsch-Gordan tensors with a scalar: `(0, l, l)`, `(l, 0, l)` and `(l, l, 0)` -/

namespace E3nn.SU2

open Nat Finset Matrix

theorem su2CG_eq' {n1 n2 n3 a b c : ℕ} (h1 : n1 = b + c) (h2 : n2 = a + c) (h3 : n3 = a + b) (A : Fin (n1 + 1)) (B : Fin (n2 + 1))
    (C : Fin (n3 + 1)) : su2ClebschGordan n1 n2 n3 A B C = if C.val + c = A.val + B.val then cgVal a b c A B else 0 := by
  subst h1 h2 h3
  exact su2CG_eq a b c A B C

theorem cgVal_left (a B : ℕ) (hB : B ≤ a) : cgVal a 0 0 0 B = 1 / Real.sqrt ((a : ℝ) + 1) := by
  have ht : tsum a 0 0 0 B = (-1) ^ B * (a ! : ℚ) := by
    unfold tsum
    rw [Finset.sum_eq_single B]
    · have : cb 0 (((0 : ℕ) : ℤ) + B - (0 : ℕ) - B) = 1 := by unfold cb; simp
      rw [this]
      simp only [Nat.add_zero, Nat.zero_add, Nat.sub_zero]
      have := Nat.choose_mul_factorial_mul_factorial hB
      have h2 : (a.choose B : ℚ) * B ! * (a - B)! = a ! := by exact_mod_cast this
      rw [← h2]; ring
    · intro v _ hv
      have : cb 0 (((0 : ℕ) : ℤ) + B - (0 : ℕ) - v) = 0 := by
        rcases lt_or_ge B v with h | h
        · exact cb_neg (by omega)
        · exact cb_gt (by omega)
      rw [this]; ring
    · intro h; exact absurd (Finset.mem_range.mpr (by omega)) h
  unfold cgVal
  rw [ht]
  have hs : ((-1 : ℚ) ^ B) * ((-1) ^ B * (a ! : ℚ)) / (a ! * 0 !) = 1 := by
    rw [← mul_assoc, ← mul_pow]
    have : (a ! : ℚ) ≠ 0 := by exact_mod_cast Nat.factorial_ne_zero a
    simp [this]
  rw [hs]
  simp only [Nat.add_zero, Nat.zero_add, Nat.sub_zero, Nat.factorial_zero, mul_one, one_mul, Rat.cast_one]
  rw [Nat.factorial_succ]
  have h1 : ((a ! * B ! * (a - B)! : ℕ) : ℝ) / (((a + 1) * a ! * B ! * (a - B)! : ℕ) : ℝ) = 1 / ((a : ℝ) + 1) := by
    have ha : (a ! : ℝ) ≠ 0 := by exact_mod_cast Nat.factorial_ne_zero a
    have hb : (B ! : ℝ) ≠ 0 := by exact_mod_cast Nat.factorial_ne_zero B
    have hc : ((a - B)! : ℝ) ≠ 0 := by exact_mod_cast Nat.factorial_ne_zero (a - B)
    have hd : ((a : ℝ) + 1) ≠ 0 := by positivity
    push_cast
    field_simp
  rw [h1, Real.sqrt_div zero_le_one, Real.sqrt_one]

theorem cgVal_right (b A : ℕ) (hA : A ≤ b) : cgVal 0 b 0 A 0 = 1 / Real.sqrt ((b : ℝ) + 1) := by
  have ht : tsum 0 b 0 A 0 = (b ! : ℚ) := by
    unfold tsum
    rw [Finset.sum_range_one]
    have : cb b ((A : ℤ) + (0 : ℕ) - (0 : ℕ) - (0 : ℕ)) = (b.choose A : ℚ) := by unfold cb; simp
    rw [this]
    simp only [Nat.add_zero, Nat.zero_add, Nat.sub_zero, pow_zero, Nat.choose_self, Nat.cast_one, one_mul]
    exact_mod_cast Nat.choose_mul_factorial_mul_factorial hA
  unfold cgVal
  rw [ht]
  have hs : ((-1 : ℚ) ^ 0) * (b ! : ℚ) / (0 ! * b !) = 1 := by
    have : (b ! : ℚ) ≠ 0 := by exact_mod_cast Nat.factorial_ne_zero b
    simp [this]
  rw [hs]
  simp only [Nat.add_zero, Nat.zero_add, Nat.sub_zero, Nat.factorial_zero, mul_one, one_mul, Rat.cast_one]
  rw [Nat.factorial_succ]
  have h1 : ((b ! * A ! * (b - A)! : ℕ) : ℝ) / (((b + 1) * b ! * A ! * (b - A)! : ℕ) : ℝ) = 1 / ((b : ℝ) + 1) := by
    have ha : (b ! : ℝ) ≠ 0 := by exact_mod_cast Nat.factorial_ne_zero b
    have hb : (A ! : ℝ) ≠ 0 := by exact_mod_cast Nat.factorial_ne_zero A
    have hc : ((b - A)! : ℝ) ≠ 0 := by exact_mod_cast Nat.factorial_ne_zero (b - A)
    have hd : ((b : ℝ) + 1) ≠ 0 := by positivity
    push_cast
    field_simp
  rw [h1, Real.sqrt_div zero_le_one, Real.sqrt_one]

theorem cgVal_pair (c A B : ℕ) (h : A + B = c) : cgVal 0 0 c A B = (-1) ^ B / Real.sqrt ((c : ℝ) + 1) := by
  have ht : tsum 0 0 c A B = (A ! : ℚ) * (B ! : ℚ) := by
    unfold tsum
    rw [Finset.sum_range_one]
    have : cb 0 ((A : ℤ) + B - (c : ℕ) - (0 : ℕ)) = 1 := by unfold cb; rw [show ((A : ℤ) + B - (c : ℕ) - (0 : ℕ)) = 0 by omega]; simp
    rw [this]
    simp only [Nat.add_zero, Nat.zero_add, Nat.sub_zero, pow_zero, Nat.choose_self, Nat.cast_one, one_mul]
    rw [show c - A = B by omega]
  unfold cgVal
  rw [ht]
  subst h
  simp only [Nat.add_zero, Nat.zero_add, Nat.sub_self, Nat.factorial_zero, mul_one, one_mul, Nat.add_sub_cancel_left, Nat.add_sub_cancel]
  have ha : (A ! : ℝ) ≠ 0 := by exact_mod_cast Nat.factorial_ne_zero A
  have hb : (B ! : ℝ) ≠ 0 := by exact_mod_cast Nat.factorial_ne_zero B
  have h1 : (((A + B)! : ℕ) : ℝ) / (((A + B + 1)! * A ! * B ! * B ! * A ! : ℕ) : ℝ) = (1 / ((A + B : ℕ) + 1 : ℝ)) * ((1 / ((A ! : ℝ) * B !)) ^ 2) := by
    rw [Nat.factorial_succ]
    have hc : ((A + B)! : ℝ) ≠ 0 := by exact_mod_cast Nat.factorial_ne_zero (A + B)
    have hd : (((A + B : ℕ) : ℝ) + 1) ≠ 0 := by positivity
    push_cast at hd ⊢
    field_simp
  rw [h1, Real.sqrt_mul (by positivity), Real.sqrt_sq (by positivity), Real.sqrt_div zero_le_one, Real.sqrt_one]
  push_cast
  field_simp

/-- `clebsch_gordan(0, l, l)`. -/
theorem cg_zero_left (l : ℕ) (a : Fin (2 * 0 + 1)) (b c : Fin (2 * l + 1)) :
    clebschGordan 0 l l a b c = if b = c then 1 / Real.sqrt (2 * (l : ℝ) + 1) else 0 := by
  have e : ∀ i k n, su2ClebschGordan (2 * 0) (2 * l) (2 * l) i k n = if n = k then 1 / Real.sqrt (2 * (l : ℝ) + 1) else 0 := by
    intro i k n
    have h := su2CG_eq (2 * l) 0 0 i k n
    have hi : i.val = 0 := by have := i.2; omega
    have : su2ClebschGordan (2 * 0) (2 * l) (2 * l) i k n = su2ClebschGordan (0 + 0) (2 * l + 0) (2 * l + 0) i k n := rfl
    rw [this, h, hi, cgVal_left _ _ (by have := k.2; omega)]
    push_cast
    simp only [Nat.add_zero, Nat.zero_add, Fin.ext_iff]
  apply Complex.ofReal_injective
  rw [cg_ofReal]
  unfold cgComplex
  simp only [e]
  have h0 : ∀ i, changeBasis 0 i a = 1 := by
    intro i
    have hi : i = 0 := by apply Fin.ext; have := i.2; simp
    have ha : a = 0 := by apply Fin.ext; have := a.2; simp
    subst hi ha
    simp [changeBasis]
  simp only [h0, one_mul]
  have hu : (univ : Finset (Fin (2 * 0 + 1))) = {0} := rfl
  rw [hu, Finset.sum_singleton]
  have h2 : ∀ k, ∑ n, changeBasis l k b * (changeBasis l)ᴴ c n * ((if n = k then 1 / Real.sqrt (2 * (l : ℝ) + 1) else 0 : ℝ) : ℂ) =
      (changeBasis l)ᴴ c k * changeBasis l k b * ((1 / Real.sqrt (2 * (l : ℝ) + 1) : ℝ) : ℂ) := by
    intro k
    rw [Finset.sum_eq_single k]
    · rw [if_pos rfl]; ring
    · intro n _ hn; rw [if_neg hn]; simp
    · intro h; exact absurd (mem_univ _) h
  simp only [h2]
  rw [← Finset.sum_mul, ← Matrix.mul_apply, Q_conj_mul, Matrix.one_apply]
  by_cases h : b = c
  · subst h; simp
  · rw [if_neg h, if_neg (fun h' => h h'.symm)]; simp

/-- `clebsch_gordan(l, 0, l)`. -/
theorem cg_zero_right (l : ℕ) (a : Fin (2 * l + 1)) (b : Fin (2 * 0 + 1)) (c : Fin (2 * l + 1)) :
    clebschGordan l 0 l a b c = if a = c then 1 / Real.sqrt (2 * (l : ℝ) + 1) else 0 := by
  have e : ∀ i k n, su2ClebschGordan (2 * l) (2 * 0) (2 * l) i k n = if n = i then 1 / Real.sqrt (2 * (l : ℝ) + 1) else 0 := by
    intro i k n
    have hk : k.val = 0 := by have := k.2; omega
    rw [su2CG_eq' (a := 0) (b := 2 * l) (c := 0) (by omega) (by omega) (by omega), hk, cgVal_right _ _ (by have := i.2; omega)]
    push_cast
    simp only [Nat.add_zero, Fin.ext_iff]
  apply Complex.ofReal_injective
  rw [cg_ofReal]
  unfold cgComplex
  simp only [e]
  have h0 : ∀ i, changeBasis 0 i b = 1 := by
    intro i
    have hi : i = 0 := by apply Fin.ext; have := i.2; simp
    have ha : b = 0 := by apply Fin.ext; have := b.2; simp
    subst hi ha
    simp [changeBasis]
  simp only [h0, mul_one]
  have hu : (univ : Finset (Fin (2 * 0 + 1))) = {0} := rfl
  simp only [hu, Finset.sum_singleton]
  have h2 : ∀ k, ∑ n, changeBasis l k a * (changeBasis l)ᴴ c n * ((if n = k then 1 / Real.sqrt (2 * (l : ℝ) + 1) else 0 : ℝ) : ℂ) =
      (changeBasis l)ᴴ c k * changeBasis l k a * ((1 / Real.sqrt (2 * (l : ℝ) + 1) : ℝ) : ℂ) := by
    intro k
    rw [Finset.sum_eq_single k]
    · rw [if_pos rfl]; ring
    · intro n _ hn; rw [if_neg hn]; simp
    · intro h; exact absurd (mem_univ _) h
  simp only [h2]
  rw [← Finset.sum_mul, ← Matrix.mul_apply, Q_conj_mul, Matrix.one_apply]
  by_cases h : a = c
  · subst h; simp
  · rw [if_neg h, if_neg (fun h' => h h'.symm)]; simp

/-- `clebsch_gordan(l, l, 0)`. -/
theorem cg_pair (l : ℕ) (a b : Fin (2 * l + 1)) (c : Fin (2 * 0 + 1)) :
    clebschGordan l l 0 a b c = if a = b then 1 / Real.sqrt (2 * (l : ℝ) + 1) else 0 := by
  have e : ∀ i k n, su2ClebschGordan (2 * l) (2 * l) (2 * 0) i k n =
      if i.val + k.val = 2 * l then (-1) ^ k.val / Real.sqrt (2 * (l : ℝ) + 1) else 0 := by
    intro i k n
    have hn : n.val = 0 := by have := n.2; omega
    rw [su2CG_eq' (a := 0) (b := 0) (c := 2 * l) (by omega) (by omega) (by omega), hn]
    simp only [Nat.zero_add]
    by_cases hm : i.val + k.val = 2 * l
    · rw [if_pos hm.symm, if_pos hm, cgVal_pair _ _ _ hm]
      push_cast
      rfl
    · rw [if_neg (fun h => hm h.symm), if_neg hm]
  apply Complex.ofReal_injective
  rw [cg_ofReal]
  unfold cgComplex
  simp only [e]
  have h0 : ∀ n, (changeBasis 0)ᴴ c n = 1 := by
    intro i
    have hi : i = 0 := by apply Fin.ext; have := i.2; simp
    have ha : c = 0 := by apply Fin.ext; have := c.2; simp
    subst hi ha
    simp [changeBasis, Matrix.conjTranspose]
  simp only [h0, mul_one]
  have hu : (univ : Finset (Fin (2 * 0 + 1))) = {0} := rfl
  simp only [hu, Finset.sum_singleton]
  have hq : ∀ i, ∑ k, changeBasis l i a * changeBasis l k b * ((if i.val + k.val = 2 * l then (-1) ^ k.val / Real.sqrt (2 * (l : ℝ) + 1) else 0 : ℝ) : ℂ) =
      changeBasis l i a * ((changeBasis l).map (starRingEnd ℂ)) i b * ((1 / Real.sqrt (2 * (l : ℝ) + 1) : ℝ) : ℂ) := by
    intro i
    rw [Q_conj, Matrix.mul_apply, mul_assoc, Finset.sum_mul, Finset.mul_sum]
    apply Finset.sum_congr rfl
    intro k _
    unfold sMat an
    by_cases hm : i.val + k.val = 2 * l
    · rw [if_pos hm, if_pos (by omega)]
      have hs : (-1 : ℂ) ^ i.val = (-1) ^ k.val := by
        have : (-1 : ℂ) ^ i.val * ((-1) ^ k.val * (-1) ^ k.val) = (-1) ^ k.val := by
          rw [← mul_assoc, ← pow_add, hm, pow_mul]; simp
        rwa [negpow_sq, mul_one] at this
      simp only [hs]
      push_cast
      ring
    · rw [if_neg hm, if_neg (by omega)]
      simp
  simp only [hq]
  rw [← Finset.sum_mul]
  have h3 : ∑ i, changeBasis l i a * ((changeBasis l).map (starRingEnd ℂ)) i b = if a = b then 1 else 0 := by
    have := congrFun (congrFun (Q_conj_mul l) b) a
    rw [Matrix.mul_apply, Matrix.one_apply] at this
    simp only [Matrix.conjTranspose_apply] at this
    simp only [Matrix.map_apply]
    have e2 : ∑ i, changeBasis l i a * (starRingEnd ℂ) (changeBasis l i b) = if b = a then 1 else 0 := by
      rw [← this]
      apply Finset.sum_congr rfl
      intro i _
      rw [mul_comm]; rfl
    rw [e2]
    by_cases h : a = b
    · rw [if_pos h, if_pos h.symm]
    · rw [if_neg h, if_neg (fun h' => h h'.symm)]
  rw [h3]
  split <;> simp

end E3nn.SU2
