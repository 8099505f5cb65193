import Verif.Lemmas.CGScalar

/-! # Clebsch-Gordan tensors `(l1, l2, l1 + l2)` and `(l, l + 1, 1)`, at the components `m = 0` -/

namespace E3nn.SU2

open Nat Finset Matrix

/-- The middle index, `m = 0`. -/
def mid (l : ℕ) : Fin (2 * l + 1) := ⟨l, by omega⟩

theorem sval_zero (a b : ℕ) : sval a b 0 0 0 = 1 := by
  unfold sval tsum
  rw [Finset.sum_eq_single 0]
  · have : cb b (((0 : ℕ) : ℤ) + (0 : ℕ) - (0 : ℕ) - (0 : ℕ)) = 1 := by unfold cb; simp
    rw [this]
    have ha : (a ! : ℚ) ≠ 0 := by exact_mod_cast Nat.factorial_ne_zero a
    have hb : (b ! : ℚ) ≠ 0 := by exact_mod_cast Nat.factorial_ne_zero b
    simp only [pow_zero, Nat.choose_zero_right, Nat.cast_one, one_mul, Nat.sub_zero, Nat.add_zero, mul_one]
    field_simp
  · intro v _ hv
    rw [cb_neg (by omega)]; simp
  · simp

theorem sval_stretch (a b : ℕ) : ∀ n A B : ℕ, A + B = n → A ≤ b → B ≤ a → sval a b 0 A B = 1 := by
  intro n
  induction n with
  | zero =>
    intro A B h _ _
    obtain rfl : A = 0 := by omega
    obtain rfl : B = 0 := by omega
    exact sval_zero a b
  | succ n ih =>
    intro A B h hA hB
    have hr := sval_lower (a := a) (b := b) (c := 0) (A := A) (B := B) (by omega) (by omega)
    have hn : (A : ℚ) + B = n + 1 := by exact_mod_cast h
    have h1 : (A : ℚ) * sval a b 0 (A - 1) B = A := by
      rcases Nat.eq_zero_or_pos A with h0 | h0
      · subst h0; simp
      · rw [ih (A - 1) B (by omega) (by omega) hB, mul_one]
    have h2 : (B : ℚ) * sval a b 0 A (B - 1) = B := by
      rcases Nat.eq_zero_or_pos B with h0 | h0
      · subst h0; simp
      · rw [ih A (B - 1) (by omega) hA (by omega), mul_one]
    rw [h1, h2] at hr
    have hne : (A : ℚ) + B - (0 : ℕ) ≠ 0 := by rw [hn]; simp; positivity
    have : ((A : ℚ) + B - (0 : ℕ)) * sval a b 0 A B = ((A : ℚ) + B - (0 : ℕ)) * 1 := by rw [hr]; simp
    exact mul_left_cancel₀ hne this

theorem cgVal_stretch_pos {a b A B : ℕ} (hA : A ≤ b) (hB : B ≤ a) : 0 < cgVal a b 0 A B := by
  unfold cgVal
  have hs : ((-1) ^ B * tsum a b 0 A B / (a ! * b !) : ℚ) = 1 := sval_stretch a b (A + B) A B rfl hA hB
  rw [hs]
  simp only [Rat.cast_one, mul_one]
  apply Real.sqrt_pos.mpr
  apply _root_.div_pos
  · exact_mod_cast by positivity
  · exact_mod_cast by positivity

theorem changeBasis_mid (l : ℕ) (i : Fin (2 * l + 1)) : changeBasis l i (mid l) = if i = mid l then (-Complex.I) ^ l else 0 := by
  rw [changeBasis_eq]
  simp only [Matrix.smul_apply, Matrix.add_apply, dg, an, smul_eq_mul]
  by_cases h : i = mid l
  · subst h
    simp [mid, qu, qw]
  · have h' : i.val ≠ l := fun e => h (Fin.ext e)
    rw [if_neg h, if_neg h, if_neg (by simp [mid]; omega)]
    simp

theorem changeBasis_mid_row (l : ℕ) (i : Fin (2 * l + 1)) : changeBasis l (mid l) i = if i = mid l then (-Complex.I) ^ l else 0 := by
  rw [changeBasis_eq]
  simp only [Matrix.smul_apply, Matrix.add_apply, dg, an, smul_eq_mul]
  by_cases h : i = mid l
  · subst h
    simp [mid, qu, qw]
  · have h' : i.val ≠ l := fun e => h (Fin.ext e)
    rw [if_neg h, if_neg (fun e => h e.symm), if_neg (by simp [mid]; omega)]
    simp

/-- The first index at `m = 0`. -/
theorem cg_mid (l1 l2 l3 : ℕ) (b : Fin (2 * l2 + 1)) (c : Fin (2 * l3 + 1)) :
    ((clebschGordan l1 l2 l3 (mid l1) b c : ℝ) : ℂ) = (-Complex.I) ^ l1 * ∑ k, ∑ n, changeBasis l2 k b * (changeBasis l3)ᴴ c n *
      (su2ClebschGordan (2 * l1) (2 * l2) (2 * l3) (mid l1) k n : ℂ) := by
  rw [cg_ofReal]
  unfold cgComplex
  rw [Finset.sum_eq_single (mid l1)]
  · rw [changeBasis_mid, if_pos rfl, Finset.mul_sum]
    refine Finset.sum_congr rfl fun k _ => ?_
    rw [Finset.mul_sum]
    refine Finset.sum_congr rfl fun n _ => by ring
  · intro i _ hi
    rw [changeBasis_mid, if_neg hi]
    simp
  · intro h; exact absurd (mem_univ _) h

theorem cg_mid_mid (l1 l2 l3 : ℕ) (c : Fin (2 * l3 + 1)) :
    ((clebschGordan l1 l2 l3 (mid l1) (mid l2) c : ℝ) : ℂ) = (-Complex.I) ^ l1 * ((-Complex.I) ^ l2 * ∑ n, (changeBasis l3)ᴴ c n *
      (su2ClebschGordan (2 * l1) (2 * l2) (2 * l3) (mid l1) (mid l2) n : ℂ)) := by
  rw [cg_mid, Finset.sum_eq_single (mid l2)]
  · rw [changeBasis_mid, if_pos rfl]
    simp only [Finset.mul_sum, mul_assoc]
  · intro i _ hi
    rw [changeBasis_mid, if_neg hi]
    simp
  · intro h; exact absurd (mem_univ _) h

/-- `clebsch_gordan(l1, l2, l1 + l2)[l1, l2, :]` is positive at the middle and zero elsewhere. -/
theorem cg_stretch (l1 l2 : ℕ) : ∃ v : ℝ, 0 < v ∧ ∀ c, clebschGordan l1 l2 (l1 + l2) (mid l1) (mid l2) c = if c = mid (l1 + l2) then v else 0 := by
  refine ⟨cgVal (2 * l2) (2 * l1) 0 l1 l2, cgVal_stretch_pos (by omega) (by omega), ?_⟩
  intro c
  apply Complex.ofReal_injective
  rw [cg_mid_mid]
  have hsu : ∀ n, su2ClebschGordan (2 * l1) (2 * l2) (2 * (l1 + l2)) (mid l1) (mid l2) n = if n = mid (l1 + l2) then cgVal (2 * l2) (2 * l1) 0 l1 l2 else 0 := by
    intro n
    rw [su2CG_eq' (a := 2 * l2) (b := 2 * l1) (c := 0) (by omega) (by omega) (by omega)]
    show (if n.val + 0 = l1 + l2 then cgVal (2 * l2) (2 * l1) 0 l1 l2 else 0) = _
    by_cases h : n.val = l1 + l2
    · rw [if_pos (show n.val + 0 = l1 + l2 from h), if_pos (Fin.ext h)]
    · rw [if_neg (show ¬ n.val + 0 = l1 + l2 from h), if_neg fun e => h (congrArg Fin.val e)]
  rw [Finset.sum_eq_single (mid (l1 + l2))]
  · rw [hsu, if_pos rfl, Matrix.conjTranspose_apply, changeBasis_mid_row]
    by_cases h : c = mid (l1 + l2)
    · rw [if_pos h, if_pos h]
      have := iPow_sq (l1 + l2)
      simp only [RCLike.star_def]
      have e : (-Complex.I) ^ (l1 + l2) = (-Complex.I) ^ l1 * (-Complex.I) ^ l2 := pow_add _ _ _
      calc _ = ((-Complex.I) ^ l1 * (-Complex.I) ^ l2) * (starRingEnd ℂ) ((-Complex.I) ^ (l1 + l2)) * (cgVal (2 * l2) (2 * l1) 0 l1 l2 : ℂ) := by ring
        _ = _ := by rw [← e, this, one_mul]
    · rw [if_neg h, if_neg h]; simp
  · intro n _ hn
    rw [hsu, if_neg hn]; simp
  · intro h; exact absurd (mem_univ _) h

end E3nn.SU2
