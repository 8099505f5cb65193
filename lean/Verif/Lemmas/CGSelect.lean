import Verif.Lemmas.CGSwap
import Verif.Lemmas.CGReal

/-! # Selection rules of the real Clebsch-Gordan tensor -/

namespace E3nn.SU2

open Finset Matrix

/-- The order `m` of a component of degree `l`. -/
def ord {l : ℕ} (j : Fin (2 * l + 1)) : ℤ := (j.val : ℤ) - l

/-- `+1` for the components of order `m ≥ 0` (cosines), `-1` for the others (sines). -/
def sgn {l : ℕ} (j : Fin (2 * l + 1)) : ℤ := if j.val < l then -1 else 1

theorem changeBasis_ne {l : ℕ} {r c : Fin (2 * l + 1)} (h : changeBasis l r c ≠ 0) : ord c = ord r ∨ ord c = -ord r := by
  by_contra hne
  apply h
  push Not at hne
  unfold ord at hne
  unfold changeBasis
  simp only
  rw [mul_eq_zero]
  right
  split_ifs <;> first | rfl | (exfalso; omega)

theorem changeBasis_rev {l : ℕ} (r c : Fin (2 * l + 1)) :
    changeBasis l r.rev c = (-1) ^ (r.val + l) * ((sgn c : ℤ) : ℂ) * changeBasis l r c := by
  have hr := r.isLt
  have hc := c.isLt
  rw [changeBasis_eq]
  simp only [Matrix.smul_apply, Matrix.add_apply, dg, an, smul_eq_mul]
  have e1 : (r.rev = c) ↔ c.val + r.val = 2 * l := by
    constructor
    · intro h; rw [← h, rev_sub]; omega
    · intro h; ext; rw [rev_sub]; omega
  have e2 : (c.val + r.rev.val = 2 * l) ↔ r = c := by
    rw [rev_sub]
    constructor
    · intro h; ext; omega
    · intro h; subst h; omega
  simp only [e1, e2]
  have hev : ∀ k : ℕ, ((-1 : ℂ) ^ k) * (-1) ^ k = 1 := negpow_sq
  by_cases hl : r.val = l
  · have e3 : (c.val + r.val = 2 * l) ↔ r = c := by
      constructor
      · intro h; ext; omega
      · intro h; subst h; omega
    have e4 : r.rev.val = l := by rw [rev_sub]; omega
    simp only [e3]
    rw [e4, hl]
    have hu : qu l l = 1 := by unfold qu; simp
    have hw : qw l l = 0 := by unfold qw; simp
    rw [hu, hw]
    by_cases h : r = c
    · subst h
      have : sgn r = 1 := by unfold sgn; rw [if_neg (by omega)]
      rw [this, if_pos rfl, if_pos rfl, ← two_mul, pow_mul]
      simp
    · rw [if_neg h, if_neg h]; simp
  · by_cases h : r = c
    · subst h
      rw [if_pos rfl, if_pos rfl, if_neg (by omega), if_neg (by omega), rev_sub]
      unfold qu qw sgn
      rcases Nat.lt_or_ge r.val l with h1 | h1
      · rw [if_neg (by omega), if_neg (by omega), if_pos h1, if_pos h1]
        have : (-1 : ℂ) ^ (2 * l - r.val - l) = (-1) ^ (r.val + l) := by
          rw [neg_one_pow_eq_pow_mod_two, neg_one_pow_eq_pow_mod_two (n := r.val + l)]; congr 1; omega
        rw [this]
        push_cast
        ring
      · have : (-1 : ℂ) ^ (r.val - l) = (-1) ^ (r.val + l) := by
          rw [neg_one_pow_eq_pow_mod_two, neg_one_pow_eq_pow_mod_two (n := r.val + l)]; congr 1; omega
        rw [if_pos (by omega), if_neg (by omega), if_neg (by omega), if_neg (by omega), this]
        push_cast
        linear_combination (-(-Complex.I) ^ l / (Real.sqrt 2 : ℂ)) * hev (r.val + l)
    · rw [if_neg h, if_neg h]
      by_cases h2 : c.val + r.val = 2 * l
      · rw [if_pos h2, if_pos h2, rev_sub]
        unfold qu qw sgn
        rcases Nat.lt_or_ge r.val l with h1 | h1
        · rw [if_neg (by omega), if_neg (by omega), if_neg (by omega), if_pos h1]
          have : (-1 : ℂ) ^ (2 * l - r.val - l) = (-1) ^ (r.val + l) := by
            rw [neg_one_pow_eq_pow_mod_two, neg_one_pow_eq_pow_mod_two (n := r.val + l)]; congr 1; omega
          rw [this]
          push_cast
          ring
        · have : (-1 : ℂ) ^ (r.val - l) = (-1) ^ (r.val + l) := by
            rw [neg_one_pow_eq_pow_mod_two, neg_one_pow_eq_pow_mod_two (n := r.val + l)]; congr 1; omega
          rw [if_pos (by omega), if_pos (by omega), if_neg (by omega), if_neg (by omega), this]
          push_cast
          linear_combination ((-Complex.I) ^ l * Complex.I / (Real.sqrt 2 : ℂ)) * hev (r.val + l)
      · rw [if_neg h2, if_neg h2]; simp

/-- The orders of a non-zero entry satisfy `m3 = ± m1 ± m2`. -/
theorem cg_order {l1 l2 l3 : ℕ} {a : Fin (2 * l1 + 1)} {b : Fin (2 * l2 + 1)} {c : Fin (2 * l3 + 1)}
    (h : clebschGordan l1 l2 l3 a b c ≠ 0) :
    ord c = ord a + ord b ∨ ord c = ord a - ord b ∨ ord c = -ord a + ord b ∨ ord c = -ord a - ord b := by
  by_contra hne
  apply h
  unfold clebschGordan
  have : cgComplex l1 l2 l3 a b c = 0 := by
    unfold cgComplex
    apply Finset.sum_eq_zero; intro i _
    apply Finset.sum_eq_zero; intro k _
    apply Finset.sum_eq_zero; intro n _
    by_contra h0
    simp only [mul_ne_zero_iff] at h0
    obtain ⟨⟨⟨h1, h2⟩, h3⟩, h4⟩ := h0
    have e1 := changeBasis_ne h1
    have e2 := changeBasis_ne h2
    rw [Matrix.conjTranspose_apply, star_ne_zero] at h3
    have e3 := changeBasis_ne h3
    have e4 : ord n = ord i + ord k := by
      by_contra h5
      apply h4
      by_cases hr : inRange (2 * l1) (2 * l2) (2 * l3)
      · obtain ⟨x, y, z, q1, q2, q3⟩ := inRange_iff.mp hr
        rw [su2CG_eq' q1 q2 q3, if_neg]
        · simp
        · intro h6; apply h5; unfold ord; omega
      · rw [su2CG_zero hr]; simp
    apply hne
    omega
  rw [this]; rfl

theorem cg_sign_eq (l1 l2 l3 : ℕ) (a : Fin (2 * l1 + 1)) (b : Fin (2 * l2 + 1)) (c : Fin (2 * l3 + 1)) :
    clebschGordan l1 l2 l3 a b c = (-1) ^ (l1 + l2 + l3) * ((sgn a * sgn b * sgn c : ℤ) : ℝ) * clebschGordan l1 l2 l3 a b c := by
  have key : cgComplex l1 l2 l3 a b c = ((((-1) ^ (l1 + l2 + l3) * ((sgn a * sgn b * sgn c : ℤ) : ℝ)) : ℝ) : ℂ) * cgComplex l1 l2 l3 a b c := by
    conv_lhs => unfold cgComplex
    conv_rhs => unfold cgComplex
    conv_lhs => rw [← Equiv.sum_comp Fin.revPerm]
    rw [Finset.mul_sum]
    apply Finset.sum_congr rfl; intro i _
    conv_lhs => rw [← Equiv.sum_comp Fin.revPerm]
    rw [Finset.mul_sum]
    apply Finset.sum_congr rfl; intro k _
    conv_lhs => rw [← Equiv.sum_comp Fin.revPerm]
    rw [Finset.mul_sum]
    apply Finset.sum_congr rfl; intro n _
    simp only [Fin.revPerm_apply]
    have h := su2CG_refl l1 l2 l3 i k n
    have h3 : (changeBasis l3)ᴴ c n.rev = (-1) ^ (n.val + l3) * ((sgn c : ℤ) : ℂ) * (changeBasis l3)ᴴ c n := by
      rw [Matrix.conjTranspose_apply, Matrix.conjTranspose_apply, changeBasis_rev, star_mul, star_mul, star_pow]
      simp
      ring
    rw [changeBasis_rev, changeBasis_rev, h3, ← h]
    push_cast
    have e : (-1 : ℂ) ^ (i.val + l1) * (-1) ^ (k.val + l2) * (-1) ^ (n.val + l3) = (-1) ^ (l1 + l2 + l3) * (-1) ^ (i.val + k.val + n.val) := by
      rw [← pow_add, ← pow_add, ← pow_add]; congr 1; ring
    linear_combination (((sgn a : ℤ) : ℂ) * ((sgn b : ℤ) : ℂ) * ((sgn c : ℤ) : ℂ) * changeBasis l1 i a * changeBasis l2 k b * (changeBasis l3)ᴴ c n *
      (su2ClebschGordan (2 * l1) (2 * l2) (2 * l3) i.rev k.rev n.rev : ℂ)) * e
  have := congrArg Complex.re key
  rw [Complex.re_ofReal_mul] at this
  exact this

/-- The signs of the components of a non-zero entry multiply to `(-1) ^ (l1 + l2 + l3)`. -/
theorem cg_sign {l1 l2 l3 : ℕ} {a : Fin (2 * l1 + 1)} {b : Fin (2 * l2 + 1)} {c : Fin (2 * l3 + 1)}
    (h : clebschGordan l1 l2 l3 a b c ≠ 0) : sgn a * sgn b * sgn c = (-1) ^ (l1 + l2 + l3) := by
  have e := cg_sign_eq l1 l2 l3 a b c
  have e2 : (1 - (-1) ^ (l1 + l2 + l3) * ((sgn a * sgn b * sgn c : ℤ) : ℝ)) * clebschGordan l1 l2 l3 a b c = 0 := by linear_combination e
  rcases mul_eq_zero.mp e2 with h3 | h3
  · have h4 : ((-1 : ℤ) ^ (l1 + l2 + l3)) * (sgn a * sgn b * sgn c) = 1 := by
      have : (((-1 : ℤ) ^ (l1 + l2 + l3) * (sgn a * sgn b * sgn c) : ℤ) : ℝ) = 1 := by push_cast at h3 ⊢; linarith
      exact_mod_cast this
    have h5 : ((-1 : ℤ) ^ (l1 + l2 + l3)) * (-1) ^ (l1 + l2 + l3) = 1 := by rw [← mul_pow]; simp
    calc sgn a * sgn b * sgn c = ((-1 : ℤ) ^ (l1 + l2 + l3) * (-1) ^ (l1 + l2 + l3)) * (sgn a * sgn b * sgn c) := by rw [h5, one_mul]
      _ = (-1) ^ (l1 + l2 + l3) := by rw [mul_assoc, h4, mul_one]
  · exact absurd h3 h

end E3nn.SU2
