import Verif.Lemmas.CGSwap
import Verif.Lemmas.CGNorm

/-! # Orthogonality between different degrees and completeness of the Clebsch-Gordan tensors -/

namespace E3nn.SU2

open Finset Matrix Kronecker

/-- Between different degrees, the only matrix that commutes with the generators is zero. -/
theorem so3_inequiv_gen {l l' : ℕ} (hl : l ≠ l') (T : Matrix (Fin (2 * l' + 1)) (Fin (2 * l + 1)) ℝ)
    (hg : ∀ i, T * so3Generators l i = so3Generators l' i * T) : T = 0 := by
  have sq : ∀ i, T * (so3Generators l i * so3Generators l i) = (so3Generators l' i * so3Generators l' i) * T := by
    intro i
    rw [← Matrix.mul_assoc, hg, Matrix.mul_assoc, hg, Matrix.mul_assoc]
  have c1 : T * ((-((l : ℝ) * (l + 1))) • (1 : Matrix (Fin (2 * l + 1)) (Fin (2 * l + 1)) ℝ)) =
      ((-((l' : ℝ) * (l' + 1))) • (1 : Matrix (Fin (2 * l' + 1)) (Fin (2 * l' + 1)) ℝ)) * T := by
    rw [← so3_casimir, ← so3_casimir, Matrix.mul_add, Matrix.mul_add, Matrix.add_mul, Matrix.add_mul, sq, sq, sq]
  rw [Matrix.mul_smul, Matrix.smul_mul, Matrix.mul_one, Matrix.one_mul] at c1
  ext i j
  have h2 := congrFun (congrFun c1 i) j
  simp only [Matrix.smul_apply, smul_eq_mul, Matrix.zero_apply] at h2 ⊢
  have hne' : (-((l : ℝ) * (l + 1))) ≠ (-((l' : ℝ) * (l' + 1))) := by
    intro e
    have e' : ((l : ℝ) - l') * (l + l' + 1) = 0 := by linear_combination -e
    rcases mul_eq_zero.mp e' with e1 | e1
    · exact hl (by exact_mod_cast sub_eq_zero.mp e1)
    · have : (0 : ℝ) < l + l' + 1 := by positivity
      linarith
  have h3 : (-((l : ℝ) * (l + 1)) - (-((l' : ℝ) * (l' + 1)))) * T i j = 0 := by linear_combination h2
  rcases mul_eq_zero.mp h3 with e | e
  · exact absurd (sub_eq_zero.mp e) hne'
  · exact e

/-- The slices of different degrees are orthogonal. -/
theorem cg_cross (l1 l2 : ℕ) {l3 l3' : ℕ} (h : l3 ≠ l3') :
    toMat (clebschGordan l1 l2 l3) * (toMat (clebschGordan l1 l2 l3'))ᵀ = 0 := by
  refine so3_inequiv_gen h.symm _ fun i => ?_
  have h1 := inter_iff.mp (inter_real l1 l2 l3 i)
  have h2 := inter_iff.mp (inter_real l1 l2 l3' i)
  have hK : (so3Generators l1 i ⊗ₖ (1 : Matrix (Fin (2 * l2 + 1)) (Fin (2 * l2 + 1)) ℝ) +
      (1 : Matrix (Fin (2 * l1 + 1)) (Fin (2 * l1 + 1)) ℝ) ⊗ₖ so3Generators l2 i)ᵀ =
      -(so3Generators l1 i ⊗ₖ 1 + 1 ⊗ₖ so3Generators l2 i) := by
    ext p q
    have a1 := congrFun (congrFun (so3_antisymm l1 i) p.1) q.1
    have a2 := congrFun (congrFun (so3_antisymm l2 i) p.2) q.2
    simp only [Matrix.transpose_apply, Matrix.neg_apply, Matrix.add_apply, Matrix.kroneckerMap_apply] at a1 a2 ⊢
    rw [a1, a2, Matrix.one_apply, Matrix.one_apply, Matrix.one_apply, Matrix.one_apply]
    simp only [eq_comm (a := q.1), eq_comm (a := q.2)]
    ring
  have h2' := congrArg Matrix.transpose h2
  rw [Matrix.transpose_mul, Matrix.transpose_mul, hK, so3_antisymm, Matrix.neg_mul, Matrix.mul_neg, neg_inj] at h2'
  rw [Matrix.mul_assoc, ← h2', ← Matrix.mul_assoc, h1, Matrix.mul_assoc]

/-- The diagonal sums of the tensor vanish for positive degree. -/
theorem cg_trace (l : ℕ) {l3 : ℕ} (h : 0 < l3) (c : Fin (2 * l3 + 1)) : ∑ a, clebschGordan l l l3 a a c = 0 := by
  have key : (Matrix.of fun (c : Fin (2 * l3 + 1)) (_ : Fin (2 * 0 + 1)) => ∑ a, clebschGordan l l l3 a a c) = 0 := by
    refine so3_inequiv_gen (l := 0) (l' := l3) (by omega) _ fun i => ?_
    have h0 : so3Generators 0 i = 0 := by
      have := so3_antisymm 0 i
      ext a b
      have h2 := congrFun (congrFun this a) b
      have : a = b := by apply Fin.ext; have := a.2; have := b.2; omega
      subst this
      simp only [Matrix.transpose_apply, Matrix.neg_apply, Matrix.zero_apply] at h2 ⊢
      linarith
    rw [h0, Matrix.mul_zero]
    ext c o
    rw [Matrix.mul_apply]
    simp only [Matrix.zero_apply, Matrix.of_apply, Finset.mul_sum]
    rw [Finset.sum_comm]
    have hI := fun a => inter_real l l l3 i a a c
    simp only [← hI, Finset.sum_add_distrib]
    have : ∑ a, ∑ a', so3Generators l i a' a * clebschGordan l l l3 a' a c =
        - ∑ a, ∑ b, so3Generators l i b a * clebschGordan l l l3 a b c := by
      rw [Finset.sum_comm, ← Finset.sum_neg_distrib]
      apply Finset.sum_congr rfl; intro a _
      rw [← Finset.sum_neg_distrib]
      apply Finset.sum_congr rfl; intro b _
      have := congrFun (congrFun (so3_antisymm l i) a) b
      simp only [Matrix.transpose_apply, Matrix.neg_apply] at this
      rw [this]; ring
    rw [this]; ring
  exact congrFun (congrFun key c) 0

/-- The indices of all slices of the product of degrees `l1` and `l2`. -/
abbrev CGIdx (l1 l2 : ℕ) : Type := Σ k : Fin (2 * min l1 l2 + 1), Fin (2 * (max l1 l2 - min l1 l2 + k.val) + 1)

theorem card_CGIdx (l1 l2 : ℕ) : Fintype.card (CGIdx l1 l2) = Fintype.card (Fin (2 * l1 + 1) × Fin (2 * l2 + 1)) := by
  rw [Fintype.card_sigma, Fintype.card_prod]
  simp only [Fintype.card_fin]
  have key : ∀ n d : ℕ, ∑ k : Fin n, (2 * (d + k.val) + 1) = n * (2 * d) + n * n := by
    intro n d
    induction n with
    | zero => simp
    | succ n ih => rw [Fin.sum_univ_castSucc]; simp only [Fin.val_castSucc, Fin.val_last]; rw [ih]; ring
  rw [key]
  rcases Nat.le_total l1 l2 with h | h
  · rw [Nat.min_eq_left h, Nat.max_eq_right h]
    obtain ⟨k, rfl⟩ := Nat.exists_eq_add_of_le h
    rw [Nat.add_sub_cancel_left]; ring
  · rw [Nat.min_eq_right h, Nat.max_eq_left h]
    obtain ⟨k, rfl⟩ := Nat.exists_eq_add_of_le h
    rw [Nat.add_sub_cancel_left]; ring

/-- All slices, normalised. -/
noncomputable def cgAll (l1 l2 : ℕ) : Matrix (CGIdx l1 l2) (Fin (2 * l1 + 1) × Fin (2 * l2 + 1)) ℝ := fun q p =>
  Real.sqrt (2 * ((max l1 l2 - min l1 l2 + q.1.val : ℕ) : ℝ) + 1) * clebschGordan l1 l2 _ p.1 p.2 q.2

theorem cgAll_mul (l1 l2 : ℕ) : cgAll l1 l2 * (cgAll l1 l2)ᵀ = 1 := by
  ext ⟨k, c⟩ ⟨k', c'⟩
  rw [Matrix.mul_apply]
  simp only [Matrix.transpose_apply, cgAll]
  by_cases hk : k = k'
  · subst hk
    have hr : inRange (2 * l1) (2 * l2) (2 * (max l1 l2 - min l1 l2 + k.val)) := by
      rw [inRange_iff]
      have := k.2
      refine ⟨l2 + (max l1 l2 - min l1 l2 + k.val) - l1, l1 + (max l1 l2 - min l1 l2 + k.val) - l2, l1 + l2 - (max l1 l2 - min l1 l2 + k.val), ?_, ?_, ?_⟩ <;> omega
    have g := congrFun (congrFun (cg_gram hr) c) c'
    rw [Matrix.mul_apply] at g
    simp only [toMat, Matrix.transpose_apply, Matrix.smul_apply, smul_eq_mul] at g
    set s : ℝ := 2 * ((max l1 l2 - min l1 l2 + k.val : ℕ) : ℝ) + 1 with hs
    have hs0 : 0 < s := by positivity
    have : ∀ p : Fin (2 * l1 + 1) × Fin (2 * l2 + 1), Real.sqrt s * clebschGordan l1 l2 _ p.1 p.2 c * (Real.sqrt s * clebschGordan l1 l2 _ p.1 p.2 c') =
        s * (clebschGordan l1 l2 (max l1 l2 - min l1 l2 + k.val) p.1 p.2 c * clebschGordan l1 l2 _ p.1 p.2 c') := by
      intro p
      linear_combination (clebschGordan l1 l2 _ p.1 p.2 c * clebschGordan l1 l2 _ p.1 p.2 c') * Real.mul_self_sqrt hs0.le
    simp only [this, ← Finset.mul_sum]
    rw [g, Matrix.one_apply, Matrix.one_apply]
    by_cases hc : c = c'
    · subst hc; simp only [if_true]; field_simp
    · rw [if_neg hc, if_neg]
      · ring
      · intro e; simp only [Sigma.mk.injEq, heq_eq_eq, true_and] at e; exact hc e
  · have hne : max l1 l2 - min l1 l2 + k.val ≠ max l1 l2 - min l1 l2 + k'.val := by
      intro e; apply hk; apply Fin.ext; omega
    have g := congrFun (congrFun (cg_cross l1 l2 hne) c) c'
    rw [Matrix.mul_apply] at g
    simp only [toMat, Matrix.transpose_apply, Matrix.zero_apply] at g
    rw [Matrix.one_apply, if_neg (fun e => hk (congrArg Sigma.fst e))]
    have : ∀ (x y : ℝ) (f g : Fin (2 * l1 + 1) × Fin (2 * l2 + 1) → ℝ), ∑ p, x * f p * (y * g p) = x * y * ∑ p, f p * g p := by
      intro x y f g; rw [Finset.mul_sum]; apply Finset.sum_congr rfl; intro p _; ring
    rw [this, g, mul_zero]

/-- Completeness: all degrees together form an orthogonal change of basis. -/
theorem cgAll_complete (l1 l2 : ℕ) : (cgAll l1 l2)ᵀ * cgAll l1 l2 = 1 :=
  (Matrix.mul_eq_one_comm_of_card_eq _ _ _ (card_CGIdx l1 l2)).mp (cgAll_mul l1 l2)

end E3nn.SU2
