import Verif.Lemmas.CGInter
import Mathlib.LinearAlgebra.Matrix.Kronecker
import Mathlib.RingTheory.PowerSeries.WellKnown
import Mathlib.Analysis.Normed.Algebra.MatrixExponential

namespace E3nn.SU2

open Nat Finset Matrix Kronecker

section kron
variable {K : Type*} [CommRing K] {N1 N2 N3 : Type*} [Fintype N1] [Fintype N2] [Fintype N3]
  [DecidableEq N1] [DecidableEq N2] [DecidableEq N3]

/-- A tensor as a matrix from pairs. -/
def toMat (E : N1 → N2 → N3 → K) : Matrix N3 (N1 × N2) K := fun C p => E p.1 p.2 C

theorem toMat_mul_kron (E : N1 → N2 → N3 → K) (X : Matrix N1 N1 K) (Y : Matrix N2 N2 K) (C : N3) (p : N1 × N2) :
    (toMat E * (X ⊗ₖ Y)) C p = ∑ A, ∑ B, E A B C * (X A p.1 * Y B p.2) := by
  rw [Matrix.mul_apply, Fintype.sum_prod_type]
  rfl

theorem inter_iff {X1 : Matrix N1 N1 K} {X2 : Matrix N2 N2 K} {X3 : Matrix N3 N3 K} {E : N1 → N2 → N3 → K} :
    Inter X1 X2 X3 E ↔ toMat E * (X1 ⊗ₖ 1 + 1 ⊗ₖ X2) = X3 * toMat E := by
  have h1 : ∀ (C : N3) (p : N1 × N2), (toMat E * (X1 ⊗ₖ (1 : Matrix N2 N2 K))) C p = ∑ A', X1 A' p.1 * E A' p.2 C := by
    intro C p
    rw [toMat_mul_kron]
    apply Finset.sum_congr rfl
    intro A _
    rw [Finset.sum_eq_single p.2]
    · simp [mul_comm]
    · intro b _ hb; simp [hb]
    · simp
  have h2 : ∀ (C : N3) (p : N1 × N2), (toMat E * ((1 : Matrix N1 N1 K) ⊗ₖ X2)) C p = ∑ B', X2 B' p.2 * E p.1 B' C := by
    intro C p
    rw [toMat_mul_kron, Finset.sum_eq_single p.1]
    · apply Finset.sum_congr rfl
      intro B _
      simp [mul_comm]
    · intro b _ hb; simp [hb]
    · simp
  constructor
  · intro h
    ext C p
    rw [Matrix.mul_add, Matrix.add_apply, h1, h2, h p.1 p.2 C]
    rfl
  · intro h A B C
    have := congrFun (congrFun h C) (A, B)
    rw [Matrix.mul_add, Matrix.add_apply, h1, h2] at this
    exact this

/-- Change of basis. -/
theorem Inter.conj {X1 P1 Q1 : Matrix N1 N1 K} {X2 P2 Q2 : Matrix N2 N2 K} {X3 P3 Q3 : Matrix N3 N3 K} {E F : N1 → N2 → N3 → K}
    (h : Inter X1 X2 X3 E) (h1 : Q1 * P1 = 1) (h2 : Q2 * P2 = 1) (h3 : Q3 * P3 = 1)
    (hF : toMat F = P3 * toMat E * (Q1 ⊗ₖ Q2)) : Inter (P1 * X1 * Q1) (P2 * X2 * Q2) (P3 * X3 * Q3) F := by
  rw [inter_iff] at *
  have e1 : (Q1 ⊗ₖ Q2) * ((P1 * X1 * Q1) ⊗ₖ 1 + 1 ⊗ₖ (P2 * X2 * Q2)) = (X1 ⊗ₖ 1 + 1 ⊗ₖ X2) * (Q1 ⊗ₖ Q2) := by
    rw [Matrix.mul_add, Matrix.add_mul, ← Matrix.mul_kronecker_mul, ← Matrix.mul_kronecker_mul, ← Matrix.mul_kronecker_mul,
      ← Matrix.mul_kronecker_mul, Matrix.mul_one, Matrix.mul_one, Matrix.one_mul, Matrix.one_mul, ← Matrix.mul_assoc, ← Matrix.mul_assoc,
      ← Matrix.mul_assoc, ← Matrix.mul_assoc, h1, h2, Matrix.one_mul, Matrix.one_mul]
  rw [hF, Matrix.mul_assoc, e1]
  calc _ = P3 * (toMat E * (X1 ⊗ₖ 1 + 1 ⊗ₖ X2)) * (Q1 ⊗ₖ Q2) := by simp only [Matrix.mul_assoc]
    _ = P3 * X3 * (Q3 * P3) * toMat E * (Q1 ⊗ₖ Q2) := by rw [h, h3]; simp only [Matrix.mul_assoc, Matrix.one_mul]
    _ = _ := by simp only [Matrix.mul_assoc]

end kron

theorem cgComplex_mat (l1 l2 l3 : ℕ) : toMat (cgComplex l1 l2 l3) =
    (changeBasis l3)ᴴ * toMat (cgC (2 * l1) (2 * l2) (2 * l3)) * (changeBasis l1 ⊗ₖ changeBasis l2) := by
  ext m p
  rw [Matrix.mul_apply, Fintype.sum_prod_type]
  simp only [toMat, cgComplex]
  apply Finset.sum_congr rfl
  intro i _
  apply Finset.sum_congr rfl
  intro k _
  rw [Matrix.mul_apply, Finset.sum_mul]
  apply Finset.sum_congr rfl
  intro n _
  rw [Matrix.kronecker_apply]
  simp only [cgC, toMat]
  ring

theorem inter_complex (l1 l2 l3 : ℕ) (i : Fin 3) : Inter (realBasis l1 (generators (2 * l1) i)) (realBasis l2 (generators (2 * l2) i))
    (realBasis l3 (generators (2 * l3) i)) (cgComplex l1 l2 l3) :=
  (inter_gen (2 * l1) (2 * l2) (2 * l3) i).conj (Q_mul_conj l1) (Q_mul_conj l2) (Q_mul_conj l3) (cgComplex_mat l1 l2 l3)

/-- Reflection of the components of the coefficients. -/
theorem cgVal_refl {a b c A B : ℕ} (hA : A ≤ b + c) (hB : B ≤ a + c) (h1 : c ≤ A + B) (h2 : A + B ≤ a + b + c) :
    cgVal a b c (b + c - A) (a + c - B) = (-1) ^ c * cgVal a b c A B := by
  rw [cgVal_eq (A := b + c - A) (B := a + c - B) (A' := A) (B' := B) (C := a + b + c - (A + B)) (D := A + B - c) (by omega) (by omega)
      (by omega) (by omega),
    cgVal_eq (A := A) (B := B) (A' := b + c - A) (B' := a + c - B) (C := A + B - c) (D := a + b + c - (A + B)) (by omega) (by omega)
      (by omega) (by omega)]
  have hw : wval a b c (a + b + c - (A + B)) (A + B - c) (b + c - A) A (a + c - B) B =
      wval a b c (A + B - c) (a + b + c - (A + B)) A (b + c - A) B (a + c - B) := by
    unfold wval
    congr 2
    · congr 1; ring
    · congr 1; ring
  have hs : sval a b c (b + c - A) (a + c - B) = (-1) ^ c * sval a b c A B := by
    unfold sval
    rw [tsum_refl hA hB]
    have : (-1 : ℚ) ^ (a + c - B) * (-1) ^ a = (-1) ^ c * (-1) ^ B := by
      have h3 : (-1 : ℚ) ^ (a + c - B) * (-1) ^ B = (-1) ^ a * (-1) ^ c := by rw [← pow_add, ← pow_add]; congr 1; omega
      have hB2 : ((-1 : ℚ) ^ B) * (-1) ^ B = 1 := by rw [← mul_pow]; norm_num
      have ha2 : ((-1 : ℚ) ^ a) * (-1) ^ a = 1 := by rw [← mul_pow]; norm_num
      calc (-1 : ℚ) ^ (a + c - B) * (-1) ^ a = ((-1 : ℚ) ^ (a + c - B) * (-1) ^ B) * (-1) ^ B * (-1) ^ a := by
            rw [mul_assoc ((-1 : ℚ) ^ (a + c - B)), hB2, mul_one]
        _ = ((-1) ^ a * (-1) ^ a) * (-1) ^ c * (-1) ^ B := by rw [h3]; ring
        _ = _ := by rw [ha2, one_mul]
    linear_combination (tsum a b c A B / (a ! * b !)) * this
  rw [hw, hs]
  push_cast
  ring

theorem su2CG_refl (l1 l2 l3 : ℕ) (A : Fin (2 * l1 + 1)) (B : Fin (2 * l2 + 1)) (C : Fin (2 * l3 + 1)) :
    (-1) ^ (A.val + B.val + C.val) * su2ClebschGordan (2 * l1) (2 * l2) (2 * l3) A.rev B.rev C.rev =
      su2ClebschGordan (2 * l1) (2 * l2) (2 * l3) A B C := by
  by_cases h : inRange (2 * l1) (2 * l2) (2 * l3)
  · obtain ⟨a, b, c, e1, e2, e3⟩ := inRange_iff.mp h
    have key : ∀ (n1 n2 n3 : ℕ) (e1 : n1 = b + c) (e2 : n2 = a + c) (e3 : n3 = a + b) (A : Fin (n1 + 1)) (B : Fin (n2 + 1)) (C : Fin (n3 + 1)),
        (-1) ^ (A.val + B.val + C.val) * su2ClebschGordan n1 n2 n3 A.rev B.rev C.rev = su2ClebschGordan n1 n2 n3 A B C := by
      rintro n1 n2 n3 rfl rfl rfl A B C
      rw [su2CG_eq, su2CG_eq]
      simp only [Fin.val_rev]
      have hA := A.isLt
      have hB := B.isLt
      have hC := C.isLt
      by_cases h : C.val + c = A.val + B.val
      · rw [if_pos h, if_pos (by omega), show b + c + 1 - (A.val + 1) = b + c - A.val by omega,
          show a + c + 1 - (B.val + 1) = a + c - B.val by omega, cgVal_refl (by omega) (by omega) (by omega) (by omega), ← mul_assoc,
          ← pow_add, show A.val + B.val + C.val + c = 2 * (A.val + B.val) by omega, pow_mul]
        simp
      · rw [if_neg h, if_neg (by omega), mul_zero]
    exact key _ _ _ e1 e2 e3 A B C
  · rw [su2CG_zero h, su2CG_zero h, mul_zero]

/-- The Clebsch-Gordan tensor in the real basis is real. -/
theorem cgComplex_real (l1 l2 l3 : ℕ) (j : Fin (2 * l1 + 1)) (l : Fin (2 * l2 + 1)) (m : Fin (2 * l3 + 1)) :
    (starRingEnd ℂ) (cgComplex l1 l2 l3 j l m) = cgComplex l1 l2 l3 j l m := by
  have hQ : ∀ (n : ℕ) (i j : Fin (2 * n + 1)), (starRingEnd ℂ) (changeBasis n i j) = (-1) ^ i.val * changeBasis n i.rev j := by
    intro n i j
    have := congrFun (congrFun (Q_conj n) i) j
    unfold sMat at this
    rw [an_mul, Matrix.map_apply] at this
    exact this
  have hQ3 : ∀ (n : ℕ) (i j : Fin (2 * n + 1)), (starRingEnd ℂ) ((changeBasis n)ᴴ i j) = (-1) ^ j.val * (changeBasis n)ᴴ i j.rev := by
    intro n i j
    have h := hQ n j i
    rw [Matrix.conjTranspose_apply, Matrix.conjTranspose_apply]
    have h2 := congrArg (starRingEnd ℂ) h
    simp only [map_mul, map_pow, map_neg, map_one] at h2
    exact h2
  unfold cgComplex
  simp only [map_sum, map_mul, hQ, hQ3, Complex.conj_ofReal]
  rw [← Equiv.sum_comp Fin.revPerm]
  apply Finset.sum_congr rfl
  intro i _
  rw [← Equiv.sum_comp Fin.revPerm]
  apply Finset.sum_congr rfl
  intro k _
  rw [← Equiv.sum_comp Fin.revPerm]
  apply Finset.sum_congr rfl
  intro n _
  have h := su2CG_refl l1 l2 l3 i.rev k.rev n.rev
  simp only [Fin.rev_rev] at h
  simp only [Fin.revPerm_apply, Fin.rev_rev]
  rw [← h, pow_add, pow_add]
  have e1 := negpow_sq i.rev.val
  have e2 := negpow_sq k.rev.val
  have e3 := negpow_sq n.rev.val
  push_cast
  have : ((-1 : ℂ) ^ i.rev.val * (-1 : ℂ) ^ i.rev.val) * ((-1 : ℂ) ^ k.rev.val * (-1 : ℂ) ^ k.rev.val) * ((-1 : ℂ) ^ n.rev.val * (-1 : ℂ) ^ n.rev.val) = 1 := by
    rw [e1, e2, e3]; ring
  linear_combination (changeBasis l1 i j * changeBasis l2 k l * (changeBasis l3)ᴴ m n * (su2ClebschGordan (2 * l1) (2 * l2) (2 * l3) i k n : ℂ)) * this

theorem cg_ofReal (l1 l2 l3 : ℕ) (j : Fin (2 * l1 + 1)) (l : Fin (2 * l2 + 1)) (m : Fin (2 * l3 + 1)) :
    ((clebschGordan l1 l2 l3 j l m : ℝ) : ℂ) = cgComplex l1 l2 l3 j l m :=
  Complex.conj_eq_iff_re.mp (cgComplex_real l1 l2 l3 j l m)

/-- `clebsch_gordan` intertwines the generators. -/
theorem inter_real (l1 l2 l3 : ℕ) (i : Fin 3) :
    Inter (so3Generators l1 i) (so3Generators l2 i) (so3Generators l3 i) (clebschGordan l1 l2 l3) := by
  intro A B C
  have h := inter_complex l1 l2 l3 i A B C
  rw [← so3_ofReal, ← so3_ofReal, ← so3_ofReal] at h
  simp only [← cg_ofReal, Matrix.map_apply] at h
  exact_mod_cast h

theorem choose_conv (a b c : ℕ) : ∑ k ∈ range (c + 1), (a + k).choose a * (b + (c - k)).choose b = (a + b + c + 1).choose c := by
  have h := congrArg (PowerSeries.coeff (R := ℤ) c) (congrArg Units.val (PowerSeries.invOneSubPow_add ℤ (a + 1) (b + 1)))
  rw [show a + 1 + (b + 1) = (a + b + 1) + 1 by ring, Units.val_mul, PowerSeries.invOneSubPow_val_succ_eq_mk_add_choose,
    PowerSeries.invOneSubPow_val_succ_eq_mk_add_choose, PowerSeries.invOneSubPow_val_succ_eq_mk_add_choose, PowerSeries.coeff_mk,
    PowerSeries.coeff_mul, Finset.Nat.sum_antidiagonal_eq_sum_range_succ_mk] at h
  simp only [PowerSeries.coeff_mk] at h
  have h2 : (a + b + 1 + c).choose (a + b + 1) = (a + b + c + 1).choose c := by
    rw [show a + b + 1 + c = a + b + c + 1 by ring, ← Nat.choose_symm (show c ≤ a + b + c + 1 by omega)]
    congr 1; omega
  rw [h2] at h
  exact_mod_cast h.symm

end E3nn.SU2
