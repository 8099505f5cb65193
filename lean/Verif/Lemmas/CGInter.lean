import Verif.Lemmas.CGForm
import Verif.Lemmas.SO3

namespace E3nn.SU2

open Nat Finset

theorem tsum_zero_low {a b c A B : ℕ} (h : A + B < c) : tsum a b c A B = 0 := by
  unfold tsum
  apply Finset.sum_eq_zero
  intro v _
  rw [cb_neg (by omega)]; simp

theorem tsum_zero_high {a b c A B : ℕ} (h : a + b + c < A + B) : tsum a b c A B = 0 := by
  unfold tsum
  apply Finset.sum_eq_zero
  intro v hv
  have := Finset.mem_range.mp hv
  rw [cb_gt (by omega)]; simp

theorem sqrt_helper {x y z k : ℝ} (hx : 0 ≤ x) (hk : 0 ≤ k) (h : x * y = z * k ^ 2) :
    Real.sqrt x * Real.sqrt y = Real.sqrt z * k := by
  rw [← Real.sqrt_mul hx, h, Real.sqrt_mul' _ (by positivity), Real.sqrt_sq hk]

/-- The signed sum. -/
def sval (a b c A B : ℕ) : ℚ := (-1) ^ B * tsum a b c A B / (a ! * b !)

/-- The common square root. -/
noncomputable def wval (a b c C D A A' B B' : ℕ) : ℝ :=
  Real.sqrt ((((a)! * (b)! * (c)! * (C)! * (D)! : ℕ) : ℝ) / ((a + b + c + 1)! * (A)! * (A')! * (B)! * (B')! : ℕ))

theorem cgVal_eq {a b c A B A' B' C D : ℕ} (hA : b + c = A + A') (hB : a + c = B + B') (hC : A + B = C + c) (hD : a + b = C + D) :
    cgVal a b c A B = wval a b c C D A A' B B' * (sval a b c A B : ℝ) := by
  unfold cgVal wval sval
  rw [show A + B - c = C by omega, show a + b + c - (A + B) = D by omega, show b + c - A = A' by omega,
    show a + c - B = B' by omega]

theorem wval_step1 (a b c C D A A' B B' : ℕ) :
    Real.sqrt (((A' : ℝ) + 1) * (A + 1)) * wval a b c C D A (A' + 1) B B' = wval a b c C D (A + 1) A' B B' * (A + 1) := by
  unfold wval
  apply sqrt_helper (by positivity) (by positivity)
  have : ((A)! : ℝ) ≠ 0 := by positivity
  have : ((A')! : ℝ) ≠ 0 := by positivity
  have : ((B)! : ℝ) ≠ 0 := by positivity
  have : ((B')! : ℝ) ≠ 0 := by positivity
  have : ((a + b + c + 1)! : ℝ) ≠ 0 := by positivity
  rw [Nat.factorial_succ A, Nat.factorial_succ A']
  push_cast
  field_simp

theorem wval_step2 (a b c C D A A' B B' : ℕ) :
    Real.sqrt (((B' : ℝ) + 1) * (B + 1)) * wval a b c C D A A' B (B' + 1) = wval a b c C D A A' (B + 1) B' * (B + 1) := by
  unfold wval
  apply sqrt_helper (by positivity) (by positivity)
  have : ((A)! : ℝ) ≠ 0 := by positivity
  have : ((A')! : ℝ) ≠ 0 := by positivity
  have : ((B)! : ℝ) ≠ 0 := by positivity
  have : ((B')! : ℝ) ≠ 0 := by positivity
  have : ((a + b + c + 1)! : ℝ) ≠ 0 := by positivity
  rw [Nat.factorial_succ B, Nat.factorial_succ B']
  push_cast
  field_simp

theorem wval_step1' (a b c C D A A' B B' : ℕ) :
    Real.sqrt (((A' : ℝ) + 1) * (A + 1)) * wval a b c C D (A + 1) A' B B' = wval a b c C D A (A' + 1) B B' * (A' + 1) := by
  unfold wval
  apply sqrt_helper (by positivity) (by positivity)
  have : ((A)! : ℝ) ≠ 0 := by positivity
  have : ((A')! : ℝ) ≠ 0 := by positivity
  have : ((B)! : ℝ) ≠ 0 := by positivity
  have : ((B')! : ℝ) ≠ 0 := by positivity
  have : ((a + b + c + 1)! : ℝ) ≠ 0 := by positivity
  rw [Nat.factorial_succ A, Nat.factorial_succ A']
  push_cast
  field_simp

theorem wval_step2' (a b c C D A A' B B' : ℕ) :
    Real.sqrt (((B' : ℝ) + 1) * (B + 1)) * wval a b c C D A A' (B + 1) B' = wval a b c C D A A' B (B' + 1) * (B' + 1) := by
  unfold wval
  apply sqrt_helper (by positivity) (by positivity)
  have : ((A)! : ℝ) ≠ 0 := by positivity
  have : ((A')! : ℝ) ≠ 0 := by positivity
  have : ((B)! : ℝ) ≠ 0 := by positivity
  have : ((B')! : ℝ) ≠ 0 := by positivity
  have : ((a + b + c + 1)! : ℝ) ≠ 0 := by positivity
  rw [Nat.factorial_succ B, Nat.factorial_succ B']
  push_cast
  field_simp

theorem wval_step3 (a b c C D A A' B B' : ℕ) :
    Real.sqrt (((D : ℝ) + 1) * (C + 1)) * wval a b c (C + 1) D A A' B B' = wval a b c C (D + 1) A A' B B' * (C + 1) := by
  unfold wval
  apply sqrt_helper (by positivity) (by positivity)
  have : ((A)! : ℝ) ≠ 0 := by positivity
  have : ((A')! : ℝ) ≠ 0 := by positivity
  have : ((B)! : ℝ) ≠ 0 := by positivity
  have : ((B')! : ℝ) ≠ 0 := by positivity
  have : ((a + b + c + 1)! : ℝ) ≠ 0 := by positivity
  rw [Nat.factorial_succ C, Nat.factorial_succ D]
  push_cast
  field_simp

theorem wval_step3' (a b c C D A A' B B' : ℕ) :
    Real.sqrt (((D : ℝ) + 1) * (C + 1)) * wval a b c C (D + 1) A A' B B' = wval a b c (C + 1) D A A' B B' * (D + 1) := by
  unfold wval
  apply sqrt_helper (by positivity) (by positivity)
  have : ((A)! : ℝ) ≠ 0 := by positivity
  have : ((A')! : ℝ) ≠ 0 := by positivity
  have : ((B)! : ℝ) ≠ 0 := by positivity
  have : ((B')! : ℝ) ≠ 0 := by positivity
  have : ((a + b + c + 1)! : ℝ) ≠ 0 := by positivity
  rw [Nat.factorial_succ C, Nat.factorial_succ D]
  push_cast
  field_simp

theorem sval_lower {a b c A B : ℕ} (hA : A ≤ b + c) (hB : B ≤ a + c) :
    ((A : ℚ) + B - c) * sval a b c A B = A * sval a b c (A - 1) B + B * sval a b c A (B - 1) := by
  have h := tsum_lower hA hB
  unfold sval
  rcases Nat.eq_zero_or_pos B with h0 | h0
  · subst h0
    simp only [Nat.cast_zero, zero_mul, sub_zero, add_zero, pow_zero, one_mul] at *
    rw [mul_div_assoc', h, mul_div_assoc']
  · obtain ⟨k, rfl⟩ : ∃ k, B = k + 1 := ⟨B - 1, by omega⟩
    rw [Nat.add_sub_cancel] at *
    have e : ((A : ℚ) + (k + 1 : ℕ) - c) * ((-1) ^ (k + 1) * tsum a b c A (k + 1) / (a ! * b !)) =
      (-1) ^ (k + 1) * (((A : ℚ) + (k + 1 : ℕ) - c) * tsum a b c A (k + 1)) / (a ! * b !) := by ring
    rw [e, h, pow_succ]
    ring

theorem sval_raise {a b c A B : ℕ} (hA : A ≤ b + c) (hB : B ≤ a + c) :
    ((a : ℚ) + b - (A + B - c)) * sval a b c A B =
      ((b : ℚ) + c - A) * sval a b c (A + 1) B + ((a : ℚ) + c - B) * sval a b c A (B + 1) := by
  have h := tsum_raise hA hB
  unfold sval
  have e : ((a : ℚ) + b - (A + B - c)) * ((-1) ^ B * tsum a b c A B / (a ! * b !)) =
      (-1) ^ B * (((a : ℚ) + b - (A + B - c)) * tsum a b c A B) / (a ! * b !) := by ring
  rw [e, h, pow_succ]
  ring

/-- The lowering relation between coefficients. -/
theorem cg_lower {a b c A B C : ℕ} (hA : A ≤ b + c) (hB : B ≤ a + c) (hC : C ≤ a + b) (h : C + 1 + c = A + B) :
    (if 0 < A then Real.sqrt (((b + c : ℝ) - (A - 1 : ℕ)) * ((A - 1 : ℕ) + 1)) * cgVal a b c (A - 1) B else 0) +
    (if 0 < B then Real.sqrt (((a + c : ℝ) - (B - 1 : ℕ)) * ((B - 1 : ℕ) + 1)) * cgVal a b c A (B - 1) else 0) =
    (if C < a + b then Real.sqrt (((a + b : ℝ) - C) * (C + 1)) * cgVal a b c A B else 0) := by
  obtain ⟨A', hA'⟩ := Nat.exists_eq_add_of_le hA
  obtain ⟨B', hB'⟩ := Nat.exists_eq_add_of_le hB
  obtain ⟨D, hD⟩ := Nat.exists_eq_add_of_le hC
  have qA : (b + c : ℝ) = A + A' := by exact_mod_cast hA'
  have qB : (a + c : ℝ) = B + B' := by exact_mod_cast hB'
  have qC : (a + b : ℝ) = C + D := by exact_mod_cast hD
  have t1 : (if 0 < A then Real.sqrt (((b + c : ℝ) - (A - 1 : ℕ)) * ((A - 1 : ℕ) + 1)) * cgVal a b c (A - 1) B else 0) =
      wval a b c C D A A' B B' * (A * (sval a b c (A - 1) B : ℝ)) := by
    split
    · obtain ⟨k, rfl⟩ : ∃ k, A = k + 1 := ⟨A - 1, by omega⟩
      rw [Nat.add_sub_cancel, qA, cgVal_eq (A := k) (A' := A' + 1) (B' := B') (C := C) (D := D) (by omega) (by omega) (by omega) (by omega)]
      push_cast
      rw [show (k + 1 + A' - k : ℝ) = A' + 1 by ring, ← mul_assoc, wval_step1]; ring
    · rw [show A = 0 by omega]; simp
  have t2 : (if 0 < B then Real.sqrt (((a + c : ℝ) - (B - 1 : ℕ)) * ((B - 1 : ℕ) + 1)) * cgVal a b c A (B - 1) else 0) =
      wval a b c C D A A' B B' * (B * (sval a b c A (B - 1) : ℝ)) := by
    split
    · obtain ⟨k, rfl⟩ : ∃ k, B = k + 1 := ⟨B - 1, by omega⟩
      rw [Nat.add_sub_cancel, qB, cgVal_eq (A := A) (A' := A') (B' := B' + 1) (C := C) (D := D) (by omega) (by omega) (by omega) (by omega)]
      push_cast
      rw [show (k + 1 + B' - k : ℝ) = B' + 1 by ring, ← mul_assoc, wval_step2]; ring
    · rw [show B = 0 by omega]; simp
  have t3 : (if C < a + b then Real.sqrt (((a + b : ℝ) - C) * (C + 1)) * cgVal a b c A B else 0) =
      wval a b c C D A A' B B' * ((C + 1) * (sval a b c A B : ℝ)) := by
    split
    · obtain ⟨k, rfl⟩ : ∃ k, D = k + 1 := ⟨D - 1, by omega⟩
      rw [qC, cgVal_eq (A' := A') (B' := B') (C := C + 1) (D := k) (by omega) (by omega) (by omega) (by omega)]
      push_cast
      rw [show (C + (k + 1) - C : ℝ) = k + 1 by ring, ← mul_assoc, wval_step3]; ring
    · unfold sval
      rw [tsum_zero_high (by omega)]; simp
  rw [t1, t2, t3, ← mul_add]
  congr 1
  have hs := sval_lower hA hB
  have hs' : (((A : ℚ) + B - c) * sval a b c A B : ℚ) = ((C : ℚ) + 1) * sval a b c A B := by
    have : ((C + 1 + c : ℕ) : ℚ) = ((A + B : ℕ) : ℚ) := by rw [h]
    push_cast at this
    congr 1; linarith
  rw [hs'] at hs
  have := congrArg (fun q : ℚ => (q : ℝ)) hs
  push_cast at this
  exact this.symm

/-- The raising relation between coefficients. -/
theorem cg_raise {a b c A B C : ℕ} (hA : A ≤ b + c) (hB : B ≤ a + c) (hC : C ≤ a + b) (h : C + c = A + B + 1) :
    (if A < b + c then Real.sqrt (((b + c : ℝ) - A) * (A + 1)) * cgVal a b c (A + 1) B else 0) +
    (if B < a + c then Real.sqrt (((a + c : ℝ) - B) * (B + 1)) * cgVal a b c A (B + 1) else 0) =
    (if 0 < C then Real.sqrt (((a + b : ℝ) - (C - 1 : ℕ)) * ((C - 1 : ℕ) + 1)) * cgVal a b c A B else 0) := by
  obtain ⟨A', hA'⟩ := Nat.exists_eq_add_of_le hA
  obtain ⟨B', hB'⟩ := Nat.exists_eq_add_of_le hB
  obtain ⟨D, hD⟩ := Nat.exists_eq_add_of_le hC
  have qA : (b + c : ℝ) = A + A' := by exact_mod_cast hA'
  have qB : (a + c : ℝ) = B + B' := by exact_mod_cast hB'
  have qC : (a + b : ℝ) = C + D := by exact_mod_cast hD
  have t1 : (if A < b + c then Real.sqrt (((b + c : ℝ) - A) * (A + 1)) * cgVal a b c (A + 1) B else 0) =
      wval a b c C D A A' B B' * (A' * (sval a b c (A + 1) B : ℝ)) := by
    split
    · obtain ⟨k, rfl⟩ : ∃ k, A' = k + 1 := ⟨A' - 1, by omega⟩
      rw [qA, cgVal_eq (A := A + 1) (A' := k) (B' := B') (C := C) (D := D) (by omega) (by omega) (by omega) (by omega)]
      push_cast
      rw [show (A + (k + 1) - A : ℝ) = k + 1 by ring, ← mul_assoc, wval_step1']; ring
    · rw [show A' = 0 by omega]; simp
  have t2 : (if B < a + c then Real.sqrt (((a + c : ℝ) - B) * (B + 1)) * cgVal a b c A (B + 1) else 0) =
      wval a b c C D A A' B B' * (B' * (sval a b c A (B + 1) : ℝ)) := by
    split
    · obtain ⟨k, rfl⟩ : ∃ k, B' = k + 1 := ⟨B' - 1, by omega⟩
      rw [qB, cgVal_eq (A := A) (A' := A') (B := B + 1) (B' := k) (C := C) (D := D) (by omega) (by omega) (by omega) (by omega)]
      push_cast
      rw [show (B + (k + 1) - B : ℝ) = k + 1 by ring, ← mul_assoc, wval_step2']; ring
    · rw [show B' = 0 by omega]; simp
  have t3 : (if 0 < C then Real.sqrt (((a + b : ℝ) - (C - 1 : ℕ)) * ((C - 1 : ℕ) + 1)) * cgVal a b c A B else 0) =
      wval a b c C D A A' B B' * ((D + 1) * (sval a b c A B : ℝ)) := by
    split
    · obtain ⟨k, rfl⟩ : ∃ k, C = k + 1 := ⟨C - 1, by omega⟩
      rw [Nat.add_sub_cancel, qC, cgVal_eq (A' := A') (B' := B') (C := k) (D := D + 1) (by omega) (by omega) (by omega) (by omega)]
      push_cast
      rw [show (k + 1 + D - k : ℝ) = D + 1 by ring, ← mul_assoc, wval_step3']; ring
    · unfold sval
      rw [tsum_zero_low (by omega)]; simp
  rw [t1, t2, t3, ← mul_add]
  congr 1
  have hs := sval_raise hA hB
  have e1 : ((a : ℚ) + b - (A + B - c)) = D + 1 := by
    have h1 : ((C + c : ℕ) : ℚ) = ((A + B + 1 : ℕ) : ℚ) := by rw [h]
    have h2 : ((a + b : ℕ) : ℚ) = ((C + D : ℕ) : ℚ) := by rw [hD]
    push_cast at h1 h2
    linarith
  have e2 : ((b : ℚ) + c - A) = A' := by
    have h2 : ((b + c : ℕ) : ℚ) = ((A + A' : ℕ) : ℚ) := by rw [hA']
    push_cast at h2; linarith
  have e3 : ((a : ℚ) + c - B) = B' := by
    have h2 : ((a + c : ℕ) : ℚ) = ((B + B' : ℕ) : ℚ) := by rw [hB']
    push_cast at h2; linarith
  rw [e1, e2, e3] at hs
  have := congrArg (fun q : ℚ => (q : ℝ)) hs
  push_cast at this
  exact this.symm

open Matrix

/-- The tensor `E` intertwines the matrices `X1 ⊗ 1 + 1 ⊗ X2` and `X3`. -/
def Inter {K : Type*} [CommRing K] {N1 N2 N3 : Type*} [Fintype N1] [Fintype N2] [Fintype N3]
    (X1 : Matrix N1 N1 K) (X2 : Matrix N2 N2 K) (X3 : Matrix N3 N3 K) (E : N1 → N2 → N3 → K) : Prop :=
  ∀ A B C, ∑ A', X1 A' A * E A' B C + ∑ B', X2 B' B * E A B' C = ∑ C', X3 C C' * E A B C'

section lin
variable {K : Type*} [CommRing K] {N1 N2 N3 : Type*} [Fintype N1] [Fintype N2] [Fintype N3]
  {X1 Y1 : Matrix N1 N1 K} {X2 Y2 : Matrix N2 N2 K} {X3 Y3 : Matrix N3 N3 K} {E : N1 → N2 → N3 → K}

theorem Inter.add (h : Inter X1 X2 X3 E) (k : Inter Y1 Y2 Y3 E) : Inter (X1 + Y1) (X2 + Y2) (X3 + Y3) E := by
  intro A B C
  simp only [Matrix.add_apply, add_mul, Finset.sum_add_distrib]
  rw [← h A B C, ← k A B C]; ring

theorem Inter.smul (c : K) (h : Inter X1 X2 X3 E) : Inter (c • X1) (c • X2) (c • X3) E := by
  intro A B C
  simp only [Matrix.smul_apply, smul_eq_mul, mul_assoc, ← Finset.mul_sum]
  rw [← h A B C]; ring

theorem Inter.neg (h : Inter X1 X2 X3 E) : Inter (-X1) (-X2) (-X3) E := by
  have := h.smul (-1)
  simpa using this

theorem Inter.zero : Inter X1 X2 X3 (fun _ _ _ => (0 : K)) := by
  intro A B C; simp

end lin

theorem sum_up_row {K : Type*} [CommRing K] (n : ℕ) (f : ℕ → K) (g : Fin (n + 1) → K) (A : Fin (n + 1)) :
    ∑ A', up n f A' A * g A' = if h : A.val < n then f A * g ⟨A.val + 1, by omega⟩ else 0 := by
  have := mul_up f (Matrix.of fun _ A' => g A' : Matrix (Fin (n + 1)) (Fin (n + 1)) K) 0 A
  rw [Matrix.mul_apply] at this
  simp only [Matrix.of_apply, mul_comm (g _)] at this
  exact this

theorem sum_dn_row {K : Type*} [CommRing K] (n : ℕ) (f : ℕ → K) (g : Fin (n + 1) → K) (A : Fin (n + 1)) :
    ∑ A', dn n f A' A * g A' = if h : 0 < A.val then f (A.val - 1) * g ⟨A.val - 1, by omega⟩ else 0 := by
  have := mul_dn f (Matrix.of fun _ A' => g A' : Matrix (Fin (n + 1)) (Fin (n + 1)) K) 0 A
  rw [Matrix.mul_apply] at this
  simp only [Matrix.of_apply, mul_comm (g _)] at this
  exact this

theorem sum_up_col {K : Type*} [CommRing K] (n : ℕ) (f : ℕ → K) (g : Fin (n + 1) → K) (C : Fin (n + 1)) :
    ∑ C', up n f C C' * g C' = if h : 0 < C.val then f (C.val - 1) * g ⟨C.val - 1, by omega⟩ else 0 := by
  have := up_mul f (Matrix.of fun C' _ => g C' : Matrix (Fin (n + 1)) (Fin (n + 1)) K) C 0
  rw [Matrix.mul_apply] at this
  exact this

theorem sum_dn_col {K : Type*} [CommRing K] (n : ℕ) (f : ℕ → K) (g : Fin (n + 1) → K) (C : Fin (n + 1)) :
    ∑ C', dn n f C C' * g C' = if h : C.val < n then f C * g ⟨C.val + 1, by omega⟩ else 0 := by
  have := dn_mul f (Matrix.of fun C' _ => g C' : Matrix (Fin (n + 1)) (Fin (n + 1)) K) C 0
  rw [Matrix.mul_apply] at this
  exact this

theorem sum_dg_row {K : Type*} [CommRing K] (n : ℕ) (f : ℕ → K) (g : Fin (n + 1) → K) (A : Fin (n + 1)) :
    ∑ A', dg n f A' A * g A' = f A * g A := by
  rw [Finset.sum_eq_single A]
  · simp [dg]
  · intro k _ hk; simp [dg, hk]
  · simp

theorem sum_dg_col {K : Type*} [CommRing K] (n : ℕ) (f : ℕ → K) (g : Fin (n + 1) → K) (C : Fin (n + 1)) :
    ∑ C', dg n f C C' * g C' = f C * g C := by
  rw [Finset.sum_eq_single C]
  · simp [dg]
  · intro k _ hk; simp [dg, Ne.symm hk]
  · simp

/-- The Clebsch-Gordan tensor as complex numbers. -/
noncomputable def cgC (n1 n2 n3 : ℕ) (A : Fin (n1 + 1)) (B : Fin (n2 + 1)) (C : Fin (n3 + 1)) : ℂ :=
  (su2ClebschGordan n1 n2 n3 A B C : ℂ)

theorem rc_eq {n k : ℕ} (x : ℝ) (h : (n : ℝ) = x) : rc n k = ((Real.sqrt ((x - k) * (k + 1)) : ℝ) : ℂ) := by
  unfold rc; rw [h]

theorem inter_dn (a b c : ℕ) : Inter (dn (b + c) (rc (b + c))) (dn (a + c) (rc (a + c))) (dn (a + b) (rc (a + b)))
    (cgC (b + c) (a + c) (a + b)) := by
  intro A B C
  rw [sum_dn_row, sum_dn_row, sum_dn_col]
  simp only [cgC, su2CG_eq]
  have hA := A.isLt
  have hB := B.isLt
  have hC := C.isLt
  by_cases h : C.val + 1 + c = A.val + B.val
  · have := cg_lower (a := a) (b := b) (c := c) (A := A) (B := B) (C := C) (by omega) (by omega) (by omega) h
    have e1 : (if h : 0 < A.val then rc (b + c) (A.val - 1) * (((if C.val + c = A.val - 1 + B.val then cgVal a b c (A.val - 1) B else 0) : ℝ) : ℂ) else 0) =
        (((if 0 < A.val then Real.sqrt (((b + c : ℝ) - (A.val - 1 : ℕ)) * ((A.val - 1 : ℕ) + 1)) * cgVal a b c (A.val - 1) B else 0) : ℝ) : ℂ) := by
      split
      · rw [if_pos (by omega), rc_eq (b + c : ℝ) (by push_cast; rfl)]; push_cast; rfl
      · simp
    have e2 : (if h : 0 < B.val then rc (a + c) (B.val - 1) * (((if C.val + c = A.val + (B.val - 1) then cgVal a b c A (B.val - 1) else 0) : ℝ) : ℂ) else 0) =
        (((if 0 < B.val then Real.sqrt (((a + c : ℝ) - (B.val - 1 : ℕ)) * ((B.val - 1 : ℕ) + 1)) * cgVal a b c A (B.val - 1) else 0) : ℝ) : ℂ) := by
      split
      · rw [if_pos (by omega), rc_eq (a + c : ℝ) (by push_cast; rfl)]; push_cast; rfl
      · simp
    have e3 : (if h : C.val < a + b then rc (a + b) C * (((if C.val + 1 + c = A.val + B.val then cgVal a b c A B else 0) : ℝ) : ℂ) else 0) =
        (((if C.val < a + b then Real.sqrt (((a + b : ℝ) - C.val) * (C.val + 1)) * cgVal a b c A B else 0) : ℝ) : ℂ) := by
      split
      · rw [rc_eq (a + b : ℝ) (by push_cast; rfl)]; push_cast; rfl
      · simp
    rw [e1, e2, e3, ← this]; push_cast; rfl
  · have z1 : (if h : 0 < A.val then rc (b + c) (A.val - 1) * (((if C.val + c = A.val - 1 + B.val then cgVal a b c (A.val - 1) B else 0) : ℝ) : ℂ) else 0) = 0 := by
      split
      · rw [if_neg (by omega)]; simp
      · rfl
    have z2 : (if h : 0 < B.val then rc (a + c) (B.val - 1) * (((if C.val + c = A.val + (B.val - 1) then cgVal a b c A (B.val - 1) else 0) : ℝ) : ℂ) else 0) = 0 := by
      split
      · rw [if_neg (by omega)]; simp
      · rfl
    rw [z1, z2]
    simp [h]

theorem inter_up (a b c : ℕ) : Inter (up (b + c) (rc (b + c))) (up (a + c) (rc (a + c))) (up (a + b) (rc (a + b)))
    (cgC (b + c) (a + c) (a + b)) := by
  intro A B C
  rw [sum_up_row, sum_up_row, sum_up_col]
  simp only [cgC, su2CG_eq]
  have hA := A.isLt
  have hB := B.isLt
  have hC := C.isLt
  by_cases h : C.val + c = A.val + B.val + 1
  · have := cg_raise (a := a) (b := b) (c := c) (A := A) (B := B) (C := C) (by omega) (by omega) (by omega) h
    have e1 : (if h : A.val < b + c then rc (b + c) A.val * (((if C.val + c = A.val + 1 + B.val then cgVal a b c (A.val + 1) B else 0) : ℝ) : ℂ) else 0) =
        (((if A.val < b + c then Real.sqrt (((b + c : ℝ) - A.val) * (A.val + 1)) * cgVal a b c (A.val + 1) B else 0) : ℝ) : ℂ) := by
      split
      · rw [if_pos (by omega), rc_eq (b + c : ℝ) (by push_cast; rfl)]; push_cast; rfl
      · simp
    have e2 : (if h : B.val < a + c then rc (a + c) B.val * (((if C.val + c = A.val + (B.val + 1) then cgVal a b c A (B.val + 1) else 0) : ℝ) : ℂ) else 0) =
        (((if B.val < a + c then Real.sqrt (((a + c : ℝ) - B.val) * (B.val + 1)) * cgVal a b c A (B.val + 1) else 0) : ℝ) : ℂ) := by
      split
      · rw [if_pos (by omega), rc_eq (a + c : ℝ) (by push_cast; rfl)]; push_cast; rfl
      · simp
    have e3 : (if h : 0 < C.val then rc (a + b) (C.val - 1) * (((if C.val - 1 + c = A.val + B.val then cgVal a b c A B else 0) : ℝ) : ℂ) else 0) =
        (((if 0 < C.val then Real.sqrt (((a + b : ℝ) - (C.val - 1 : ℕ)) * ((C.val - 1 : ℕ) + 1)) * cgVal a b c A B else 0) : ℝ) : ℂ) := by
      split
      · rw [if_pos (by omega), rc_eq (a + b : ℝ) (by push_cast; rfl)]; push_cast; rfl
      · simp
    rw [e1, e2, e3, ← this]; push_cast; rfl
  · have z3 : (if h : 0 < C.val then rc (a + b) (C.val - 1) * (((if C.val - 1 + c = A.val + B.val then cgVal a b c A B else 0) : ℝ) : ℂ) else 0) = 0 := by
      split
      · rw [if_neg (by omega)]; simp
      · rfl
    have h1 : ¬ (C.val + c = A.val + 1 + B.val) := by omega
    have h2 : ¬ (C.val + c = A.val + (B.val + 1)) := by omega
    rw [z3]
    simp [h1, h2]

theorem inter_dg (a b c : ℕ) : Inter (dg (b + c) (im (b + c))) (dg (a + c) (im (a + c))) (dg (a + b) (im (a + b)))
    (cgC (b + c) (a + c) (a + b)) := by
  intro A B C
  rw [sum_dg_row, sum_dg_row, sum_dg_col, ← add_mul]
  simp only [cgC, su2CG_eq]
  by_cases h : C.val + c = A.val + B.val
  · congr 1
    unfold im
    have : ((C.val + c : ℕ) : ℂ) = ((A.val + B.val : ℕ) : ℂ) := by rw [h]
    push_cast at this ⊢
    linear_combination (-Complex.I) * this
  · rw [if_neg h]; simp

/-- The Clebsch-Gordan tensor intertwines the generators. -/
theorem inter_gen (n1 n2 n3 : ℕ) (i : Fin 3) : Inter (generators n1 i) (generators n2 i) (generators n3 i) (cgC n1 n2 n3) := by
  by_cases h : inRange n1 n2 n3
  · obtain ⟨a, b, c, rfl, rfl, rfl⟩ := inRange_iff.mp h
    have hn : ∀ n, up n (fun b => -rc n b) = -up n (rc n) := by
      intro n; ext x y; simp only [up, Matrix.neg_apply]; split <;> simp
    have hU := (inter_up a b c).neg
    have hL := inter_dn a b c
    fin_cases i
    · show Inter (generators _ 0) (generators _ 0) (generators _ 0) _
      rw [gen_zero, gen_zero, gen_zero, hn, hn, hn]
      exact (hU.add hL).smul _
    · show Inter (generators _ 1) (generators _ 1) (generators _ 1) _
      rw [gen_one, gen_one, gen_one]
      exact inter_dg a b c
    · show Inter (generators _ 2) (generators _ 2) (generators _ 2) _
      rw [gen_two, gen_two, gen_two, hn, hn, hn, sub_eq_add_neg, sub_eq_add_neg, sub_eq_add_neg]
      exact (hU.add hL.neg).smul _
  · have : cgC n1 n2 n3 = fun _ _ _ => 0 := by
      funext A B C; unfold cgC; rw [su2CG_zero h]; simp
    rw [this]; exact Inter.zero

end E3nn.SU2
