import Verif.Lemmas.CGSum
import Verif.Model.CG

namespace E3nn.SU2

open Nat Finset

theorem cb_refl (b : ℕ) (k : ℤ) : cb b (b - k) = cb b k := by
  rcases lt_or_ge k 0 with h | h
  · rw [cb_neg h, cb_gt (by omega)]
  · rcases lt_or_ge (b : ℤ) k with h2 | h2
    · rw [cb_gt h2, cb_neg (by omega)]
    · unfold cb
      rw [if_pos (by omega), if_pos h]
      have : ((b : ℤ) - k).toNat = b - k.toNat := by omega
      rw [this, Nat.choose_symm (by omega)]

/-- Reflection of the components. -/
theorem tsum_refl {a b c A B : ℕ} (hA : A ≤ b + c) (hB : B ≤ a + c) :
    tsum a b c (b + c - A) (a + c - B) = (-1) ^ a * tsum a b c A B := by
  unfold tsum
  rw [← Finset.sum_range_reflect, Finset.mul_sum]
  apply Finset.sum_congr rfl
  intro v hv
  have hv : v ≤ a := by have := Finset.mem_range.mp hv; omega
  rw [show a + 1 - 1 - v = a - v by omega, show a - (a - v) = v by omega, Nat.choose_symm hv,
    show b + c - (b + c - A) = A by omega]
  have e : (((b + c - A : ℕ) : ℤ) + ((a + c - B : ℕ) : ℤ) - c - ((a - v : ℕ) : ℤ)) = b - ((A : ℤ) + B - c - v) := by omega
  rw [e, cb_refl, Nat.add_comm v, Nat.add_comm A]
  have hs : (-1 : ℚ) ^ (a - v) = (-1) ^ a * (-1) ^ v := by
    have h1 : (-1 : ℚ) ^ a = (-1) ^ (a - v) * (-1) ^ v := by rw [← pow_add]; congr 1; omega
    have h2 : ((-1 : ℚ) ^ v) * (-1) ^ v = 1 := by rw [← mul_pow]; norm_num
    rw [h1, mul_assoc, h2, mul_one]
  rw [hs]; ring

/-- The value for the largest component. -/
theorem tsum_top {a b c A B : ℕ} (h : A + B = a + b + c) :
    tsum a b c A B = (-1) ^ a * (A ! : ℚ) * ((b + c - A + a)! : ℚ) := by
  unfold tsum
  rw [Finset.sum_eq_single a]
  · have : ((A : ℤ) + B - c - a) = b := by omega
    rw [this]
    unfold cb
    simp
  · intro v hv hva
    have hv : v < a + 1 := Finset.mem_range.mp hv
    rw [cb_gt (by omega)]; simp
  · simp

theorem fct_of {q : ℚ} {k : ℕ} (h : q = k) : fct q = k ! := by
  unfold fct; rw [h, round_natCast]; rfl

theorem pyInt_int (z : ℤ) : pyInt z = z := by unfold pyInt; split <;> simp

/-- The sum in `_su2_cg`. -/
theorem cg_sum_eq {a b c A B : ℕ} (hA : A ≤ b + c) (hB : B ≤ a + c) (h1 : c ≤ A + B) (h2 : A + B ≤ a + b + c) :
    ∑ v ∈ Finset.Icc (vmin ((b + c : ℕ) / 2) (A - (b + c : ℕ) / 2) ((a + c : ℕ) / 2) ((A - (b + c : ℕ) / 2) + (B - (a + c : ℕ) / 2)))
      (vmax ((b + c : ℕ) / 2) (A - (b + c : ℕ) / 2) ((a + c : ℕ) / 2) ((a + b : ℕ) / 2) ((A - (b + c : ℕ) / 2) + (B - (a + c : ℕ) / 2))),
        cgTerm ((b + c : ℕ) / 2) (A - (b + c : ℕ) / 2) ((a + c : ℕ) / 2) (B - (a + c : ℕ) / 2) ((a + b : ℕ) / 2)
          ((A - (b + c : ℕ) / 2) + (B - (a + c : ℕ) / 2)) v =
      (-1) ^ B * tsum a b c A B / (a ! * b !) := by
  have hmin : vmin ((b + c : ℕ) / 2) (A - (b + c : ℕ) / 2) ((a + c : ℕ) / 2) ((A - (b + c : ℕ) / 2) + (B - (a + c : ℕ) / 2)) =
      max (max ((A : ℤ) + B - (b + c)) ((A : ℤ) - (b + c))) 0 := by
    unfold vmin
    rw [← pyInt_int (max (max ((A : ℤ) + B - (b + c)) ((A : ℤ) - (b + c))) 0)]
    congr 1
    push_cast
    congr 2 <;> ring
  have hmax : vmax ((b + c : ℕ) / 2) (A - (b + c : ℕ) / 2) ((a + c : ℕ) / 2) ((a + b : ℕ) / 2) ((A - (b + c : ℕ) / 2) + (B - (a + c : ℕ) / 2)) =
      min (min ((a : ℤ) + A) a) ((A : ℤ) + B - c) := by
    unfold vmax
    rw [← pyInt_int (min (min ((a : ℤ) + A) a) ((A : ℤ) + B - c))]
    congr 1
    push_cast
    congr 2 <;> ring
  rw [hmin, hmax, tsum, Finset.mul_sum, Finset.sum_div]
  refine Finset.sum_of_injOn Int.toNat ?_ ?_ ?_ ?_
  · intro x hx y hy hxy
    simp only [Finset.coe_Icc, Set.mem_Icc] at hx hy
    omega
  · intro x hx
    simp only [Finset.coe_Icc, Set.mem_Icc, Finset.coe_range, Set.mem_Iio] at *
    omega
  · intro v hv hne
    have hv : v < a + 1 := Finset.mem_range.mp hv
    have hz : cb b ((A : ℤ) + B - c - v) = 0 := by
      by_contra hcb
      apply hne
      refine ⟨(v : ℤ), ?_, by simp⟩
      have h3 : ¬ ((A : ℤ) + B - c - v < 0) := fun h => hcb (cb_neg h)
      have h4 : ¬ ((b : ℤ) < (A : ℤ) + B - c - v) := fun h => hcb (cb_gt h)
      simp only [Finset.coe_Icc, Set.mem_Icc]
      omega
    rw [hz]; simp
  · intro x hx
    simp only [Finset.mem_Icc] at hx
    obtain ⟨v, rfl⟩ := Int.eq_ofNat_of_zero_le (show 0 ≤ x by omega)
    have hva : v ≤ a := by omega
    obtain ⟨u, rfl⟩ := Nat.exists_eq_add_of_le hva
    obtain ⟨A', hA'⟩ := Nat.exists_eq_add_of_le hA
    obtain ⟨w, hw⟩ : ∃ w : ℕ, A + B = c + v + w := ⟨A + B - c - v, by omega⟩
    obtain ⟨t, rfl⟩ : ∃ t : ℕ, b = w + t := ⟨b - w, by omega⟩
    have hwq : (B : ℚ) = c + v + w - A := by
      have : ((A + B : ℕ) : ℚ) = ((c + v + w : ℕ) : ℚ) := by rw [hw]
      push_cast at this; linarith
    have hAq : (A' : ℚ) = w + t + c - A := by
      have : ((w + t + c : ℕ) : ℚ) = ((A + A' : ℕ) : ℚ) := by rw [hA']
      push_cast at this; linarith
    unfold cgTerm
    have f0 : round (((v : ℤ) : ℚ) + ((v + u + c : ℕ) : ℚ) / 2 + ((B : ℚ) - ((v + u + c : ℕ) : ℚ) / 2)) = ((v + B : ℕ) : ℤ) := by
      rw [show ((v : ℤ) : ℚ) + ((v + u + c : ℕ) : ℚ) / 2 + ((B : ℚ) - ((v + u + c : ℕ) : ℚ) / 2) = ((v + B : ℕ) : ℚ) by push_cast; ring,
        round_natCast]
    rw [f0, fct_of (k := u + A) (by push_cast; ring), fct_of (k := A' + v) (by push_cast; rw [hAq]; ring),
      fct_of (q := ((v : ℤ) : ℚ)) (k := v) (by push_cast; ring), fct_of (k := u) (by push_cast; ring),
      fct_of (k := w) (by push_cast; rw [hwq]; ring), fct_of (k := t) (by push_cast; rw [hwq]; ring)]
    simp only [Int.toNat_natCast]
    rw [show v + u - v = u by omega, show w + t + c - A = A' by omega,
      show ((A : ℤ) + B - c - v) = w by omega]
    unfold cb
    rw [if_pos (by omega), Int.toNat_natCast, zpow_natCast, pow_add]
    have c1 : ((v + u).choose v : ℚ) = ((v + u)! : ℚ) / (v ! * u !) := by
      rw [Nat.cast_add_choose]
    have c2 : ((w + t).choose w : ℚ) = ((w + t)! : ℚ) / (w ! * t !) := by
      rw [Nat.cast_add_choose]
    rw [c1, c2]
    have p1 : (v ! : ℚ) ≠ 0 := by exact_mod_cast (Nat.factorial_ne_zero v)
    have p2 : (u ! : ℚ) ≠ 0 := by exact_mod_cast (Nat.factorial_ne_zero u)
    have p3 : (w ! : ℚ) ≠ 0 := by exact_mod_cast (Nat.factorial_ne_zero w)
    have p4 : (t ! : ℚ) ≠ 0 := by exact_mod_cast (Nat.factorial_ne_zero t)
    have p5 : ((v + u)! : ℚ) ≠ 0 := by exact_mod_cast (Nat.factorial_ne_zero (v + u))
    have p6 : ((w + t)! : ℚ) ≠ 0 := by exact_mod_cast (Nat.factorial_ne_zero (w + t))
    push_cast
    field_simp

/-- The value of a Clebsch-Gordan coefficient. -/
noncomputable def cgVal (a b c A B : ℕ) : ℝ :=
  Real.sqrt (((a)! * (b)! * (c)! * (A + B - c)! * (a + b + c - (A + B))! : ℕ) /
    ((a + b + c + 1)! * (A)! * (b + c - A)! * (B)! * (a + c - B)! : ℕ)) * (((-1) ^ B * tsum a b c A B / (a ! * b !) : ℚ) : ℝ)

theorem inRange_iff {n1 n2 n3 : ℕ} : inRange n1 n2 n3 ↔ ∃ a b c, n1 = b + c ∧ n2 = a + c ∧ n3 = a + b := by
  unfold inRange
  constructor
  · rintro ⟨h1, h2, h3⟩
    rcases abs_cases ((n1 : ℤ) - n2) with ⟨e, h⟩ | ⟨e, h⟩ <;> rw [e] at h1 h3 <;>
    exact ⟨(n2 + n3 - n1) / 2, (n1 + n3 - n2) / 2, (n1 + n2 - n3) / 2, by omega, by omega, by omega⟩
  · rintro ⟨a, b, c, rfl, rfl, rfl⟩
    rcases abs_cases (((b + c : ℕ) : ℤ) - (a + c : ℕ)) with ⟨e, h⟩ | ⟨e, h⟩ <;> rw [e] <;> omega

theorem radicand_eq {a b c A B : ℕ} (hA : A ≤ b + c) (hB : B ≤ a + c) (h1 : c ≤ A + B) (h2 : A + B ≤ a + b + c) :
    cgRadicand ((b + c : ℕ) / 2) (A - (b + c : ℕ) / 2) ((a + c : ℕ) / 2) (B - (a + c : ℕ) / 2) ((a + b : ℕ) / 2)
          ((A - (b + c : ℕ) / 2) + (B - (a + c : ℕ) / 2)) =
      ((a + b : ℕ) + 1) * (((a)! * (b)! * (c)! * (A + B - c)! * (a + b + c - (A + B))! : ℕ) /
    ((a + b + c + 1)! * (A)! * (b + c - A)! * (B)! * (a + c - B)! : ℕ)) := by
  unfold cgRadicand
  rw [fct_of (k := b) (by push_cast; ring), fct_of (k := a) (by push_cast; ring), fct_of (k := c) (by push_cast; ring),
    fct_of (k := A + B - c) (by rw [Nat.cast_sub h1]; push_cast; ring),
    fct_of (k := a + b + c - (A + B)) (by rw [Nat.cast_sub h2]; push_cast; ring),
    fct_of (k := a + b + c + 1) (by push_cast; ring),
    fct_of (k := b + c - A) (by rw [Nat.cast_sub hA]; push_cast; ring),
    fct_of (k := A) (by push_cast; ring),
    fct_of (k := a + c - B) (by rw [Nat.cast_sub hB]; push_cast; ring),
    fct_of (k := B) (by push_cast; ring)]
  push_cast
  congr 1
  · ring
  · congr 1 <;> ring

theorem su2CG_eq (a b c : ℕ) (A : Fin (b + c + 1)) (B : Fin (a + c + 1)) (C : Fin (a + b + 1)) :
    su2ClebschGordan (b + c) (a + c) (a + b) A B C = if C.val + c = A.val + B.val then cgVal a b c A B else 0 := by
  have hA : A.val ≤ b + c := by omega
  have hB : B.val ≤ a + c := by omega
  have hC : C.val ≤ a + b := by omega
  unfold su2ClebschGordan
  simp only
  have hcond : (inRange (b + c) (a + c) (a + b) ∧
      |((A.val : ℚ) - ((b + c : ℕ) : ℚ) / 2) + ((B.val : ℚ) - ((a + c : ℕ) : ℚ) / 2)| ≤ ((a + b : ℕ) : ℚ) / 2 ∧
      pyInt (((a + b : ℕ) : ℚ) / 2 + ((A.val : ℚ) - ((b + c : ℕ) : ℚ) / 2) + ((B.val : ℚ) - ((a + c : ℕ) : ℚ) / 2)) = C.val) ↔
      C.val + c = A.val + B.val := by
    have e1 : ((a + b : ℕ) : ℚ) / 2 + ((A.val : ℚ) - ((b + c : ℕ) : ℚ) / 2) + ((B.val : ℚ) - ((a + c : ℕ) : ℚ) / 2) =
      (((A.val : ℤ) + B.val - c : ℤ) : ℚ) := by push_cast; ring
    rw [e1, pyInt_int, abs_le]
    constructor
    · rintro ⟨-, -, h⟩; omega
    · intro h
      have h' : ((C.val : ℚ)) + c = A.val + B.val := by exact_mod_cast h
      have hC' : (C.val : ℚ) ≤ a + b := by exact_mod_cast hC
      have hC0 : (0 : ℚ) ≤ C.val := by positivity
      refine ⟨inRange_iff.mpr ⟨a, b, c, rfl, rfl, rfl⟩, ⟨?_, ?_⟩, by omega⟩
      · push_cast; linarith
      · push_cast; linarith
  by_cases h : C.val + c = A.val + B.val
  · rw [if_pos (hcond.mpr h), if_pos h]
    unfold su2Cg
    rw [if_neg (by simp), cg_sum_eq hA hB (by omega) (by omega), radicand_eq hA hB (by omega) (by omega)]
    unfold cgVal
    push_cast
    rw [Real.sqrt_mul (by positivity)]
    have : (2 * ((a + b : ℝ) / 2) + 1) = a + b + 1 := by ring
    rw [this]
    have hs : Real.sqrt ((a : ℝ) + b + 1) ≠ 0 := by positivity
    field_simp
  · rw [if_neg (fun h' => h (hcond.mp h')), if_neg h]; simp

theorem su2CG_zero {n1 n2 n3 : ℕ} (h : ¬ inRange n1 n2 n3) (A : Fin (n1 + 1)) (B : Fin (n2 + 1)) (C : Fin (n3 + 1)) :
    su2ClebschGordan n1 n2 n3 A B C = 0 := by
  unfold su2ClebschGordan
  simp [h]

end E3nn.SU2
