import Verif.Lemmas.CGSelect
import Verif.Lemmas.CGNorm
import Verif.Lemmas.CGScalar

/-!
# C58: the Clebsch-Gordan coefficients

`clebschGordan l1 l2 l3` is the tensor returned by `clebsch_gordan(l1, l2, l3)`, `so3Generators l i`
the matrices returned by `generators(l)`.
-/

namespace E3nn.SU2

open Finset Matrix

/-- `q` is a non-negative integer. -/
def IsNat (q : ℚ) : Prop := ∃ k : ℕ, q = k

/-- The arguments of the factorials in `_su2_cg` outside the sum. -/
def factArgs (j1 m1 j2 m2 j3 m3 : ℚ) : List ℚ :=
  [j3 + j1 - j2, j3 - j1 + j2, j1 + j2 - j3, j3 + m3, j3 - m3, j1 + j2 + j3 + 1, j1 - m1, j1 + m1, j2 - m2, j2 + m2]

/-- The arguments of the factorials in the `v`-th term of the sum in `_su2_cg`. -/
def factTermArgs (j1 m1 j2 _m2 j3 m3 : ℚ) (v : ℤ) : List ℚ :=
  [j2 + j3 + m1 - v, j1 - m1 + v, (v : ℚ), j3 - j1 + j2 - v, j3 + m3 - v, v + j1 - j2 - m3]

/-- **C58 (no failed assertion, no factorial of a negative number).** Whenever the loops of
`su2_clebsch_gordan(n1/2, n2/2, n3/2)` call `_su2_cg`, all the factorials are taken at non-negative
integers, and the third index is an integer between `0` and `n3`. -/
theorem C58_factorials_defined {n1 n2 n3 A B : ℕ} (h : inRange n1 n2 n3) (hA : A ≤ n1) (hB : B ≤ n2)
    (hm : |((A : ℚ) - n1 / 2) + (B - n2 / 2)| ≤ (n3 : ℚ) / 2) :
    (∀ q ∈ factArgs (n1 / 2) (A - n1 / 2) (n2 / 2) (B - n2 / 2) (n3 / 2) ((A - n1 / 2) + (B - n2 / 2)), IsNat q) ∧
    (∀ v : ℤ, vmin (n1 / 2) (A - n1 / 2) (n2 / 2) ((A - n1 / 2) + (B - n2 / 2)) ≤ v →
      v ≤ vmax (n1 / 2) (A - n1 / 2) (n2 / 2) (n3 / 2) ((A - n1 / 2) + (B - n2 / 2)) →
      ∀ q ∈ factTermArgs (n1 / 2) (A - n1 / 2) (n2 / 2) (B - n2 / 2) (n3 / 2) ((A - n1 / 2) + (B - n2 / 2)) v, IsNat q) ∧
    (∃ C : ℕ, C ≤ n3 ∧ (n3 : ℚ) / 2 + (A - n1 / 2) + (B - n2 / 2) = C) := by
  obtain ⟨a, b, c, rfl, rfl, rfl⟩ := inRange_iff.mp h
  rw [abs_le] at hm
  obtain ⟨hm1, hm2⟩ := hm
  push_cast at hm1 hm2
  have h1 : c ≤ A + B := by
    have : (c : ℚ) ≤ A + B := by linarith
    exact_mod_cast this
  have h2 : A + B ≤ a + b + c := by
    have : (A + B : ℚ) ≤ a + b + c := by linarith
    exact_mod_cast this
  have hn : ∀ (q : ℚ) (z : ℤ), q = z → 0 ≤ z → IsNat q := by
    intro q z hq hz
    exact ⟨z.toNat, by rw [hq]; exact_mod_cast (Int.toNat_of_nonneg hz).symm⟩
  refine ⟨?_, ?_, ?_⟩
  · intro q hq
    simp only [factArgs, List.mem_cons, List.not_mem_nil, or_false] at hq
    rcases hq with rfl | rfl | rfl | rfl | rfl | rfl | rfl | rfl | rfl | rfl
    · exact hn _ b (by push_cast; ring) (by omega)
    · exact hn _ a (by push_cast; ring) (by omega)
    · exact hn _ c (by push_cast; ring) (by omega)
    · exact hn _ (A + B - c) (by push_cast; ring) (by omega)
    · exact hn _ (a + b + c - (A + B)) (by push_cast; ring) (by omega)
    · exact hn _ (a + b + c + 1) (by push_cast; ring) (by omega)
    · exact hn _ (b + c - A) (by push_cast; ring) (by omega)
    · exact hn _ A (by push_cast; ring) (by omega)
    · exact hn _ (a + c - B) (by push_cast; ring) (by omega)
    · exact hn _ B (by push_cast; ring) (by omega)
  · intro v hv1 hv2 q hq
    have hmin : vmin ((b + c : ℕ) / 2) (A - (b + c : ℕ) / 2) ((a + c : ℕ) / 2) ((A - (b + c : ℕ) / 2) + (B - (a + c : ℕ) / 2)) =
        max (max ((A : ℤ) + B - (b + c)) ((A : ℤ) - (b + c))) 0 := by
      unfold vmin
      rw [← pyInt_int (max (max ((A : ℤ) + B - (b + c)) ((A : ℤ) - (b + c))) 0)]
      congr 1
      push_cast
      congr 2 <;> ring
    have hmax : vmax ((b + c : ℕ) / 2) (A - (b + c : ℕ) / 2) ((a + c : ℕ) / 2) ((a + b : ℕ) / 2) ((A - (b + c : ℕ) / 2) + (B - (a + c : ℕ) / 2)) =
        min (min ((a : ℤ) + A) a) ((A : ℤ) + B - c) := by
      unfold vmax
      rw [← pyInt_int (min (min ((a : ℤ) + A) a) ((A : ℤ) + B - c))]
      congr 1
      push_cast
      congr 2 <;> ring
    rw [hmin] at hv1
    rw [hmax] at hv2
    simp only [factTermArgs, List.mem_cons, List.not_mem_nil, or_false] at hq
    rcases hq with rfl | rfl | rfl | rfl | rfl | rfl
    · exact hn _ (a + A - v) (by push_cast; ring) (by omega)
    · exact hn _ (b + c - A + v) (by push_cast; ring) (by omega)
    · exact hn _ v rfl (by omega)
    · exact hn _ (a - v) (by push_cast; ring) (by omega)
    · exact hn _ (A + B - c - v) (by push_cast; ring) (by omega)
    · exact hn _ (v + b + c - (A + B)) (by push_cast; ring) (by omega)
  · exact ⟨A + B - c, by omega, by rw [Nat.cast_sub h1]; push_cast; ring⟩

/-- The spins `1/2`, `1`, `3/2` with `m = 1/2` and `m = 0` meet the hypotheses. -/
example : inRange 1 2 3 ∧ 1 ≤ 1 ∧ 1 ≤ 2 ∧ |(((1 : ℕ) : ℚ) - (1 : ℕ) / 2) + ((1 : ℕ) - (2 : ℕ) / 2)| ≤ ((3 : ℕ) : ℚ) / 2 := by
  refine ⟨by decide, by omega, by omega, ?_⟩
  rw [abs_le]; norm_num

/-- **C58 (real).** The change of basis makes the coefficients real: the assertion in
`clebsch_gordan` holds, and dropping the imaginary part loses nothing. -/
theorem C58_real (l1 l2 l3 : ℕ) (a : Fin (2 * l1 + 1)) (b : Fin (2 * l2 + 1)) (c : Fin (2 * l3 + 1)) :
    (cgComplex l1 l2 l3 a b c).im = 0 ∧ ((clebschGordan l1 l2 l3 a b c : ℝ) : ℂ) = cgComplex l1 l2 l3 a b c := by
  have h := cg_ofReal l1 l2 l3 a b c
  exact ⟨by rw [← h]; simp, h⟩

/-- **C58 (intertwines the generators).** For all `l1 l2 l3`, `clebsch_gordan(l1, l2, l3)` is an
invariant tensor: moving a generator from the two inputs to the output changes nothing. -/
theorem C58_generators (l1 l2 l3 : ℕ) (i : Fin 3) (a : Fin (2 * l1 + 1)) (b : Fin (2 * l2 + 1)) (c : Fin (2 * l3 + 1)) :
    ∑ a', so3Generators l1 i a' a * clebschGordan l1 l2 l3 a' b c + ∑ b', so3Generators l2 i b' b * clebschGordan l1 l2 l3 a b' c =
      ∑ c', so3Generators l3 i c c' * clebschGordan l1 l2 l3 a b c' :=
  inter_real l1 l2 l3 i a b c

/-- **C58 (intertwines rotations).** The bilinear map given by `clebsch_gordan(l1, l2, l3)` commutes
with the rotation of log coordinates `v`: applied to the two inputs or to the output. -/
theorem C58_rotations (l1 l2 l3 : ℕ) (v : Fin 3 → ℝ) (x : Fin (2 * l1 + 1) → ℝ) (y : Fin (2 * l2 + 1) → ℝ) :
    let D := fun l => NormedSpace.exp (∑ i, v i • so3Generators l i)
    let C := fun (x : Fin (2 * l1 + 1) → ℝ) (y : Fin (2 * l2 + 1) → ℝ) (c : Fin (2 * l3 + 1)) =>
      ∑ a, ∑ b, clebschGordan l1 l2 l3 a b c * x a * y b
    C (D l1 *ᵥ x) (D l2 *ᵥ y) = D l3 *ᵥ C x y := by
  intro D C
  have hC : ∀ x y, C x y = toMat (clebschGordan l1 l2 l3) *ᵥ (fun p : Fin (2 * l1 + 1) × Fin (2 * l2 + 1) => x p.1 * y p.2) := by
    intro x y
    funext c
    simp only [C, Matrix.mulVec, dotProduct, toMat, Fintype.sum_prod_type, mul_assoc]
  have hI : Inter (∑ i, v i • so3Generators l1 i) (∑ i, v i • so3Generators l2 i) (∑ i, v i • so3Generators l3 i) (clebschGordan l1 l2 l3) := by
    simp only [Fin.sum_univ_three]
    exact (((inter_real l1 l2 l3 0).smul _).add ((inter_real l1 l2 l3 1).smul _)).add ((inter_real l1 l2 l3 2).smul _)
  have he := hI.exp
  rw [hC, hC, Matrix.mulVec_mulVec, ← he, ← Matrix.mulVec_mulVec]
  congr 1
  funext p
  simp only [Matrix.mulVec, dotProduct, Matrix.kroneckerMap_apply, Fintype.sum_prod_type, Finset.sum_mul_sum, D]
  apply Finset.sum_congr rfl
  intro a _
  apply Finset.sum_congr rfl
  intro b _
  ring

/-- **C58 (orthogonality and normalisation).** Inside the triangle `|l1 - l2| ≤ l3 ≤ l1 + l2`, the
slices of the tensor are orthogonal, of square norm `1 / (2 l3 + 1)`. -/
theorem C58_orthogonal {l1 l2 l3 : ℕ} (h : |(l1 : ℤ) - l2| ≤ l3 ∧ l3 ≤ l1 + l2) (c c' : Fin (2 * l3 + 1)) :
    ∑ a, ∑ b, clebschGordan l1 l2 l3 a b c * clebschGordan l1 l2 l3 a b c' = if c = c' then 1 / (2 * (l3 : ℝ) + 1) else 0 := by
  have hr : inRange (2 * l1) (2 * l2) (2 * l3) := by
    rw [inRange_iff]
    obtain ⟨h1, h2⟩ := h
    rw [abs_le] at h1
    exact ⟨l2 + l3 - l1, l1 + l3 - l2, l1 + l2 - l3, by omega, by omega, by omega⟩
  have := congrFun (congrFun (cg_gram hr) c) c'
  rw [Matrix.mul_apply, Fintype.sum_prod_type] at this
  simp only [toMat, Matrix.transpose_apply, Matrix.smul_apply, Matrix.one_apply, smul_eq_mul] at this
  rw [this]
  split <;> simp

/-- **C58 (normalisation).** Inside the triangle the tensor has norm one. -/
theorem C58_norm {l1 l2 l3 : ℕ} (h : |(l1 : ℤ) - l2| ≤ l3 ∧ l3 ≤ l1 + l2) :
    ∑ a, ∑ b, ∑ c, clebschGordan l1 l2 l3 a b c ^ 2 = 1 := by
  have h1 : ∑ a, ∑ b, ∑ c, clebschGordan l1 l2 l3 a b c ^ 2 =
      ∑ c, ∑ a, ∑ b, clebschGordan l1 l2 l3 a b c * clebschGordan l1 l2 l3 a b c := by
    rw [Finset.sum_comm (s := (univ : Finset (Fin (2 * l3 + 1))))]
    apply Finset.sum_congr rfl
    intro a _
    rw [Finset.sum_comm]
    simp only [sq]
  rw [h1]
  simp only [C58_orthogonal h, if_true, Finset.sum_const, Finset.card_univ, Fintype.card_fin, nsmul_eq_mul]
  push_cast
  field_simp

/-- **C58 (zero).** Outside the triangle the tensor vanishes. -/
theorem C58_zero {l1 l2 l3 : ℕ} (h : ¬ (|(l1 : ℤ) - l2| ≤ l3 ∧ l3 ≤ l1 + l2)) (a : Fin (2 * l1 + 1)) (b : Fin (2 * l2 + 1))
    (c : Fin (2 * l3 + 1)) : clebschGordan l1 l2 l3 a b c = 0 := by
  have hr : ¬ inRange (2 * l1) (2 * l2) (2 * l3) := by
    intro hr
    apply h
    obtain ⟨x, y, z, e1, e2, e3⟩ := inRange_iff.mp hr
    constructor
    · rw [abs_le]; omega
    · omega
  unfold clebschGordan cgComplex
  simp only [su2CG_zero hr, Complex.ofReal_zero, mul_zero, Finset.sum_const_zero, Complex.zero_re]

/-- **C58 (scalars).** With a scalar on one side the tensor is `δ / √(2l+1)`: multiplying by a scalar is
plain multiplication and coupling to a scalar is the dot product, up to that factor. -/
theorem C58_scalar (l : ℕ) (o : Fin (2 * 0 + 1)) (a b : Fin (2 * l + 1)) :
    clebschGordan 0 l l o a b = (if a = b then 1 / Real.sqrt (2 * (l : ℝ) + 1) else 0) ∧
    clebschGordan l 0 l a o b = (if a = b then 1 / Real.sqrt (2 * (l : ℝ) + 1) else 0) ∧
    clebschGordan l l 0 a b o = (if a = b then 1 / Real.sqrt (2 * (l : ℝ) + 1) else 0) :=
  ⟨cg_zero_left l o a b, cg_zero_right l a o b, cg_pair l a b o⟩

/-- `clebsch_gordan(1, 1, 2)` is inside the triangle, `clebsch_gordan(1, 1, 3)` outside. -/
example : (|((1 : ℕ) : ℤ) - (1 : ℕ)| ≤ ((2 : ℕ) : ℤ) ∧ 2 ≤ 1 + 1) ∧ ¬ (|((1 : ℕ) : ℤ) - (1 : ℕ)| ≤ ((3 : ℕ) : ℤ) ∧ 3 ≤ 1 + 1) := by
  constructor <;> norm_num

/-- **C58 (selection rules).** Numbering the components of degree `l` by `m = index - l`: a coefficient that is not zero has
`|m3| = |m1| + |m2|` or `|m3| = ||m1| - |m2||`, and the parity of the number of negative orders among the three is that of `l1 + l2 + l3`. -/
theorem C58_selection {l1 l2 l3 : ℕ} {a : Fin (2 * l1 + 1)} {b : Fin (2 * l2 + 1)} {c : Fin (2 * l3 + 1)} (h : clebschGordan l1 l2 l3 a b c ≠ 0) :
    (|(c.val : ℤ) - l3| = |(a.val : ℤ) - l1| + |(b.val : ℤ) - l2| ∨ |(c.val : ℤ) - l3| = |(|(a.val : ℤ) - l1| - |(b.val : ℤ) - l2|)|) ∧
    ((if a.val < l1 then 1 else 0) + (if b.val < l2 then 1 else 0) + (if c.val < l3 then 1 else 0)) % 2 = (l1 + l2 + l3) % 2 := by
  constructor
  · have := cg_order h
    unfold ord at this
    grind
  · have := cg_sign h
    unfold sgn at this
    rcases Nat.even_or_odd (l1 + l2 + l3) with e | e
    · rw [e.neg_one_pow] at this
      have h2 : (l1 + l2 + l3) % 2 = 0 := Nat.even_iff.mp e
      rw [h2]
      grind
    · rw [e.neg_one_pow] at this
      have h2 : (l1 + l2 + l3) % 2 = 1 := Nat.odd_iff.mp e
      rw [h2]
      grind

end E3nn.SU2
