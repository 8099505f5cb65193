import Verif.Lemmas.SO3Vec
import Mathlib.LinearAlgebra.CrossProduct

/-!
# C40, C41: generators

`n = 2j`, so all integer and half-integer `j` are covered; `l` is any natural number.
-/

namespace E3nn
open SU2 Matrix

/-- Three matrices satisfy the commutation relations of the rotations: `[X_i, X_j] = X_k` for the
cyclic permutations `(i, j, k)` of `(x, y, z)`. -/
def RotationRelations {n : Type*} [Fintype n] {K : Type*} [Ring K] (X : Fin 3 → Matrix n n K) : Prop :=
  ∀ i : Fin 3, X i * X (i + 1) - X (i + 1) * X i = X (i + 2)

/-- **C40**, commutation relations, for every `j = n / 2`. -/
theorem C40_commutators (n : ℕ) : RotationRelations (generators n) := by
  intro i
  fin_cases i
  · exact comm_01 n
  · exact comm_12 n
  · exact comm_20 n

/-- **C40**: the generators are anti-Hermitian. -/
theorem C40_anti_hermitian (n : ℕ) (i : Fin 3) : (generators n i)ᴴ = -generators n i := gen_antiHermitian n i

/-- **C40**: the sum of the squares is `-j (j + 1)`. -/
theorem C40_casimir (n : ℕ) : ∑ i, generators n i * generators n i =
    (-((n / 2 : ℂ) * (n / 2 + 1))) • (1 : Matrix (Fin (n + 1)) (Fin (n + 1)) ℂ) := by
  rw [Fin.sum_univ_three, casimir]

/-- **C40**: the representation is irreducible: only the multiples of the identity commute with the
three generators. -/
theorem C40_irreducible (n : ℕ) (T : Matrix (Fin (n + 1)) (Fin (n + 1)) ℂ) :
    (∀ i, T * generators n i = generators n i * T) ↔ ∃ c : ℂ, T = c • 1 := by
  refine ⟨gen_commutant n T, ?_⟩
  rintro ⟨c, rfl⟩ i
  rw [Matrix.smul_mul, Matrix.one_mul, Matrix.mul_smul, Matrix.mul_one]

/-- The generators for `j = 1/2`: `i/2` times the Pauli matrices up to the order and signs of the code. -/
theorem C40_spin_half_example : generators 1 0 = !![0, 1 / 2; -1 / 2, 0] ∧
    generators 1 1 = !![-Complex.I / 2, 0; 0, Complex.I / 2] ∧
    generators 1 2 = !![0, Complex.I / 2; Complex.I / 2, 0] := by
  have h : rc 1 0 = 1 := by simp [rc]
  refine ⟨?_, ?_, ?_⟩
  · rw [gen_zero]
    ext a b
    fin_cases a <;> fin_cases b <;> simp [up, dn, h] <;> ring
  · rw [gen_one]
    ext a b
    fin_cases a <;> fin_cases b <;> simp [dg, im] <;> ring
  · rw [gen_two]
    ext a b
    fin_cases a <;> fin_cases b <;> simp [up, dn, h] <;> ring

/-- **C41**: the change of basis is unitary for every `l`. -/
theorem C41_unitary (l : ℕ) : changeBasis l * (changeBasis l)ᴴ = 1 ∧ (changeBasis l)ᴴ * changeBasis l = 1 :=
  ⟨Q_mul_conj l, Q_conj_mul l⟩

/-- **C41**: in the real basis the generators have no imaginary part, so the assertion of the code
holds and no information is lost when the imaginary part is dropped. -/
theorem C41_real (l : ℕ) (i : Fin 3) (a b : Fin (2 * l + 1)) :
    (((changeBasis l)ᴴ * generators (2 * l) i * changeBasis l) a b).im = 0 ∧
    ((so3Generators l i a b : ℝ) : ℂ) = ((changeBasis l)ᴴ * generators (2 * l) i * changeBasis l) a b := by
  have h := congrFun (congrFun (so3_ofReal l i) a) b
  rw [Matrix.map_apply] at h
  refine ⟨?_, h⟩
  show (realBasis l (generators (2 * l) i) a b).im = 0
  rw [← h, Complex.ofReal_im]

/-- **C41**: `generators(l)` satisfy the commutation relations, for every `l`. -/
theorem C41_commutators (l : ℕ) : RotationRelations (so3Generators l) := by
  intro i
  fin_cases i
  · exact so3_comm l (comm_01 _)
  · exact so3_comm l (comm_12 _)
  · exact so3_comm l (comm_20 _)

/-- **C41**: `generators(l)` are antisymmetric. -/
theorem C41_antisymmetric (l : ℕ) (i : Fin 3) : (so3Generators l i)ᵀ = -so3Generators l i := so3_antisymm l i

/-- **C41**: the sum of the squares is `-l (l + 1)`. -/
theorem C41_casimir (l : ℕ) : ∑ i, so3Generators l i * so3Generators l i =
    (-((l : ℝ) * (l + 1))) • (1 : Matrix (Fin (2 * l + 1)) (Fin (2 * l + 1)) ℝ) := by
  rw [Fin.sum_univ_three, so3_casimir]

/-- **C41**: the real representation is irreducible. -/
theorem C41_irreducible (l : ℕ) (T : Matrix (Fin (2 * l + 1)) (Fin (2 * l + 1)) ℝ) :
    (∀ i, T * so3Generators l i = so3Generators l i * T) ↔ ∃ c : ℝ, T = c • 1 := by
  refine ⟨so3_commutant l T, ?_⟩
  rintro ⟨c, rfl⟩ i
  rw [Matrix.smul_mul, Matrix.one_mul, Matrix.mul_smul, Matrix.mul_one]

/-- **C41**: for `l = 1` the generators are those of the rotations of space around `x`, `y`, `z`, in the
order `x, y, z` of the coordinates: `X_i v = e_i × v`. -/
theorem C41_vector (i : Fin 3) (v : Fin 3 → ℝ) : so3Generators 1 i *ᵥ v = crossProduct (Pi.single i 1) v := by
  have h0 := so3_vec_0
  have h1 := so3_vec_1
  have h2 := so3_vec_2
  fin_cases i
  · show so3Generators 1 0 *ᵥ v = crossProduct (Pi.single 0 1) v
    rw [h0]
    ext a
    fin_cases a <;> simp [Matrix.mulVec, dotProduct, Fin.sum_univ_three, crossProduct]
  · show so3Generators 1 1 *ᵥ v = crossProduct (Pi.single 1 1) v
    rw [h1]
    ext a
    fin_cases a <;> simp [Matrix.mulVec, dotProduct, Fin.sum_univ_three, crossProduct]
  · show so3Generators 1 2 *ᵥ v = crossProduct (Pi.single 2 1) v
    rw [h2]
    ext a
    fin_cases a <;> simp [Matrix.mulVec, dotProduct, Fin.sum_univ_three, crossProduct]

end E3nn
