import Mathlib.LinearAlgebra.Matrix.DotProduct
import Mathlib.Data.Matrix.Block
import Mathlib.Analysis.SpecialFunctions.Sqrt

/-!
# Model of `e3nn_jax/_src/utils/math_numpy.py`, part 2: `gram_schmidt` and `basis_intersection`

The arrays are real and the arithmetic exact (`round_fn` is the identity, as in every call of the library).  A two dimensional array is
the list of its rows; the columns are numbered by a finite type.  `np.linalg.eigh` is a parameter.
-/

namespace E3nn.LinAlg

open Matrix

/-- The loop `for w in Q: v -= np.dot(np.conj(w), v) * w`, math_numpy.py:98-99. -/
def deflate {ι : Type} [Fintype ι] (Q : List (ι → ℝ)) (v : ι → ℝ) : ι → ℝ := Q.foldl (fun v w => v - (w ⬝ᵥ v) • w) v

open Classical in
/-- One turn of the loop of `gram_schmidt`, math_numpy.py:96-103. -/
noncomputable def gsStep {ι : Type} [Fintype ι] (eps : ℝ) (Q : List (ι → ℝ)) (a : ι → ℝ) : List (ι → ℝ) :=
  let v := deflate Q a
  let norm := Real.sqrt (v ⬝ᵥ v)
  if norm > eps then Q ++ [norm⁻¹ • v] else Q

/-- `gram_schmidt`, math_numpy.py:86-104. -/
noncomputable def gramSchmidt {ι : Type} [Fintype ι] (eps : ℝ) (A : List (ι → ℝ)) : List (ι → ℝ) := A.foldl (gsStep eps) []

/-- The type of `np.linalg.eigh`: the eigenvalues and the matrix whose columns are the eigenvectors (math_numpy.py:146). -/
abbrev Eigh := (κ : Type) → [Fintype κ] → [DecidableEq κ] → Matrix κ κ ℝ → (κ → ℝ) × Matrix κ κ ℝ

/-- The array with the rows `B` (math_numpy.py:137-143). -/
def rows {ι : Type} (B : List (ι → ℝ)) : Matrix (Fin B.length) ι ℝ := fun i => B.get i

/-- The array `p`, math_numpy.py:137-144. -/
def overlap {ι : Type} [Fintype ι] (B1 B2 : List (ι → ℝ)) : Matrix (Fin B1.length ⊕ Fin B2.length) (Fin B1.length ⊕ Fin B2.length) ℝ :=
  fromBlocks (rows B1 * (rows B1)ᵀ) (-(rows B1 * (rows B2)ᵀ)) (-(rows B2 * (rows B1)ᵀ)) (rows B2 * (rows B2)ᵀ)

open Classical in
/-- `x @ x.T` for the rows `f` of `v[:, w < epsilon]`, math_numpy.py:147-153. -/
noncomputable def selected {κ : Type} [Fintype κ] {n : ℕ} (eps : ℝ) (wv : (κ → ℝ) × Matrix κ κ ℝ) (f : Fin n → κ) : List (Fin n → ℝ) :=
  List.ofFn fun i j => ∑ k ∈ Finset.univ.filter fun k => wv.1 k < eps, wv.2 (f i) k * wv.2 (f j) k

/-- `basis_intersection`, math_numpy.py:107-154. -/
noncomputable def basisIntersection {ι : Type} [Fintype ι] (eigh : Eigh) (eps : ℝ) (B1 B2 : List (ι → ℝ)) :
    List (Fin B1.length → ℝ) × List (Fin B2.length → ℝ) :=
  let wv := eigh _ (overlap B1 B2)
  (gramSchmidt eps (selected eps wv Sum.inl), gramSchmidt eps (selected eps wv Sum.inr))

end E3nn.LinAlg
