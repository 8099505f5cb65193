import Mathlib.LinearAlgebra.Matrix.DotProduct
import Mathlib.LinearAlgebra.Span.Basic
import Mathlib.LinearAlgebra.Matrix.Symmetric
import Verif.Model.LinAlg

/-!
# Specification for the linear algebra helpers
-/

namespace E3nn.LinAlg

open Matrix

/-- The rows are orthonormal. -/
def Orthonormal {ι : Type} [Fintype ι] (B : List (ι → ℝ)) : Prop :=
  ∀ i (hi : i < B.length) j (hj : j < B.length), B[i] ⬝ᵥ B[j] = if i = j then 1 else 0

/-- The linear combinations of the rows. -/
def rowSpan {ι : Type} (B : List (ι → ℝ)) : Submodule ℝ (ι → ℝ) := Submodule.span ℝ {v | v ∈ B}

/-- What `np.linalg.eigh` promises: for a symmetric matrix, orthonormal eigenvectors with their eigenvalues. -/
def EighOk (eigh : Eigh) : Prop :=
  ∀ (κ : Type) [Fintype κ] [DecidableEq κ] (p : Matrix κ κ ℝ), p.IsSymm →
    (eigh κ p).2ᵀ * (eigh κ p).2 = 1 ∧ p * (eigh κ p).2 = (eigh κ p).2 * diagonal (eigh κ p).1

/-- `P @ B`: the combinations of the rows of `B` with the rows of `P` as coefficients. -/
def combine {ι : Type} (B : List (ι → ℝ)) (P : List (Fin B.length → ℝ)) : List (ι → ℝ) := P.map fun c => ∑ i, c i • B.get i

end E3nn.LinAlg
