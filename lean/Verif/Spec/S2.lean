import Verif.Spec.SphericalHarmonics
import Verif.Spec.IArr
import Verif.Model.S2Grid
import Mathlib.MeasureTheory.Integral.IntervalIntegral.Basic

/-!
# Specification vocabulary for signals on the sphere
-/

namespace E3nn.S2

open E3nn.SH

/-- The length of the vector of basis functions of degree `l`, at every point of the sphere: `integral` uses the spherical harmonics of length `√(2l+1)`
(the constant function has the coefficient of its value); `norm` and `component` are such that random coefficients of all degrees up to `lmax`
contribute the same variance, for a total of `1`. -/
noncomputable def basisLength (nrm : Normalization) (lmax l : ℕ) : ℝ :=
  match nrm with
  | .integral => Real.sqrt (2 * l + 1)
  | .norm => Real.sqrt (2 * l + 1) / Real.sqrt (lmax + 1)
  | .component => 1 / Real.sqrt (lmax + 1)

/-- The length of the functions against which `from_s2grid` integrates. -/
noncomputable def dualLength (nrm : Normalization) (lmax lmaxIn l : ℕ) : ℝ :=
  match nrm with
  | .integral => Real.sqrt (2 * l + 1)
  | .norm => Real.sqrt (2 * l + 1) * Real.sqrt (lmaxIn + 1)
  | .component => (2 * l + 1) * Real.sqrt (lmax + 1)

/-- Functions `f l` are the spherical harmonics of all degrees, with lengths `c l`. -/
def IsBasis (c : ℕ → ℝ) (f : (l : ℕ) → (Fin 3 → ℝ) → Fin (2 * l + 1) → ℝ) : Prop := ∀ l, IsSphericalHarmonics (c l) l (f l)

/-- The value at `x` of the series with the coefficients `bs` (blocks of irreps) in the basis `B`. -/
noncomputable def series {ι : Type} (B : (l : ℕ) → (Fin 3 → ℝ) → Fin (2 * l + 1) → ℝ) (bs : List (Irrep × List (ι → ℝ))) (x : Fin 3 → ℝ) (i : ι) : ℝ :=
  (bs.map fun b => ∑ k : Fin (2 * b.1.l + 1), B b.1.l x k * b.2.getD k 0 i).sum

/-- The greatest degree. -/
def IsLmax (s : List Irrep) (L : ℕ) : Prop := (∃ ir ∈ s, ir.l = L) ∧ ∀ ir ∈ s, ir.l ≤ L

/-- The parities follow `p_val * p_arg ** l`. -/
def SphereParity (s : List Irrep) (v a : Parity) : Prop := ∀ ir ∈ s, ir.p = v.mul (a.pow ir.l)

/-- A quadrature with nodes `y` and weights `w` is exact for the mean of polynomials up to the degree `D`. -/
structure Exact (D : ℕ) {n : ℕ} (y w : Fin n → ℝ) : Prop where
  nodes : ∀ b, y b ^ 2 ≤ 1
  exact' : ∀ p : Polynomial ℝ, p.natDegree ≤ D → ∑ b, w b * p.eval (y b) = (∫ t in (-1 : ℝ)..1, p.eval t) / 2

/-- What `np.polynomial.legendre.leggauss` documents: nodes in `[-1, 1]` and weights that integrate exactly the polynomials of degree up to `2 n - 1`. -/
def GaussLegendre (lg : LegGauss) : Prop :=
  ∀ n, 0 < n → (∀ i, -1 ≤ (lg n).1 i ∧ (lg n).1 i ≤ 1) ∧
    ∀ p : Polynomial ℝ, p.natDegree ≤ 2 * n - 1 → ∑ i, (lg n).2 i * p.eval ((lg n).1 i) = ∫ t in (-1 : ℝ)..1, p.eval t

/-- The degree up to which the quadrature is exact. -/
def gridDegree (q : Quad) (n : ℕ) : ℕ :=
  match q with
  | .soft => n - 1
  | .gauss => 2 * n - 1

end E3nn.S2
