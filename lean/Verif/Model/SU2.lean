import Mathlib.Analysis.Complex.Basic
import Mathlib.Analysis.SpecialFunctions.Sqrt
import Mathlib.Data.Matrix.Basic
import Mathlib.LinearAlgebra.Matrix.ConjTranspose

/-!
# Model of `su2_generators` (su2.py) and of `generators` (so3.py)

`j = n / 2` for a natural number `n`, so that all integer and half-integer `j` are covered.
Numbers are exact.
-/

namespace E3nn.SU2

open Matrix

/-- `m[b]` of `m = np.arange(-j, j + 1)`, su2.py:14. -/
noncomputable def mval (n : ℕ) (b : ℕ) : ℝ := -((n : ℝ) / 2) + b

/-- `raising = np.diag(-np.sqrt(j * (j + 1) - m * (m + 1)), k=-1)`, su2.py:8-9. -/
noncomputable def raising (n : ℕ) : Matrix (Fin (n + 1)) (Fin (n + 1)) ℂ := fun a b =>
  if a.val = b.val + 1 then
    ((-Real.sqrt ((n : ℝ) / 2 * ((n : ℝ) / 2 + 1) - mval n b * (mval n b + 1)) : ℝ) : ℂ)
  else 0

/-- `lowering = np.diag(np.sqrt(j * (j + 1) - m * (m - 1)), k=1)` with `m = np.arange(-j + 1, j + 1)`,
su2.py:11-12: the `a`-th entry of `m` is the `(a + 1)`-st of `arange(-j, j + 1)`. -/
noncomputable def lowering (n : ℕ) : Matrix (Fin (n + 1)) (Fin (n + 1)) ℂ := fun a b =>
  if b.val = a.val + 1 then
    ((Real.sqrt ((n : ℝ) / 2 * ((n : ℝ) / 2 + 1) - mval n (a + 1) * (mval n (a + 1) - 1)) : ℝ) : ℂ)
  else 0

/-- `su2_generators(j)`, su2.py:6-22. -/
noncomputable def generators (n : ℕ) : Fin 3 → Matrix (Fin (n + 1)) (Fin (n + 1)) ℂ
  | 0 => (1 / 2 : ℂ) • (raising n + lowering n)
  | 1 => Matrix.diagonal fun a => Complex.I * (mval n a : ℝ)
  | 2 => -((1 / 2 : ℂ) * Complex.I) • (raising n - lowering n)

/-- `change_basis_real_to_complex(l)`, so3.py:7-19: the row of index `r` is `l + m`. -/
noncomputable def changeBasis (l : ℕ) : Matrix (Fin (2 * l + 1)) (Fin (2 * l + 1)) ℂ := fun r c =>
  let m : ℤ := (r.val : ℤ) - l
  (-Complex.I) ^ l *
    (if m < 0 then
      if c.val = l + m.natAbs then 1 / (Real.sqrt 2 : ℂ)
      else if c.val + m.natAbs = l then -Complex.I / (Real.sqrt 2 : ℂ) else 0
    else if m = 0 then (if c.val = l then 1 else 0)
    else
      if c.val = l + m.natAbs then (-1) ^ m.natAbs / (Real.sqrt 2 : ℂ)
      else if c.val + m.natAbs = l then Complex.I * (-1) ^ m.natAbs / (Real.sqrt 2 : ℂ) else 0)

/-- `conj(Q.T) @ X @ Q`, so3.py:58-59 (before the imaginary part is dropped). -/
noncomputable def realBasis (l : ℕ) (X : Matrix (Fin (2 * l + 1)) (Fin (2 * l + 1)) ℂ) :
    Matrix (Fin (2 * l + 1)) (Fin (2 * l + 1)) ℂ := (changeBasis l)ᴴ * X * changeBasis l

/-- `generators(l)`, so3.py:48-62: the real part (the code asserts that the imaginary part is small). -/
noncomputable def so3Generators (l : ℕ) (i : Fin 3) : Matrix (Fin (2 * l + 1)) (Fin (2 * l + 1)) ℝ :=
  (realBasis l (generators (2 * l) i)).map Complex.re

end E3nn.SU2
