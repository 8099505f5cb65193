import Verif.Model.SU2
import Mathlib.Data.Nat.Factorial.Basic
import Mathlib.Algebra.Order.Round
import Mathlib.Algebra.Order.Floor.Ring
import Mathlib.Order.Interval.Finset.Basic
import Mathlib.Data.Int.Interval

/-!
# Model of the Clebsch-Gordan coefficients (su2.py, so3.py)

Spins and their components are exact rational numbers (they are Python floats that are multiples of
`1/2`); the square root and the final division are exact.  `j = n / 2` for natural numbers `n`.
-/

namespace E3nn.SU2

open Matrix

/-- Python's `int(x)`: truncation towards zero (su2.py:30-35 and 54-55). -/
def pyInt (q : ℚ) : ℤ := if 0 ≤ q then ⌊q⌋ else ⌈q⌉

/-- `f`, su2.py:57-59: the factorial of a float that is an integer.  (The assertion that it is one,
and that it is not negative, is discharged by `C58_factorials_defined`.) -/
def fct (q : ℚ) : ℕ := (round q).toNat.factorial

/-- `vmin`, su2.py:54. -/
def vmin (j1 m1 j2 m3 : ℚ) : ℤ := pyInt (max (max (-j1 + j2 + m3) (-j1 + m1)) 0)

/-- `vmax`, su2.py:55. -/
def vmax (j1 m1 j2 j3 m3 : ℚ) : ℤ := pyInt (min (min (j2 + j3 + m1) (j3 - j1 + j2)) (j3 + m3))

/-- The number under the square root, su2.py:61-71. -/
def cgRadicand (j1 m1 j2 m2 j3 m3 : ℚ) : ℚ :=
  (2 * j3 + 1) * ((fct (j3 + j1 - j2) * fct (j3 - j1 + j2) * fct (j1 + j2 - j3) * fct (j3 + m3) * fct (j3 - m3) : ℕ) /
    (fct (j1 + j2 + j3 + 1) * fct (j1 - m1) * fct (j1 + m1) * fct (j2 - m2) * fct (j2 + m2) : ℕ))

/-- One term of the sum `S`, su2.py:75-78. -/
def cgTerm (j1 m1 j2 m2 j3 m3 : ℚ) (v : ℤ) : ℚ :=
  (-1) ^ (round (v + j2 + m2)) * ((fct (j2 + j3 + m1 - v) * fct (j1 - m1 + v) : ℕ) /
    (fct v * fct (j3 - j1 + j2 - v) * fct (j3 + m3 - v) * fct (v + j1 - j2 - m3) : ℕ))

/-- `_su2_cg((j1, m1), (j2, m2), (j3, m3))`, su2.py:41-80. -/
noncomputable def su2Cg (j1 m1 j2 m2 j3 m3 : ℚ) : ℝ :=
  if m3 ≠ m1 + m2 then 0
  else Real.sqrt (cgRadicand j1 m1 j2 m2 j3 m3) *
    ((∑ v ∈ Finset.Icc (vmin j1 m1 j2 m3) (vmax j1 m1 j2 j3 m3), cgTerm j1 m1 j2 m2 j3 m3 v : ℚ) : ℝ)

/-- `int(2 * j3) in range(int(2 * abs(j1 - j2)), int(2 * (j1 + j2)) + 1, 2)`, su2.py:31. -/
def inRange (n1 n2 n3 : ℕ) : Prop :=
  |(n1 : ℤ) - n2| ≤ n3 ∧ (n3 : ℤ) < n1 + n2 + 1 ∧ ((n3 : ℤ) - |(n1 : ℤ) - n2|) % 2 = 0

instance (n1 n2 n3 : ℕ) : Decidable (inRange n1 n2 n3) := by unfold inRange; infer_instance

/-- `su2_clebsch_gordan(j1, j2, j3)[a, b, c]`, su2.py:25-38, with `j = n / 2`.  The loops visit
`m1 = -j1, ..., j1` and `m2 = -j2, ..., j2`, that is the indices `a = int(j1 + m1)` and
`b = int(j2 + m2)`; the entries that are not set stay zero. -/
noncomputable def su2ClebschGordan (n1 n2 n3 : ℕ) (a : Fin (n1 + 1)) (b : Fin (n2 + 1)) (c : Fin (n3 + 1)) : ℝ :=
  let j1 : ℚ := n1 / 2
  let j2 : ℚ := n2 / 2
  let j3 : ℚ := n3 / 2
  let m1 : ℚ := a - j1
  let m2 : ℚ := b - j2
  (if inRange n1 n2 n3 ∧ |m1 + m2| ≤ j3 ∧ pyInt (j3 + m1 + m2) = c then su2Cg j1 m1 j2 m2 j3 (m1 + m2) else 0) /
    Real.sqrt (2 * (n3 / 2) + 1)

/-- `einsum("ij,kl,mn,ikn->jlm", Q1, Q2, conj(Q3.T), C)`, so3.py:38-42 (before the imaginary part is
dropped). -/
noncomputable def cgComplex (l1 l2 l3 : ℕ) (j : Fin (2 * l1 + 1)) (l : Fin (2 * l2 + 1)) (m : Fin (2 * l3 + 1)) : ℂ :=
  ∑ i, ∑ k, ∑ n, changeBasis l1 i j * changeBasis l2 k l * (changeBasis l3)ᴴ m n *
    (su2ClebschGordan (2 * l1) (2 * l2) (2 * l3) i k n : ℂ)

/-- `clebsch_gordan(l1, l2, l3)[j, l, m]`, so3.py:22-45. -/
noncomputable def clebschGordan (l1 l2 l3 : ℕ) (j : Fin (2 * l1 + 1)) (l : Fin (2 * l2 + 1)) (m : Fin (2 * l3 + 1)) : ℝ :=
  (cgComplex l1 l2 l3 j l m).re

end E3nn.SU2
