import Verif.Model.Activation
import Mathlib.MeasureTheory.Integral.IntervalIntegral.Basic
import Mathlib.Analysis.SpecialFunctions.Exp

/-! # Model of `soft_odd` and `normalspace` (`e3nn_jax/_src/activation.py`) -/

namespace E3nn.Activ

/-- `soft_odd`, activation.py:11-24, on real numbers. -/
noncomputable def softOdd (x : ℝ) : ℝ := (1 - Real.exp (-(x ^ 2))) * x

/-- The `k`-th point of `jnp.linspace(-1.0, 1.0, n + 2)` (activation.py:46). -/
noncomputable def linPoint (n k : ℕ) : ℝ := -1 + 2 * k / (n + 1)

/-- `normalspace`, activation.py:27-46; `erfinv` stands for `jax.scipy.special.erfinv` and the slice
`[1:-1]` drops the first and the last point. -/
noncomputable def normalspace (erfinv : ℝ → ℝ) (n : ℕ) : List ℝ :=
  ((((List.range (n + 2)).map (linPoint n)).drop 1).dropLast).map fun y => Real.sqrt 2 * erfinv y

end E3nn.Activ
