import Mathlib.MeasureTheory.Integral.IntervalIntegral.Basic
import Mathlib.Analysis.SpecialFunctions.Exp

/-! # Specification: the error function and what is assumed of `erfinv` -/

namespace E3nn

/-- The error function. -/
noncomputable def erf (x : ℝ) : ℝ := 2 / Real.sqrt Real.pi * ∫ t in (0 : ℝ)..x, Real.exp (-(t ^ 2))

/-- `e` is an inverse of the error function on the open interval `(-1, 1)`. -/
def IsErfInv (e : ℝ → ℝ) : Prop := ∀ y, -1 < y → y < 1 → erf (e y) = y

end E3nn
