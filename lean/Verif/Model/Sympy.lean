import Mathlib.Analysis.SpecialFunctions.Sqrt
import Mathlib.Data.Rat.Floor

/-!
# `utils/sympy.py`: numbers recognised as square roots of rationals

A float is a rational number. Two external functions are parameters: `sq`, the floating point square `x**2`, and `ld`, the method
`Fraction.limit_denominator()` of the standard library (its contract is in `Spec/Sympy.lean`). A sympy expression is represented by its value.
-/

namespace E3nn.Sym

/-- A numpy array as nested rows (utils/sympy.py:17-21: `x.ndim == 0` or iteration over the rows). -/
inductive Nd (α : Type) where
  | scalar (a : α)
  | rows (l : List (Nd α))

/-- `Q_to_sympy(x)`, utils/sympy.py:7-9: `sympify` of a fraction is exact. -/
def qToSympy (ld : ℚ → ℚ) (x : ℚ) : ℝ := ((ld x : ℚ) : ℝ)

/-- `sqrtQ_to_sympy(x)`, utils/sympy.py:12-14. -/
noncomputable def sqrtQ (ld sq : ℚ → ℚ) (x : ℚ) : ℝ := (if x ≥ 0 then 1 else -1) * Real.sqrt (qToSympy ld (sq x))

/-- `sqrtQarray_to_sympy(x)`, utils/sympy.py:17-21. -/
noncomputable def sqrtQarray (ld sq : ℚ → ℚ) : Nd ℚ → Nd ℝ
  | .scalar x => .scalar (sqrtQ ld sq x)
  | .rows l => .rows (l.attach.map fun r => sqrtQarray ld sq r.1)
decreasing_by
  have := List.sizeOf_lt_of_mem r.2
  simp; omega

end E3nn.Sym
