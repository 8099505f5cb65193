import Verif.Model.LimitDenom
import Mathlib.Analysis.SpecialFunctions.Pow.Real
import Mathlib.Analysis.Complex.Basic

/-! # Model of `round_to_sqrt_rational`, e3nn_jax/_src/utils/math_numpy.py:6-35 and 69-83

Floating point numbers are real numbers, `int64` integers are unbounded, arrays are flattened to lists. -/

namespace E3nn.LimDen

/-- `np.round` to an integer: ties go to the even neighbour (math_numpy.py:18). -/
noncomputable def npRound (v : ℝ) : ℤ :=
  if v - ⌊v⌋ < 1 / 2 then ⌊v⌋
  else if 1 / 2 < v - ⌊v⌋ then ⌊v⌋ + 1
  else if ⌊v⌋ % 2 = 0 then ⌊v⌋ else ⌊v⌋ + 1

/-- `normalize_integer_ratio`, math_numpy.py:6-9. -/
def normalizeRatio (n d : ℤ) : ℤ × ℤ :=
  let g : ℤ := if d < 0 then -(Int.gcd n d : ℤ) else Int.gcd n d
  (Int.fdiv n g, Int.fdiv d g)

/-- `_as_approx_integer_ratio`, math_numpy.py:12-20; `1 << 52 - 1` is `2^51` in Python. -/
noncomputable def approxUnit (x : ℝ) : ℤ × ℤ :=
  let n : ℤ := ⌊x * 2 ^ 51⌋
  let d : ℤ := npRound (n / x)
  (n, if n = 0 then 1 else d)

/-- The two branches of `np.where`, math_numpy.py:26-34, for `x = |x|`. -/
noncomputable def approxAbs (x : ℝ) : ℤ × ℤ :=
  let px := if x < 1 then 1 else x
  if x ≤ 1 then approxUnit x else ((approxUnit (1 / px)).2, (approxUnit (1 / px)).1)

/-- `np.sign(x).astype(np.int64)`, math_numpy.py:25. -/
noncomputable def signInt (x : ℝ) : ℤ := if 0 < x then 1 else if x < 0 then -1 else 0

/-- `as_approx_integer_ratio`, math_numpy.py:23-35. -/
noncomputable def approxRatio (x : ℝ) : ℤ × ℤ :=
  normalizeRatio (signInt x * (approxAbs |x|).1) (approxAbs |x|).2

/-- `sign * np.sqrt(n / d)`, math_numpy.py:73; `none` stands for a result that is not finite
(`d = 0`, or a negative argument of the square root). -/
noncomputable def signedSqrt (x : ℝ) (r : ℤ × ℤ) : Option ℝ :=
  if r.2 = 0 ∨ (r.1 : ℝ) / r.2 < 0 then none else some (signInt x * Real.sqrt (r.1 / r.2))

/-- `_round_to_sqrt_rational`, math_numpy.py:69-73 (and `round_to_sqrt_rational`, math_numpy.py:76-83,
on a real array). -/
noncomputable def roundSqrt (maxDen : ℕ) (xs : List ℝ) : Except PyErr (List (Option ℝ)) := do
  let rs ← limitDenominator ((maxDen : ℤ) ^ 2 + 1) (xs.map fun x => approxRatio (x ^ 2))
  return List.zipWith signedSqrt xs rs

/-- `round_to_sqrt_rational`, math_numpy.py:76-83, on a complex array: if some entry has an
imaginary part, real and imaginary parts are rounded separately, otherwise only the real part is kept. -/
noncomputable def roundSqrtComplex (maxDen : ℕ) (zs : List ℂ) : Except PyErr (List (Option ℂ)) :=
  open Classical in
  if ∃ z ∈ zs, z.im ≠ 0 then do
    let a ← roundSqrt maxDen (zs.map Complex.re)
    let b ← roundSqrt maxDen (zs.map Complex.im)
    return List.zipWith (fun u v => do return (⟨← u, ← v⟩ : ℂ)) a b
  else do
    let a ← roundSqrt maxDen (zs.map Complex.re)
    return a.map fun u => u.map fun r => (r : ℂ)

end E3nn.LimDen
