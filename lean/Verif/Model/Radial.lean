import Verif.Model.Py
import Mathlib.Analysis.SpecialFunctions.Trigonometric.Basic
import Mathlib.Analysis.SpecialFunctions.ExpDeriv
import Mathlib.LinearAlgebra.Matrix.NonsingularInverse
import Mathlib.Data.Matrix.Mul

/-!
# Model of `e3nn_jax/_src/radial.py`

Every function of this file acts on each entry of its input separately, so the model takes one real number; real arithmetic.
-/

namespace E3nn.Radial

open Classical

/-- `sus`, radial.py:10-22. -/
noncomputable def sus (x : ℝ) : ℝ := if 0 < x then Real.exp (-1 / (if 0 < x then x else 1)) else 0

/-- `soft_envelope`, radial.py:25-54. -/
noncomputable def softEnvelope (x xMax argMultiplicator valueAtOrigin : ℝ) : ℝ :=
  valueAtOrigin / sus argMultiplicator * sus (argMultiplicator * (1 - x / xMax))

/-- `jnp.linspace(start, end, n)` (radial.py:164-179). -/
noncomputable def linspace (start stop : ℝ) (n : ℕ) : List ℝ := (List.range n).map fun i : ℕ => start + i * ((stop - start) / ((n : ℝ) - 1))

/-- `basis`, radial.py:184-210; any other string is refused at the end. -/
inductive Basis
  | gaussian | cosine | smoothFinite | fourier | other
deriving DecidableEq

/-- The number of points given to `linspace`, radial.py:163-180. -/
def count (startZero endZero : Bool) (number : ℕ) : ℕ := number + (if startZero then 1 else 0) + (if endZero then 1 else 0)

/-- `values[1] - values[0]`, radial.py:165,170,175,180. With fewer than two points jax clamps the index (and the code divides by zero): the theorems
ask for two points. -/
noncomputable def step (start stop : ℝ) (startZero endZero : Bool) (number : ℕ) : ℝ :=
  let values := linspace start stop (count startZero endZero number)
  values.getD 1 (values.getD 0 0) - values.getD 0 0

/-- `values` after the cut `[1:-1]`, `[1:]`, `[:-1]` or none, radial.py:163-180. -/
noncomputable def values (start stop : ℝ) (startZero endZero : Bool) (number : ℕ) : List ℝ :=
  let v := linspace start stop (count startZero endZero number)
  match startZero, endZero with
  | true, true => (v.drop 1).dropLast
  | true, false => v.drop 1
  | false, true => v.dropLast
  | false, false => v

/-- The part of `soft_one_hot_linspace` after the flags, radial.py:163-210. -/
noncomputable def project (x start stop : ℝ) (number : ℕ) (basis : Basis) (startZero endZero : Bool) : Except PyErr (List ℝ) :=
  let diff := (values start stop startZero endZero number).map fun v => (x - v) / step start stop startZero endZero number
  match basis with
  | .gaussian => .ok (diff.map fun d => Real.exp (-(d ^ 2)) / 1.12)
  | .cosine => .ok (diff.map fun d => if -1 < d ∧ d < 1 then Real.cos (Real.pi / 2 * d) else 0)
  | .smoothFinite => .ok (diff.map fun d => 1.14136 * Real.exp 2 * sus (d + 1) * sus (1 - d))
  | .fourier =>
    let z := (x - start) / (stop - start)
    if startZero && endZero then
      .ok (((List.range number).map (· + 1)).map fun i : ℕ => if 0 < z ∧ z < 1 then Real.sin (Real.pi * i * z) / Real.sqrt (0.25 + number / 2) else 0)
    else if !startZero && !endZero then
      .ok ((List.range number).map fun i : ℕ => Real.cos (Real.pi * i * z) / Real.sqrt (0.25 + number / 2))
    else .error .valueError
  | .other => .error .valueError

/-- `soft_one_hot_linspace`, radial.py:57-210. `none` is `None`. -/
noncomputable def softOneHotLinspace (x start stop : ℝ) (number : ℕ) (basis : Basis) (cutoff startZero endZero : Option Bool) : Except PyErr (List ℝ) :=
  if cutoff.isSome && (startZero.isSome || endZero.isSome) then .error .assertion
  else
    match (if cutoff.isSome then cutoff else startZero), (if cutoff.isSome then cutoff else endZero) with
    | some a, some b => project x start stop number basis a b
    | _, _ => .error .valueError

/-- `bessel`, radial.py:213-243. -/
noncomputable def bessel (x : ℝ) (n : ℕ) (xMax : ℝ) : List ℝ :=
  ((List.range n).map (· + 1)).map fun k : ℕ =>
    Real.sqrt (2 / xMax) * (if x = 0 then k * Real.pi / xMax else Real.sin (k * Real.pi / xMax * (if x = 0 then 1 else x)) / (if x = 0 then 1 else x))

/-- `u`, radial.py:246-253. -/
noncomputable def u (p : ℕ) (x : ℝ) : ℝ :=
  1 - (p + 1) * (p + 2) / 2 * x ^ p + p * (p + 2) * x ^ (p + 1) - p * (p + 1) / 2 * x ^ (p + 2)

/-- One entry of `_constraint`, radial.py:256-264. -/
noncomputable def constraint (x : ℝ) (derivative N : ℕ) : ℝ :=
  if N < derivative then 0 else ((N.factorial / (N - derivative).factorial : ℕ) : ℝ) * x ^ (N - derivative)

/-- `jnp.polyval` (Horner's rule, highest degree first) (radial.py:280). -/
def polyval (p : List ℝ) (x : ℝ) : ℝ := p.foldl (fun acc a => acc * x + a) 0

/-- The matrix `A` of `solve_polynomial`, radial.py:270-276. -/
noncomputable def system (cs : List (ℝ × ℕ × ℝ)) : Matrix (Fin cs.length) (Fin cs.length) ℝ :=
  Matrix.of fun i N => constraint (cs.get i).1 (cs.get i).2.1 N

/-- `solve_polynomial`, radial.py:267-280: `cs` is `sorted(constraints)`; `np.linalg.solve` raises when the matrix is singular (`LinAlgError`, a `ValueError`) and
returns the solution otherwise. -/
noncomputable def solvePolynomial (cs : List (ℝ × ℕ × ℝ)) : Except PyErr (ℝ → ℝ) :=
  if (system cs).det = 0 then .error .valueError
  else .ok fun x => polyval (List.ofFn ((system cs)⁻¹.mulVec fun i => (cs.get i).2.2)).reverse x

/-- The constraints of `poly_envelope` in sorted order, radial.py:312-318. -/
noncomputable def envelopeConstraints (n0 n1 : ℕ) : List (ℝ × ℕ × ℝ) :=
  ((-0.5, 0, 1) :: (List.range n0).map fun d => (-0.5, d + 1, 0)) ++ ((0.5, 0, 0) :: (List.range n1).map fun d => (0.5, d + 1, 0))

/-- `poly_envelope`, radial.py:283-328. -/
noncomputable def polyEnvelope (n0 n1 : ℕ) (xMax : ℝ) : Except PyErr (ℝ → ℝ) :=
  match solvePolynomial (envelopeConstraints n0 n1) with
  | .error e => .error e
  | .ok poly => .ok fun x =>
    let xSmall := if x < xMax then x else xMax
    if x < xMax then poly (xSmall / xMax - 0.5) else 0

end E3nn.Radial
