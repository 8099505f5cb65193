import Verif.Model.TransformO3
import Verif.Model.RandRotation

/-!
# Model of `e3nn_jax/_src/utils/test.py`

Simplifications: arrays without leading axes (so one real number per column), real numbers for floats, `irrep_normalization = "component"` (the default) for the
random arguments; the pseudo-random numbers are arguments: `g` the standard normal numbers of the arguments given by their irreps, in order, and `u` the three uniform
numbers of `rand_matrix`.
-/

namespace E3nn.EqTest

open E3nn.IArr E3nn.Rot

/-- An argument of `equivariance_test`: an array, or the irreps of a random one, utils/test.py:34-39. -/
inductive TestArg where
  | irreps (ir : Irreps)
  | array (x : IArr ℝ)

/-- `new_args`: an argument that is an `Irreps` becomes `e3nn.normal(arg, k)`, utils/test.py:44-50. -/
def newArgs : List TestArg → List (List ℝ) → Except PyErr (List (IArr ℝ))
  | [], _ => .ok []
  | .array x :: as, gs => do
    let r ← newArgs as gs
    return x :: r
  | .irreps _ :: _, [] => .error .valueError
  | .irreps ir :: as, g :: gs => do
    let x ← ofArray ir g
    let r ← newArgs as gs
    return x :: r

/-- `R = -rand_matrix(key)`, `out1 = fun(R args)` and `out2 = R fun(args)`, utils/test.py:52-57 (`equivariance_test`, 11-57). -/
noncomputable def equivarianceTest (fn : List (IArr ℝ) → Except PyErr (IArr ℝ)) (u : ℝ × ℝ × ℝ) (gs : List (List ℝ)) (args : List TestArg) :
    Except PyErr (IArr ℝ × IArr ℝ) := do
  let args ← newArgs args gs
  let R := -randMatrix u
  let targs ← args.mapM fun a => a.transformByMatrix R
  let out1 ← fn targs
  let y ← fn args
  let out2 ← y.transformByMatrix R
  return (out1, out2)

/-- `assert_equivariant` succeeds: `tree_map` (the same irreps) of `np.testing.assert_allclose(out1, out2, atol, rtol)`, utils/test.py:60-91. -/
def passes (atol rtol : ℝ) (out : IArr ℝ × IArr ℝ) : Prop :=
  out.1.irreps = out.2.irreps ∧ out.1.array.length = out.2.array.length ∧
    ∀ j < out.1.array.length, |out.1.array.getD j 0 - out.2.array.getD j 0| ≤ atol + rtol * |out.2.array.getD j 0|

end E3nn.EqTest
