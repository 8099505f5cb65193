import Verif.Model.IArr

/-!
# Model of `e3nn_jax/_src/utils/decorators.py`, `overload_for_irreps_without_array`

`jax.eval_shape` runs the function on abstract values: only what depends on the data is not computed, and the
irreps of the result do not depend on the data (C108), so the model runs the function on the zeros themselves.
The arguments go through the pytree registration of `IrrepsArray`, which keeps the array and the irreps only.
`shape=()` is the leading shape of the zeros, so `K` is the ring of scalars.
-/

namespace E3nn

variable {K : Type} [Zero K]

/-- `jax.tree_util.tree_unflatten ∘ tree_flatten` on an `IrrepsArray`, irreps_array.py:1238-1242: the cached chunks
and the zero flags are lost. -/
def throughPytree (x : IArr K) : Except PyErr (IArr K) := IArr.ofArray x.irreps x.array

/-- A decorated function of one array called on irreps, decorators.py:29-52. -/
def irrepsOnly (f : IArr K → Except PyErr (IArr K)) (irreps : Irreps) : Except PyErr Irreps := do
  let z ← IArr.zeros irreps
  let z ← throughPytree z
  let y ← f z
  return y.irreps

/-- A decorated function of two arrays called on irreps, decorators.py:29-52. -/
def irrepsOnly2 (f : IArr K → IArr K → Except PyErr (IArr K)) (irreps1 irreps2 : Irreps) : Except PyErr Irreps := do
  let z1 ← IArr.zeros irreps1
  let z2 ← IArr.zeros irreps2
  let z1 ← throughPytree z1
  let z2 ← throughPytree z2
  let y ← f z1 z2
  return y.irreps

end E3nn
