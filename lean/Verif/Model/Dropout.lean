import Verif.Model.IArr
import Verif.Model.Transform
import Mathlib.Data.Real.Basic
import Mathlib.Algebra.Module.Basic

/-!
# Model of `e3nn_jax/_src/dropout_haiku.py`

`bern n` stands for `jax.random.bernoulli(rng, p=1-p, shape=(n, 1))`: the code passes the same `rng` for every term, so the mask depends on the
multiplicity only.  A column of the array is an element of a real vector space (everything on the leading axes): the noise has shape `(dim,)`,
so one number multiplies a whole column.
-/

namespace E3nn.Dropout

open E3nn.IArr

variable {α : Type} [Zero α] [SMul ℝ α]

open Classical in
/-- The noise of one term, dropout_haiku.py:60-75. -/
noncomputable def noise (p : ℝ) (bern : Nat → List Bool) (m : MulIrrep) (a : Chunk α) : List ℝ :=
  if 1 ≤ p then List.replicate (m.mul * m.ir.dim) 0
  else if p ≤ 0 then List.replicate (m.mul * m.ir.dim) 1
  else match a with
    | none => List.replicate (m.mul * m.ir.dim) 0
    | some _ => (bern m.mul).flatMap fun b => List.replicate m.ir.dim ((if b then 1 else 0) / (1 - p))

open Classical in
/-- The zero flag of one term, dropout_haiku.py:60-75. -/
noncomputable def flag (p : ℝ) (a : Chunk α) : Bool :=
  if 1 ≤ p then true
  else if p ≤ 0 then false
  else a.isNone

/-- The part of `__call__` after the optional `rechunk`, dropout_haiku.py:58-78. `jnp.concatenate([])` raises. -/
noncomputable def drop (p : ℝ) (bern : Nat → List Bool) (x : IArr α) : Except PyErr (IArr α) :=
  if x.irreps = [] then .error .valueError
  else
    let noises := ((x.irreps.zip x.chunks).map fun q => noise p bern q.1 q.2).flatten
    make x.irreps (List.zipWith (fun a s => s • a) x.array noises) (some ((x.irreps.zip x.chunks).map fun q => flag p q.2)) none

/-- `Dropout.__call__`, dropout_haiku.py:39-78 (`irreps` is the optional attribute of the module). -/
noncomputable def dropout (p : ℝ) (irreps : Option Irreps) (training : Bool) (bern : Nat → List Bool) (x : IArr α) : Except PyErr (IArr α) :=
  if !training then .ok x
  else match irreps with
    | none => drop p bern x
    | some ms => do
      let x ← x.rechunk ms
      drop p bern x

end E3nn.Dropout
