import Verif.Model.IArr
import Mathlib.Data.Real.Basic

/-!
# Model of `e3nn_jax/_src/utils/vmap.py`

`e3nn.utils.vmap(fun)` for functions of one or two arrays, mapped over a leading axis with index type `ν`; the
other leading axes are not represented (they may be part of `ν`, see C92). JAX traces `fun` once, so that the
irreps, the zero flags and whether the chunks are cached are the same for all rows; the model takes them from one
row and the axis is not empty. `jax.vmap` without the wrapper uses the pytree registration of `IrrepsArray`.
-/

namespace E3nn.Vmap

open E3nn.IArr

variable {ν : Type}

/-- One slice along the mapped axis, unflattened from `((array, _chunks), (irreps, zero_flags))`, vmap.py:73-79. -/
def row (x : IArr (ν → ℝ)) (i : ν) : Except PyErr (IArr (Unit → ℝ)) :=
  IArr.make x.irreps (x.array.map fun col _ => col i) (some x.zeroFlags) (mapChunks (fun col _ => col i) x.chunks?)

/-- The chunks of the rows stacked along the mapped axis (vmap.py:59, 75): entry `k` of line `r` of chunk `j`. -/
def stackChunks (outs : ν → IArr (Unit → ℝ)) (cs : List (Chunk (Unit → ℝ))) : List (Chunk (ν → ℝ)) :=
  cs.mapIdx fun j c => c.map fun rows => rows.mapIdx fun r line => line.mapIdx fun k _ =>
    fun i => ((((outs i).chunks.getD j none).getD []).getD r []).getD k 0 ()

/-- The results of the rows stacked along the mapped axis, vmap.py:59-62 and 73-79; `i₀` is any row. -/
def stack (outs : ν → IArr (Unit → ℝ)) (i₀ : ν) : Except PyErr (IArr (ν → ℝ)) :=
  IArr.make (outs i₀).irreps ((outs i₀).array.mapIdx fun k _ => fun i => (outs i).array.getD k 0 ())
    (some (outs i₀).zeroFlags) ((outs i₀).chunks?.map (stackChunks outs))

open Classical in
/-- `vmap(fun)(x)`, vmap.py:35-64, for a function of one array. -/
noncomputable def vmap [Nonempty ν] (f : IArr (Unit → ℝ) → Except PyErr (IArr (Unit → ℝ))) (x : IArr (ν → ℝ)) :
    Except PyErr (IArr (ν → ℝ)) :=
  let one := fun i => (row x i).bind f
  if h : ∀ i, ∃ out, one i = .ok out then stack (fun i => (h i).choose) (Classical.arbitrary ν)
  else match one (Classical.arbitrary ν) with
    | .error e => .error e
    | .ok _ => .error .typeError

open Classical in
/-- `vmap(fun)(x, y)`, vmap.py:35-64, for a function of two arrays. -/
noncomputable def vmap2 [Nonempty ν] (f : IArr (Unit → ℝ) → IArr (Unit → ℝ) → Except PyErr (IArr (Unit → ℝ)))
    (x y : IArr (ν → ℝ)) : Except PyErr (IArr (ν → ℝ)) :=
  let one := fun i => (row x i).bind fun a => (row y i).bind fun b => f a b
  if h : ∀ i, ∃ out, one i = .ok out then stack (fun i => (h i).choose) (Classical.arbitrary ν)
  else match one (Classical.arbitrary ν) with
    | .error e => .error e
    | .ok _ => .error .typeError

open Classical in
/-- `vmap(fun, in_axes=(0, None))(x, y)`, vmap.py:35-64: the second argument is the same for all rows. -/
noncomputable def vmapShared [Nonempty ν] (f : IArr (Unit → ℝ) → IArr (Unit → ℝ) → Except PyErr (IArr (Unit → ℝ)))
    (x : IArr (ν → ℝ)) (y : IArr (Unit → ℝ)) : Except PyErr (IArr (ν → ℝ)) :=
  let one := fun i => (row x i).bind fun a => f a y
  if h : ∀ i, ∃ out, one i = .ok out then stack (fun i => (h i).choose) (Classical.arbitrary ν)
  else match one (Classical.arbitrary ν) with
    | .error e => .error e
    | .ok _ => .error .typeError

/-- One slice along the mapped axis for plain `jax.vmap`, irreps_array.py:1238-1242: array and irreps only. -/
def rowJax (x : IArr (ν → ℝ)) (i : ν) : Except PyErr (IArr (Unit → ℝ)) :=
  IArr.ofArray x.irreps (x.array.map fun col _ => col i)

open Classical in
/-- `jax.vmap(fun)(x)` on an `IrrepsArray`, irreps_array.py:1238-1242. -/
noncomputable def jaxVmap [Nonempty ν] (f : IArr (Unit → ℝ) → Except PyErr (IArr (Unit → ℝ))) (x : IArr (ν → ℝ)) :
    Except PyErr (IArr (ν → ℝ)) :=
  let one := fun i => (rowJax x i).bind f
  if h : ∀ i, ∃ out, one i = .ok out then
    let outs := fun i => (h i).choose
    IArr.ofArray (outs (Classical.arbitrary ν)).irreps
      ((outs (Classical.arbitrary ν)).array.mapIdx fun k _ => fun i => (outs i).array.getD k 0 ())
  else match one (Classical.arbitrary ν) with
    | .error e => .error e
    | .ok _ => .error .typeError

end E3nn.Vmap
