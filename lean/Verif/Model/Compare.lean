import Verif.Model.IArr
import Mathlib.Algebra.Group.Pi.Basic

/-!
# Model of the comparison `x == y` of arrays (irreps_array.py:248-284)

The leading axes of the two arrays are already broadcast: both are functions of the same leading index. Booleans are the components of the result.
-/

namespace E3nn.Compare

open E3nn.IArr

/-- `jnp.zeros((), bool)`, the entries of a chunk `None` of booleans (irreps_array.py:282). -/
scoped instance : Zero Bool := ⟨false⟩

variable {ι K : Type} [Zero K] [DecidableEq K]

/-- `jnp.all(x == y, axis=-1)` for one row of a chunk, irreps_array.py:269. -/
def rowEq (r s : List (ι → K)) : List (ι → Bool) := [fun i => (r.zip s).all fun q => decide (q.1 i = q.2 i)]

/-- `eq(mul, x, y)[..., None]`, irreps_array.py:261-272. -/
def eqChunk (mul : ℕ) : Chunk (ι → K) → Chunk (ι → K) → List (List (ι → Bool))
  | none, none => List.replicate mul [fun _ => true]
  | none, some b => b.map fun s => rowEq (s.map fun _ => 0) s
  | some a, none => a.map fun r => rowEq r (r.map fun _ => 0)
  | some a, some b => List.zipWith rowEq a b

/-- `self == other` for two `IrrepsArray`, irreps_array.py:253-277. -/
def eqArrays (x y : IArr (ι → K)) : Except PyErr (IArr (ι → Bool)) :=
  if x.irreps ≠ y.irreps then .error .valueError
  else fromChunks (x.irreps.map fun m => ⟨m.mul, ⟨0, .e⟩⟩)
    ((x.irreps.zip (x.chunks.zip y.chunks)).map fun q => some (eqChunk q.1.mul q.2.1 q.2.2))

/-- `self == other` for a number (or one number for each leading index), irreps_array.py:279-284. `lmax` of irreps without terms raises `ValueError`. -/
def eqNumber (x : IArr (ι → K)) (c : ι → K) : Except PyErr (IArr (ι → Bool)) := do
  let lmax ← Irreps.lmax x.irreps
  if 0 < lmax then .error .valueError
  else make x.irreps (x.array.map fun v i => decide (v i = c i)) none none

end E3nn.Compare
