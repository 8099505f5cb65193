import Verif.Model.TransformO3

/-!
# Model of `Irrep.generators` and `Irreps.generators` (irreps.py)
-/

namespace E3nn

/-- `Irrep.generators`, irreps.py:238-247. -/
noncomputable def Irrep.generators (ir : Irrep) (i : Fin 3) : List (List ℝ) := matRows (SU2.so3Generators ir.l i)

/-- `Irreps.generators`, irreps.py:938-946: `block_diag` mapped over the axis of the three generators. Without any copy
`jax.vmap` has no argument to map over and raises `ValueError`. -/
noncomputable def Irreps.generators (x : Irreps) : Except PyErr (Fin 3 → List (List ℝ)) :=
  match dBlocks (fun ir => ir.generators 0) x with
  | [] => .error .valueError
  | _ => .ok fun i => blockDiag (dBlocks (fun ir => ir.generators i) x)

end E3nn
