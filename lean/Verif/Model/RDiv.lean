import Verif.Model.IArr
import Mathlib.Data.Real.Basic
import Mathlib.Algebra.Group.Pi.Basic

/-!
# Model of `other / x` with a number or an array on the left, irreps_array.py:449-464

A column is a function of the leading index. Real numbers: a quotient by zero is zero here, not infinity or NaN.
-/

namespace E3nn.RDiv

open E3nn.IArr

variable {ι : Type}

/-- `other / x`, irreps_array.py:449-464. `other` is given by its columns along the last axis, with its leading axes already broadcast; a number
has one constant column. The quotient `other / self.array` broadcasts the last axis; incompatible lengths raise `TypeError` in jax (`ValueError` in
numpy). The constructor (86-114) refuses a quotient of another length. -/
noncomputable def rdiv (other : List (ι → ℝ)) (x : IArr (ι → ℝ)) : Except PyErr (IArr (ι → ℝ)) :=
  match Irreps.lmax x.irreps with
  | .error e => .error e
  | .ok lmax =>
    if lmax > 0 then .error .valueError
    else if x.chunks.any Option.isNone then .error .valueError
    else if other.length = x.array.length then ofArray x.irreps (List.zipWith (fun o v i => o i / v i) other x.array)
    else if other.length = 1 then ofArray x.irreps (x.array.map fun v i => other.headD 0 i / v i)
    else if x.array.length = 1 then ofArray x.irreps (other.map fun o i => o i / x.array.headD 0 i)
    else .error .typeError

end E3nn.RDiv
