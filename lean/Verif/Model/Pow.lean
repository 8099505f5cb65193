import Verif.Model.IArr
import Mathlib.Data.Real.Basic
import Mathlib.Algebra.Group.Pi.Basic

/-!
# Model of `x ** exponent`, irreps_array.py:466-486

A column is a function of the leading index. Real numbers: a negative power of zero is zero here, not infinity.
-/

namespace E3nn.Pow

open E3nn.IArr

variable {ι : Type}

/-- `x ** exponent` with an exponent that is not an integer, irreps_array.py:467-472 and 484-486: only for even scalars. `f` is the power. -/
def powReal (f : (ι → ℝ) → ι → ℝ) (x : IArr (ι → ℝ)) : Except PyErr (IArr (ι → ℝ)) := powScalars f x

/-- `x ** n` with an integer, irreps_array.py:466-486. The zero flags are not passed on, the cached chunks are. -/
noncomputable def powInt (n : ℤ) (x : IArr (ι → ℝ)) : Except PyErr (IArr (ι → ℝ)) :=
  if x.irreps.all fun m => m.ir == ⟨0, .e⟩ then
    make x.irreps (x.array.map fun v => v ^ n) none (mapChunks (fun v => v ^ n) x.chunks?)
  else
    match Irreps.lmax x.irreps with
    | .error e => .error e
    | .ok lmax =>
      if lmax = 0 then
        let irreps := if n % 2 = 0 then x.irreps.map fun m => ⟨m.mul, ⟨0, .e⟩⟩ else x.irreps
        make irreps (x.array.map fun v => v ^ n) none (mapChunks (fun v => v ^ n) x.chunks?)
      else .error .valueError

end E3nn.Pow
