import Verif.Model.IArr
import Mathlib.Algebra.Group.Pi.Basic

/-!
# `mul_to_axis` and `axis_to_mul` (irreps_array.py:875-954), for the default `axis=-2`

The new axis is the last leading axis: the columns of the result are functions of the new index.
-/

namespace E3nn.IArr

variable {α : Type}

/-- `functools.reduce(math.gcd, ...)`, irreps_array.py:901: raises `TypeError` without terms. -/
def defaultFactor (irreps : Irreps) : Except PyErr Nat :=
  match irreps with
  | [] => .error .typeError
  | m :: ms => .ok (ms.foldl (fun g m => Nat.gcd g m.mul) m.mul)

/-- `x.reshape((factor, mul, ir.dim))` of a chunk of `factor * mul` rows, then the axis of length
`factor` moved in front of the irreps axis, irreps_array.py:909-913. -/
def splitRows [Zero α] (f mul d : Nat) (c : List (List α)) : List (List (Fin f → α)) :=
  (List.range mul).map fun j => (List.range d).map fun i => fun k =>
    ((c[k.val * mul + j]?.getD [])[i]?).getD 0

/-- `mul_to_axis(factor)`, irreps_array.py:875-916. `mul % 0` raises `ZeroDivisionError`. -/
def mulToAxis [Zero α] (x : IArr α) (f : Nat) : Except PyErr (IArr (Fin f → α)) :=
  if f = 0 ∧ x.irreps ≠ [] then .error .zeroDivision
  else if !(x.irreps.all fun m => m.mul % f == 0) then .error .valueError
  else
    let irreps : Irreps := x.irreps.map fun m => ⟨m.mul / f, m.ir⟩
    fromChunks irreps ((irreps.zip x.chunks).map fun mc => mc.2.map (splitRows f mc.1.mul mc.1.ir.dim))

/-- `moveaxis` then `x.reshape((f * mul, ir.dim))`, irreps_array.py:945-953. -/
def joinRows {f : Nat} (c : List (List (Fin f → α))) : List (List α) :=
  (List.finRange f).flatMap fun k => c.map fun r => r.map fun v => v k

/-- `axis_to_mul()`, irreps_array.py:925-954; `f = self.shape[-2]`. -/
def axisToMul [Zero α] {f : Nat} (x : IArr (Fin f → α)) : Except PyErr (IArr α) :=
  fromChunks (x.irreps.map fun m => ⟨f * m.mul, m.ir⟩) (x.chunks.map fun c => c.map joinRows)

end E3nn.IArr
