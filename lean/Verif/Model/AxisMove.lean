import Verif.Model.Shape

/-!
# `mul_to_axis` and `axis_to_mul` with any `axis`, and the shape of the leading axes (irreps_array.py:875-954)

A chunk of shape `lead + (mul, d)` is a list of rows of columns; a column is a function of the position in the leading axes.
-/

namespace E3nn.Shp

open E3nn.IArr

variable {α : Type}

/-- The entry `chunk[i_1, ..., i_n, j, e]` (irreps_array.py:909, 945: the elements that are moved). -/
def cell [Zero α] (lead : List ℕ) (c : List (List (Fin lead.prod → α))) (i : List ℕ) (j e : ℕ) : α :=
  at0 ((c.getD j []).getD e 0) (flat lead i)

/-- The chunk of shape `lead + (mul, d)` with given entries (irreps_array.py:909, 945: the result of `moveaxis` and `reshape`). -/
def build (lead : List ℕ) (mul d : ℕ) (g : List ℕ → ℕ → ℕ → α) : List (List (Fin lead.prod → α)) :=
  (List.range mul).map fun j => (List.range d).map fun e => fun k => g (unflat lead k) j e

/-- `mul_to_axis(factor, axis)`, irreps_array.py:875-916. `_standardize_axis` (1245-1259) returns a tuple, so that the test `axis == self.ndim`
(894-897) is never true; `moveaxis(x, -3, axis)` puts the new axis anywhere, but `from_chunks` (basic.py:43-51) asks for the leading shape
`self.shape[:-1] + (factor,)`. The entry of the moved chunk at `full` is the one of the reshaped chunk with the number at `axis` moved back.
`factor=None` is `defaultFactor` (Model/Axis.lean). -/
def mulToAxisAt [Zero α] (x : NArr α) (f : ℕ) (axis : Int) : Except PyErr (NArr α) :=
  let nd := x.lead.length + 1
  if ¬ (-((nd : Int) + 1) ≤ axis ∧ axis < (nd : Int) + 1) then .error .valueError
  else
    let a := (axis % ((nd + 1 : ℕ) : Int)).toNat
    if f = 0 ∧ x.val.irreps ≠ [] then .error .zeroDivision
    else if !(x.val.irreps.all fun m => m.mul % f == 0) then .error .valueError
    else
      let irreps : Irreps := x.val.irreps.map fun m => ⟨m.mul / f, m.ir⟩
      if (irreps.zip x.val.chunks).any fun q =>
          q.2.isSome && (x.lead ++ [q.1.mul, q.1.ir.dim]).insertIdx a f != x.lead ++ [f, q.1.mul, q.1.ir.dim] then .error .valueError
      else
        let cs := (irreps.zip x.val.chunks).map fun q => q.2.map fun c =>
          build (x.lead ++ [f]) q.1.mul q.1.ir.dim fun i j e =>
            let full := i ++ [j, e]
            let r := full.eraseIdx a
            cell x.lead c (r.take x.lead.length) (full.getD a 0 * q.1.mul + r.getD x.lead.length 0) (r.getD (x.lead.length + 1) 0)
        match fromChunks irreps cs with
        | .error e => .error e
        | .ok v => .ok ⟨x.lead ++ [f], v⟩

/-- `axis_to_mul(axis)`, irreps_array.py:925-954: `moveaxis(x, axis, -3)`, then a `reshape` with `self.shape[:-2]` and `self.shape[-2]`, whatever
`axis` is; the number of entries is always right, so `reshape` never raises. -/
def axisToMulAt [Zero α] (x : NArr α) (axis : Int) : Except PyErr (NArr α) :=
  let nd := x.lead.length + 1
  if nd < 2 then .error .assertion
  else if ¬ (-(nd : Int) ≤ axis ∧ axis < nd) then .error .valueError
  else
    let a := (axis % (nd : Int)).toNat
    if a = nd - 1 then .error .valueError
    else
      let n := x.lead.getLastD 0
      let lead := x.lead.dropLast
      let irreps : Irreps := x.val.irreps.map fun m => ⟨n * m.mul, m.ir⟩
      let cs := (x.val.irreps.zip x.val.chunks).map fun q => q.2.map fun c =>
        build lead (n * q.1.mul) q.1.ir.dim fun i j e =>
          let s := unflat (x.lead.eraseIdx a ++ [x.lead.getD a 0, q.1.mul, q.1.ir.dim]) (flat (lead ++ [n * q.1.mul, q.1.ir.dim]) (i ++ [j, e]))
          cell x.lead c ((s.take lead.length).insertIdx a (s.getD lead.length 0)) (s.getD (lead.length + 1) 0) (s.getD (lead.length + 2) 0)
      match fromChunks irreps cs with
      | .error e => .error e
      | .ok v => .ok ⟨lead, v⟩

end E3nn.Shp
