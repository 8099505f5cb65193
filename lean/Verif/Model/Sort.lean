import Verif.Model.Irreps
import Verif.Model.Perm

/-! # `Irreps.sort` and `Irreps.regroup` (need `perm.inverse`) -/

namespace E3nn.Irreps

/-- `Irreps.sort`, irreps.py:652-678. -/
def sort (x : Irreps) : Except PyErr SortResult := do
  let out := x.sortedTriples
  let inv := out.map fun t => t.2.1
  let p ← Perm.inverse inv
  return { irreps := out.map fun t => ⟨t.2.2, t.1⟩, p := p, inv := inv }

/-- `Irreps.regroup`, irreps.py:680-692. -/
def regroup (x : Irreps) : Except PyErr Irreps := do
  let r ← x.sort
  return r.irreps.simplify

end E3nn.Irreps
