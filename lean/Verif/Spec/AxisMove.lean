import Verif.Spec.Shape

/-! Specification for `mul_to_axis` and `axis_to_mul` with leading axes: the entry of one copy of one term at one index. -/

namespace E3nn.Shp

open E3nn.IArr

/-- Component `e` of copy `j` of term `t` in the row at `i`: `x.chunks[t][i_1, ..., i_n, j, e]`, zero for a chunk that is `None`. -/
def entry {α : Type} [Zero α] (x : NArr α) (t : ℕ) (i : List ℕ) (j e : ℕ) : α :=
  match x.val.chunks[t]? with
  | some (some c) => at0 ((c.getD j []).getD e 0) (flat x.lead i)
  | _ => 0

end E3nn.Shp
