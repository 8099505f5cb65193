import Verif.Spec.ReducedTP
import Verif.Spec.IArr

/-! # Specification for `SymmetricTensorProduct` -/

namespace E3nn.SymTP

open E3nn.RTP

/-- The homogeneous polynomial of degree `r` with the coefficients `t`: the sum over all indices `j_1, ..., j_r < d` of
`t[j_1, ..., j_r] x[j_1] ... x[j_r]`. -/
noncomputable def polynomial (d r : ℕ) (t : Ten) (x : ℕ → ℝ) : ℝ :=
  ((PermRepr.fullBase (List.replicate r d)).map fun j => t (fun m => j.getD m 0) * (j.map x).prod).sum

/-- The irreps `ir` of a basis, in order: lists of `ir.dim` arrays. -/
def rowsOf (B : IArr Ten) (ir : Irrep) : List (List Ten) := (B.blocks.filter fun b => decide (b.1 = ir)).map Prod.snd

/-- What the module computes for one channel: component `i` of the output irrep `ir`. -/
noncomputable def output (orders : List ℕ) (B : ℕ → IArr Ten) (d : ℕ) (w : ℕ → ℕ → ℝ) (ir : Irrep) (i : ℕ) (x : ℕ → ℝ) : ℝ :=
  ∑ r ∈ orders.toFinset, ∑ k ∈ Finset.range (rowsOf (B r) ir).length,
    w r k / (rowsOf (B r) ir).length * polynomial d r (((rowsOf (B r) ir).getD k []).getD i 0) x

end E3nn.SymTP
