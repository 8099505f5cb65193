import Mathlib.Analysis.SpecialFunctions.Exp
import Mathlib.Algebra.BigOperators.Group.Finset.Basic
import Verif.Model.Irreps

/-! # What the attention of `Transformer` is documented to be -/

namespace E3nn.Transf

open Classical in
/-- The edges that arrive at the node `v`. -/
noncomputable def arriving {ν ε : Type} [Fintype ε] (dst : ε → ν) (v : ν) : Finset ε := Finset.univ.filter fun e => dst e = v

/-- The softmax over the edges that arrive at the same node, each edge counted with its cutoff weight. -/
noncomputable def softmax {ν ε : Type} [Fintype ε] (dst : ε → ν) (cutoff logit : ε → ℝ) (e : ε) : ℝ :=
  cutoff e * Real.exp (logit e) / ∑ e' ∈ arriving dst (dst e), cutoff e' * Real.exp (logit e')

/-- The head of every column: the copies of every irrep are shared between `H` heads in equal runs. -/
def columnHeads (H : ℕ) (ms : Irreps) : List ℕ := ms.flatMap fun m => (List.range m.mul).flatMap fun t => List.replicate (2 * m.ir.l + 1) (t / (m.mul / H))

end E3nn.Transf
