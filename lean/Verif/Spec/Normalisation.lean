import Verif.Model.TensorProduct
import Mathlib.MeasureTheory.Integral.Bochner.Basic
import Mathlib.Probability.Independence.Basic

/-!
# Specification: the statistics of random `IrrepsArray`s

A random `IrrepsArray` is an `IrrepsArray` whose components are random variables, i.e. real functions
on a probability space.  Blocks are pairs of an irrep and the list of its `2l+1` components.
-/

namespace E3nn.Stat
open MeasureTheory ProbabilityTheory

variable {Ω : Type} [MeasurableSpace Ω]

/-- The expectation of the product of two random variables is `v` (and is defined). -/
def Corr (μ : Measure Ω) (f g : Ω → ℝ) (v : ℝ) : Prop :=
  Integrable (fun ω => f ω * g ω) μ ∧ ∫ ω, f ω * g ω ∂μ = v

/-- Different components of the block are uncorrelated and each has second moment `v`. -/
def Moments2 (μ : Measure Ω) (b : Irrep × List (Ω → ℝ)) (v : ℝ) : Prop :=
  ∀ i j, i < 2 * b.1.l + 1 → j < 2 * b.1.l + 1 → Corr μ (b.2.getD i 0) (b.2.getD j 0) (if i = j then v else 0)

/-- The components of the first block are uncorrelated with those of the second. -/
def Uncorr (μ : Measure Ω) (b b' : Irrep × List (Ω → ℝ)) : Prop :=
  ∀ i j, i < 2 * b.1.l + 1 → j < 2 * b'.1.l + 1 → Corr μ (b.2.getD i 0) (b'.2.getD j 0) 0

/-- The second moment that each `irrep_normalization` promises: `component` means that every component
has second moment one, `norm` that the squared norm of a block has expectation one. -/
noncomputable def target (n : IrNorm) (ir : Irrep) : ℝ :=
  match n with
  | .component => 1
  | _ => 1 / (2 * ir.l + 1)

/-- Every block is normalised. -/
def Normalised (n : IrNorm) (μ : Measure Ω) (bs : List (Irrep × List (Ω → ℝ))) : Prop :=
  ∀ b ∈ bs, Moments2 μ b (target n b.1)

/-- Every block is normalised and different blocks are uncorrelated. -/
def White (n : IrNorm) (μ : Measure Ω) (bs : List (Irrep × List (Ω → ℝ))) : Prop :=
  Normalised n μ bs ∧ bs.Pairwise (Uncorr μ)

/-- Two lists of random variables are independent. -/
def Indep (μ : Measure Ω) (a b : List (Ω → ℝ)) : Prop :=
  IndepFun (fun ω (i : ℕ) => a.getD i 0 ω) (fun ω (i : ℕ) => b.getD i 0 ω) μ

/-- Isotropic up to the fourth order: `E[x_i x_j] = s2 δ_ij` and
`E[x_i x_j x_k x_l] = s4 (δ_ij δ_kl + δ_ik δ_jl + δ_il δ_jk)`. -/
def Isotropic4 (μ : Measure Ω) (b : Irrep × List (Ω → ℝ)) (s2 s4 : ℝ) : Prop :=
  Moments2 μ b s2 ∧
  ∀ i j k l, i < 2 * b.1.l + 1 → j < 2 * b.1.l + 1 → k < 2 * b.1.l + 1 → l < 2 * b.1.l + 1 →
    Corr μ (b.2.getD i 0 * b.2.getD j 0) (b.2.getD k 0 * b.2.getD l 0)
      (s4 * ((if i = j ∧ k = l then 1 else 0) + (if i = k ∧ j = l then 1 else 0) + (if i = l ∧ j = k then 1 else 0)))

/-- The second moments of the input that `tensor_square` assumes: with `normalized_input` every block
has norm one, otherwise it is normalised like the output. -/
noncomputable def second (n : IrNorm) (normalizedInput : Bool) (ir : Irrep) : ℝ :=
  if normalizedInput then 1 / (2 * ir.l + 1) else target n ir

/-- The fourth moments: those of a uniformly distributed unit vector in dimension `d = 2l+1`, which are
`1/(d(d+2))`, or those of a Gaussian vector with second moment `target n ir`. -/
noncomputable def fourth (n : IrNorm) (normalizedInput : Bool) (ir : Irrep) : ℝ :=
  if normalizedInput then 1 / ((2 * ir.l + 1) * (2 * ir.l + 3)) else target n ir ^ 2

end E3nn.Stat
