import Mathlib.Analysis.SpecialFunctions.Pow.Real
import Mathlib.Analysis.SpecialFunctions.Sqrt

/-!
# Specification: a multilayer perceptron
-/

namespace E3nn.Perceptron

/-- `y` is the output of the network with `sizes.length - 1` layers of the given sizes, kernels `W i k j` (from neuron `k` to
neuron `j`), biases `b i j`, activations `σ i` and gradient normalisation `g`, on the input `x`: there are values `z i j` of
all the neurons that start with `x`, end with `y`, and satisfy `z (i+1) = σ (n ^ (-g/2) * (z i W + b))`. -/
def IsOutput (sizes : List ℕ) (W : ℕ → ℕ → ℕ → ℝ) (b : ℕ → ℕ → ℝ) (σ : ℕ → ℝ → ℝ) (g : ℝ) (x y : List ℝ) : Prop :=
  ∃ z : ℕ → ℕ → ℝ,
    (∀ k < sizes.getD 0 0, z 0 k = x.getD k 0) ∧
    (∀ i, i + 1 < sizes.length → ∀ j < sizes.getD (i + 1) 0,
      z (i + 1) j = σ i ((1 / Real.sqrt (sizes.getD i 0)) ^ g * (∑ k ∈ Finset.range (sizes.getD i 0), z i k * W i k j + b i j))) ∧
    y = (List.range (sizes.getD (sizes.length - 1) 0)).map (z (sizes.length - 1))

end E3nn.Perceptron
