import Verif.Model.BatchNorm
import Verif.Spec.IArr

/-!
# What batch normalisation does to one irrep

Independent of the loop: every irrep of the array is handled by itself, with its own entry of the parameters.
-/

namespace E3nn.BN

open E3nn.IArr

variable {β σ : Type} [Fintype β] [Fintype σ] [Nonempty σ]

/-- The irreps of an array with the zero flag of their term and their components. -/
def tagged (x : IArr (Col β σ)) : List (Irrep × Bool × List (Col β σ)) :=
  List.zipWith (fun b z => (b.1, z, b.2)) x.blocks ((x.irreps.zip x.zeroFlags).flatMap fun p => List.replicate p.1.mul p.2)

/-- An even scalar. -/
abbrev Even0 {γ : Type} (t : Irrep × γ) : Bool := t.1 == ⟨0, .e⟩

/-- The number of even scalars among the first `n` irreps: the index of an even scalar in the running means and the biases. -/
def before {γ : Type} (ts : List (Irrep × γ)) (n : ℕ) : ℕ := ((ts.take n).filter Even0).length

/-- The average over the samples. -/
noncomputable def sampleAverage (f : σ → ℝ) : ℝ := (∑ s, f s) / Fintype.card σ

/-- The average over the batch, weighted by the mask if there is one. -/
noncomputable def batchAverage (mask : Option (β → ℝ)) (f : β → ℝ) : ℝ := (∑ b, f b * (mask.getD 1) b) / ∑ b, (mask.getD 1) b

/-- The mean that is subtracted from a scalar `v`: the running mean, the mean of the instance, or the mean of the batch. -/
noncomputable def meanUsed (c : Cfg) (mask : Option (β → ℝ)) (ra : ℝ) (v : Col β σ) (b : β) : ℝ :=
  if c.running then ra else if c.inst then sampleAverage fun s => v (b, s) else batchAverage mask fun b => sampleAverage fun s => v (b, s)

/-- The irrep after centring: only even scalars change. -/
noncomputable def centred (c : Cfg) (mask : Option (β → ℝ)) (ra : ℝ) (ir : Irrep) (r : List (Col β σ)) : List (Col β σ) :=
  if ir = ⟨0, .e⟩ then r.map fun v p => v p - meanUsed c mask ra v p.1 else r

/-- The squared norm (`norm`) or its average per component (`component`) at one point. -/
noncomputable def size (c : Cfg) (r : List (Col β σ)) (p : β × σ) : ℝ :=
  (r.map fun v => v p ^ 2).sum / if c.normalization = .norm then 1 else (r.length : ℝ)

/-- The mean or maximum of the sizes over the samples of one element of the batch. -/
noncomputable def spread (c : Cfg) (r : List (Col β σ)) (b : β) : ℝ :=
  if c.reduce = .mean then sampleAverage fun s => size c r (b, s) else ⨆ s, size c r (b, s)

/-- The variance used: the running one, the one of the instance, or the one of the batch. -/
noncomputable def varUsed (c : Cfg) (mask : Option (β → ℝ)) (ra : ℝ) (r : List (Col β σ)) (b : β) : ℝ :=
  if c.running then ra else if c.inst then spread c r b else batchAverage mask (spread c r)

/-- One irrep after `batch_norm`: centred, divided by `sqrt((1 - eps) var + eps)`, multiplied by its weight, and shifted by its bias if it is an
even scalar. -/
noncomputable def normalised (c : Cfg) (mask : Option (β → ℝ)) (raMean raVar weight bias : ℝ) (ir : Irrep) (r : List (Col β σ)) : List (Col β σ) :=
  let z := centred c mask raMean ir r
  z.map fun v p => v p / Real.sqrt ((1 - c.epsilon) * varUsed c mask raVar z p.1 + c.epsilon) * (if c.affine then weight else 1) +
    if ir = ⟨0, .e⟩ ∧ c.affine then bias else 0

/-- The exponential average. -/
def rolled (c : Cfg) (old new : ℝ) : ℝ := (1 - c.momentum) * old + c.momentum * new

/-- The arguments are complete and of the right lengths for the irreps of `x`. -/
structure Fits (c : Cfg) (P : Params) (x : IArr (Col β σ)) : Prop where
  options : c.normalization ≠ .other ∧ c.reduce ≠ .other
  nonempty : c.inst = false → x.irreps ≠ []
  stats : (c.inst = false ∨ c.running = true) → P.raMean ≠ none ∧ P.raVar ≠ none
  weights : c.affine = true → P.weight ≠ none ∧ P.bias ≠ none
  mean : ∀ l, P.raMean = some l → l.length = ((expand x.irreps).filter (· == ⟨0, .e⟩)).length
  var : ∀ l, P.raVar = some l → l.length = (expand x.irreps).length
  weight : ∀ l, P.weight = some l → l.length = (expand x.irreps).length
  bias : ∀ l, P.bias = some l → l.length = if c.affine then ((expand x.irreps).filter (· == ⟨0, .e⟩)).length else 0

/-- An entry of a parameter. -/
def at' (p : Option (List ℝ)) (n : ℕ) : ℝ := (p.getD []).getD n 0

end E3nn.BN
