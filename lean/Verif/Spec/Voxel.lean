import Verif.Model.Voxel
import Verif.Props.C48

/-! # What C103 assumes of a voxel convolution -/

namespace E3nn.Voxel

/-- The arguments of the constructor are usable: the steps are not zero, every term of the irreps has copies, the terms of `irreps_sh` have the parities of the
spherical harmonics of a vector or of an axial vector, and the two dictionaries know their degrees. -/
structure Valid (c : Conv) : Prop where
  steps : ∀ i, c.steps i ≠ 0
  norm : c.n ≠ .other
  out : ∀ m ∈ c.irrepsOut, 0 < m.mul
  sh : ∀ m ∈ c.irrepsSh, 0 < m.mul
  alg : ∀ a, c.cfg = some a → SH.AlgOk a
  parity : ∃ q : Parity, ∀ m ∈ c.irrepsSh, m.ir.p = if m.ir.l % 2 = 1 then q else .e
  number : ∀ m ∈ c.irrepsSh, ∃ k, c.numRadialBasis.get m.ir.l = .ok k
  start : ∀ m ∈ c.irrepsSh, ∃ s, c.relativeStarts.get m.ir.l = .ok s

end E3nn.Voxel
