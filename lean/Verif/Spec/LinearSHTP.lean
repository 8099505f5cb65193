import Verif.Model.Irreps

/-!
# Specification for `LinearSHTP` and `shtp`
-/

namespace E3nn.LSH

/-- The degree `ly` of the spherical harmonics of a direction of parity `p` (which have parity `p ^ ly`) couples `irx` to `irz`: the triangular
inequality and the product of the parities. -/
def Couples (p : Parity) (irx irz : Irrep) (ly : Nat) : Prop :=
  irx.l ≤ irz.l + ly ∧ irz.l ≤ irx.l + ly ∧ ly ≤ irx.l + irz.l ∧ irz.p = irx.p.mul (p.pow ly)

instance (p : Parity) (irx irz : Irrep) (ly : Nat) : Decidable (Couples p irx irz ly) := by unfold Couples; infer_instance

/-- The number of degrees that couple `irx` to `irz`. -/
def couplings (p : Parity) (irx irz : Irrep) : Nat := ((List.range (irx.l + irz.l + 1)).filter fun ly => decide (Couples p irx irz ly)).length

/-- Some degree `ly` with `ly = irx.l + irz.l + r` modulo `2` couples `irx` to `irz`. -/
def Reach (p : Parity) (irx irz : Irrep) (r : Nat) : Prop := ∃ ly ∈ List.range (irx.l + irz.l + 1), ly % 2 = (irx.l + irz.l + r) % 2 ∧ Couples p irx irz ly

instance (p : Parity) (irx irz : Irrep) (r : Nat) : Decidable (Reach p irx irz r) := by unfold Reach; infer_instance

/-- The distance between two numbers. -/
def dist (a b : Nat) : Nat := (a - b) + (b - a)

end E3nn.LSH
