import Verif.Model.Irreps

/-!
# Specification vocabulary for `Irreps`

The meaning of an `Irreps` object: the sequence of irreducible representations it denotes.
Written without reference to the algorithms.
-/

namespace E3nn

/-- The sequence of irreps denoted by an `Irreps`: every irrep written `mul` times. -/
def expand (x : Irreps) : List Irrep := x.flatMap fun m => List.replicate m.mul m.ir

/-- The total number of components of a sequence of irreps. -/
def dimOf (s : List Irrep) : Nat := (s.map fun ir => 2 * ir.l + 1).sum

/-- Python list slicing `s[a:b]` for already resolved bounds. -/
def pySlice {α : Type _} (s : List α) (a b : Nat) : List α := (s.take b).drop a

/-- The order on irreps documented by `Irrep.iterator`: by degree, then the parity `(-1)^l` of the
spherical harmonics first. -/
def Irrep.Before (a b : Irrep) : Prop :=
  a.l < b.l ∨ (a.l = b.l ∧ a.p = Parity.ofPow a.l ∧ b.p ≠ Parity.ofPow b.l)

end E3nn
