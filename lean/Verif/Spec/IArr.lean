import Verif.Model.IArr
import Verif.Spec.Irreps

/-!
# Specification vocabulary for `IrrepsArray`

What an `IrrepsArray` means to a user: the sequence of (irrep, components) blocks, one per
irreducible representation, read off `.irreps` and `.array`; and when its derived views
(`.zero_flags`, `.chunks`) tell the truth about `.array`.
-/

namespace E3nn

/-- Cut a vector into blocks, one per irrep of the sequence `s`. -/
def blocksOf {α : Type} : List Irrep → List α → List (Irrep × List α)
  | [], _ => []
  | ir :: s, a => (ir, a.take (2 * ir.l + 1)) :: blocksOf s (a.drop (2 * ir.l + 1))

/-- The (irrep, components) blocks of an `IrrepsArray`. -/
def IArr.blocks {α : Type} (x : IArr α) : List (Irrep × List α) := blocksOf (expand x.irreps) x.array

/-- Cut a vector into the data of the terms. -/
def termsOf {α : Type} : Irreps → List α → List (MulIrrep × List α)
  | [], _ => []
  | m :: ms, a =>
    (m, a.take (m.mul * (2 * m.ir.l + 1))) :: termsOf ms (a.drop (m.mul * (2 * m.ir.l + 1)))

/-- The (term, data) pairs of an `IrrepsArray`. -/
def IArr.terms {α : Type} (x : IArr α) : List (MulIrrep × List α) := termsOf x.irreps x.array

/-- `.zero_flags[i]` and `.chunks[i]` tell the truth about the data `d` of term `m`: either the
chunk is flagged zero, `None`, and the data are zeros; or it is not flagged and is the
`mul × dim` array whose rows, one after the other, are the data. -/
def ChunkTruth {α : Type} [Zero α] (m : MulIrrep) (d : List α) (z : Bool) (c : Chunk α) : Prop :=
  (z = true ∧ c = none ∧ ∀ v ∈ d, v = 0) ∨
  (z = false ∧ ∃ rows, c = some rows ∧ rows.length = m.mul ∧
    (∀ r ∈ rows, r.length = 2 * m.ir.l + 1) ∧ rows.flatten = d)

/-- All views of the `IrrepsArray` agree: shape of the array, one flag and one chunk per term, and
each of them truthful. -/
structure IArr.Coherent {α : Type} [Zero α] (x : IArr α) : Prop where
  array_length : x.array.length = dimOf (expand x.irreps)
  flags_length : x.zeroFlags.length = x.irreps.length
  chunks_length : x.chunks.length = x.irreps.length
  truth : ∀ (i : Nat) (m : MulIrrep) (d : List α), x.terms[i]? = some (m, d) →
    ∃ z c, x.zeroFlags[i]? = some z ∧ x.chunks[i]? = some c ∧ ChunkTruth m d z c

end E3nn
