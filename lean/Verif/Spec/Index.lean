import Verif.Model.Index
import Verif.Spec.IArr
import Verif.Spec.Shape

/-!
# What indexing the leading axes means
-/

namespace E3nn.Ndx

open E3nn.Shp (IsIdx)

variable {α : Type}

/-- The first column of term `t`. -/
def offset (I : Irreps) (t : ℕ) : ℕ := dimOf (expand (I.take t))

/-- All views of an `IrrepsArray` with leading shape `lead` agree: shapes, chunks that show the columns of their term, and flagged terms that are `None`
and zero. -/
structure Good [Zero α] (lead : List ℕ) (x : NI α) : Prop where
  shape : x.array.shape = lead ++ [dimOf (expand x.irreps)]
  flags : x.flags.length = x.irreps.length
  chunks : ∀ cs, x.chunks? = some cs → cs.length = x.irreps.length ∧ ∀ (t : ℕ) (m : MulIrrep), x.irreps[t]? = some m →
    (x.flags[t]? = some true ∧ cs[t]? = some none) ∨
    (x.flags[t]? = some false ∧ ∃ c, cs[t]? = some (some c) ∧ c.shape = lead ++ [m.mul, 2 * m.ir.l + 1] ∧
      ∀ i, IsIdx lead i → ∀ j e, j < m.mul → e < 2 * m.ir.l + 1 →
        c.get (i ++ [j, e]) = x.array.get (i ++ [offset x.irreps t + j * (2 * m.ir.l + 1) + e]))
  zero : ∀ (t : ℕ) (m : MulIrrep), x.irreps[t]? = some m → x.flags[t]? = some true → ∀ i, IsIdx lead i → ∀ j e, j < m.mul → e < 2 * m.ir.l + 1 →
    x.array.get (i ++ [offset x.irreps t + j * (2 * m.ir.l + 1) + e]) = 0

/-- The index, with `...` and missing axes written out, is `l` for the leading axes and `:` for the irreps axis of an array with `n` leading axes. -/
def LeavesIrreps (idx : List Ix) (n : ℕ) (l : List Ix) : Prop :=
  expandIx idx (n + 1) = .ok (l ++ [full]) ∧ l.countP consumes = n

/-- The indices for which the library finds the irreps axis: without `None`, or with `...`, or with fewer entries than axes, or ending in `:`, or ending in
`None` with at most as many entries as axes. -/
def Supported (idx : List Ix) (n : ℕ) : Prop :=
  .newaxis ∉ idx ∨ .ellipsis ∈ idx ∨ idx.length ≤ n ∨ idx.getLast? = some full ∨ (idx.getLast? = some .newaxis ∧ idx.length ≤ n + 1)

end E3nn.Ndx
