import Verif.Model.Index

/-!
# `SphericalSignal.__getitem__` (s2grid.py:654-669)
-/

namespace E3nn.Ndx

/-- The attributes of a `SphericalSignal` (s2grid.py:143-146); the last two axes of `values` are the grid. -/
structure Sig (α : Type) where
  values : ND α
  quadrature : String
  pVal : Int
  pArg : Int

/-- `signal[index]`, s2grid.py:654-669: no check that the index leaves the grid axes alone, only that two axes are left. -/
def sigIndex {α : Type} (x : Sig α) (idx : List Ix) : Except PyErr (Sig α) :=
  match npIndex x.values idx with
  | .error e => .error e
  | .ok g => if g.shape.length < 2 then .error .valueError else .ok ⟨g, x.quadrature, x.pVal, x.pArg⟩

end E3nn.Ndx
