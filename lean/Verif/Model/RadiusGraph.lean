import Verif.Model.Py
import Mathlib.Data.Real.Sqrt
import Mathlib.Algebra.BigOperators.Fin

/-!
# Model of `e3nn_jax/_src/radius_graph.py`

Coordinates are exact real numbers.
-/

namespace E3nn.Radius

/-- A point (radius_graph.py:45-47). -/
abbrev Pt := Fin 3 → ℝ

/-- `jnp.linalg.norm(x - y)`, radius_graph.py:46. -/
noncomputable def dist (x y : Pt) : ℝ := Real.sqrt (∑ i, (x i - y i) ^ 2)

open Classical in
/-- `mask[i, j]`, radius_graph.py:45-51. -/
noncomputable def mask (loop : Bool) (rMax : ℝ) (x y : Pt) : Bool :=
  if loop then decide (dist x y < rMax) else decide (dist x y < rMax ∧ dist x y > 0)

/-- `jnp.where(mask)`: the pairs of indices where the mask is true, in row-major order (radius_graph.py:53). -/
noncomputable def nonzero (loop : Bool) (rMax : ℝ) (pos : List Pt) : List (Int × Int) :=
  pos.zipIdx.flatMap fun a => (pos.zipIdx.filter fun b => mask loop rMax a.1 b.1).map fun b => ((a.2 : Int), (b.2 : Int))

/-- `jnp.where(mask, size=size, fill_value=-1)`, radius_graph.py:53. -/
noncomputable def whereSize (size : Option Nat) (ps : List (Int × Int)) : List (Int × Int) :=
  match size with
  | none => ps
  | some n => ps.take n ++ List.replicate (n - ps.length) (-1, -1)

/-- `if fill != -1: x = jnp.where(x == -1, fill, x)`, radius_graph.py:55-58. -/
def refill (fill x : Int) : Int := if fill ≠ -1 then (if x = -1 then fill else x) else x

/-- `batch[i]`: negative indices count from the end, indices out of bounds are clamped (as
documented by JAX for retrieval) (radius_graph.py:62). -/
def gather (batch : List Int) (i : Int) : Int :=
  let j := if i < 0 then i + batch.length else i
  batch.getD (min j.toNat (batch.length - 1)) 0

/-- `radius_graph`, radius_graph.py:9-62.  The result is the list of pairs `(src[k], dst[k])`. -/
noncomputable def radiusGraph (pos : List Pt) (rMax : ℝ) (batch : Option (List Int)) (size : Option Nat) (loop : Bool)
    (fillSrc fillDst : Int) : List (Int × Int) :=
  let ps := (whereSize size (nonzero loop rMax pos)).map fun p => (refill fillSrc p.1, refill fillDst p.2)
  match batch with
  | none => ps
  | some b => ps.filter fun p => decide (gather b p.1 = gather b p.2)

end E3nn.Radius
