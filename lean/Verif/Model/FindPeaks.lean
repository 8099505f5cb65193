import Verif.Model.S2Grid
import Verif.Model.TransformO3

/-! # Model of `SphericalSignal.find_peaks` (`e3nn_jax/_src/s2grid.py`) -/

namespace E3nn.S2

open E3nn.IArr E3nn.Wig E3nn.Rot

/-- `scipy.signal.find_peaks(x)` (s2grid.py:432 and 437) for an array of length `n`: the middle (rounded down) of every
plateau that is strictly higher than what is left and right of it; the two ends of the array never belong to a peak. -/
def IsPeak (n : ℕ) (x : ℕ → ℝ) (m : ℕ) : Prop :=
  ∃ l r : ℕ, 0 < l ∧ l ≤ r ∧ r + 1 < n ∧ (∀ k, l ≤ k → k ≤ r → x k = x l) ∧ x (l - 1) < x l ∧ x (r + 1) < x r ∧ m = (l + r) / 2

/-- Membership in `set(iii).intersection(set(jjj))`, `_find_peaks_2d`, s2grid.py:427-440, for an array of shape `(a, b)`. -/
def IsPeak2 (a b : ℕ) (f : ℕ → ℕ → ℝ) (i j : ℕ) : Prop :=
  (i < a ∧ IsPeak b (fun j => f i j) j) ∧ (j < b ∧ IsPeak a (fun i => f i j) i)

/-- `list(set)`: the elements of a set of pairs in an order that is not specified (s2grid.py:440). -/
abbrev Enum := (ℕ → ℕ → Prop) → List (ℕ × ℕ)

/-- `grid_values[i, j]` of a single signal (s2grid.py:460 and 464). -/
def valAt (x : Signal Unit) (i j : ℕ) : ℝ :=
  if h : i < x.resBeta ∧ j < x.resAlpha then x.values ⟨i, h.1⟩ ⟨j, h.2⟩ () else 0

/-- `x[i, j]` of the array of the vectors (s2grid.py:459 and 463). -/
def vecAt {a b : ℕ} (v : IArr (Fin a × Fin b → ℝ)) (i j : ℕ) : Fin 3 → ℝ := fun k =>
  if h : i < a ∧ j < b then v.array.getD k 0 (⟨i, h.1⟩, ⟨j, h.2⟩) else 0

/-- `e3nn.IrrepsArray("1o", self.grid_vectors)`, s2grid.py:448 and 454. -/
noncomputable def gridVectors (lg : LegGauss) (x : Signal Unit) : Except PyErr (IArr (Fin x.resBeta × Fin x.resAlpha → ℝ)) := do
  let yw ← quadratureWeights lg x.quad x.resBeta
  ofArray [⟨1, ⟨1, .o⟩⟩] (List.ofFn fun (k : Fin 3) (ij : Fin x.resBeta × Fin x.resAlpha) => gridVector (yw.1 ij.1) (gridAlpha x.resAlpha ij.2) k)

/-- `np.stack` of a list of arrays raises `ValueError` on an empty list (s2grid.py:459-460 and 463-464). -/
def stackPairs (l : List ((Fin 3 → ℝ) × ℝ)) : Except PyErr (List ((Fin 3 → ℝ) × ℝ)) :=
  if l = [] then .error .valueError else .ok l

/-- The distance of two points, `scipy.spatial.distance.cdist` (s2grid.py:467). -/
noncomputable def dist3 (u v : Fin 3 → ℝ) : ℝ := Real.sqrt (∑ k, (u k - v k) ^ 2)

open Classical in
/-- `SphericalSignal.find_peaks`, s2grid.py:442-474, for a single signal; the points with their values. -/
noncomputable def findPeaks (lg : LegGauss) (enum : Enum) (x : Signal Unit) (lmax : ℕ) : Except PyErr (List ((Fin 3 → ℝ) × ℝ)) := do
  let x1 ← gridVectors lg x
  let q : Angle := .py (Real.pi / 2)
  let rotated ← transformSignal lg (fun c => c.transformByAngles q q q 0 false) x lmax
  let x2 ← x1.transformByAngles q q q 0 false
  let p1 ← stackPairs ((enum (IsPeak2 x.resBeta x.resAlpha (valAt x))).map fun ij => (vecAt x1 ij.1 ij.2, valAt x ij.1 ij.2))
  let p2 ← stackPairs ((enum (IsPeak2 rotated.resBeta rotated.resAlpha (valAt rotated))).map fun ij => (vecAt x2 ij.1 ij.2, valAt rotated ij.1 ij.2))
  return p1.filter (fun p => decide (∀ q ∈ p2, ¬ dist3 p.1 q.1 < 2 * Real.pi / (max x.resBeta x.resAlpha : ℕ))) ++ p2

end E3nn.S2
