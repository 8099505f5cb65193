import Verif.Model.FindPeaks

/-! # Model of `SphericalSignal.pad_to_plot` (`e3nn_jax/_src/s2grid.py`) -/

namespace E3nn.S2

/-- `jnp.concatenate([-one, y, one])`, s2grid.py:507. -/
noncomputable def padY {rb : ℕ} (y : Fin rb → ℝ) (i : Fin (rb + 2)) : ℝ :=
  if (i : ℕ) = 0 then -1 else if h : (i : ℕ) - 1 < rb then y ⟨i - 1, h⟩ else 1

/-- `jnp.mean(f[i])`, s2grid.py:509. -/
noncomputable def rowMean {rb ra : ℕ} (f : Fin rb → Fin ra → ℝ) (i : Fin rb) : ℝ := (∑ j, f i j) / ra

/-- `jnp.concatenate([jnp.mean(f[0]) * ones, f, jnp.mean(f[-1]) * ones], axis=0)` and then
`jnp.concatenate([f, f[:, :1]], axis=1)`, s2grid.py:508-514 (at least one row and one column). -/
noncomputable def padF {rb ra : ℕ} (hb : 0 < rb) (ha : 0 < ra) (f : Fin rb → Fin ra → ℝ) (i : Fin (rb + 2)) (j : Fin (ra + 1)) : ℝ :=
  let j' : Fin ra := if h : (j : ℕ) < ra then ⟨j, h⟩ else ⟨0, ha⟩
  if (i : ℕ) = 0 then rowMean f ⟨0, hb⟩ else if h : (i : ℕ) - 1 < rb then f ⟨i - 1, h⟩ j' else rowMean f ⟨rb - 1, by omega⟩

/-- `jnp.concatenate([alpha, alpha[:1]])`, s2grid.py:513. -/
noncomputable def padAlpha (ra : ℕ) (j : Fin (ra + 1)) : ℝ := if (j : ℕ) < ra then gridAlpha ra j else gridAlpha ra 0

/-- `jnp.max(jnp.abs(f))` (s2grid.py:520-523). -/
noncomputable def maxAbs {rb ra : ℕ} (f : Fin (rb + 2) → Fin (ra + 1) → ℝ) : ℝ :=
  (Finset.univ : Finset (Fin (rb + 2) × Fin (ra + 1))).sup' ⟨(0, 0), Finset.mem_univ _⟩ fun ij => |f ij.1 ij.2|

/-- `SphericalSignal.pad_to_plot`, s2grid.py:476-531, for a single signal (`scale`, `normalize` are the two flags;
for the signal zero with both flags the code divides 0 by 0, here the quotient is 0, and the theorems exclude the case). -/
noncomputable def padToPlot (lg : LegGauss) (x : Signal Unit) (translation : Option (Fin 3 → ℝ)) (radius : ℝ) (scale normalize : Bool)
    (hb : 0 < x.resBeta) (ha : 0 < x.resAlpha) :
    Except PyErr ((Fin (x.resBeta + 2) → Fin (x.resAlpha + 1) → Fin 3 → ℝ) × (Fin (x.resBeta + 2) → Fin (x.resAlpha + 1) → ℝ)) := do
  let yw ← quadratureWeights lg x.quad x.resBeta
  let f := padF hb ha fun b a => x.values b a ()
  let r := fun i j k => gridVector (padY yw.1 i) (padAlpha x.resAlpha j) k
  let r := if scale then fun i j k => r i j k * (if normalize then |f i j| / maxAbs f else |f i j|) else r
  let r := fun i j k => r i j k * radius
  let r := match translation with
    | none => r
    | some t => fun i j k => r i j k + t k
  return (r, f)

end E3nn.S2
