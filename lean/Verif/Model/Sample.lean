import Verif.Model.SO3Grid

/-!
# Model of the sampling of signals: `s2grid.py` and `so3grid.py`

The generator of random numbers is outside the model: what it returns (uniform numbers in `[0, 1)`) are arguments, one for each key and each leading index.
-/

namespace E3nn.S2

variable {ι : Type}

/-- `jax.random.choice(key, jnp.arange(n), p=p)`, s2grid.py:635-638: `searchsorted(cumsum(p), cumsum(p)[-1] * (1 - u))` (jax, random.py), the number of entries
of the cumulated sums that are smaller; the index is clamped. -/
noncomputable def choice {n : ℕ} (hn : 0 < n) (p : Fin n → ℝ) (u : ℝ) : Fin n :=
  ⟨min (n - 1) (Finset.univ.filter fun k : Fin n => ∑ j ∈ Finset.Iic k, p j < (∑ j, p j) * (1 - u)).card, by omega⟩

/-- `SphericalSignal.sample(key)`, s2grid.py:599-650; `jax.random.choice` raises `ValueError` on an empty axis. -/
noncomputable def sample (lg : LegGauss) (x : Signal ι) (u : ι → ℝ × ℝ) : Except PyErr (ι → Fin x.resBeta × Fin x.resAlpha) :=
  if h : 0 < x.resBeta ∧ 0 < x.resAlpha then
    (quadratureWeights lg x.quad x.resBeta).map fun g => fun i =>
      let yIndex := choice h.1 (fun b => g.2 b * ∑ a, x.values b a i) (u i).1
      (yIndex, choice h.2 (fun a => x.values yIndex a i) (u i).2)
  else .error .valueError

end E3nn.S2

namespace E3nn.SO3

open E3nn.S2 E3nn.Rot

variable {ι : Type}

/-- `SO3Signal.sample(rng)`, so3grid.py:213-244: the indices of the angle and of the axis and the rotation.  `jax.random.categorical` is modelled by what it documents, a draw with
probabilities proportional to `exp(logits)` (as `choice`, with a third uniform number).
`batched`: with leading axes `grid_values[..., beta_idx, alpha_idx]` has the leading axes twice and the assertion on its shape fails (so3grid.py:231-232). -/
noncomputable def sample (lg : LegGauss) (batched : Bool) (x : SO3Signal ι) (u : ι → (ℝ × ℝ) × ℝ) : Except PyErr (ι → (Fin x.resTheta × Fin x.s2.resBeta × Fin x.s2.resAlpha) × Mat) := do
  let axis ← S2.sample lg (integrateOverAngles x) fun i => (u i).1
  let g ← quadratureWeights lg x.s2.quad x.s2.resBeta
  if batched then .error .assertion
  else if h : 0 < x.resTheta then
    .ok fun i =>
      let b : Fin x.s2.resBeta := (axis i).1
      let a : Fin x.s2.resAlpha := (axis i).2
      let logits := fun t : Fin x.resTheta => Real.log (if x.s2.values b a (i, t) = 0 then 1e-20 else x.s2.values b a (i, t))
      let t := choice h (fun t => Real.exp (logits t)) (u i).2
      ((t, b, a), axisAngleToMatrix (gridVector (g.1 b) (gridAlpha x.s2.resAlpha a)) (gridTheta x.resTheta t))
  else .error .valueError

end E3nn.SO3
