import Verif.Model.S2Grid
import Verif.Model.Rotation

/-!
# Model of `e3nn_jax/_src/so3grid.py`

Numbers are exact real numbers.  The leading axes are an index type `ι`; the axis of the angles is part of the leading axes of the signals on the sphere.
`res_theta = 0` is not modelled.
-/

namespace E3nn.SO3

open E3nn.S2 E3nn.Rot

/-- `SO3Signal`, so3grid.py:11-58. -/
structure SO3Signal (ι : Type) where
  resTheta : ℕ
  s2 : Signal (ι × Fin resTheta)

/-- `grid_theta[t]`, so3grid.py:53-54: `linspace(0, 2 pi, n)`. -/
noncomputable def gridTheta (n t : ℕ) : ℝ := t * (2 * Real.pi) / ((n : ℝ) - 1)

variable {ι : Type}

/-- `SO3Signal.from_function(func, res_beta, res_alpha, res_theta, quadrature)`, so3grid.py:60-116: the parities are the defaults of `SphericalSignal.zeros`. -/
noncomputable def fromFunction (lg : LegGauss) (f : Mat → ι → ℝ) (resBeta resAlpha resTheta : ℕ) (q : Quad) : Except PyErr (SO3Signal ι) :=
  (quadratureWeights lg q resBeta).map fun g =>
    ⟨resTheta, resBeta, resAlpha, fun b a i => f (axisAngleToMatrix (gridVector (g.1 b) (gridAlpha resAlpha a)) (gridTheta resTheta i.2)) i.1, q, .e, .o⟩

/-- `x.shape == y.shape` (with the same leading axes), so3grid.py:120-123. -/
def SameShape (x y : SO3Signal ι) : Prop := x.resTheta = y.resTheta ∧ x.s2.resBeta = y.s2.resBeta ∧ x.s2.resAlpha = y.s2.resAlpha

instance (x y : SO3Signal ι) : Decidable (SameShape x y) := inferInstanceAs (Decidable (_ ∧ _))

/-- The same values, with the axis of the angles named by an equal number. -/
def castTheta (x : SO3Signal ι) {n : ℕ} (h : n = x.resTheta) : Signal (ι × Fin n) :=
  ⟨x.s2.resBeta, x.s2.resAlpha, fun b a i => x.s2.values b a (i.1, i.2.cast h), x.s2.quad, x.s2.pVal, x.s2.pArg⟩

/-- `x * y` of two signals, so3grid.py:118-124. -/
def mul (x y : SO3Signal ι) : Except PyErr (SO3Signal ι) :=
  if h : SameShape x y then (mulSignals x.s2 (castTheta y h.1)).map fun s => ⟨x.resTheta, s⟩ else .error .valueError

/-- `x * c` for a number, so3grid.py:126. -/
def mulNumber (x : SO3Signal ι) (c : ℝ) : SO3Signal ι := ⟨x.resTheta, S2.mulNumber x.s2 fun _ => c⟩

/-- `-x`, so3grid.py:131-132. -/
def neg (x : SO3Signal ι) : SO3Signal ι := mulNumber x (-1)

/-- `replace_values`, so3grid.py:180-182. -/
def replaceValues (x : SO3Signal ι) (v : Fin x.s2.resBeta → Fin x.s2.resAlpha → ι × Fin x.resTheta → ℝ) : SO3Signal ι := ⟨x.resTheta, S2.replaceValues x.s2 v⟩

/-- `x / y` of two signals, so3grid.py:134-141. -/
noncomputable def div (x y : SO3Signal ι) : Except PyErr (SO3Signal ι) :=
  if h : SameShape x y then .ok (replaceValues x fun b a i => x.s2.values b a i / (castTheta y h.1).values (b.cast h.2.1) (a.cast h.2.2) i) else .error .valueError

/-- `x / c` for a number, so3grid.py:143. -/
noncomputable def divNumber (x : SO3Signal ι) (c : ℝ) : SO3Signal ι := mulNumber x (1 / c)

/-- `apply(func)`, so3grid.py:145-147. -/
noncomputable def apply (x : SO3Signal ι) (f : ℝ → ℝ) : Except PyErr (SO3Signal ι) := (applySignal x.s2 f).map fun s => ⟨x.resTheta, s⟩

/-- `grid_theta[1] - grid_theta[0]`, so3grid.py:190 (an index out of the bounds is clamped). -/
noncomputable def deltaTheta (n : ℕ) : ℝ := gridTheta n (min 1 (n - 1)) - gridTheta n 0

/-- `integrate_over_angles()`, so3grid.py:184-193. -/
noncomputable def integrateOverAngles (x : SO3Signal ι) : Signal ι :=
  ⟨x.s2.resBeta, x.s2.resAlpha, fun b a i => (∑ t : Fin x.resTheta, x.s2.values b a (i, t) * (1 - Real.cos (gridTheta x.resTheta t))) * deltaTheta x.resTheta, x.s2.quad, x.s2.pVal, x.s2.pArg⟩

/-- `integrate()`, so3grid.py:195-211. -/
noncomputable def integrate (lg : LegGauss) (x : SO3Signal ι) : Except PyErr (ι → ℝ) :=
  (S2.integrate lg (integrateOverAngles x)).map fun out => fun i => out.array.getD 0 0 i / (8 * Real.pi ^ 2)

/-- `jnp.argmax` of a list: the first index of a greatest entry (so3grid.py:162). -/
noncomputable def argmaxList : List ℝ → ℕ
  | [] => 0
  | [_] => 0
  | x :: y :: l => if (y :: l).getD (argmaxList (y :: l)) 0 ≤ x then 0 else argmaxList (y :: l) + 1

/-- The values in the order of the flattened last three axes, so3grid.py:162. -/
def flatValues (x : SO3Signal ι) (i : ι) : List ℝ :=
  (List.finRange x.resTheta).flatMap fun t => (List.finRange x.s2.resBeta).flatMap fun b => (List.finRange x.s2.resAlpha).map fun a => x.s2.values b a (i, t)

/-- `argmax()`: the rotation and the indices (`unravel_index`), so3grid.py:157-178; a grid without points is refused by `jnp.argmax`. -/
noncomputable def argmax (lg : LegGauss) (x : SO3Signal ι) : Except PyErr ((ι → Mat) × (ι → ℕ × ℕ × ℕ)) :=
  if x.resTheta * (x.s2.resBeta * x.s2.resAlpha) = 0 then .error .valueError
  else
    (quadratureWeights lg x.s2.quad x.s2.resBeta).map fun g =>
      let idx : ι → ℕ × ℕ × ℕ := fun i =>
        let k := argmaxList (flatValues x i)
        (k / (x.s2.resBeta * x.s2.resAlpha), k % (x.s2.resBeta * x.s2.resAlpha) / x.s2.resAlpha, k % (x.s2.resBeta * x.s2.resAlpha) % x.s2.resAlpha)
      (fun i => axisAngleToMatrix (gridVector (if h : (idx i).2.1 < x.s2.resBeta then g.1 ⟨(idx i).2.1, h⟩ else 0) (gridAlpha x.s2.resAlpha (idx i).2.2)) (gridTheta x.resTheta (idx i).1), idx)

end E3nn.SO3
