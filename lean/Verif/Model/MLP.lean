import Verif.Model.Activation

/-!
# Model of `MultiLayerPerceptron`, `e3nn_jax/_src/mlp_flax.py` and `mlp_haiku.py`

The two modules compute the same; the cited lines are those of `mlp_flax.py`.  One element of the leading axes (the layers
act on the last axis only).  `flax.linen.Dense` / `hk.Linear` are `x @ kernel + bias`; asking for a parameter of another shape
than the stored one raises (here `ValueError`).  Real numbers.
-/

namespace E3nn.MLP
open E3nn.IArr

/-- `output_activation`, mlp_flax.py:28 and 46-53: `True`, `False` or a function. -/
inductive OutAct where
  | yes
  | no
  | fn (f : ℝ → ℝ)

/-- The attributes, mlp_flax.py:25-29; `g` is `gradient_normalization`, already read (lines 55-61). -/
structure Cfg where
  neurons : List ℕ
  act : Option (ℝ → ℝ)
  out : OutAct
  g : ℝ
  withBias : Bool

/-- The parameters of one layer: the rows of the kernel, and the bias, mlp_flax.py:80-88. -/
structure Dense where
  kernel : List (List ℝ)
  bias : List ℝ

/-- The parameters of the layers, mlp_flax.py:78-88 (in haiku the layer is named `linear_{i}`, mlp_haiku.py:95). -/
abbrev Params := ℕ → Dense

/-- `output_activation`, mlp_flax.py:46-53. -/
def outputActivation (c : Cfg) : Option (ℝ → ℝ) :=
  match c.out with
  | .yes => c.act
  | .no => none
  | .fn f => some f

/-- The shapes that `Dense(features=h)` asks for on an input of size `n`, mlp_flax.py:80-88. -/
def Fits (b : Bool) (n h : ℕ) (p : Dense) : Prop :=
  p.kernel.length = n ∧ (∀ r ∈ p.kernel, r.length = h) ∧ (b = true → p.bias.length = h)

/-- `d(x)`: the product with the kernel plus the bias, mlp_flax.py:89. -/
def product (b : Bool) (h : ℕ) (p : Dense) (x : List ℝ) : List ℝ :=
  (List.range h).map fun j => (List.zipWith (fun a r => a * r.getD j 0) x p.kernel).sum + if b then p.bias.getD j 0 else 0

open Classical in
/-- `jnp.sqrt(alpha) ** gradient_normalization * d(x)`, mlp_flax.py:79-89; `1 / x.shape[-1]` raises without neurons. -/
noncomputable def dense (c : Cfg) (h : ℕ) (p : Dense) (x : List ℝ) : Except PyErr (List ℝ) :=
  if x.length = 0 then .error .zeroDivision
  else if Fits c.withBias x.length h p then .ok ((product c.withBias h p x).map (Real.sqrt (1 / x.length) ^ c.g * ·))
  else .error .valueError

/-- `if act is not None: x = act(x)`, mlp_flax.py:90-95. -/
def activate : Option (ℝ → ℝ) → List ℝ → List ℝ
  | none, x => x
  | some f, x => x.map f

/-- The loop over the layers, mlp_flax.py:78-95, from layer `i` on. -/
noncomputable def loop (c : Cfg) (act last : Option (ℝ → ℝ)) (P : Params) : ℕ → List ℕ → List ℝ → Except PyErr (List ℝ)
  | _, [], x => .ok x
  | i, h :: hs, x =>
    match dense c h (P i) x with
    | .error e => .error e
    | .ok y => loop c act last P (i + 1) hs (activate (if i + 1 < c.neurons.length then act else last) y)

/-- `__call__` on an array, mlp_flax.py:46-99; `pts` are the points of `normalize_function`. -/
noncomputable def callArray (pts : List ℝ) (c : Cfg) (P : Params) (x : List ℝ) : Except PyErr (List ℝ) :=
  loop c (c.act.map (Activ.normalizeFunction pts)) ((outputActivation c).map (Activ.normalizeFunction pts)) P 0 c.neurons x

/-- `__call__` on an `IrrepsArray`, mlp_flax.py:63-69 and 97-99. -/
noncomputable def call (pts : List ℝ) (c : Cfg) (P : Params) (x : IArr ℝ) : Except PyErr (IArr ℝ) :=
  if !x.irreps.isScalar then .error .valueError
  else
    match callArray pts c P x.array with
    | .error e => .error e
    | .ok y => IArr.ofArray [⟨y.length, ⟨0, .e⟩⟩] y

/-- The standard deviation of the entries of a kernel at initialisation, mlp_flax.py:79 and 83-85. -/
noncomputable def kernelStd (c : Cfg) (n : ℕ) : ℝ := Real.sqrt (1 / n) ^ (1 - c.g)

end E3nn.MLP
