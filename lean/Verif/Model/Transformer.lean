import Verif.Model.MessagePassing
import Verif.Model.Axis

/-!
# Model of `Transformer`, `e3nn_jax/experimental/transformer.py`

The leading axis is represented as for `MessagePassingConvolution`: a column of an array of the nodes (edges) is a function of
the node (edge); the axis of the heads is the index of `mul_to_axis`.  Indices of nodes are in range.  The parameters of the four
named layers (`mlp_key`, `linear_logit`, `mlp_val`, `linear_out`) are separate.  Real numbers.
-/

namespace E3nn.Transf
open E3nn.IArr

variable {ν ε : Type}

/-- The attributes, transformer.py:15-27, and the part of the configuration that is read: the normalisations of `tensor_product`,
of `Linear` (`a`, `g`) and of the perceptron (`gm`), and the sample of `normalize_function`. -/
structure Cfg where
  out : Irreps
  neurons : List ℕ
  act : ℝ → ℝ
  heads : ℕ
  n : IrNorm
  a : ℝ
  g : ℝ
  gm : ℝ
  pts : List ℝ

/-- The parameters of the four layers. -/
structure Params where
  key : MLP.Params
  logit : LinM.Params
  val : MLP.Params
  last : LinM.Params

/-- `Linear(irreps)` with the default options, transformer.py:65 and 88. -/
def linear (c : Cfg) (out : Irreps) : LinM.Cfg := ⟨out, none, false, none, none, false, true, c.a, c.g⟩

/-- The perceptron, transformer.py:56-61. -/
def mlp (c : Cfg) (k : ℕ) : MLP.Cfg := ⟨c.neurons ++ [k], some c.act, .no, c.gm, false⟩

/-- `out1` of the inner function `f`, transformer.py:51-55. -/
noncomputable def products (c : Cfg) (keep : Irreps) (x y : IArr (ε → ℝ)) : Except PyErr (IArr (ε → ℝ)) := do
  let ya ← y.filter none (some (.irs [⟨0, .e⟩])) none
  let t ← TP.tensorProduct (realCtx (ε → ℝ)) c.n none true x ya
  let o ← concatenate [x, t]
  let o ← o.regroup
  o.filter (some (.irs (keep.map MulIrrep.ir))) none none

/-- `out2` of the inner function `f`, transformer.py:56-61. -/
noncomputable def weights (c : Cfg) (P : MLP.Params) (y o : IArr (ε → ℝ)) : Except PyErr (IArr (ε → ℝ)) := do
  let s ← y.filter (some (.irs [⟨0, .e⟩])) none none
  MLP.callAxis c.pts (mlp c o.irreps.numIrreps) P s

/-- The inner function `f`, transformer.py:50-62. -/
noncomputable def branch (c : Cfg) (keep : Irreps) (P : MLP.Params) (x y : IArr (ε → ℝ)) : Except PyErr (IArr (ε → ℝ)) := do
  let o ← products c keep x y
  let w ← weights c P y o
  Activ.mulArrays c.n o w

/-- `edge_logit`, transformer.py:64-67: the columns are the heads. -/
noncomputable def logits (c : Cfg) (P : Params) (keep : Irreps) (xs xd attr : IArr (ε → ℝ)) : Except PyErr (List (ε → ℝ)) := do
  let key ← branch c keep P.key xs attr
  let t ← TP.tensorProduct (realCtx (ε → ℝ)) c.n (some [⟨0, .e⟩]) true xd key
  let l ← LinM.callAxis (ε → ℝ) (linear c [⟨c.heads, ⟨0, .e⟩⟩]) P.logit t
  return l.array

open Classical in
/-- `_index_max`, transformer.py:10-11 (one head): the maximum starts at zero. -/
noncomputable def indexMax [Fintype ε] (dst : ε → ν) (x : ε → ℝ) : ν → ℝ :=
  fun v => (Finset.univ.filter fun e => dst e = v).fold max 0 x

open Classical in
/-- `alpha` of one head, transformer.py:68-76. -/
noncomputable def alpha [Fintype ε] (dst : ε → ν) (cutoff logit : ε → ℝ) : ε → ℝ :=
  let m := indexMax dst logit
  let ex := fun e => cutoff e * Real.exp (logit e - m (dst e))
  let z := fun v => ∑ e ∈ Finset.univ.filter (fun e => dst e = v), ex e
  let z := fun v => if z v = 0 then 1 else z v
  fun e => ex e / z (dst e)

/-- `x * w` where `w` has a last axis of length one, irreps_array.py:390-408 (transformer.py:82): when `x` has exactly one irrep this
is `elementwise_tensor_product`. -/
noncomputable def mulColumn {K : Type} [CommRing K] [Algebra ℝ K] (n : IrNorm) (w : K) (x : IArr K) : Except PyErr (IArr K) :=
  if x.irreps.numIrreps = 1 then do
    let s ← ofArray [⟨1, ⟨0, .e⟩⟩] [w]
    TP.elementwise (realCtx K) n none x s
  else x.scale fun col => col * w

/-- `edge_v`, transformer.py:81-83. -/
noncomputable def weightHeads {K : Type} [CommRing K] [Algebra ℝ K] (n : IrNorm) (H : ℕ) (w : Fin H → K) (x : IArr K) : Except PyErr (IArr K) := do
  let y ← x.mulToAxis H
  let y ← mulColumn (K := Fin H → K) n w y
  y.axisToMul

open Classical in
/-- `scatter_sum` of an `IrrepsArray`, scatter.py:253-265 (transformer.py:85-87): `tree_map` over the only leaf `array`, so that the
result has no flags and no cached chunks (irreps_array.py:1238-1242). -/
noncomputable def scatterSum [Fintype ε] (dst : ε → ν) (x : IArr (ε → ℝ)) : Except PyErr (IArr (ν → ℝ)) :=
  make x.irreps (x.array.map fun b v => ∑ e ∈ Finset.univ.filter (fun e => dst e = v), b e) none none

/-- `__call__`, transformer.py:29-90.  `jax.nn.relu(a) = max(0, a)`.  Without any logit (the features have no irrep) the shapes at line
82 do not match; with one head JAX would return an array with an empty axis there instead of raising: not represented. -/
noncomputable def call [Fintype ε] (c : Cfg) (P : Params) (src dst : ε → ν) (cutoff : ε → ℝ) (attr : IArr (ε → ℝ)) (feats : IArr (ν → ℝ)) :
    Except PyErr (IArr (ν → ℝ)) := do
  let xs ← MPC.gather src feats
  let xd ← MPC.gather dst feats
  let l ← logits c P feats.irreps xs xd attr
  if l.length ≠ c.heads then .error .typeError
  else do
    let v ← branch c c.out P.val xs attr
    let v ← weightHeads c.n c.heads (fun k e => Real.sqrt (max 0 (alpha dst cutoff (l.getD k 0) e))) v
    let y ← scatterSum dst v
    LinM.callAxis (ν → ℝ) (linear c c.out) P.last y

end E3nn.Transf
