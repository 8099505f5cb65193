import Verif.Model.LinearModule
import Verif.Model.MLP
import Verif.Model.Basic
import Verif.Model.SphericalHarmonics

/-!
# Model of `MessagePassingConvolution`, `e3nn_jax/experimental/point_convolution.py`

The haiku and the flax class call the same `_call` (lines 55-111).  The leading axis is represented: a column of an array of
the nodes (edges) is a function of the node (edge).  Indices of nodes are in range.  The radial basis is a list of functions
of the distance.  The names of the parameters of `Linear` and of the perceptron are separate (`linear_up`, `linear_down`).
Real numbers: division by a zero `avg_num_neighbors` gives zero here, not infinity.
-/

namespace E3nn

/-- A layer with numbers, acting on arrays with leading axes: the numbers are constant along the axes (linear.py:179-191). -/
def FLin.over (K : Type) [CommRing K] [Algebra ℝ K] (f : FLin ℝ) : FLin K :=
  ⟨f.irrepsIn, f.irrepsOut, f.instructions.map fun i => ⟨i.iIn, i.iOut, i.pathShape, algebraMap ℝ K i.pathWeight, algebraMap ℝ K i.weightStd⟩⟩

namespace LinM

/-- `Linear.__call__` with its own weights only, on an array with leading axes, linear_flax.py:87-206 (`filter_jvp`-free path
`linear_vanilla`, linear.py:226-256): the same as `callFrom` with constant weights. -/
noncomputable def callAxis (K : Type) [CommRing K] [Algebra ℝ K] (c : Cfg) (P : Params) (x : IArr K) : Except PyErr (IArr K) := do
  let x ← prepInput c x
  let out ← outIrreps c x.irreps
  validate c false x.irreps
  let f ← FLin.init x.irreps out c.instructions (.all c.biases) c.a c.g
  let ws ← f.instructions.mapM (weight f c.g P .vanilla)
  let y ← (f.over K).call (ws.map fun w => w.map (algebraMap ℝ K)) x
  finish c y

end LinM

namespace MLP

/-- `MultiLayerPerceptron.__call__` on columns: the layers act on the last axis only (mlp_flax.py:78-95), so that row `e` of the
result is computed from row `e`; the number of columns (or the exception) does not depend on the values. -/
noncomputable def callCols {ε : Type} (pts : List ℝ) (c : Cfg) (P : Params) (x : List (ε → ℝ)) : Except PyErr (List (ε → ℝ)) :=
  match callArray pts c P (List.replicate x.length 0) with
  | .error e => .error e
  | .ok y0 => .ok ((List.range y0.length).map fun j e =>
      match callArray pts c P (x.map fun col => col e) with
      | .error _ => 0
      | .ok y => y.getD j 0)

/-- `MultiLayerPerceptron.__call__` on an `IrrepsArray` with leading axes, mlp_flax.py:63-69 and 97-99. -/
noncomputable def callAxis {ε : Type} (pts : List ℝ) (c : Cfg) (P : Params) (x : IArr (ε → ℝ)) : Except PyErr (IArr (ε → ℝ)) :=
  if !x.irreps.isScalar then .error .valueError
  else
    match callCols pts c P x.array with
    | .error e => .error e
    | .ok y => IArr.ofArray [⟨y.length, ⟨0, .e⟩⟩] y

end MLP

namespace MPC
open E3nn.IArr

variable {ν ε : Type}

/-- `x[indices]`: indexing of the leading axis, irreps_array.py:605-612 (point_convolution.py:70, 81). -/
def gather (i : ε → ν) (x : IArr (ν → ℝ)) : Except PyErr (IArr (ε → ℝ)) := mapCols (fun col e => col (i e)) x

open Classical in
/-- `z.at[dst].add(x)`, irreps_array.py:1361-1377 (point_convolution.py:105). -/
noncomputable def scatterAdd [Fintype ε] (dst : ε → ν) (z : IArr (ν → ℝ)) (x : IArr (ε → ℝ)) : Except PyErr (IArr (ν → ℝ)) :=
  if z.irreps.simplify ≠ x.irreps.simplify then .error .valueError
  else do
    let x ← x.rechunk z.irreps
    make z.irreps (List.zipWith (fun a b v => a v + ∑ e ∈ Finset.univ.filter (fun e => dst e = v), b e) z.array x.array)
      (some (List.zipWith (· && ·) z.zeroFlags x.zeroFlags)) none

/-- The attributes, point_convolution.py:115-134, and the part of the configuration that is read: the normalisations of
`tensor_product`, of `Linear` (`a`, `g`), of the perceptron (`gm`), and the algorithm and normalisation of the spherical
harmonics. -/
structure Cfg where
  target : Irreps
  radial : List (ℝ → ℝ)
  avg : ℝ
  lmax : ℕ
  neurons : List ℕ
  act : ℝ → ℝ
  n : IrNorm
  a : ℝ
  g : ℝ
  gm : ℝ
  pts : List ℝ
  shCfg : Option (List String)
  shNorm : SH.Normalization

/-- The parameters of the three layers. -/
structure Params where
  up : LinM.Params
  mlp : MLP.Params
  down : LinM.Params

/-- `Linear(irreps)` with the default options, point_convolution.py:79 and 109. -/
def linear (c : Cfg) (out : Irreps) : LinM.Cfg := ⟨out, none, false, none, none, false, true, c.a, c.g⟩

/-- `e3nn.norm(vectors).array[:, 0]`, point_convolution.py:71. -/
noncomputable def distance (vectors : IArr (ε → ℝ)) : Except PyErr (ε → ℝ) := do
  let r ← Basic.norm false true vectors
  match r.array with
  | [] => .error .indexError
  | col :: _ => .ok col

/-- `edge_attrs`, point_convolution.py:72-77. -/
noncomputable def edgeAttrs (c : Cfg) (vectors : IArr (ε → ℝ)) : Except PyErr (IArr (ε → ℝ)) := do
  let r ← distance vectors
  let rb ← asIrrepsArray (c.radial.map fun b e => b (r e))
  let sh ← SH.sphericalHarmonics c.shCfg (.ints ((List.range c.lmax).map (· + 1))) (.arr vectors) true c.shNorm none
  concatenate [rb, sh]

/-- The messages before the radial weights, point_convolution.py:83-92. -/
noncomputable def messages (c : Cfg) (attrs feats : IArr (ε → ℝ)) : Except PyErr (IArr (ε → ℝ)) := do
  let m1 ← feats.filter (some (.irs (c.target.map MulIrrep.ir))) none none
  let ea ← attrs.filter none (some (.irs [⟨0, .e⟩])) none
  let m2 ← TP.tensorProduct (realCtx (ε → ℝ)) c.n (some (c.target.map MulIrrep.ir)) true feats ea
  let m ← concatenate [m1, m2]
  m.regroup

/-- The perceptron, point_convolution.py:94-98. -/
def mlp (c : Cfg) (k : ℕ) : MLP.Cfg := ⟨c.neurons ++ [k], some c.act, .no, c.gm, false⟩

/-- The radial weights, point_convolution.py:94-100. -/
noncomputable def radialWeights (c : Cfg) (P : Params) (attrs m : IArr (ε → ℝ)) : Except PyErr (IArr (ε → ℝ)) := do
  let s ← attrs.filter (some (.irs [⟨0, .e⟩])) none none
  MLP.callAxis c.pts (mlp c m.irreps.numIrreps) P.mlp s

/-- `_call`, point_convolution.py:55-111 (the division: irreps_array.py:410-447). -/
noncomputable def call [Fintype ε] (c : Cfg) (P : Params) (senders receivers : ε → ν) (positions feats : IArr (ν → ℝ)) :
    Except PyErr (IArr (ν → ℝ)) := do
  let pr ← gather receivers positions
  let ps ← gather senders positions
  let vectors ← pr.sub ps
  let attrs ← edgeAttrs c vectors
  let feats ← LinM.callAxis (ν → ℝ) (linear c feats.irreps) P.up feats
  let f ← gather senders feats
  let m ← messages c attrs f
  let w ← radialWeights c P attrs m
  let m ← Activ.mulArrays c.n m w
  let z ← IArr.zeros m.irreps
  let y ← scatterAdd receivers z m
  let y ← y.scale fun col v => col v / Real.sqrt c.avg
  LinM.callAxis (ν → ℝ) (linear c c.target) P.down y

end MPC
end E3nn
