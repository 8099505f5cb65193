import Verif.Model.LinearModule

/-!
# Model of the `Linear` module of Equinox, `e3nn_jax/_src/linear_equinox.py`

Unlike the Flax and Haiku modules (`Model/LinearModule`), the parameters are made by the constructor, from a random key, and stored in the module.
One element of the leading axes is modelled; `lead` is the size of the last leading axis (`input.shape[-2]`, `none` if there is none) and `k` the
position of the element on it.  Numbers are real, so the `astype` calls do nothing.
-/

namespace E3nn.LinEqx
open E3nn.IArr E3nn.LinM

/-- `linear_type`, linear_equinox.py:133. -/
inductive Kind where
  | vanilla
  | indexed
  | mixed
  | mixedPerChannel
  | other
deriving DecidableEq

/-- The arguments of the constructor, linear_equinox.py:118-135; `a` and `g` are the two normalisations, already read. -/
structure Cfg where
  irrepsOut : Irreps
  irrepsIn : Irreps
  channelOut : Option ℕ
  channelIn : Option ℕ
  biases : Bool
  a : ℝ
  g : ℝ
  numIndexed : Option ℕ
  perChannel : Bool
  force : Bool
  weightsDim : Option ℕ
  kind : Kind

/-- The module: its arguments and the fields `irreps_in`, `irreps_out`, `_linear` and `_weights`, linear_equinox.py:99-116. -/
structure Module where
  cfg : Cfg
  irrepsIn : Irreps
  irrepsOut : Irreps
  lin : FLin ℝ
  weights : List (PName × List ℝ)

/-- The factor in front of `ins.path_shape` (its number of entries) and the one in front of `ins.weight_std`, linear_equinox.py:190-222. -/
noncomputable def Cfg.shape (c : Cfg) : Except PyErr (ℕ × ℝ) :=
  match c.kind with
  | .vanilla => .ok (1, 1)
  | .indexed => match c.numIndexed with
    | none => .error .valueError
    | some n => .ok (n, 1)
  | .mixed => match c.weightsDim with
    | none => .error .valueError
    | some d => if d = 0 then .error .zeroDivision else .ok (d, Real.sqrt (1 / d) ^ (1 - c.g))
  | .mixedPerChannel => match c.weightsDim, c.channelIn with
    | none, _ => .error .valueError
    | some _, none => .error .valueError
    | some d, some n => if d = 0 then .error .zeroDivision else .ok (d * n, Real.sqrt (1 / d) ^ (1 - c.g))
  | .other => .error .nameError

/-- `_get_weights`, linear_equinox.py:175-229: `rnd i j` is the entry `j` of the normal numbers of the `i`-th key.  The names are distinct (C104), so
that no entry of the dictionary is overwritten. -/
noncomputable def getWeights (c : Cfg) (rnd : ℕ → ℕ → ℝ) (lin : FLin ℝ) : Except PyErr (List (PName × List ℝ)) :=
  lin.instructions.zipIdx.mapM fun q => do
    let sh ← c.shape
    return (nameOf lin.irrepsIn lin.irrepsOut q.1, (List.range (sh.1 * FLin.size q.1)).map fun j => sh.2 * q.1.weightStd * rnd q.2 j)

/-- `irreps_out` after the filter, linear_equinox.py:160-163. -/
def outIrreps (c : Cfg) (irrepsIn : Irreps) : Except PyErr Irreps :=
  if c.force then .ok c.irrepsOut
  else do
    let o ← c.irrepsOut.filter' (some (.irs (irrepsIn.map MulIrrep.ir))) none none
    return o.simplify

/-- `__init__`, linear_equinox.py:118-173. -/
noncomputable def init (c : Cfg) (rnd : ℕ → ℕ → ℝ) : Except PyErr Module := do
  let irrepsIn ← c.irrepsIn.regroup
  if c.channelOut.isSome && c.perChannel then .error .assertion
  else
    let out ← outIrreps c irrepsIn
    let lin ← FLin.init irrepsIn (out.mul (c.channelOut.getD 1)) none (.all c.biases) c.a c.g
    let ws ← getWeights c rnd lin
    return ⟨c, irrepsIn, out, lin, ws⟩

/-- Which layer is used, linear_equinox.py:288-334.  `lead` and `k` are read by `linear_mixed_per_channel` only (linear.py:340-345).  JAX clamps an index
(linear.py:281). -/
noncomputable def select (m : Module) (lead : Option ℕ) (k : ℕ) (W : Weights) : Except PyErr Source := do
  match m.cfg.kind with
  | .vanilla => match W with
    | .none => .ok .vanilla
    | _ => .error .assertion
  | .other => .error .nameError
  | kind =>
    let W ← match W with
      | .none => .error .assertion
      | .irreps w => if w.irreps.isScalar then .ok (Weights.floats w.array) else .error .valueError
      | W => .ok W
    match kind, W with
    | .indexed, .index i => if m.cfg.perChannel then .error .notImplemented else .ok (.indexed (m.cfg.numIndexed.getD 0) (min i (m.cfg.numIndexed.getD 0 - 1)))
    | .indexed, _ => .error .assertion
    | _, .floats w =>
      if m.cfg.numIndexed.isSome then .error .assertion
      else if w = [] then .error .zeroDivision
      else if kind = .mixed then .ok (.mixed w)
      else match lead with
        | none => .error .indexError
        | some nc => .ok (.perChannel w nc k)
    | _, _ => .error .assertion

/-- `self._weights[name]`, linear_equinox.py:273-280. -/
def Module.get (m : Module) (q : PName) : Except PyErr (List ℝ) :=
  match m.weights.find? fun r => r.1 == q with
  | some r => .ok r.2
  | none => .error .keyError

/-- The weight of an instruction: linear.py:226-375 with the parameters of the module.  `dot_general` refuses weights of another length than
`weights_dim`. -/
noncomputable def Module.weight (m : Module) (s : Source) (ins : LinIns ℝ) : Except PyErr (List ℝ) := do
  let w ← m.get (nameOf m.lin.irrepsIn m.lin.irrepsOut ins)
  match s with
  | .vanilla => return w
  | .indexed n i => if i < n then return (rows n (FLin.size ins) w).getD i [] else .error .undefined
  | .mixed v => if m.cfg.weightsDim = some v.length then return LinM.mix m.cfg.g v (FLin.size ins) (rows v.length (FLin.size ins) w) else .error .typeError
  | .perChannel v nc k =>
    if m.cfg.weightsDim = some v.length then
      return LinM.mix m.cfg.g v (FLin.size ins) ((rows v.length (nc * FLin.size ins) w).map fun r => (rows nc (FLin.size ins) r).getD k [])
    else .error .typeError

/-- The comparison of the channels, linear_equinox.py:264-269. -/
def checkChannel (channelIn lead : Option ℕ) : Except PyErr Unit :=
  match channelIn, lead with
  | none, _ => .ok ()
  | some _, none => .error .indexError
  | some c, some n => if c = n then .ok () else .error .valueError

/-- `__call__` up to the layer, linear_equinox.py:231-337. -/
noncomputable def layer (m : Module) (lead : Option ℕ) (k : ℕ) (W : Weights) (x : IArr ℝ) : Except PyErr (IArr ℝ) := do
  let u ← x.irreps.regroup
  if m.irrepsIn ≠ u then .error .valueError
  else
    checkChannel m.cfg.channelIn lead
    let x ← x.removeZeroChunks
    let x ← x.regroup
    let s ← select m lead k W
    let ws ← m.lin.instructions.mapM (m.weight s)
    m.lin.call ws x

/-- `__call__` without `channel_out`, linear_equinox.py:231-342. -/
noncomputable def call (m : Module) (lead : Option ℕ) (k : ℕ) (W : Weights) (x : IArr ℝ) : Except PyErr (IArr ℝ) := do
  let y ← layer m lead k W x
  y.rechunk m.irrepsOut

/-- `__call__` with `channel_out = ch`, linear_equinox.py:231-342: the columns of the result are functions of the new channel. -/
noncomputable def callChannel (m : Module) (ch : ℕ) (lead : Option ℕ) (k : ℕ) (W : Weights) (x : IArr ℝ) : Except PyErr (IArr (Fin ch → ℝ)) := do
  let y ← layer m lead k W x
  let y ← y.mulToAxis ch
  y.rechunk m.irrepsOut

end E3nn.LinEqx
