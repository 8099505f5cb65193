import Verif.Model.Linear
import Verif.Model.Axis

/-!
# Model of the `Linear` modules, `e3nn_jax/_src/linear_flax.py`, `linear_haiku.py` and `linear.py:226-419`

The two modules have the same `__call__`; the cited lines are those of `linear_flax.py`.  One element of the leading axes
(the layer is mapped over them); the channel axis is represented.  The parameters are a function of their name; asking for a
parameter of another shape than the stored one raises `ValueError`, here compared by the number of entries.  Numbers are
real, so the `astype` calls do nothing.
-/

namespace E3nn.LinM
open E3nn.IArr

/-- The name of a parameter, linear.py:234-238: `w[i,o] mul_ir,mul_ir` or `b[o] mul_ir` (the text determines them). -/
structure PName where
  iIn : Option ℕ
  iOut : ℕ
  a : Option MulIrrep
  b : MulIrrep
deriving DecidableEq

/-- The entries in order of each parameter. -/
abbrev Params := PName → List ℝ

/-- The attributes of the module, linear_flax.py:71-84; `a` and `g` are the two normalisations, already read. -/
structure Cfg where
  irrepsOut : Irreps
  irrepsIn : Option Irreps
  biases : Bool
  instructions : Option (List (ℕ × ℕ))
  numIndexed : Option ℕ
  force : Bool
  simp : Bool
  a : ℝ
  g : ℝ

/-- The first argument: absent, an index, an array of numbers, or an `IrrepsArray`. -/
inductive Weights where
  | none
  | index (i : ℕ)
  | floats (w : List ℝ)
  | irreps (w : IArr ℝ)

/-- What is read from the parameters. -/
inductive Source where
  | vanilla
  | indexed (n i : ℕ)
  | mixed (w : List ℝ)
  | perChannel (w : List ℝ) (nc k : ℕ)

/-- Which of the layers is used for an array of numbers, linear_flax.py:175-199; `1 / d` (linear.py:305) raises without numbers. -/
noncomputable def ofFloats (c : Cfg) (w : List ℝ) : Except PyErr Source :=
  match c.numIndexed with
  | none => if w = [] then .error .zeroDivision else .ok (.mixed w)
  | some _ => .error .valueError

/-- Which of the layers is used, linear_flax.py:164-199. -/
noncomputable def select (c : Cfg) : Weights → Except PyErr Source
  | .none => .ok .vanilla
  | .index i =>
    match c.numIndexed with
    | some n => .ok (.indexed n i)
    | none => .error .valueError
  | .floats w => ofFloats c w
  | .irreps w => if w.irreps.isScalar then ofFloats c w.array else .error .valueError

/-- One call of `get_parameter` for a shape with `n` entries, linear.py:233-242. -/
def get (P : Params) (n : ℕ) (q : PName) : Except PyErr (List ℝ) :=
  if (P q).length = n then .ok (P q) else .error .valueError

/-- The name of the parameter of an instruction, linear.py:234-238. -/
def nameOf (irrepsIn irrepsOut : Irreps) (ins : LinIns ℝ) : PName :=
  ⟨ins.iIn, ins.iOut, ins.iIn.bind fun i => irrepsIn[i]?, irrepsOut.getD ins.iOut ⟨0, ⟨0, .e⟩⟩⟩

/-- `jnp.sqrt(alpha) ** gradient_normalization * dot_general(weights, w)`, linear.py:303-306, 322-326 and 366-370, `w` having
`d` rows of `n` entries. -/
noncomputable def mix (g : ℝ) (weights : List ℝ) (n : ℕ) (w : List (List ℝ)) : List ℝ :=
  (FLin.linComb n weights w).map (Real.sqrt (1 / weights.length) ^ g * ·)

/-- The weight of an instruction: linear.py:232-244 (vanilla), 267-280 (indexed; JAX clamps an index out of range, which is
not modelled), 308-326 (mixed) and 352-370 (mixed per channel, for the channel `k` of `nc`). -/
noncomputable def weight (f : FLin ℝ) (g : ℝ) (P : Params) : Source → LinIns ℝ → Except PyErr (List ℝ)
  | .vanilla, ins => get P (FLin.size ins) (nameOf f.irrepsIn f.irrepsOut ins)
  | .indexed n i, ins => do
    let w ← get P (n * FLin.size ins) (nameOf f.irrepsIn f.irrepsOut ins)
    if i < n then return (rows n (FLin.size ins) w).getD i [] else .error .indexError
  | .mixed v, ins => do
    let w ← get P (v.length * FLin.size ins) (nameOf f.irrepsIn f.irrepsOut ins)
    return mix g v (FLin.size ins) (rows v.length (FLin.size ins) w)
  | .perChannel v nc k, ins => do
    let w ← get P (v.length * (nc * FLin.size ins)) (nameOf f.irrepsIn f.irrepsOut ins)
    return mix g v (FLin.size ins) ((rows v.length (nc * FLin.size ins) w).map fun r => (rows nc (FLin.size ins) r).getD k [])

/-- `input.irreps.regroup() != irreps_in.regroup()`, linear.py:388-392. -/
def compareRegrouped (irreps irrepsIn : Irreps) : Except PyErr Unit := do
  let u ← irreps.regroup
  let v ← irrepsIn.regroup
  if u = v then .ok () else .error .valueError

/-- `validate_inputs_for_instructions`, linear.py:378-410; `hasChannel` tells whether `channel_out` is given. -/
def validate (c : Cfg) (hasChannel : Bool) (irreps : Irreps) : Except PyErr Unit :=
  match c.instructions, c.irrepsIn with
  | none, none => .ok ()
  | none, some i => compareRegrouped irreps i
  | some _, none => .error .valueError
  | some _, some i => if c.simp || hasChannel || decide (irreps ≠ i) then .error .valueError else .ok ()

/-- The input as the layer sees it, linear_flax.py:116-117. -/
def prepInput {α : Type} [Zero α] (c : Cfg) (x : IArr α) : Except PyErr (IArr α) :=
  if c.simp then do
    let x ← x.removeZeroChunks
    x.regroup
  else .ok x

/-- The output irreps of the layer, linear_flax.py:118-121. -/
def outIrreps (c : Cfg) (irreps : Irreps) : Except PyErr Irreps :=
  if c.force then .ok (if c.simp then c.irrepsOut.simplify else c.irrepsOut)
  else (if c.simp then c.irrepsOut.simplify else c.irrepsOut).filter' (some (.irs (irreps.map MulIrrep.ir))) none none

/-- linear_flax.py:128-199: the layer itself. -/
noncomputable def core (c : Cfg) (hasChannel : Bool) (out : Irreps) (P : Params) (s : Except PyErr Source) (x : IArr ℝ) :
    Except PyErr (IArr ℝ) := do
  validate c hasChannel x.irreps
  let f ← FLin.init x.irreps out c.instructions (.all c.biases) c.a c.g
  let s ← s
  let ws ← f.instructions.mapM (weight f c.g P s)
  f.call ws x

/-- linear_flax.py:204-206. -/
def finish {α : Type} [Zero α] (c : Cfg) (y : IArr α) : Except PyErr (IArr α) :=
  if c.force then y.rechunk c.irrepsOut else .ok y

/-- `Linear.__call__` without `channel_out`, linear_flax.py:87-206, the source of the weights being known. -/
noncomputable def callFrom (c : Cfg) (P : Params) (s : Except PyErr Source) (x : IArr ℝ) : Except PyErr (IArr ℝ) := do
  let x ← prepInput c x
  let out ← outIrreps c x.irreps
  let y ← core c false out P s x
  finish c y

/-- `Linear.__call__` without `channel_out`, linear_flax.py:87-206. -/
noncomputable def call (c : Cfg) (P : Params) (W : Weights) (x : IArr ℝ) : Except PyErr (IArr ℝ) :=
  callFrom c P (select c W) x

/-- Channel `k` of `nc` of `Linear.__call__` with `weights_per_channel` and an array of numbers as weights
(`num_indexed_weights` is not given), linear_flax.py:185-188. -/
noncomputable def callPerChannel (c : Cfg) (P : Params) (w : List ℝ) (nc k : ℕ) (x : IArr ℝ) : Except PyErr (IArr ℝ) :=
  callFrom c P (if w = [] then .error .zeroDivision else .ok (.perChannel w nc k)) x

/-- `Linear.__call__` with `channel_out = ch`, linear_flax.py:87-206: the columns of the input are functions of the channel. -/
noncomputable def callChannel (c : Cfg) (ch : ℕ) (P : Params) (W : Weights) {k : ℕ} (x : IArr (Fin k → ℝ)) : Except PyErr (IArr (Fin ch → ℝ)) := do
  let x ← prepInput c x
  let out ← outIrreps c x.irreps
  let x ← x.axisToMul
  let y ← core c true (out.mul ch) P (select c W) x
  let y ← y.mulToAxis ch
  finish c y

end E3nn.LinM
