import Verif.Model.IArr
import Mathlib.Data.Real.Sqrt
import Mathlib.Data.Fintype.Card
import Mathlib.Algebra.BigOperators.Group.Finset.Basic
import Mathlib.Data.Finset.Max

/-!
# Model of `e3nn_jax/_src/batchnorm/bn.py` and of the modules in `bn_flax.py` and `bn_haiku.py`

The leading axes are the batch `β` and the sample `σ` (all other axes flattened, bn.py:28-29, and unflattened at the end, bn.py:129).
A column of the array is a function `β × σ → ℝ`.  Running statistics and parameters are lists of numbers or `None`.  Real arithmetic:
`lax.rsqrt` is the inverse of the square root, with value 0 at 0 where the code has infinity.
-/

namespace E3nn.BN

open E3nn.IArr

/-- The argument `normalization`, bn.py:77-84. -/
inductive Norm where
  | norm | component | other
  deriving DecidableEq

/-- The argument `reduce`, bn.py:86-91. -/
inductive Red where
  | mean | max | other
  deriving DecidableEq

/-- The options of `batch_norm`, bn.py:16-21. -/
structure Cfg where
  normalization : Norm
  reduce : Red
  inst : Bool
  running : Bool
  affine : Bool
  momentum : ℝ
  epsilon : ℝ

/-- The running statistics and parameters, bn.py:12-15. -/
structure Params where
  raMean : Option (List ℝ)
  raVar : Option (List ℝ)
  weight : Option (List ℝ)
  bias : Option (List ℝ)

variable {β σ : Type} [Fintype β] [Fintype σ] [Nonempty σ]

/-- A column, bn.py:29. -/
abbrev Col (β σ : Type) := β × σ → ℝ

/-- `ra[i : i + n]`; slicing `None` raises, bn.py:68, 71, 98, 101, 108, 114. -/
def slice (p : Option (List ℝ)) (i n : ℕ) : Except PyErr (List ℝ) :=
  match p with
  | none => .error .typeError
  | some l => .ok ((l.drop i).take n)

/-- `_roll_avg`, bn.py:25-26. -/
def roll (c : Cfg) (curr update : ℝ) : ℝ := (1 - c.momentum) * curr + c.momentum * update

/-- `chunk.mean(1)` of one scalar, bn.py:60, 65. -/
noncomputable def instMean (v : Col β σ) (b : β) : ℝ := (∑ s, v (b, s)) / Fintype.card σ

/-- The mean of one scalar over batch and samples, bn.py:62-67. -/
noncomputable def batchMean (mask : Option (β → ℝ)) (v : Col β σ) : ℝ :=
  match mask with
  | none => (∑ b, ∑ s, v (b, s)) / (Fintype.card β * Fintype.card σ)
  | some w => (∑ b, instMean v b * w b) / ∑ b, w b

/-- The new running means of a scalar chunk, bn.py:59-68. -/
noncomputable def newMeans (c : Cfg) (P : Params) (mask : Option (β → ℝ)) (i mul : ℕ) (rows : List (List (Col β σ))) : Except PyErr (List ℝ) :=
  if c.inst then .ok []
  else (slice P.raMean i mul).map fun curr => List.zipWith (roll c) curr (rows.map fun r => batchMean mask (r.headD 0))

/-- The means subtracted from a scalar chunk, bn.py:59-71. -/
noncomputable def meansFor (c : Cfg) (P : Params) (mask : Option (β → ℝ)) (i mul : ℕ) (rows : List (List (Col β σ))) : Except PyErr (List (β → ℝ)) :=
  if c.running then (slice P.raMean i mul).map fun ra => ra.map fun m _ => m
  else .ok (rows.map fun r => if c.inst then instMean (r.headD 0) else fun _ => batchMean mask (r.headD 0))

/-- The centring of a scalar chunk with the new running means, bn.py:59-75. -/
noncomputable def centerChunk (c : Cfg) (P : Params) (mask : Option (β → ℝ)) (i mul : ℕ) (rows : List (List (Col β σ))) :
    Except PyErr (List ℝ × List (List (Col β σ))) := do
  let new ← newMeans c P mask i mul rows
  let mean ← meansFor c P mask i mul rows
  .ok (new, List.zipWith (fun r m => r.map fun v p => v p - m p.1) rows mean)

/-- `norm_squared` of one irrep at every batch and sample index, bn.py:77-84. -/
noncomputable def normSquared (c : Cfg) (r : List (Col β σ)) (p : β × σ) : ℝ :=
  match c.normalization with
  | .norm => (r.map fun v => v p ^ 2).sum
  | _ => (r.map fun v => v p ^ 2).sum / r.length

/-- The reduction over the samples, bn.py:86-91. -/
noncomputable def reduceSamples (c : Cfg) (f : β × σ → ℝ) (b : β) : ℝ :=
  match c.reduce with
  | .mean => (∑ s, f (b, s)) / Fintype.card σ
  | _ => Finset.univ.sup' Finset.univ_nonempty fun s => f (b, s)

/-- The reduction over the batch, bn.py:93-97. -/
noncomputable def reduceBatch (mask : Option (β → ℝ)) (f : β → ℝ) : ℝ :=
  match mask with
  | none => (∑ b, f b) / Fintype.card β
  | some w => (∑ b, f b * w b) / ∑ b, w b

/-- The state of the loop, bn.py:31-39. -/
structure St (β σ : Type) where
  iWei : ℕ
  iRmu : ℕ
  iBia : ℕ
  means : List ℝ
  vars : List ℝ
  chunks : List (Chunk (Col β σ))

/-- The new running variances of a chunk, bn.py:93-98. -/
noncomputable def newVars (c : Cfg) (P : Params) (mask : Option (β → ℝ)) (i mul : ℕ) (ns : List (β → ℝ)) : Except PyErr (List ℝ) :=
  if c.inst then .ok []
  else (slice P.raVar i mul).map fun curr => List.zipWith (roll c) curr (ns.map (reduceBatch mask))

/-- The variances used for a chunk, bn.py:93-101. -/
noncomputable def varsFor (c : Cfg) (P : Params) (mask : Option (β → ℝ)) (i mul : ℕ) (ns : List (β → ℝ)) : Except PyErr (List (β → ℝ)) :=
  if c.running then (slice P.raVar i mul).map fun ra => ra.map fun v _ => v
  else .ok (if c.inst then ns else ns.map fun f _ => reduceBatch mask f)

/-- The factors of a chunk, bn.py:103-109. -/
noncomputable def inverses (c : Cfg) (P : Params) (i mul : ℕ) (var : List (β → ℝ)) : Except PyErr (List (β → ℝ)) :=
  let inverse : List (β → ℝ) := var.map fun v b => (Real.sqrt ((1 - c.epsilon) * v b + c.epsilon))⁻¹
  if c.affine then (slice P.weight i mul).map fun w => List.zipWith (fun f a b => f b * a) inverse w
  else .ok inverse

/-- The bias, bn.py:113-115. -/
noncomputable def addBias (c : Cfg) (P : Params) (j : ℕ) (m : MulIrrep) (rows : List (List (Col β σ))) : Except PyErr (List (List (Col β σ))) :=
  if c.affine && m.ir == ⟨0, .e⟩ then (slice P.bias j m.mul).map fun bs => List.zipWith (fun r a => r.map fun v p => v p + a) rows bs
  else .ok rows

/-- The part of the loop body after the centring: the new running variances and the new chunk, bn.py:77-116. -/
noncomputable def scaleChunk (c : Cfg) (P : Params) (mask : Option (β → ℝ)) (i j : ℕ) (m : MulIrrep) (rows : List (List (Col β σ))) :
    Except PyErr (List ℝ × List (List (Col β σ))) :=
  if c.normalization = .other then .error .valueError
  else if c.reduce = .other then .error .valueError
  else do
    let ns : List (β → ℝ) := rows.map fun r => reduceSamples c (normSquared c r)
    let new ← newVars c P mask i m.mul ns
    let var ← varsFor c P mask i m.mul ns
    let inverse ← inverses c P i m.mul var
    let rows ← addBias c P j m (List.zipWith (fun r f => r.map fun (v : Col β σ) p => v p * f p.1) rows inverse)
    .ok (new, rows)

/-- The body of the loop, bn.py:41-119. -/
noncomputable def step (c : Cfg) (P : Params) (mask : Option (β → ℝ)) (st : St β σ) (q : MulIrrep × Chunk (Col β σ)) : Except PyErr (St β σ) :=
  let m := q.1
  let scalar : Bool := m.ir == ⟨0, .e⟩
  match q.2 with
  | none => .ok
    { iWei := st.iWei + m.mul
      iRmu := if scalar then st.iRmu + m.mul else st.iRmu
      iBia := if c.affine && scalar then st.iBia + m.mul else st.iBia
      means := if scalar && !c.inst then st.means ++ List.replicate m.mul 0 else st.means
      vars := if c.inst then st.vars else st.vars ++ List.replicate m.mul 1
      chunks := st.chunks ++ [none] }
  | some rows => do
    let centred ← (if scalar then centerChunk c P mask st.iRmu m.mul rows else .ok ([], rows))
    let scaled ← scaleChunk c P mask st.iWei st.iBia m centred.2
    .ok
      { iWei := st.iWei + m.mul
        iRmu := if scalar then st.iRmu + m.mul else st.iRmu
        iBia := if c.affine && scalar then st.iBia + m.mul else st.iBia
        means := st.means ++ centred.1
        vars := st.vars ++ scaled.1
        chunks := st.chunks ++ [some scaled.2] }

/-- `p is None or i == len(p)`, bn.py:121-124. -/
def lengthOk (p : Option (List ℝ)) (i : ℕ) : Bool :=
  match p with
  | none => true
  | some l => i == l.length

/-- The end of `batch_norm`, bn.py:121-142. A parameter that is too short makes the assertion fail here; the code may raise already when the slice
does not broadcast.  `jnp.concatenate([])` raises. -/
def finish (c : Cfg) (P : Params) (x : IArr (Col β σ)) (st : St β σ) : Except PyErr (IArr (Col β σ) × Option (List ℝ × List ℝ)) :=
  if !(lengthOk P.weight st.iWei && lengthOk P.raVar st.iWei && lengthOk P.bias st.iBia && lengthOk P.raMean st.iRmu) then .error .assertion
  else do
    let y ← fromChunks x.irreps st.chunks
    if c.inst then .ok (y, none)
    else if x.irreps = [] then .error .valueError
    else .ok (y, some (st.means, st.vars))

/-- `batch_norm`, bn.py:10-142: the output and, unless `is_instance`, the new running means and variances. -/
noncomputable def batchNorm (c : Cfg) (P : Params) (mask : Option (β → ℝ)) (x : IArr (Col β σ)) :
    Except PyErr (IArr (Col β σ) × Option (List ℝ × List ℝ)) := do
  let st ← (x.irreps.zip x.chunks).foldlM (step c P mask) ⟨0, 0, 0, [], [], []⟩
  finish c P x st

/-! ### The modules -/

/-- The number of even scalars, bn_flax.py:93 and bn_haiku.py:79. -/
def numScalars (ms : Irreps) : ℕ := ((ms.filter fun m => m.ir == ⟨0, .e⟩).map MulIrrep.mul).sum

/-- The running statistics, bn_flax.py:96-108 and bn_haiku.py:82-91. -/
structure Stats where
  mean : List ℝ
  var : List ℝ

/-- The initial statistics, bn_flax.py:97-105 and bn_haiku.py:83-88. -/
def initStats (ms : Irreps) : Stats := ⟨List.replicate (numScalars ms) 0, List.replicate ms.numIrreps 1⟩

/-- The initial weights and biases, bn_flax.py:111-112 and bn_haiku.py:94-95. -/
def initParams (ms : Irreps) : List ℝ × List ℝ := (List.replicate ms.numIrreps 1, List.replicate (numScalars ms) 0)

/-- The arguments of `batch_norm` built by the modules, bn_flax.py:117-131 and bn_haiku.py:100-113. -/
def paramsOf (c : Cfg) (s : Stats) (p : List ℝ × List ℝ) : Params :=
  ⟨if c.inst then none else some s.mean, if c.inst then none else some s.var, if c.affine then some p.1 else none, if c.affine then some p.2 else none⟩

/-- `flax.BatchNorm.__call__` of a module with the options `c` (`c.running` is the attribute `use_running_average`, `False` for `None`) and the argument
`use_running_average`, bn_flax.py:47-137.  `mutable` says that the collection `batch_stats` may be written; writing it otherwise raises
`ModifyScopeVariableError`, a `RuntimeError`.  Of `init` only the flag is represented. -/
noncomputable def flaxCall (c : Cfg) (initializing mutable : Bool) (use : Option Bool) (mask : Option (β → ℝ)) (s : Stats) (p : List ℝ × List ℝ) (x : IArr (Col β σ)) :
    Except PyErr (IArr (Col β σ) × Stats) :=
  let run := use.getD c.running
  if run && c.inst then .error .valueError
  else do
    let c' := { c with running := run }
    let r ← batchNorm c' (paramsOf c' s p) mask x
    match r.2 with
    | none => .ok (r.1, s)
    | some new =>
      if initializing then .ok (r.1, s)
      else if mutable then .ok (r.1, ⟨new.1, new.2⟩)
      else .error .runtimeError

/-- `haiku.BatchNorm.__call__` after the checks of `__init__`, bn_haiku.py:48-60, 64-121; `irreps` is the optional attribute and `c.running` is not used. -/
noncomputable def haikuCall (c : Cfg) (irreps : Option Irreps) (training : Bool) (s : Stats) (p : List ℝ × List ℝ) (x : IArr (Col β σ)) :
    Except PyErr (IArr (Col β σ) × Stats) :=
  if c.reduce = .other || c.normalization = .other then .error .assertion
  else do
    let x ← match irreps with
      | none => .ok x
      | some ms => x.rechunk ms
    let c' := { c with running := !training && !c.inst }
    let r ← batchNorm c' (paramsOf c' s p) none x
    match r.2 with
    | none => .ok (r.1, s)
    | some new =>
      if training then .ok (r.1, ⟨if new.1.length ≠ 0 then new.1 else s.mean, if new.2.length ≠ 0 then new.2 else s.var⟩)
      else .ok (r.1, s)

end E3nn.BN
