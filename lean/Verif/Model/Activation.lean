import Verif.Model.TransformO3
import Mathlib.Analysis.SpecialFunctions.Exp
import Mathlib.Analysis.SpecialFunctions.Sqrt

/-!
# Model of `e3nn_jax/_src/activation.py` and `gate.py`

The components of the arrays are real functions of the leading indices (`ι → ℝ`), and an activation
acts on every entry.  Python compares functions by identity; here a function object is a number and
`env` says what the object computes.  Real arithmetic; not-a-number does not exist, in particular
`normalize_function` of a function that vanishes on all sample points (division by zero) is not
represented faithfully.
-/

namespace E3nn.Activ

open Classical

/-- The columns of an array: real functions of the leading indices (activation.py:138-183). -/
abbrev Col (ι : Type) := ι → ℝ

/-- Apply a function to every entry of a column (activation.py:163 and 178). -/
def lift {ι : Type} (f : ℝ → ℝ) (v : Col ι) : Col ι := fun i => f (v i)

/-- `jnp.allclose(a, b)` with the default tolerances (activation.py:63 and 88). -/
def AllClose (a b : ℝ) : Prop := |a - b| ≤ 1e-8 + 1e-5 * |b|

/-- `normalize_function`, activation.py:49-70; `pts` are the points `normalspace(1_000_001)`. -/
noncomputable def normalizeFunction (pts : List ℝ) (phi : ℝ → ℝ) : ℝ → ℝ :=
  let c := Real.sqrt ((pts.map fun x => phi x ^ 2).sum / pts.length)
  if AllClose c 1 then phi else fun x => phi x / c

/-- The `i`-th point of `jnp.linspace(0.0, 10.0, 256)` (activation.py:75). -/
noncomputable def samplePoint (i : ℕ) : ℝ := 10 * i / 255

/-- `parity_function`, activation.py:73-83. -/
noncomputable def parityFunction (phi : ℝ → ℝ) : ℤ :=
  if ∀ i < 256, |phi (samplePoint i) - phi (-samplePoint i)| < 1e-5 then 1
  else if ∀ i < 256, |phi (samplePoint i) + phi (-samplePoint i)| < 1e-5 then -1
  else 0

/-- `is_zero_in_zero`, activation.py:86-88. -/
def IsZeroInZero (phi : ℝ → ℝ) : Prop := AllClose (phi 0) 0

/-- The parity with a given sign (activation.py:148-154). -/
def ofSign (p : ℤ) : Parity := if p = -1 then .o else .e

/-- The function that is applied for the function object `a`, activation.py:145-146. -/
noncomputable def effective (env : ℕ → ℝ → ℝ) (pts : List ℝ) (normalizeAct : Bool) (a : ℕ) : ℝ → ℝ :=
  if normalizeAct then normalizeFunction pts (env a) else env a

variable {ι : Type}

/-- One turn of the loop, activation.py:138-166. -/
noncomputable def step (F : ℕ → ℝ → ℝ) (p : MulIrrep × Chunk (Col ι)) : Option ℕ → Except PyErr (MulIrrep × Chunk (Col ι))
  | none => .ok p
  | some a =>
    if p.1.ir.l ≠ 0 then .error .valueError
    else
      let out : ℤ := if p.1.ir.p = .o then parityFunction (F a) else p.1.ir.p.toInt
      if out = 0 then .error .valueError
      else .ok (⟨p.1.mul, ⟨0, ofSign out⟩⟩,
        match p.2 with
        | none => if IsZeroInZero (F a) then none else some (List.replicate p.1.mul [lift (F a) fun _ => 1])
        | some rows => some (rows.map fun r => r.map (lift (F a))))

/-- The default `acts`, activation.py:127-131. -/
def defaultActs (even odd : ℕ) (irreps : Irreps) : List (Option ℕ) :=
  irreps.map fun m => if m.ir.l = 0 then some (match m.ir.p with | .e => even | .o => odd) else none

/-- `scalar_activation`, activation.py:91-183. `acts` is `none` when the argument is not given. -/
noncomputable def scalarActivation (env : ℕ → ℝ → ℝ) (pts : List ℝ) (acts? : Option (List (Option ℕ))) (even odd : ℕ)
    (normalizeAct : Bool) (x : IArr (Col ι)) : Except PyErr (IArr (Col ι)) :=
  let acts := acts?.getD (defaultActs even odd x.irreps)
  if x.irreps.length ≠ acts.length then .error .assertion
  else do
    let F := effective env pts normalizeAct
    let qs ← ((x.irreps.zip x.chunks).zip acts).mapM fun q => step F q.1 q.2
    match acts with
    | [] => IArr.fromChunks (qs.map Prod.fst) (qs.map Prod.snd)
    | a :: _ =>
      if acts.count a = acts.length then
        let array := match a with
          | none => x.array
          | some a => x.array.map (lift (F a))
        IArr.make (qs.map Prod.fst) array (some (qs.map fun q => q.2.isNone)) none
      else IArr.fromChunks (qs.map Prod.fst) (qs.map Prod.snd)

/-! ## norm_activation -/

/-- `n`, activation.py:221-224, for one row of a chunk. -/
noncomputable def rowNorm (component : Bool) (r : List (Col ι)) : Col ι := fun i =>
  let s : ℝ := (r.map fun v : Col ι => (v i) ^ 2).sum
  let n2 := if component then s / r.length else s
  if 0 < n2 then Real.sqrt n2 else 1

/-- `x * act(n)`, activation.py:225. -/
noncomputable def normRow (component : Bool) (phi : ℝ → ℝ) (r : List (Col ι)) : List (Col ι) :=
  r.map fun v i => v i * phi (rowNorm component r i)

/-- `norm_activation`, activation.py:186-229; the argument `normalization` is `"component"` or `"norm"`
(the assertion on it is not represented). -/
noncomputable def normActivation (env : ℕ → ℝ → ℝ) (acts : List (Option ℕ)) (component : Bool) (x : IArr (Col ι)) :
    Except PyErr (IArr (Col ι)) :=
  if x.irreps.length ≠ acts.length then .error .assertion
  else IArr.fromChunks x.irreps ((x.chunks.zip acts).map fun q =>
    match q.2 with
    | none => q.1
    | some a => q.1.map fun rows => rows.map (normRow component (env a)))

/-- `sus`, radial.py:10-22. -/
noncomputable def sus (x : ℝ) : ℝ := if 0 < x then Real.exp (-1 / (if 0 < x then x else 1)) else 0

/-- `soft_normalization`, activation.py:232-239. -/
noncomputable def softNormalization (maxComponent : ℝ) (x : IArr (Col ι)) : Except PyErr (IArr (Col ι)) :=
  normActivation (fun _ n => 1 / (1 + n / maxComponent * sus (n / maxComponent))) (x.irreps.map fun _ => some 0) true x

/-- `key_value_activation`, activation.py:242-252, for vectors of length `d`. -/
noncomputable def keyValueActivation (pts : List ℝ) (phi : ℝ → ℝ) {d : ℕ} (key value : Fin d → ℝ) : Fin d → ℝ :=
  let k := fun i => key i / Real.sqrt (1 / 16 + ∑ j, key j ^ 2)
  let s := normalizeFunction pts phi (∑ j, k j * value j)
  fun i => Real.sqrt d * s * k i

/-! ## gate -/

/-- `x * y` for two `IrrepsArray`, irreps_array.py:370-388. The irreps of
`elementwise_tensor_product(self.irreps, other.irreps)` are those of the result. -/
noncomputable def mulArrays (n : IrNorm) (x y : IArr (Col ι)) : Except PyErr (IArr (Col ι)) :=
  if x.irreps.numIrreps ≠ y.irreps.numIrreps then .error .valueError
  else do
    let z ← TP.elementwise (realCtx (Col ι)) n none x y
    if z.irreps.numIrreps ≠ x.irreps.numIrreps then .error .valueError
    else return z

/-- `_gate`, gate.py:10-45; `n` is the configured `irrep_normalization`. -/
noncomputable def gate (env : ℕ → ℝ → ℝ) (pts : List ℝ) (n : IrNorm) (evenAct oddAct evenGate oddGate : ℕ) (normalizeAct : Bool)
    (x : IArr (Col ι)) : Except PyErr (IArr (Col ι)) := do
  let scalars ← x.filter (some (.irs [⟨0, .e⟩, ⟨0, .o⟩])) none none
  let vectors ← x.filter none (some (.irs [⟨0, .e⟩, ⟨0, .o⟩])) none
  if vectors.array.length = 0 then scalarActivation env pts none evenAct oddAct normalizeAct scalars
  else if scalars.irreps.dim < vectors.irreps.numIrreps then .error .valueError
  else do
    let k : ℤ := (scalars.irreps.dim : ℤ) - vectors.irreps.numIrreps
    let extra ← scalars.sliceByMul ⟨none, some k, none⟩
    let gates ← scalars.sliceByMul ⟨some k, none, none⟩
    let extra ← scalarActivation env pts none evenAct oddAct normalizeAct extra
    let gates ← scalarActivation env pts none evenGate oddGate normalizeAct gates
    let gated ← mulArrays n gates vectors
    IArr.concatenate [extra, gated]

end E3nn.Activ
