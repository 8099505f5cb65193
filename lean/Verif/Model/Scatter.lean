import Verif.Model.Py
import Mathlib.Algebra.Module.Basic
import Mathlib.Data.Real.Basic
import Mathlib.Data.List.Dedup

/-!
# Model of `e3nn_jax/_src/scatter.py`

The first axes of `data` (those indexed by `dst`) are flattened: `data` is a list of entries, the
entries are elements of `α` (arrays of the remaining shape; for an `IrrepsArray` the rows of
`.array`, which is the only leaf of the pytree, irreps_array.py:1238-1242).  Dtypes are not represented.
-/

namespace E3nn.Scatter

/-- The `mode` argument of `.at[...]`: `promise_in_bounds`, `drop` (or `fill`), `clip` (scatter.py:256-258). -/
inductive Mode where
  | promise
  | drop
  | clip
  deriving DecidableEq, Repr

/-- How `.at[i]` reads an index of an axis of size `n`: negative indices count from the end; out of
bounds the mode decides (`promise_in_bounds`: unspecified) (scatter.py:256). -/
def jaxIndex (mode : Mode) (n : Nat) (i : Int) : Except PyErr (Option Nat) :=
  let j := if i < 0 then i + n else i
  if 0 ≤ j ∧ j < n then .ok (some j.toNat)
  else match mode with
    | .promise => .error .undefined
    | .drop => .ok none
    | .clip => .ok (if n = 0 then none else some (if j < 0 then 0 else n - 1))

/-- `z.at[(dst,)].add(x)` / `.max(x)`, scatter.py:255-258. -/
def scatterAt {α : Type} (op : α → α → α) (z : List α) (ps : List (Option Nat × α)) : List α :=
  ps.foldl (fun z p => match p.1 with
    | none => z
    | some i => z.modify i fun a => op a p.2) z

/-- `jnp.repeat(a, nel, total_repeat_length=total)`: too many entries are cut, the last one is
repeated if there are not enough (scatter.py:119 and 229). -/
def repeatTotal {α : Type} (a : List α) (nel : List Nat) (total : Nat) : List α :=
  ((a.zip nel).flatMap (fun p => List.replicate p.2 p.1) ++
    (match a.getLast? with
      | none => []
      | some b => List.replicate total b)).take total

/-- `jnp.unique(x)`: the distinct values in increasing order (the padding to `size` repeats the
smallest value at the end and is never found first, scatter.py:21-24). -/
def unique (x : List Int) : List Int := pySorted (fun a b => decide (a < b)) x.dedup

/-- `_distinct_but_small`, scatter.py:10-25. -/
def distinctButSmall (x : List Int) : List Int := x.map fun i => ((unique x).idxOf i : Nat)

/-- `_scatter_op`, scatter.py:208-265.  `op` and `initial` are the operation and its first value. -/
def scatterOp {α : Type} (op : α → α → α) (initial : α) (data : List α) (dst : Option (List Int)) (nel : Option (List Nat))
    (outputSize : Option Nat) (mapBack : Bool) (mode : Mode) : Except PyErr (List α) :=
  match dst, nel with
  | none, none => .error .valueError
  | some _, some _ => .error .valueError
  | none, some nel =>
    if outputSize.isSome then .error .valueError
    else go (repeatTotal ((List.range nel.length).map Int.ofNat) nel data.length) (if mapBack then none else some nel.length)
  | some dst, none => go dst outputSize
where
  /-- scatter.py:236-265. -/
  go (dst : List Int) (outputSize : Option Nat) : Except PyErr (List α) :=
    if dst.length ≠ data.length then .error .valueError
    else match outputSize, mapBack with
      | none, false => .error .valueError
      | some _, true => .error .valueError
      | some n, false => do
        let idx ← dst.mapM (jaxIndex mode n)
        return scatterAt op (List.replicate n initial) (idx.zip data)
      | none, true => do
        let dst' := distinctButSmall dst
        let idx ← dst'.mapM (jaxIndex mode dst.length)
        let out := scatterAt op (List.replicate dst.length initial) (idx.zip data)
        let back ← dst'.mapM (jaxIndex .drop dst.length)
        return back.filterMap fun i => i.bind fun i => out[i]?

section
variable {α : Type} [AddCommGroup α] [Module ℝ α]

/-- `scatter_sum`, scatter.py:28-66. -/
def scatterSum (data : List α) (dst : Option (List Int)) (nel : Option (List Nat)) (outputSize : Option Nat) (mapBack : Bool)
    (mode : Mode) : Except PyErr (List α) :=
  scatterOp (· + ·) 0 data dst nel outputSize mapBack mode

/-- `total / jnp.maximum(1, nel)`, scatter.py:112-117, 152-157. -/
noncomputable def divide (total : List α) (nel : List Nat) : List α :=
  List.zipWith (fun t n => ((max 1 n : Nat) : ℝ)⁻¹ • t) total nel

/-- `scatter_mean`, scatter.py:69-157. -/
noncomputable def scatterMean (data : List α) (dst : Option (List Int)) (nel : Option (List Nat)) (outputSize : Option Nat) (mapBack : Bool)
    (mode : Mode) : Except PyErr (List α) :=
  match mapBack, nel with
  | true, some nel =>
    if dst.isSome ∨ outputSize.isSome then .error .assertion
    else do
      let total ← scatterOp (· + ·) 0 data none (some nel) none false mode
      return repeatTotal (divide total nel) nel data.length
  | _, _ => do
    let total ← scatterOp (· + ·) 0 data dst nel outputSize mapBack mode
    let count ← if dst.isSome ∨ mapBack then
        scatterOp (· + ·) 0 (List.replicate data.length 1) dst nel outputSize mapBack mode
      else .ok (nel.getD [])
    return divide total count

end

/-- `scatter_max`, scatter.py:160-205; for an `IrrepsArray`, `scalar` is `data.irreps.is_scalar()`. -/
def scatterMax {α : Type} [Max α] (scalar : Bool) (initial : α) (data : List α) (dst : Option (List Int)) (nel : Option (List Nat))
    (outputSize : Option Nat) (mapBack : Bool) (mode : Mode) : Except PyErr (List α) :=
  if !scalar then .error .valueError
  else scatterOp max initial data dst nel outputSize mapBack mode

end E3nn.Scatter
