import Mathlib.Algebra.Order.Archimedean.Real.Basic
import Mathlib.Algebra.Order.Floor.Ring
import Mathlib.Algebra.Module.Basic
import Mathlib.Data.Real.Basic
import Verif.Model.Py

/-!
# Model of `zoom`, `e3nn_jax/experimental/voxel_pooling.py`

An image of shape `[..., x, y, z]` is a function of the three indices with values in a real vector space `V` (the leading axes).  The
sizes of the input are positive.  Real numbers.
-/

namespace E3nn.Zoom

variable {V : Type} [AddCommGroup V] [Module ℝ V] {nx ny nz : ℕ}

/-- `input` of shape `[..., x, y, z]`, voxel_pooling.py:8. -/
abbrev Img (nx ny nz : ℕ) (V : Type) := Fin nx → Fin ny → Fin nz → V

/-- `jnp.clip(x, 0, n - 1)`, voxel_pooling.py:27-34 and 73-80. -/
def clip (n : ℕ) [NeZero n] (i : ℤ) : Fin n := ⟨(min (max i 0) ((n : ℤ) - 1)).toNat, by have := NeZero.pos n; omega⟩

/-- `interpolate_trilinear`, voxel_pooling.py:8-54. -/
noncomputable def trilinear [NeZero nx] [NeZero ny] [NeZero nz] (img : Img nx ny nz V) (x y z : ℝ) : V :=
  let xlo := ⌊x⌋
  let xhi := xlo + 1
  let ylo := ⌊y⌋
  let yhi := ylo + 1
  let zlo := ⌊z⌋
  let zhi := zlo + 1
  let ia := img (clip nx xlo) (clip ny ylo) (clip nz zlo)
  let ib := img (clip nx xhi) (clip ny ylo) (clip nz zlo)
  let ic := img (clip nx xlo) (clip ny yhi) (clip nz zlo)
  let id := img (clip nx xhi) (clip ny yhi) (clip nz zlo)
  let ie := img (clip nx xlo) (clip ny ylo) (clip nz zhi)
  let if_ := img (clip nx xhi) (clip ny ylo) (clip nz zhi)
  let ig := img (clip nx xlo) (clip ny yhi) (clip nz zhi)
  let ih := img (clip nx xhi) (clip ny yhi) (clip nz zhi)
  let wa := (xhi - x) * (yhi - y) * (zhi - z)
  let wb := (x - xlo) * (yhi - y) * (zhi - z)
  let wc := (xhi - x) * (y - ylo) * (zhi - z)
  let wd := (x - xlo) * (y - ylo) * (zhi - z)
  let we := (xhi - x) * (yhi - y) * (z - zlo)
  let wf := (x - xlo) * (yhi - y) * (z - zlo)
  let wg := (xhi - x) * (y - ylo) * (z - zlo)
  let wh := (x - xlo) * (y - ylo) * (z - zlo)
  wa • ia + wb • ib + wc • ic + wd • id + we • ie + wf • if_ + wg • ig + wh • ih

/-- `jnp.round` (voxel_pooling.py:66-68) and Python's `round` (voxel_pooling.py:142-144): the nearest integer, the even one of two. -/
noncomputable def roundEven (x : ℝ) : ℤ :=
  if Int.fract x < 1 / 2 then ⌊x⌋ else if 1 / 2 < Int.fract x then ⌊x⌋ + 1 else if Even ⌊x⌋ then ⌊x⌋ else ⌊x⌋ + 1

/-- `interpolate_nearest`, voxel_pooling.py:57-82. -/
noncomputable def nearest [NeZero nx] [NeZero ny] [NeZero nz] (img : Img nx ny nz V) (x y z : ℝ) : V :=
  img (clip nx (roundEven x)) (clip ny (roundEven y)) (clip nz (roundEven z))

/-- The argument `interpolation`. -/
inductive Interp where
  | linear
  | nearest
  | other

/-- The inner function `f`, voxel_pooling.py:93-97. -/
noncomputable def coords (nsrc ndst : ℕ) : List ℝ :=
  let a := (List.range ndst).map fun k : ℕ => (nsrc : ℝ) / ndst * (k : ℝ)
  let delta := 0.5 * ((nsrc : ℝ) / ndst - 1)
  a.map fun t => delta + t

/-- `_zoom`, voxel_pooling.py:85-115: the three flattened grids, the map over them, and the final `reshape`.  The division by a size
of zero is a division of Python integers. -/
noncomputable def zoomTo [NeZero nx] [NeZero ny] [NeZero nz] (img : Img nx ny nz V) (mx my mz : ℕ) (mode : Interp) : Except PyErr (Img mx my mz V) :=
  if mx = 0 ∨ my = 0 ∨ mz = 0 then .error .zeroDivision
  else
    let xi := coords nx mx
    let yi := coords ny my
    let zi := coords nz mz
    let xg := xi.flatMap fun x => yi.flatMap fun _ => zi.map fun _ => x
    let yg := xi.flatMap fun _ => yi.flatMap fun y => zi.map fun _ => y
    let zg := xi.flatMap fun _ => yi.flatMap fun _ => zi.map fun z => z
    let run := fun (f : ℝ → ℝ → ℝ → V) =>
      let out := List.zipWith (fun x (q : ℝ × ℝ) => f x q.1 q.2) xg (yg.zip zg)
      fun (i : Fin mx) (j : Fin my) (k : Fin mz) => out.getD ((i * my + j) * mz + k) 0
    match mode with
    | .linear => .ok (run (trilinear img))
    | .nearest => .ok (run (nearest img))
    | .other => .error .nameError

/-- The argument `resize_rate`: a number or three, voxel_pooling.py:138-139. -/
inductive Rate where
  | one (r : ℝ)
  | three (rx ry rz : ℝ)

/-- `zoom`, voxel_pooling.py:118-149.  Rates that give negative sizes are not represented (they count as zero). -/
noncomputable def zoom [NeZero nx] [NeZero ny] [NeZero nz] (img : Img nx ny nz V) (rate : Option Rate) (size : Option (ℕ × ℕ × ℕ)) (mode : Interp) :
    Except PyErr ((s : ℕ × ℕ × ℕ) × Img s.1 s.2.1 s.2.2 V) :=
  let go := fun (s : ℕ × ℕ × ℕ) => do
    let out ← zoomTo img s.1 s.2.1 s.2.2 mode
    return ⟨s, out⟩
  match rate, size with
  | some _, some _ => .error .assertion
  | some r, none =>
    let r := match r with
      | .one r => (r, r, r)
      | .three rx ry rz => (rx, ry, rz)
    go ((roundEven (nx * r.1)).toNat, (roundEven (ny * r.2.1)).toNat, (roundEven (nz * r.2.2)).toNat)
  | none, some s => go s
  | none, none => .error .assertion

end E3nn.Zoom
