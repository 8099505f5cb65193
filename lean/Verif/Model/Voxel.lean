import Mathlib.Algebra.Order.Floor.Ring
import Mathlib.Algebra.BigOperators.Group.Finset.Basic
import Verif.Model.LegacyTP
import Verif.Model.Linear
import Verif.Model.Radial
import Verif.Model.SphericalHarmonics

/-!
# Model of the voxel convolution, `e3nn_jax/experimental/voxel_convolution.py`

`ConvolutionHaiku` and `ConvolutionFlax` share `_tp_weight`, `_kernel` and `_call`.  A feature of an image of shape `[batch, x, y, z]` is a
function of the batch index and of the voxel.  Voxels of the kernel are named by their displacement from the centre, in steps.  Real
numbers.  Only `padding="SAME"` (the default) is modelled.
-/

namespace E3nn.Voxel
open E3nn.IArr

/-- A value, or a dictionary indexed by the degree: `num_radial_basis` and `relative_starts`, voxel_convolution.py:32-35. -/
inductive PerDegree (α : Type) where
  | const (a : α)
  | dict (d : List (ℕ × α))

/-- voxel_convolution.py:134-143. -/
def PerDegree.get {α : Type} (l : ℕ) : PerDegree α → Except PyErr α
  | .const a => .ok a
  | .dict d => match d.find? fun q => q.1 == l with
    | some q => .ok q.2
    | none => .error .keyError

/-- The attributes, voxel_convolution.py:40-46 and 89-95, and the values read from the configuration by the functions it calls: `n a g` the
normalisations of the tensor product and of the linear layer, `cfg` and `nrm` those of the spherical harmonics. -/
structure Conv where
  irrepsOut : Irreps
  irrepsSh : Irreps
  diameter : ℝ
  numRadialBasis : PerDegree ℕ
  relativeStarts : PerDegree ℝ
  steps : Fin 3 → ℝ
  n : IrNorm
  a : ℝ
  g : ℝ
  cfg : Option (List String)
  nrm : SH.Normalization

/-- The parameters: `w[i_in,i_sh,i_out]` (its first index, then the flat index of the others), voxel_convolution.py:155-159, and
`self-connection[i_in,i_out]` (flat), voxel_convolution.py:218-225. -/
structure Params where
  w : ℕ → ℕ → ℕ → ℕ → ℕ → ℝ
  self : Option ℕ → ℕ → ℕ → ℝ

/-- `jnp.arange(-s, s + 1.0)`, with `s = math.floor(r / self.steps[i])`, voxel_convolution.py:180-189, as integers. -/
noncomputable def Conv.half (c : Conv) (i : Fin 3) : ℤ := ⌊c.diameter / 2 / c.steps i⌋

/-- One axis of the lattice, in steps. -/
noncomputable def Conv.axis (c : Conv) (i : Fin 3) : List ℤ :=
  (List.range (2 * c.half i + 1).toNat).map fun k : ℕ => (k : ℤ) - c.half i

/-- `jnp.meshgrid(x, y, z, indexing="ij")`, voxel_convolution.py:191, in steps. -/
noncomputable def Conv.lattice (c : Conv) : List (Fin 3 → ℤ) :=
  (c.axis 0).flatMap fun x => (c.axis 1).flatMap fun y => (c.axis 2).map fun z => ![x, y, z]

/-- A point of the lattice, in physical units, voxel_convolution.py:181-192. -/
noncomputable def position (steps : Fin 3 → ℝ) (p : Fin 3 → ℤ) : Fin 3 → ℝ := fun i => p i * steps i

/-- `jnp.linalg.norm(lattice, ord=2, axis=-1)`, voxel_convolution.py:146. -/
noncomputable def norm2 (v : Fin 3 → ℝ) : ℝ := Real.sqrt (v 0 ^ 2 + v 1 ^ 2 + v 2 ^ 2)

/-- `_tp_weight` at one point of the lattice, voxel_convolution.py:121-166. -/
noncomputable def Conv.tpWeight (c : Conv) (ps : Params) (steps : Fin 3 → ℝ) (p : Fin 3 → ℤ) (ir2 : Irrep) (ins : LTP.Ins) : Except PyErr (List ℝ) := do
  let number ← c.numRadialBasis.get ir2.l
  let start ← c.relativeStarts.get ir2.l
  let emb ← Radial.softOneHotLinspace (norm2 (position steps p)) (start * c.diameter / 2) (c.diameter / 2) number .smoothFinite none (some true) (some true)
  return (List.range ins.size).map fun j =>
    (∑ k ∈ Finset.range number, emb.getD k 0 * ps.w ins.i1 ins.i2 ins.io k j) / ((c.axis 0).length * (c.axis 1).length * (c.axis 2).length : ℕ)

/-- `tp.irreps_in2[i.i_in2].ir`, voxel_convolution.py:205. -/
def irAt (ms : Irreps) (i : ℕ) : Except PyErr Irrep :=
  match ms[i]? with
  | some m => .ok m.ir
  | none => .error .indexError

/-- The list `ws` at one point of the lattice, voxel_convolution.py:197-211. -/
noncomputable def Conv.weightsAt (c : Conv) (ps : Params) (steps : Fin 3 → ℝ) (tp : LTP.FTP) (p : Fin 3 → ℤ) : Except PyErr (List (List ℝ)) :=
  tp.instructions.mapM fun ins => do
    let ir2 ← irAt tp.irreps2 ins.i2
    c.tpWeight ps steps p ir2 ins

/-- The kernel at one point of the lattice, voxel_convolution.py:213-227: the map over the three axes is applied pointwise; the centre is the
matrix of the self-connection. -/
noncomputable def Conv.kernelAt (c : Conv) (ps : Params) (steps : Fin 3 → ℝ) (tp : LTP.FTP) (sh : IArr ((Fin 3 → ℤ) → ℝ)) (center : List (List ℝ))
    (p : Fin 3 → ℤ) : Except PyErr (List (List ℝ)) := do
  let ws ← c.weightsAt ps steps tp p
  let y ← mapCols (fun col => col p) sh
  let k ← tp.right ws y
  return if p = 0 then center else k

/-- `_kernel`, voxel_convolution.py:169-227.  The division by a step of zero is a division of Python floats. -/
noncomputable def Conv.kernel (c : Conv) (ps : Params) (irrepsIn irrepsOut : Irreps) (steps : Option (Fin 3 → ℝ)) : Except PyErr ((Fin 3 → ℤ) → List (List ℝ)) := do
  let st := steps.getD c.steps
  if c.steps 0 = 0 ∨ c.steps 1 = 0 ∨ c.steps 2 = 0 then .error .zeroDivision
  else
    let tp ← LTP.fullyConnected irrepsIn c.irrepsSh irrepsOut none none none c.n c.a c.g
    let sh ← SH.sphericalHarmonics (ι := Fin 3 → ℤ) c.cfg (.irreps c.irrepsSh)
      (.raw [fun p => position st p 0, fun p => position st p 1, fun p => position st p 2]) true c.nrm none
    let lin ← FLin.init irrepsIn irrepsOut none .none c.a c.g
    let center ← lin.matrix (lin.instructions.map fun ins => (List.range (FLin.size ins)).map fun j => ps.self ins.iIn ins.iOut j)
    let ks ← c.lattice.mapM fun p => c.kernelAt ps st tp sh center p
    return fun p => match (c.lattice.zip ks).find? fun q => q.1 == p with
      | some q => q.2
      | none => []

variable {β : Type} {n : Fin 3 → ℕ}

/-- The voxels of an image of size `n`. -/
abbrev Grid (n : Fin 3 → ℕ) := (i : Fin 3) → Fin (n i)

/-- A feature, padded with zeros. -/
def ext (f : β × Grid n → ℝ) (b : β) (z : Fin 3 → ℤ) : ℝ :=
  if h : ∀ i, 0 ≤ z i ∧ z i < n i then f (b, fun i => ⟨(z i).toNat, by have := h i; omega⟩) else 0

/-- The voxel as a point of the lattice. -/
def at3 (q : Grid n) : Fin 3 → ℤ := fun i => (q i : ℕ)

/-- `lax.conv_general_dilated` with `padding="SAME"`, unit strides and dimension numbers `("NXYZC", "XYZIO", "NXYZC")`,
voxel_convolution.py:255-261: the kernel has odd sizes `2 s + 1`, the image is padded with `s` zeros on each side, the kernel is not mirrored. -/
noncomputable def conv (lattice : List (Fin 3 → ℤ)) (ker : (Fin 3 → ℤ) → List (List ℝ)) (x : List (β × Grid n → ℝ)) (dimOut : ℕ) : List (β × Grid n → ℝ) :=
  (List.range dimOut).map fun o => fun bq =>
    (lattice.map fun p => ∑ c ∈ Finset.range x.length, ext (x.getD c 0) bq.1 (at3 bq.2 + p) * ((ker p).getD c []).getD o 0).sum

/-- The output irreps that a product of the input with the spherical harmonics reaches, voxel_convolution.py:242-252. -/
def reachable (irrepsOut irrepsIn irrepsSh : Irreps) : Irreps :=
  irrepsOut.filter fun m => irrepsIn.any fun a => irrepsSh.any fun b => decide (m.ir ∈ Irrep.mul a.ir b.ir)

/-- The loop that puts `None` chunks back, voxel_convolution.py:264-272. -/
def pad {α : Type} : Irreps → List (MulIrrep × Chunk α) → List (Chunk α)
  | [], _ => []
  | _ :: ms, [] => none :: pad ms []
  | m :: ms, q :: qs => if q.1 = m then q.2 :: pad ms qs else none :: pad ms (q :: qs)

/-- `_call`, voxel_convolution.py:230-277. -/
noncomputable def Conv.call (c : Conv) (ps : Params) (steps : Option (Fin 3 → ℝ)) (input : IArr (β × Grid n → ℝ)) : Except PyErr (IArr (β × Grid n → ℝ)) := do
  let x ← input.removeZeroChunks
  let x ← x.simplify
  let irrepsOut := reachable c.irrepsOut x.irreps c.irrepsSh
  let ker ← c.kernel ps x.irreps irrepsOut steps
  let y ← ofArray irrepsOut (conv c.lattice ker x.array irrepsOut.dim)
  if irrepsOut = c.irrepsOut then return y
  else fromChunks c.irrepsOut (pad c.irrepsOut (y.irreps.zip y.chunks))

end E3nn.Voxel
