import Verif.Model.TransformO3
import Verif.Model.SphericalHarmonics
import Verif.Model.Normal

/-!
# Model of `e3nn_jax/_src/tensor_product_with_spherical_harmonics.py`

`impl` works on one element (no leading axes); the outer function maps it over the leading axes with
`vmap` (lines 45-53), which is not represented.  Numbers are real numbers, so the tolerance of `allclose`
is not represented: `is_diag` is equality.
-/

namespace E3nn.TPSH

open E3nn.IArr E3nn.Rot E3nn.Wig E3nn.SH

/-- A column of an array without leading axes (tensor_product_with_spherical_harmonics.py:63). -/
abbrev Col := Unit → ℝ

/-- `normalize`, tensor_product_with_spherical_harmonics.py:156-159. -/
noncomputable def normalize (x : List Col) : List Col :=
  let n2 : ℝ := (x.map fun c => c () ^ 2).sum
  let n2 := if n2 > 0 then n2 else 1
  x.map fun c u => c u / Real.sqrt n2

/-- `fix_gimbal_lock`, tensor_product_with_spherical_harmonics.py:70-74.  `tree_map` rebuilds the array with
`IrrepsArray(irreps, array)` (irreps_array.py:1238-1242), so that the zero flags are lost. -/
noncomputable def fixGimbalLock (lock : Bool) (inverse : Bool) (x : IArr Col) : Except PyErr (IArr Col) := do
  let rot ← x.transformByAngles (.py 0) (.py (Real.pi / 2)) (.py 0) 0 inverse
  ofArray x.irreps (List.zipWith (fun a b => if lock then a else b) rot.array x.array)

/-- `x[:, sl(lx, l)]` of one row, tensor_product_with_spherical_harmonics.py:127, 148-149. -/
def slRow {α : Type} (lx l : ℕ) (r : List α) : List α := (r.drop (lx - l)).take (2 * l + 1)

/-- `cg[sl(lx, l), ly, sl(lz, l)]` with `l = min(lx, lz)`, multiplied by `sqrt(2 lz + 1)`,
tensor_product_with_spherical_harmonics.py:109-112. -/
noncomputable def subCg (lx ly lz : ℕ) : Matrix (Fin (2 * min lx lz + 1)) (Fin (2 * min lx lz + 1)) ℝ := fun i k =>
  Real.sqrt (2 * lz + 1) *
    SU2.clebschGordan lx ly lz ⟨lx - min lx lz + i.val, by omega⟩ ⟨ly, by omega⟩ ⟨lz - min lx lz + k.val, by omega⟩

/-- `is_diag`, tensor_product_with_spherical_harmonics.py:152-153. -/
def IsDiag {n : ℕ} (M : Matrix (Fin n) (Fin n) ℝ) : Prop := Matrix.diagonal M.diag = M

/-- One row of `out`, tensor_product_with_spherical_harmonics.py:127-139: the slice, reversed if the matrix is
not diagonal, times the vector, placed in the middle of a row of `2 lz + 1` zeros. -/
def outRow (lx lz : ℕ) (flip : Bool) (c : List ℝ) (r : List Col) : List Col :=
  let l := min lx lz
  let xx := slRow lx l r
  let xx := if flip then xx.reverse else xx
  let out := List.zipWith (fun (a : Col) (b : ℝ) => fun u => a u * b) xx c
  if l < lz then List.replicate (lz - l) 0 ++ out ++ List.replicate (lz - l) 0 else out

open Classical in
/-- The chunk appended for `irz`, tensor_product_with_spherical_harmonics.py:100-141; `y` is the number kept
from the spherical harmonics. -/
noncomputable def outChunk (y : ℝ) (irx iry irz : Irrep) : Chunk Col → Except PyErr (Chunk Col)
  | none => .ok none
  | some rows =>
    let cg := subCg irx.l iry.l irz.l
    if IsDiag cg then
      .ok (some (rows.map (outRow irx.l irz.l false (List.ofFn fun i => y * cg i i))))
    else
      let cg' : Matrix _ _ ℝ := fun i k => cg i.rev k
      if IsDiag cg' then .ok (some (rows.map (outRow irx.l irz.l true (List.ofFn fun i => y * cg' i i))))
      else .error .assertion

open Classical in
/-- `y.squeeze(0)`, the check that only the middle component is not zero, and that component,
tensor_product_with_spherical_harmonics.py:91-98.  (A chunk `None` or of another shape would raise: it does not
happen, `spherical_harmonics` returns chunks of shape `(1, 2 l + 1)`.) -/
noncomputable def center (l : ℕ) : Chunk Col → Except PyErr ℝ
  | some [r] => if (∀ k, k ≠ l → r.getD k 0 () = 0) then .ok (r.getD l 0 ()) else .error .assertion
  | _ => .error .assertion

/-- The two outer loops, tensor_product_with_spherical_harmonics.py:88-141: the entries of `irreps_out` and
`outputs`. -/
noncomputable def entries (input shs : List (MulIrrep × Chunk Col)) : Except PyErr (List (MulIrrep × Chunk Col)) := do
  let ls ← input.mapM fun p => do
    let ks ← shs.mapM fun q => do
      let y ← center q.1.ir.l q.2
      (p.1.ir.mul q.1.ir).mapM fun irz => do
        let c ← outChunk y p.1.ir q.1.ir irz p.2
        return (⟨p.1.mul, irz⟩, c)
    return ks.flatten
  return ls.flatten

/-- `impl(input, vector, degree)` preceded by the check of the irreps of the vector,
tensor_product_with_spherical_harmonics.py:37-146.  `cfg` and `nrm` are the values of the configuration read by
`spherical_harmonics`.  Without any term in `input.irreps` the name `x` of line 143 is not bound. -/
noncomputable def tpSH (cfg : Option (List String)) (nrm : Normalization) (input vector : IArr Col) (degree : ℕ) :
    Except PyErr (IArr Col) :=
  if ¬ (vector.irreps = [⟨1, ⟨1, .o⟩⟩] ∨ vector.irreps = [⟨1, ⟨1, .e⟩⟩]) then .error .valueError
  else do
    let vector ← ofArray vector.irreps (normalize vector.array)
    let lock := decide (|vector.array.getD 1 0 ()| > 0.99)
    let input ← fixGimbalLock lock true input
    let vector ← fixGimbalLock lock true vector
    let ab := xyzToAngles fun k => vector.array.getD k 0 ()
    let input ← input.transformByAngles (.arr ab.1) (.arr ab.2) (.py 0) 0 true
    let pole ← ofArray vector.irreps [fun _ => 0, fun _ => 1, fun _ => 0]
    let shs ← sphericalHarmonics cfg (.ints (List.range (degree + 1))) (.arr pole) true nrm none
    let es ← entries (input.irreps.zip input.chunks) (shs.irreps.zip shs.chunks)
    if input.irreps = [] then .error .nameError
    else do
      let out ← fromChunks (es.map Prod.fst) (es.map Prod.snd)
      let out ← out.regroup
      let out ← out.transformByAngles (.arr ab.1) (.arr ab.2) (.py 0) 0 false
      fixGimbalLock lock false out

end E3nn.TPSH
