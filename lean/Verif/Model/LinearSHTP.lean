import Verif.Model.TPSH

/-!
# Model of `e3nn_jax/experimental/linear_shtp.py`

Both `LinearSHTP.__call__` and `shtp` work on one element (no leading axes: the assertions on the shapes, linear_shtp.py:42-43 and 173-174, hold for
every array of the model, whose array has one axis).  Numbers are real numbers.  `normalize` (lines 272-275), `fix_gimbal_lock` (lines 54-60 and
185-189) and `sl` (lines 278-279) are textually those of `tensor_product_with_spherical_harmonics.py`: the definitions of `Model/TPSH` are used.
-/

namespace E3nn.LSH

open E3nn.IArr E3nn.Rot E3nn.Wig E3nn.TPSH

/-- The parameters of the module, linear_shtp.py:95-100 and 122-127: `par ix iz a i u v` is the entry `[i, u, v]` (or `[i, u]` when `mix` is false, `v`
is then not used) of the parameter named `{ix}_{iz}_S...` (`a = false`) or `{ix}_{iz}_A...` (`a = true`). -/
abbrev Params := ℕ → ℕ → Bool → ℕ → ℕ → ℕ → ℝ

/-- `concatenate([w[::-1], w[1:]])` for one `u` and `v`, linear_shtp.py:101. -/
def weightS (l : ℕ) (w : ℕ → ℝ) : List ℝ :=
  let ws := (List.range (l + 1)).map w
  ws.reverse ++ ws.drop 1

/-- `concatenate([-w[::-1], zeros, w])` for one `u` and `v`, linear_shtp.py:128-129. -/
def weightA (l : ℕ) (w : ℕ → ℝ) : List ℝ :=
  let ws := (List.range l).map w
  ws.reverse.map (fun a => -a) ++ [0] ++ ws

/-- `zeros.at[:, sl(irz.l, l)].set(z)` for one row, if `l < irz.l`, linear_shtp.py:108-110 and 136-138. -/
def padRow (lz l : ℕ) (z : List Col) : List Col :=
  if l < lz then List.replicate (lz - l) 0 ++ z ++ List.replicate (lz - l) 0 else z

/-- The product of a row by a vector of weights, the product inside the `einsum` of linear_shtp.py:104, 106, 132, 134. -/
def mulRow (r : List Col) (w : List ℝ) : List Col := List.zipWith (fun (a : Col) (b : ℝ) => fun u => a u * b) r w

/-- The sum of two rows, linear_shtp.py:104, 132 and 265. -/
def addRow (a b : List Col) : List Col := List.zipWith (fun x y => x + y) a b

/-- `einsum("ui,iuv->vi", x, w)`, linear_shtp.py:104 and 132; `n` is the length of the rows. -/
def einsumMix (n mulz : ℕ) (x : List (List Col)) (w : ℕ → ℕ → List ℝ) : List (List Col) :=
  (List.range mulz).map fun v => (x.zipIdx.map fun ru => mulRow ru.1 (w ru.2 v)).foldl addRow (List.replicate n 0)

/-- `einsum("ui,iu->ui", x, w)`, linear_shtp.py:106 and 134. -/
def einsumSep (x : List (List Col)) (w : ℕ → List ℝ) : List (List Col) :=
  x.zipIdx.map fun ru => mulRow ru.1 (w ru.2)

/-- The condition of the symmetric part, linear_shtp.py:90-94 and 216-220. -/
def condS (p : Parity) (irx irz : Irrep) : Prop := p.pow ((irx.l + irz.l) % 2) = irx.p.mul irz.p

/-- The condition of the antisymmetric part, linear_shtp.py:90, 119-121 and 216, 233-235. -/
def condA (p : Parity) (irx irz : Irrep) : Prop := p.pow ((irx.l + irz.l + 1) % 2) = irx.p.mul irz.p ∧ 0 < min irx.l irz.l

instance (p : Parity) (irx irz : Irrep) : Decidable (condS p irx irz) := by unfold condS; infer_instance
instance (p : Parity) (irx irz : Irrep) : Decidable (condA p irx irz) := by unfold condA; infer_instance

/-- The terms of `zs` with their contributions to `dim`, linear_shtp.py:77-114 and 119-142, for `mix=True`. -/
def mixPaths (par : Params) (p : Parity) (iz : ℕ) (mz : MulIrrep) (input : List (MulIrrep × Chunk Col)) : List (List (List Col) × ℕ) :=
  input.zipIdx.flatMap fun q =>
    match q.1.2 with
    | none => []
    | some rows =>
      let irx := q.1.1.ir
      let l := min irx.l mz.ir.l
      let x := rows.map (slRow irx.l l)
      (if condS p irx mz.ir then
        [((einsumMix (2 * l + 1) mz.mul x fun u v => weightS l fun i => par q.2 iz false i u v).map (padRow mz.ir.l l), q.1.1.mul)] else []) ++
      (if condA p irx mz.ir then
        [((einsumMix (2 * l + 1) mz.mul (x.map List.reverse) fun u v => weightA l fun i => par q.2 iz true i u v).map (padRow mz.ir.l l), q.1.1.mul)] else [])

/-- `sum_tensors(zs, (mulz, irz.dim), empty_return_none=True)`, linear_shtp.py:260-269 (the reshape does not change anything). -/
def sumTensors : List (List (List Col)) → Option (List (List Col))
  | [] => none
  | z :: zs => some (zs.foldl (fun a b => List.zipWith addRow a b) z)

/-- The result for one `(mulz, irz)`, linear_shtp.py:147-154, for `mix=True`.  Without any path, `z` is `None` and `z.shape` raises.
If all the multiplicities of the paths are `0` the code divides by zero and returns `nan`: this is represented by `undefined`. -/
noncomputable def mixChunk (mz : MulIrrep) (paths : List (List (List Col) × ℕ)) : Except PyErr (MulIrrep × Chunk Col) :=
  match sumTensors (paths.map Prod.fst) with
  | none => .error .attributeError
  | some z => if (paths.map Prod.snd).sum = 0 then .error .undefined else .ok (mz, some (z.map fun r => r.map fun c u => c u / Real.sqrt ((paths.map Prod.snd).sum : ℕ)))

/-- The loops for `mix=True`, linear_shtp.py:73-154.  Without any term in the input the name `x` of line 149 is not bound. -/
noncomputable def mixEntries (par : Params) (out : Irreps) (p : Parity) (input : List (MulIrrep × Chunk Col)) : Except PyErr (List (MulIrrep × Chunk Col)) :=
  out.zipIdx.mapM fun mz => if input = [] then .error .nameError else mixChunk mz.1 (mixPaths par p mz.2 mz.1 input)

/-- The loops for `mix=False`, linear_shtp.py:73-145. -/
def sepEntries (par : Params) (out : Irreps) (p : Parity) (input : List (MulIrrep × Chunk Col)) : List (MulIrrep × Chunk Col) :=
  out.zipIdx.flatMap fun mz => input.zipIdx.flatMap fun q =>
    match q.1.2 with
    | none => []
    | some rows =>
      let irx := q.1.1.ir
      let irz := mz.1.ir
      let l := min irx.l irz.l
      let x := rows.map (slRow irx.l l)
      let zS := (einsumSep x fun u => weightS l fun i => par q.2 mz.2 false i u 0).map (padRow irz.l l)
      let zA := (einsumSep (x.map List.reverse) fun u => weightA l fun i => par q.2 mz.2 true i u 0).map (padRow irz.l l)
      (if condS p irx irz then [(⟨zS.length, irz⟩, some zS)] else []) ++ (if condA p irx irz then [(⟨zA.length, irz⟩, some zA)] else [])

/-- `z.at[is, js].set(vs)` of an array with two axes (the axis `u` is mapped over), linear_shtp.py:222-227 and 237-242. -/
def atSet (z : List (List Col)) (is js : List ℕ) (vs : List Col) : List (List Col) :=
  (List.zip is (List.zip js vs)).foldl (fun z t => z.set t.1 ((z.getD t.1 []).set t.2.1 t.2.2)) z

/-- The rows made of one row, symmetric part, linear_shtp.py:221-228.  `jnp.arange(l, 0, -1)` is `l, ..., 1`. -/
def shtpS (lz l : ℕ) (x : List Col) : List (List Col) :=
  let zeros := List.replicate (l + 1) (List.replicate (2 * lz + 1) 0)
  let z := atSet zeros (List.range (l + 1)) (List.range' lz (l + 1)) (x.drop l)
  atSet z (List.range' 1 l).reverse (List.range' (lz - l) l) (x.take l)

/-- The rows made of one row, antisymmetric part, linear_shtp.py:236-243.  `jnp.arange(irz.l - 1, irz.l - l - 1, -1)` is
`irz.l - 1, ..., irz.l - l`. -/
def shtpA (lz l : ℕ) (x : List Col) : List (List Col) :=
  let zeros := List.replicate l (List.replicate (2 * lz + 1) 0)
  let z := atSet zeros (List.range l) (List.range' (lz - l) l).reverse (x.drop (l + 1))
  atSet z (List.range l) (List.range' (lz + 1) l) ((x.take l).reverse.map fun c => -c)

/-- The loops of `shtp`, linear_shtp.py:205-246.  The reshape concatenates the rows of all `u`. -/
def shtpEntries (filter : List Irrep) (p : Parity) (input : List (MulIrrep × Chunk Col)) : List (MulIrrep × Chunk Col) :=
  filter.flatMap fun irz => input.flatMap fun q =>
    match q.2 with
    | none => []
    | some rows =>
      let irx := q.1.ir
      let l := min irx.l irz.l
      let x := rows.map (slRow irx.l l)
      (if condS p irx irz then [(⟨q.1.mul * (l + 1), irz⟩, some (x.flatMap (shtpS irz.l l)))] else []) ++
      (if condA p irx irz then [(⟨q.1.mul * l, irz⟩, some (x.flatMap (shtpA irz.l l)))] else [])

/-- What `LinearSHTP.__call__` (linear_shtp.py:45-67, 156-165) and `shtp` (lines 176-196, 248-257) have in common: the checks of the direction, the
rotation of the input, the rotation of the output.  `loops` is the computation in between, applied to the parity of the direction and to
`zip(input.irreps, input.chunks)`. -/
noncomputable def frame (loops : Parity → List (MulIrrep × Chunk Col) → Except PyErr (List (MulIrrep × Chunk Col))) (input direction : IArr Col) :
    Except PyErr (IArr Col) :=
  match direction.irreps with
  | [⟨1, ⟨1, p⟩⟩] => do
    let direction ← ofArray direction.irreps (TPSH.normalize direction.array)
    let lock := decide (|direction.array.getD 1 0 ()| > 0.99)
    let input ← fixGimbalLock lock true input
    let direction ← fixGimbalLock lock true direction
    let ab := xyzToAngles fun k => direction.array.getD k 0 ()
    let input ← input.transformByAngles (.arr ab.1) (.arr ab.2) (.py 0) 0 true
    let es ← loops p (input.irreps.zip input.chunks)
    let out ← fromChunks (es.map Prod.fst) (es.map Prod.snd)
    let out ← out.regroup
    let out ← out.transformByAngles (.arr ab.1) (.arr ab.2) (.py 0) 0 false
    fixGimbalLock lock false out
  | _ => .error .assertion

/-- `LinearSHTP(irreps_out, mix)(input, direction)`, linear_shtp.py:38-165. -/
noncomputable def linearSHTP (par : Params) (out : Irreps) (mix : Bool) (input direction : IArr Col) : Except PyErr (IArr Col) :=
  frame (fun p input => if mix then mixEntries par out p input else do
    let out ← out.regroup
    .ok (sepEntries par out p input)) input direction

/-- `sorted(set(filter_irreps_out))`, linear_shtp.py:198-203. -/
def filterOf (filter : List Irrep) : List Irrep := pySorted Irrep.lt filter.dedup

/-- `shtp(input, direction, filter_irreps_out)`, linear_shtp.py:168-257, for a filter given by irreps.  When the loops do not run the name `x` of line 248 is not
bound. -/
noncomputable def shtp (input direction : IArr Col) (filter : List Irrep) : Except PyErr (IArr Col) :=
  frame (fun p input => if filterOf filter = [] ∨ input = [] then .error .nameError else .ok (shtpEntries (filterOf filter) p input)) input direction

end E3nn.LSH
