import Verif.Model.TensorProduct
import Mathlib.Analysis.Real.Sqrt

/-!
# Model of `norm`, `dot`, `cross`, `sum`, `mean`, `stack` (basic.py)

The entries are real numbers (`jnp.conj` is the identity); a column is a function of the leading indices
`ι → ℝ`.  Both arguments of `dot` and `cross` have the same leading shape.
-/

namespace E3nn.Basic

open E3nn.IArr

variable {ι : Type}

/-- `0e` (basic.py:498-500). -/
def se : Irrep := ⟨0, .e⟩

/-- `jnp.sum(x * y, axis=-1)`, basic.py:438, 495, 508. -/
def rowDot (x y : List (ι → ℝ)) : ι → ℝ := (List.zipWith (· * ·) x y).sum

/-- `x_safe = where(x == 0, 1, x); x_safe = sqrt(x_safe); where(x == 0, 0, x_safe)`, basic.py:439-442. -/
noncomputable def safeSqrt (t : ℝ) : ℝ :=
  let s := if t = 0 then 1 else t
  let s := Real.sqrt s
  if t = 0 then 0 else s

/-- The function `f` inside `norm`, basic.py:434-443, on one row. -/
noncomputable def normRow (squared : Bool) (r : List (ι → ℝ)) : List (ι → ℝ) :=
  let x := rowDot r r
  [if squared then x else fun i => safeSqrt (x i)]

/-- `norm(array, squared, per_irrep)`, basic.py:408-453. -/
noncomputable def norm (squared perIrrep : Bool) (x : IArr (ι → ℝ)) : Except PyErr (IArr (ι → ℝ)) :=
  if perIrrep then
    fromChunks (x.irreps.map fun m => ⟨m.mul, se⟩) (x.chunks.map fun c => c.map fun rows => rows.map (normRow squared))
  else ofArray [⟨1, se⟩] (normRow squared x.array)

/-- One entry of the loop of `dot(per_irrep=True)`, basic.py:491-496. -/
def dotChunk : Chunk (ι → ℝ) → Chunk (ι → ℝ) → Chunk (ι → ℝ)
  | some x, some y => some (List.zipWith (fun r s => [rowDot r s]) x y)
  | _, _ => none

/-- One step of the loop of `dot(per_irrep=False)`, basic.py:504-508; the accumulator is the Python
float `0.0` (`none`) until the first array is added. -/
def dotStep (acc : Option (ι → ℝ)) (q : Chunk (ι → ℝ) × Chunk (ι → ℝ)) : Option (ι → ℝ) :=
  match q with
  | (some x, some y) => some (acc.getD 0 + (List.zipWith rowDot x y).sum)
  | _ => acc

/-- `dot(a, b, per_irrep)`, basic.py:456-512. -/
def dot (perIrrep : Bool) (a b : IArr (ι → ℝ)) : Except PyErr (IArr (ι → ℝ)) := do
  let a ← a.simplify
  let b ← b.simplify
  if a.irreps ≠ b.irreps then .error .valueError
  else if perIrrep then
    fromChunks (a.irreps.map fun m => ⟨m.mul, se⟩) (List.zipWith dotChunk a.chunks b.chunks)
  else
    match (a.chunks.zip b.chunks).foldl dotStep none with
    | none => zeros [⟨1, se⟩]
    | some out => ofArray [⟨1, se⟩] [out]

/-- `jnp.cross(x, y, axis=-1)` of one row, basic.py:556. -/
def crossRow (x y : List (ι → ℝ)) : List (ι → ℝ) :=
  let u := fun i : Nat => x.getD i 0
  let v := fun i : Nat => y.getD i 0
  [u 1 * v 2 - u 2 * v 1, u 2 * v 0 - u 0 * v 2, u 0 * v 1 - u 1 * v 0]

/-- One entry of the loop of `cross`, basic.py:553-557. -/
def crossChunk : Chunk (ι → ℝ) → Chunk (ι → ℝ) → Chunk (ι → ℝ)
  | some x, some y => some (List.zipWith crossRow x y)
  | _, _ => none

/-- `cross(a, b)`, basic.py:515-559. -/
def cross (a b : IArr (ι → ℝ)) : Except PyErr (IArr (ι → ℝ)) := do
  if a.irreps.any fun m => m.ir.l != 1 then .error .valueError
  else if b.irreps.any fun m => m.ir.l != 1 then .error .valueError
  else if a.irreps.numIrreps ≠ b.irreps.numIrreps then .error .valueError
  else
    let r ← TP.alignArrays a b
    let a := r.1
    let b := r.2
    fromChunks (List.zipWith (fun m m' : MulIrrep => ⟨m.mul, ⟨1, m.ir.p.mul m'.ir.p⟩⟩) a.irreps b.irreps) (List.zipWith crossChunk a.chunks b.chunks)

/-- `op(x, axis=-2, keepdims=True)` of a chunk of rows of `d` columns; `op` reduces a list of columns (basic.py:198). -/
def reduceRows (op : List (ι → ℝ) → ι → ℝ) (d : Nat) (rows : List (List (ι → ℝ))) : List (List (ι → ℝ)) :=
  [(List.range d).map fun j => op (rows.map fun r => r.getD j 0)]

/-- `_reduce(op, array, axis=-1)`, basic.py:172-201: the last axis is reduced inside every term. -/
def reduceLast (op : List (ι → ℝ) → ι → ℝ) (x : IArr (ι → ℝ)) : Except PyErr (IArr (ι → ℝ)) :=
  fromChunks (x.irreps.map fun m => ⟨1, m.ir⟩) ((x.irreps.zip x.chunks).map fun p => p.2.map (reduceRows op p.1.ir.dim))

/-- `sum(array, axis=-1)`, basic.py:233-262. -/
def sumLast (x : IArr (ι → ℝ)) : Except PyErr (IArr (ι → ℝ)) := reduceLast List.sum x

/-- `mean(array, axis=-1)`, basic.py:204-230. (The mean of no row is nan in the code, 0 here.) -/
noncomputable def meanLast (x : IArr (ι → ℝ)) : Except PyErr (IArr (ι → ℝ)) :=
  reduceLast (fun l i => l.sum i / l.length) x

/-- `_reduce(op, array, axis)` for leading axes, basic.py:183-193; `op` on a column gives a column with fewer indices. -/
def reduceLeading {κ : Type} (op : (ι → ℝ) → κ → ℝ) (x : IArr (ι → ℝ)) : Except PyErr (IArr (κ → ℝ)) :=
  make x.irreps (x.array.map op) (some x.zeroFlags) (some (x.chunks.map fun c => c.map fun rows => rows.map fun r => r.map op))

/-- `stack(arrays, axis)` for a leading axis, basic.py:336-405; and `concatenate(arrays, axis)` for a leading
axis, basic.py:305-333.  A column of the result is the family of the columns of the arguments (for `concatenate`, the
index along the axis is the pair of the array and the index inside it); the zero flags have one entry per term. -/
def stack {α : Type} [Zero α] (xs : List (IArr α)) : Except PyErr (IArr (Fin xs.length → α)) :=
  match xs with
  | [] => .error .valueError
  | x0 :: xs' =>
    let xs := x0 :: xs'
    if xs.any fun x => decide (x.irreps ≠ x0.irreps) then .error .valueError
    else
      let flags := (List.range x0.irreps.length).map fun i => xs.all fun x => x.zeroFlags.getD i false
      let chunks := (x0.irreps.zip flags).zipIdx.map fun q =>
        let m := q.1.1
        if q.1.2 then none
        else some ((List.range m.mul).map fun u => (List.range m.ir.dim).map fun j => fun k : Fin xs.length =>
          match (xs.get k).chunks.getD q.2 none with
          | none => 0
          | some rows => ((rows.getD u []).getD j 0))
      make x0.irreps ((List.range x0.irreps.dim).map fun j => fun k : Fin xs.length => (xs.get k).array.getD j 0) (some flags) (some chunks)

end E3nn.Basic
