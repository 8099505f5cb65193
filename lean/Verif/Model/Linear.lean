import Verif.Model.Transform
import Mathlib.Analysis.SpecialFunctions.Pow.Real
import Mathlib.Analysis.SpecialFunctions.Sqrt

/-!
# Model of `e3nn_jax/_src/linear.py` (class `FunctionalLinear`) and `utils/sum_tensors.py`

Numbers are elements of a commutative ring `K` (the reals in the constructor): floating point
rounding is not represented.  `FunctionalLinear.__call__` refuses leading axes, so the columns of
the input are numbers.
-/

namespace E3nn

/-- `Instruction`, linear.py:14-19.  `iIn = none` stands for `i_in = -1` (a bias). -/
structure LinIns (K : Type) where
  iIn : Option Nat
  iOut : Nat
  pathShape : List Nat
  pathWeight : K
  weightStd : K

/-- A `FunctionalLinear` object, linear.py:129-132 (without the mask, see `outputMask`). -/
structure FLin (K : Type) where
  irrepsIn : Irreps
  irrepsOut : Irreps
  instructions : List (LinIns K)

namespace FLin

/-- The default connections, linear.py:52-59. -/
def defaultPairs (irrepsIn irrepsOut : Irreps) : List (Nat × Nat) :=
  irrepsIn.zipIdx.flatMap fun mi => irrepsOut.zipIdx.filterMap fun mo =>
    if mi.1.ir = mo.1.ir then some (mi.2, mo.2) else none

/-- `irreps[i].mul`; an index out of range raises (linear.py:61-70). -/
def mulAt (irreps : Irreps) (i : Nat) : Except PyErr Nat :=
  match irreps[i]? with
  | some m => .ok m.mul
  | none => .error .indexError

/-- The instructions with their path shapes, linear.py:61-70: `(i_in, i_out, mul_in, mul_out)`. -/
def shapedPairs (irrepsIn irrepsOut : Irreps) (pairs : List (Nat × Nat)) :
    Except PyErr (List (Nat × Nat × Nat × Nat)) :=
  pairs.mapM fun p => do
    let a ← mulAt irrepsIn p.1
    let b ← mulAt irrepsOut p.2
    return (p.1, p.2, a, b)

/-- `alpha`, linear.py:72-78; `a` is `path_normalization`. -/
noncomputable def alpha (a : ℝ) (ps : List (Nat × Nat × Nat × Nat)) (this : Nat × Nat × Nat × Nat) : ℝ :=
  let x := ((this.2.2.1 : ℝ) ^ a) *
    ((ps.filter fun o => o.2.1 = this.2.1).map fun o => (o.2.2.1 : ℝ) ^ (1 - a)).sum
  if x > 0 then 1 / x else 1

/-- The weighted instructions, linear.py:80-89; `g` is `gradient_normalization`. -/
noncomputable def weighted (a g : ℝ) (ps : List (Nat × Nat × Nat × Nat)) : List (LinIns ℝ) :=
  ps.map fun p => ⟨some p.1, p.2.1, [p.2.2.1, p.2.2.2], Real.sqrt (alpha a ps p) ^ g,
    Real.sqrt (alpha a ps p) ^ (1 - g)⟩

/-- The argument `biases`: `None`, a boolean or a list of booleans (linear.py:91-94). -/
inductive BiasArg where
  | none
  | all (b : Bool)
  | list (bs : List Bool)

/-- `biases` resolved, linear.py:91-97. -/
def resolveBiases (irrepsOut : Irreps) : BiasArg → List Bool
  | .none => List.replicate irrepsOut.length false
  | .all b => irrepsOut.map fun m => b && m.ir.isScalar
  | .list bs => bs

/-- The bias instructions, linear.py:99-109. -/
def biasIns {K : Type} [One K] [Zero K] (irrepsOut : Irreps) (bs : List Bool) : List (LinIns K) :=
  (bs.zip irrepsOut).zipIdx.filterMap fun q =>
    if q.1.1 then some ⟨none, q.2, [q.1.2.dim], 1, 0⟩ else none

/-- `FunctionalLinear.__init__`, linear.py:28-132. -/
noncomputable def init (irrepsIn irrepsOut : Irreps) (instructions : Option (List (Nat × Nat))) (biases : BiasArg)
    (a g : ℝ) : Except PyErr (FLin ℝ) := do
  let ps ← shapedPairs irrepsIn irrepsOut (instructions.getD (defaultPairs irrepsIn irrepsOut))
  let bs := resolveBiases irrepsOut biases
  if bs.length ≠ irrepsOut.length then .error .assertion
  else if !((bs.zip irrepsOut).all fun bm => bm.2.ir.isScalar || !bm.1) then .error .assertion
  else return ⟨irrepsIn, irrepsOut, weighted a g ps ++ biasIns irrepsOut bs⟩

variable {K : Type}

/-- `output_mask`, linear.py:111-127. -/
def outputMask (f : FLin K) : List Bool :=
  (f.irrepsOut.zipIdx.map fun mo => List.replicate mo.1.dim
    (f.instructions.any fun ins => ins.iOut == mo.2 && !(ins.pathShape.contains 0))).flatten

/-- `np.prod(path_shape)` (linear.py:136 and 162). -/
def size (ins : LinIns K) : Nat := ins.pathShape.foldl (· * ·) 1

/-- `num_weights`, linear.py:134-136. -/
def numWeights (f : FLin K) : Nat := (f.instructions.map size).sum

/-- `split_weights`, linear.py:157-165, as the flat entries of each path.  A slice that runs past
the end is shorter and its `reshape` raises `TypeError`. -/
def splitWeights (f : FLin K) (weights : List K) : Except PyErr (List (List K)) :=
  go 0 f.instructions
where
  go (cursor : Nat) : List (LinIns K) → Except PyErr (List (List K))
    | [] => .ok []
    | ins :: l => do
      let w := (weights.take (cursor + size ins)).drop cursor
      if w.length ≠ size ins then .error .typeError
      else
        let r ← go (cursor + size ins) l
        return w :: r

variable [CommRing K]

/-- `Σ_u coeff[u] * rows[u]`, rows of length `d` (linear.py:187). -/
def linComb (d : Nat) : List K → List (List K) → List K
  | c :: cs, r :: rs => List.zipWith (· + ·) (r.map (c * ·)) (linComb d cs rs)
  | _, _ => List.replicate d 0

/-- `einsum("uw,ui->wi", w, x)`, linear.py:186-187: `w` is `(mul_in, mul_out)`, `x` is
`(mul_in, d)`. -/
def einsumUW (mulOut d : Nat) (w : List (List K)) (x : List (List K)) : List (List K) :=
  (List.range mulOut).map fun j => linComb d (w.map fun row => row.getD j 0) x

/-- `x.reshape((m, d))`, sum_tensors.py:7-9; raises `TypeError` when the sizes differ. -/
def reshape (m d : Nat) (flat : List K) : Except PyErr (List (List K)) :=
  if flat.length = m * d then .ok (IArr.rows m d flat) else .error .typeError

/-- Sum of two chunks (linear.py:138-155). -/
def addRows (x y : List (List K)) : List (List K) := List.zipWith (List.zipWith (· + ·)) x y

/-- `sum_tensors(..., empty_return_none=True)`, sum_tensors.py:4-12, on flat data. -/
def sumTensors (m d : Nat) (xs : List (Option (List K))) : Except PyErr (Chunk K) :=
  match xs.filterMap id with
  | [] => .ok none
  | x :: l => do
    let x ← reshape m d x
    let l ← l.mapM (reshape m d)
    return some (l.foldl addRows x)

/-- One path, linear.py:179-191; `w` holds the entries of the weight in order. -/
def path (f : FLin K) (chunks : List (Chunk K)) (ins : LinIns K) (w : List K) :
    Except PyErr (Option (List K)) :=
  match ins.iIn with
  | none => .ok (some (w.map (ins.pathWeight * ·)))
  | some i =>
    match chunks[i]?, f.irrepsIn[i]?, ins.pathShape with
    | some none, _, _ => .ok none
    | some (some x), some m, [mulIn, mulOut] =>
      .ok (some ((einsumUW mulOut m.ir.dim (IArr.rows mulIn mulOut w) x).map
        fun r => r.map (ins.pathWeight * ·)).flatten)
    | _, _, _ => .error .indexError

/-- `aggregate_paths`, linear.py:138-155. -/
def aggregate (f : FLin K) (paths : List (Option (List K))) : Except PyErr (IArr K) := do
  let out ← f.irrepsOut.zipIdx.mapM fun mo =>
    sumTensors mo.1.mul mo.1.ir.dim
      (((f.instructions.zip paths).filter fun ip => ip.1.iOut == mo.2).map Prod.snd)
  IArr.fromChunks f.irrepsOut out

/-- `__call__`, linear.py:167-192, for a list of weights (each given by its entries in order). -/
def call (f : FLin K) (ws : List (List K)) (x : IArr K) : Except PyErr (IArr K) := do
  let x ← x.rechunk f.irrepsIn
  let paths ← (f.instructions.zip ws).mapM fun iw => f.path x.chunks iw.1 iw.2
  f.aggregate paths

/-- `__call__` for a flat array of weights, linear.py:176-177. -/
def callFlat (f : FLin K) (weights : List K) (x : IArr K) : Except PyErr (IArr K) := do
  let _ ← x.rechunk f.irrepsIn
  let ws ← f.splitWeights weights
  f.call ws x

/-- The rows of `einsum("uw,ij->uiwj", w, eye(d)).reshape((mul_in * d, mul_out * d))`,
linear.py:213-215. -/
def kronEye (d : Nat) (w : List (List K)) : List (List K) :=
  w.flatMap fun row => (List.range d).map fun i =>
    row.flatMap fun v => (List.range d).map fun j => v * (if i = j then 1 else 0)

/-- `output.at[rows r.., columns c..].add(block)`, linear.py:209-216, on a matrix with `n` columns. -/
def addBlock (out : List (List K)) (r c n : Nat) (block : List (List K)) : List (List K) :=
  List.zipWith (List.zipWith (· + ·)) out
    (List.replicate r (List.replicate n 0) ++
      block.map (fun row => List.replicate c 0 ++ row ++ List.replicate (n - c - row.length) 0) ++
      List.replicate (out.length - r - block.length) (List.replicate n 0))

/-- One iteration of the loop of `matrix`, linear.py:205-216; biases are refused by the assertion. -/
def matrixStep (f : FLin K) (out : List (List K)) (iw : LinIns K × List K) : Except PyErr (List (List K)) :=
  match iw.1.iIn, iw.1.pathShape with
  | some i, [mulIn, mulOut] =>
    match f.irrepsIn[i]?, f.irrepsOut[iw.1.iOut]?, f.irrepsIn.slices[i]?, f.irrepsOut.slices[iw.1.iOut]? with
    | some mi, some mo, some si, some so =>
      if mi.ir.dim ≠ mo.ir.dim ∧ mulIn ≠ 0 ∧ mulOut ≠ 0 then .error .typeError
      else .ok (addBlock out si.1 so.1 f.irrepsOut.dim
        ((kronEye mi.ir.dim (IArr.rows mulIn mulOut iw.2)).map fun row => row.map (iw.1.pathWeight * ·)))
    | _, _, _, _ => .error .indexError
  | _, _ => .error .assertion

/-- `matrix`, linear.py:194-217. -/
def matrix (f : FLin K) (ws : List (List K)) : Except PyErr (List (List K)) :=
  (f.instructions.zip ws).foldlM f.matrixStep
    (List.replicate f.irrepsIn.dim (List.replicate f.irrepsOut.dim 0))

end FLin
end E3nn
