import Verif.Model.TransformO3
import Verif.Model.Axis

/-!
# Model of `e3nn_jax/_src/legacy/core_tensor_product.py` (class `FunctionalTensorProduct`),
of `legacy/functional_fully_connected_tensor_product.py` and of `fc_tp_haiku.py`

Numbers are real numbers: rounding, dtypes and the arguments `custom_einsum_jvp` and `sparse` (the same
contractions, computed another way) are not represented.  An array argument `w` of `weights` is the list of its
entries in order, so that the assertion `w.shape == ins.path_shape` is a check of the length.  Indices of
instructions are natural numbers (Python also accepts negative ones).
-/

namespace E3nn.LTP

open E3nn.IArr

/-- `connection_mode`; `other` stands for any other string (core_tensor_product.py:36-46). -/
inductive Mode where
  | uvw | uvu | uvv | uuw | uuu | uvuv | uvuLtV | uLtVw | other
  deriving DecidableEq, Repr

/-- `Instruction`, core_tensor_product.py:20-34. -/
structure Ins where
  i1 : ℕ
  i2 : ℕ
  io : ℕ
  mode : Mode
  hasWeight : Bool
  pathWeight : ℝ
  weightStd : Option ℝ
  m1 : ℕ
  m2 : ℕ
  mo : ℕ

/-- `path_shape`, core_tensor_product.py:52-74.  (`m1 * (m2 - 1) // 2` is negative in Python when `m2 = 0 < m1`.) -/
def Ins.pathShape (ins : Ins) : List ℕ :=
  match ins.mode with
  | .uvw => [ins.m1, ins.m2, ins.mo]
  | .uvu => [ins.m1, ins.m2]
  | .uvv => [ins.m1, ins.m2]
  | .uuw => [ins.m1, ins.mo]
  | .uuu => [ins.m1]
  | .uvuv => [ins.m1, ins.m2]
  | .uvuLtV => [ins.m1 * (ins.m2 - 1) / 2]
  | .uLtVw => [ins.m1 * (ins.m2 - 1) / 2, ins.mo]
  | .other => []

/-- `num_elements`, core_tensor_product.py:77-88. -/
def Ins.numElements (ins : Ins) : ℕ :=
  match ins.mode with
  | .uvw => ins.m1 * ins.m2
  | .uvu => ins.m2
  | .uvv => ins.m1
  | .uuw => ins.m1
  | .uuu => 1
  | .uvuv => 1
  | .uvuLtV => 1
  | .uLtVw => ins.m1 * (ins.m2 - 1) / 2
  | .other => 0

/-- `prod(path_shape)`, core_tensor_product.py:447. -/
def Ins.size (ins : Ins) : ℕ := ins.pathShape.foldl (· * ·) 1

/-- An element of the argument `instructions`, core_tensor_product.py:146, 162; a missing `path_weight` is `none`. -/
structure InsArg where
  i1 : ℕ
  i2 : ℕ
  io : ℕ
  mode : Mode
  hasWeight : Bool
  pathWeight : Option ℝ := none

/-- A `FunctionalTensorProduct`, core_tensor_product.py:134-138 (without the mask, see `outputMask`). -/
structure FTP where
  irreps1 : Irreps
  irreps2 : Irreps
  irrepsOut : Irreps
  instructions : List Ins

/-- The construction of one `Instruction`, core_tensor_product.py:36-50, 162-177. -/
noncomputable def mkIns (irreps1 irreps2 irrepsOut : Irreps) (t : InsArg) : Except PyErr Ins :=
  match irreps1[t.i1]?, irreps2[t.i2]?, irrepsOut[t.io]? with
  | some a, some b, some c =>
    if t.mode = .other then .error .valueError
    else .ok ⟨t.i1, t.i2, t.io, t.mode, t.hasWeight, t.pathWeight.getD 1, none, a.mul, b.mul, c.mul⟩
  | _, _, _ => .error .indexError

/-- `var(instruction)`, core_tensor_product.py:339-344. -/
noncomputable def var (v1 v2 : List ℝ) (ins : Ins) : Except PyErr ℝ :=
  match v1[ins.i1]?, v2[ins.i2]? with
  | some a, some b => .ok (a * b * ins.numElements)
  | _, _ => .error .indexError

/-- `path_normalization_sums[i_out]`, core_tensor_product.py:347-351; `a` is `path_normalization`. -/
noncomputable def pathSum (a : ℝ) (l : List (Ins × ℝ)) (o : ℕ) : ℝ :=
  ((l.filter fun q => q.1.io == o).map fun q => q.2 ^ (1 - a)).sum

/-- `alpha` before the normalisation of the paths, core_tensor_product.py:376-381. -/
noncomputable def alphaIrrep (n : IrNorm) (ir1 ir2 ir : Irrep) : ℝ :=
  match n with
  | .component => ir.dim
  | .norm => ir1.dim * ir2.dim
  | _ => 1

/-- `update(instruction)`, core_tensor_product.py:359-399; `x` is the normalisation of the path, `g` is
`gradient_normalization`. -/
noncomputable def update (irreps1 irreps2 irrepsOut : Irreps) (n : IrNorm) (g : ℝ) (vo : List ℝ) (ins : Ins) (x : ℝ) :
    Except PyErr Ins :=
  if n = .other then .error .valueError
  else match irreps1[ins.i1]?, irreps2[ins.i2]?, irrepsOut[ins.io]? with
  | some a, some b, some c =>
    if a.ir.p.mul b.ir.p ≠ c.ir.p then .error .assertion
    else if ¬ ((a.ir.l : ℤ) - b.ir.l).natAbs ≤ c.ir.l ∨ ¬ c.ir.l ≤ a.ir.l + b.ir.l then .error .assertion
    else
      let alpha := alphaIrrep n a.ir b.ir c.ir
      let alpha := if x > 0 then alpha / x else alpha
      match vo[ins.io]? with
      | none => .error .indexError
      | some v =>
        let alpha := alpha * v
        let alpha := alpha * ins.pathWeight
        if alpha < 0 then .error .valueError
        else if ins.hasWeight then
          .ok { ins with pathWeight := Real.sqrt alpha ^ g, weightStd := some (Real.sqrt alpha ^ (1 - g)) }
        else .ok { ins with pathWeight := Real.sqrt alpha }
  | _, _, _ => .error .indexError

/-- `_normalize_instruction_path_weights`, core_tensor_product.py:323-401. -/
noncomputable def normalize (irreps1 irreps2 irrepsOut : Irreps) (v1 v2 vo : List ℝ) (n : IrNorm) (a g : ℝ) (l : List Ins) :
    Except PyErr (List Ins) := do
  let vs ← l.mapM (var v1 v2)
  (l.zip vs).mapM fun q => update irreps1 irreps2 irrepsOut n g vo q.1 (q.2 ^ a * pathSum a (l.zip vs) q.1.io)

/-- `FunctionalTensorProduct.__init__`, core_tensor_product.py:140-238; `a`, `g` are `path_normalization` and
`gradient_normalization` (after the defaults have been read from the configuration). -/
noncomputable def init (irreps1 irreps2 irrepsOut : Irreps) (instructions : List InsArg) (v1 v2 vo : Option (List ℝ))
    (n : IrNorm) (a g : ℝ) : Except PyErr FTP := do
  let l ← instructions.mapM (mkIns irreps1 irreps2 irrepsOut)
  let l ← normalize irreps1 irreps2 irrepsOut (v1.getD (irreps1.map fun _ => 1)) (v2.getD (irreps2.map fun _ => 1))
    (vo.getD (irrepsOut.map fun _ => 1)) n a g l
  return ⟨irreps1, irreps2, irrepsOut, l⟩

open Classical in
/-- `output_mask`, core_tensor_product.py:218-238. -/
noncomputable def FTP.outputMask (f : FTP) : List Bool :=
  (f.irrepsOut.zipIdx.map fun mo => List.replicate mo.1.dim
    (f.instructions.any fun ins => ins.io == mo.2 && decide (ins.pathWeight ≠ 0) && !(ins.pathShape.contains 0))).flatten

/-- The argument `weights`: a list of arrays or one flat array (core_tensor_product.py:433-453). -/
inductive Weights where
  | list (ws : List (List ℝ))
  | flat (w : List ℝ)

/-- The pieces of a flat array, core_tensor_product.py:443-453; `i` is the cursor. -/
def splitFlat (w : List ℝ) : ℕ → List Ins → Except PyErr (List (List ℝ))
  | i, [] => if i = w.length then .ok [] else .error .assertion
  | i, ins :: l =>
    if ins.hasWeight then
      let p := (w.take (i + ins.size)).drop i
      if p.length ≠ ins.size then .error .typeError
      else do
        let r ← splitFlat w (i + ins.size) l
        return p :: r
    else splitFlat w i l

/-- Entry `(u, i)` of a chunk (core_tensor_product.py:498-499). -/
def at2 (x : List (List ℝ)) (u i : ℕ) : ℝ := (x.getD u []).getD i 0

/-- Entry `(i, j, k)` of `clebsch_gordan(l1, l2, l3)`, core_tensor_product.py:506. -/
noncomputable def cgAt (l1 l2 l3 i j k : ℕ) : ℝ :=
  if h : i < 2 * l1 + 1 ∧ j < 2 * l2 + 1 ∧ k < 2 * l3 + 1 then SU2.clebschGordan l1 l2 l3 ⟨i, h.1⟩ ⟨j, h.2.1⟩ ⟨k, h.2.2⟩ else 0

/-- The entries of a table of `n` rows and `d` columns, in order (core_tensor_product.py:514-559). -/
def table (n d : ℕ) (F : ℕ → ℕ → ℝ) : List ℝ := (List.range n).flatMap fun w => (List.range d).map fun k => F w k

/-- `triu_indices(m, 1)`, core_tensor_product.py:547, 556. -/
def triu (m : ℕ) : List (ℕ × ℕ) :=
  (List.range m).flatMap fun u => ((List.range m).filter fun v => u < v).map fun v => (u, v)

open Finset in
/-- The contraction of one path, core_tensor_product.py:514-559, as the entries of `out` in order; `c` is
`w3j` (already multiplied by the path weight), `d1 d2 d3` its sizes. -/
noncomputable def contract (ins : Ins) (m1 m2 mo d1 d2 d3 : ℕ) (w : List ℝ) (c : ℕ → ℕ → ℕ → ℝ) (x1 x2 : List (List ℝ)) :
    Except PyErr (List ℝ) :=
  match ins.mode with
  | .uvw =>
    if ¬ ins.hasWeight then .error .assertion
    else .ok (table mo d3 fun n k => ∑ u ∈ range m1, ∑ v ∈ range m2, ∑ i ∈ range d1, ∑ j ∈ range d2,
      w.getD ((u * m2 + v) * mo + n) 0 * c i j k * at2 x1 u i * at2 x2 v j)
  | .uvu =>
    if m1 ≠ mo then .error .assertion
    else if ins.hasWeight then .ok (table m1 d3 fun u k => ∑ v ∈ range m2, ∑ i ∈ range d1, ∑ j ∈ range d2,
      w.getD (u * m2 + v) 0 * c i j k * at2 x1 u i * at2 x2 v j)
    else .ok (table m1 d3 fun u k => ∑ v ∈ range m2, ∑ i ∈ range d1, ∑ j ∈ range d2,
      c i j k * at2 x1 u i * at2 x2 v j)
  | .uvv =>
    if m2 ≠ mo then .error .assertion
    else if ins.hasWeight then .ok (table m2 d3 fun v k => ∑ u ∈ range m1, ∑ i ∈ range d1, ∑ j ∈ range d2,
      w.getD (u * m2 + v) 0 * c i j k * at2 x1 u i * at2 x2 v j)
    else .ok (table m2 d3 fun v k => ∑ u ∈ range m1, ∑ i ∈ range d1, ∑ j ∈ range d2,
      c i j k * at2 x1 u i * at2 x2 v j)
  | .uuw =>
    if m1 ≠ m2 then .error .assertion
    else if ins.hasWeight then .ok (table mo d3 fun n k => ∑ u ∈ range m1, ∑ i ∈ range d1, ∑ j ∈ range d2,
      w.getD (u * mo + n) 0 * c i j k * at2 x1 u i * at2 x2 u j)
    else if mo ≠ 1 then .error .assertion
    else .ok ((List.range d3).map fun k => ∑ u ∈ range m1, ∑ i ∈ range d1, ∑ j ∈ range d2,
      c i j k * at2 x1 u i * at2 x2 u j)
  | .uuu =>
    if ¬ (m1 = m2 ∧ m2 = mo) then .error .assertion
    else if ins.hasWeight then .ok (table m1 d3 fun u k => ∑ i ∈ range d1, ∑ j ∈ range d2,
      w.getD u 0 * c i j k * at2 x1 u i * at2 x2 u j)
    else .ok (table m1 d3 fun u k => ∑ i ∈ range d1, ∑ j ∈ range d2,
      c i j k * at2 x1 u i * at2 x2 u j)
  | .uvuv =>
    if m1 * m2 ≠ mo then .error .assertion
    else if ins.hasWeight then .ok ((List.range m1).flatMap fun u => table m2 d3 fun v k => ∑ i ∈ range d1, ∑ j ∈ range d2,
      w.getD (u * m2 + v) 0 * c i j k * at2 x1 u i * at2 x2 v j)
    else .ok ((List.range m1).flatMap fun u => table m2 d3 fun v k => ∑ i ∈ range d1, ∑ j ∈ range d2,
      c i j k * at2 x1 u i * at2 x2 v j)
  | .uvuLtV =>
    if m1 ≠ m2 then .error .assertion
    else if m1 * (m1 - 1) / 2 ≠ mo then .error .assertion
    else
      let t := triu m1
      let xx := fun q i j => at2 x1 (t.getD q (0, 0)).1 i * at2 x2 (t.getD q (0, 0)).2 j
      if ins.hasWeight then .ok (table t.length d3 fun q k => ∑ i ∈ range d1, ∑ j ∈ range d2, w.getD q 0 * c i j k * xx q i j)
      else .ok (table t.length d3 fun q k => ∑ i ∈ range d1, ∑ j ∈ range d2, c i j k * xx q i j)
  | .uLtVw =>
    if m1 ≠ m2 then .error .assertion
    else if ¬ ins.hasWeight then .error .assertion
    else
      let t := triu m1
      let xx := fun q i j => at2 x1 (t.getD q (0, 0)).1 i * at2 x2 (t.getD q (0, 0)).2 j
      .ok (table mo d3 fun n k => ∑ q ∈ range t.length, ∑ i ∈ range d1, ∑ j ∈ range d2, w.getD (q * mo + n) 0 * c i j k * xx q i j)
  | .other => .error .valueError

/-- `w = weights_list[weight_index]` and its assertion, core_tensor_product.py:485-488: the weight of the path and
the remaining ones. -/
def takeWeight (ins : Ins) (ws : List (List ℝ)) : Except PyErr (List ℝ × List (List ℝ)) :=
  if ins.hasWeight then
    match ws with
    | [] => .error .indexError
    | w :: ws => if w.length ≠ ins.size then .error .assertion else .ok (w, ws)
  else .ok ([], ws)

/-- The loop over the instructions of `_block_left_right`, core_tensor_product.py:480-561: `out_list`.  A path with an
empty input or output is skipped *without* an entry in `out_list` (490-493). -/
noncomputable def blockList (f : FTP) (x1 x2 : IArr ℝ) : List Ins → List (List ℝ) → Except PyErr (List (Option (List ℝ)))
  | [], _ => .ok []
  | ins :: l, ws =>
    match f.irreps1[ins.i1]?, f.irreps2[ins.i2]?, f.irrepsOut[ins.io]? with
    | some a, some b, some c => do
      let q ← takeWeight ins ws
      if a.dim = 0 ∨ b.dim = 0 ∨ c.dim = 0 then blockList f x1 x2 l q.2
      else match x1.chunks[ins.i1]?, x2.chunks[ins.i2]? with
        | some (some y1), some (some y2) => do
          let out ← contract ins a.mul b.mul c.mul a.ir.dim b.ir.dim c.ir.dim q.1
            (fun i j k => ins.pathWeight * cgAt a.ir.l b.ir.l c.ir.l i j k) y1 y2
          let r ← blockList f x1 x2 l q.2
          return some out :: r
        | some _, some _ => do
          let r ← blockList f x1 x2 l q.2
          return none :: r
        | _, _ => .error .indexError
    | _, _, _ => .error .indexError

/-- `_block_left_right`, core_tensor_product.py:467-578. -/
noncomputable def FTP.block (f : FTP) (ws : List (List ℝ)) (x1 x2 : IArr ℝ) : Except PyErr (IArr ℝ) := do
  let outs ← blockList f x1 x2 f.instructions ws
  let cs ← f.irrepsOut.zipIdx.mapM fun mo =>
    FLin.sumTensors mo.1.mul mo.1.ir.dim (((f.instructions.zip outs).filter fun q => q.1.io == mo.2).map Prod.snd)
  fromChunks f.irrepsOut cs

/-- `big_w3j`, core_tensor_product.py:596-604, by its entries. -/
abbrev Big := ℕ → ℕ → ℕ → ℕ → ℝ

/-- `set_w3j(x, i, u, v, w)`, core_tensor_product.py:617-623: `c` of sizes `d1 d2 d3` is added at path `i` and at the given
offsets. -/
noncomputable def setW3j (s1 s2 so d1 d2 d3 : ℕ) (c : ℕ → ℕ → ℕ → ℝ) (x : Big) (i : ℕ) (t : ℕ × ℕ × ℕ) : Big := fun p a b k =>
  x p a b k + if p = i ∧ (s1 + t.1 * d1 ≤ a ∧ a < s1 + (t.1 + 1) * d1) ∧ (s2 + t.2.1 * d2 ≤ b ∧ b < s2 + (t.2.1 + 1) * d2) ∧
      (so + t.2.2 * d3 ≤ k ∧ k < so + (t.2.2 + 1) * d3) then
    c (a - (s1 + t.1 * d1)) (b - (s2 + t.2.1 * d2)) (k - (so + t.2.2 * d3)) else 0

/-- The triples `(u, v, w)` of the loops of one instruction, core_tensor_product.py:625-657. -/
def fusedTriples (ins : Ins) (m1 m2 mo : ℕ) : Except PyErr (List (ℕ × ℕ × ℕ)) :=
  match ins.mode with
  | .uvw => if ¬ ins.hasWeight then .error .assertion
    else .ok ((List.range m1).flatMap fun u => (List.range m2).flatMap fun v => (List.range mo).map fun w => (u, v, w))
  | .uvu => if ¬ ins.hasWeight then .error .assertion
    else .ok ((List.range m1).flatMap fun u => (List.range m2).map fun v => (u, v, u))
  | .uvv => if ¬ ins.hasWeight then .error .assertion
    else .ok ((List.range m1).flatMap fun u => (List.range m2).map fun v => (u, v, v))
  | .uuu => .ok ((List.range m1).map fun u => (u, u, u))
  | .uvuv => .ok ((List.range m1).flatMap fun u => (List.range m2).map fun v => (u, v, u * m2 + v))
  | _ => .error .assertion

/-- One instruction of the loop of `_fused_left_right`, core_tensor_product.py:605-657, on `(big_w3j, i)`.  A slice that
leaves the array is clipped and its sum with the block raises `ValueError` (in the model also when the block has
one entry, for which the code does nothing). -/
noncomputable def fusedStep (f : FTP) (st : Big × ℕ) (ins : Ins) : Except PyErr (Big × ℕ) :=
  match f.irreps1[ins.i1]?, f.irreps2[ins.i2]?, f.irrepsOut[ins.io]? with
  | some a, some b, some c =>
    let d1 := a.ir.dim
    let d2 := b.ir.dim
    let d3 := c.ir.dim
    let s1 := Irreps.dim (f.irreps1.take ins.i1)
    let s2 := Irreps.dim (f.irreps2.take ins.i2)
    let so := Irreps.dim (f.irrepsOut.take ins.io)
    let set := setW3j s1 s2 so d1 d2 d3 (fun i j k => ins.pathWeight * cgAt a.ir.l b.ir.l c.ir.l i j k)
    match fusedTriples ins a.mul b.mul c.mul with
    | .error e => .error e
    | .ok ts =>
      if ts.any fun t => f.irreps1.dim < s1 + (t.1 + 1) * d1 || f.irreps2.dim < s2 + (t.2.1 + 1) * d2 ||
          f.irrepsOut.dim < so + (t.2.2 + 1) * d3 then .error .valueError
      else if ins.hasWeight then .ok (ts.foldl (fun st t => (set st.1 st.2 t, st.2 + 1)) st)
      else .ok (ts.foldl (fun st t => (set st.1 0 t, st.2)) st)
  | _, _, _ => .error .indexError

open Finset in
/-- `_fused_left_right`, core_tensor_product.py:581-686. -/
noncomputable def FTP.fused (f : FTP) (w : List ℝ) (x1 x2 : IArr ℝ) : Except PyErr (IArr ℝ) := do
  let noWeights := f.instructions.any fun ins => !ins.hasWeight
  let numPath := if noWeights then w.length + 1 else w.length
  let st ← f.instructions.foldlM (fusedStep f) ((fun _ _ _ _ => 0 : Big), if noWeights then 1 else 0)
  if st.2 ≠ numPath then .error .assertion
  else if noWeights ∧ numPath = 1 then
    ofArray f.irrepsOut ((List.range f.irrepsOut.dim).map fun k =>
      ∑ p ∈ range numPath, ∑ i ∈ range f.irreps1.dim, ∑ j ∈ range f.irreps2.dim,
        st.1 p i j k * x1.array.getD i 0 * x2.array.getD j 0)
  else
    let w := if noWeights then 1 :: w else w
    ofArray f.irrepsOut ((List.range f.irrepsOut.dim).map fun k =>
      ∑ p ∈ range numPath, ∑ i ∈ range f.irreps1.dim, ∑ j ∈ range f.irreps2.dim,
        w.getD p 0 * st.1 p i j k * x1.array.getD i 0 * x2.array.getD j 0)

/-- `weights_list` and `weights_flat`, core_tensor_product.py:433-454. -/
def FTP.resolveWeights (f : FTP) : Weights → Except PyErr (List (List ℝ) × List ℝ)
  | .list ws =>
    if ws.length ≠ (f.instructions.filter fun ins => ins.hasWeight).length then .error .assertion else .ok (ws, ws.flatten)
  | .flat w => do
    let ws ← splitFlat w 0 f.instructions
    return (ws, w)

/-- `left_right`, core_tensor_product.py:240-283, and `_left_right`, 404-464 (`fused` after the default has been read
from the configuration). -/
noncomputable def FTP.leftRight (f : FTP) (fused : Bool) (w : Weights) (x1 x2 : IArr ℝ) : Except PyErr (IArr ℝ) := do
  let x1 ← x1.rechunk f.irreps1
  let x2 ← x2.rechunk f.irreps2
  if f.irreps1.dim = 0 ∨ f.irreps2.dim = 0 ∨ f.irrepsOut.dim = 0 then IArr.zeros f.irrepsOut
  else
    let lf ← f.resolveWeights w
    if fused then f.fused lf.2 x1 x2 else f.block lf.1 x1 x2

open Finset in
/-- The contraction of one path in `_right`, core_tensor_product.py:727-774, before the multiplication by the path
weight, as the entries in order of an array `(u, i, w, k)`.  `none`: no branch is taken and `out` keeps its
value. -/
noncomputable def contractRight (ins : Ins) (m1 m2 mo d1 d2 d3 : ℕ) (w : List ℝ) (c : ℕ → ℕ → ℕ → ℝ) (x2 : List (List ℝ)) :
    Except PyErr (Option (List ℝ)) :=
  let arr := fun (mo : ℕ) (F : ℕ → ℕ → ℕ → ℕ → ℝ) => some ((List.range m1).flatMap fun u => (List.range d1).flatMap fun i => table mo d3 fun n k => F u i n k)
  let eye := fun (u n : ℕ) => if u = n then (1 : ℝ) else 0
  match ins.mode with
  | .uvw =>
    if ¬ ins.hasWeight then .error .assertion
    else .ok (arr mo fun u i n k => ∑ v ∈ range m2, ∑ j ∈ range d2, w.getD ((u * m2 + v) * mo + n) 0 * c i j k * at2 x2 v j)
  | .uvu =>
    if m1 ≠ mo then .error .assertion
    else if ins.hasWeight then .ok (arr m1 fun u i n k => ∑ v ∈ range m2, ∑ j ∈ range d2, w.getD (u * m2 + v) 0 * c i j k * at2 x2 v j * eye u n)
    else .ok (arr m1 fun u i n k => ∑ v ∈ range m2, ∑ j ∈ range d2, c i j k * at2 x2 v j * eye u n)
  | .uvv =>
    if m2 ≠ mo then .error .assertion
    else if ins.hasWeight then .ok (arr m2 fun u i v k => ∑ j ∈ range d2, w.getD (u * m2 + v) 0 * c i j k * at2 x2 v j)
    else .ok (arr m2 fun _ i v k => ∑ j ∈ range d2, c i j k * at2 x2 v j * 1)
  | .uuw =>
    if m1 ≠ m2 then .error .assertion
    else if ins.hasWeight then .ok (arr mo fun u i n k => ∑ j ∈ range d2, w.getD (u * mo + n) 0 * c i j k * at2 x2 u j)
    else if mo ≠ 1 then .error .assertion
    else .ok (some ((List.range m1).flatMap fun u => (List.range d1).flatMap fun i => (List.range d3).map fun k =>
      ∑ j ∈ range d2, c i j k * at2 x2 u j))
  | .uuu =>
    if ¬ (m1 = m2 ∧ m2 = mo) then .error .assertion
    else if ins.hasWeight then .ok (arr m1 fun u i n k => ∑ j ∈ range d2, w.getD u 0 * c i j k * at2 x2 u j * eye u n)
    else .ok (arr m1 fun u i n k => ∑ j ∈ range d2, c i j k * at2 x2 u j * eye u n)
  | .uvuv =>
    if m1 * m2 ≠ mo then .error .assertion
    else if ins.hasWeight then .ok (some ((List.range m1).flatMap fun u => (List.range d1).flatMap fun i => (List.range m1).flatMap fun n =>
      table m2 d3 fun v k => ∑ j ∈ range d2, w.getD (u * m2 + v) 0 * c i j k * at2 x2 v j * eye u n))
    else .ok (some ((List.range m1).flatMap fun u => (List.range d1).flatMap fun i => (List.range m1).flatMap fun n =>
      table m2 d3 fun v k => ∑ j ∈ range d2, c i j k * at2 x2 v j * eye u n))
  | _ => .ok none

/-- The loop over the instructions of `_right`, core_tensor_product.py:705-778: `out_list`, each element a matrix of
`mul_ir_in1.dim` rows and `mul_ir_out.dim` columns.  The first argument is the variable `out`, which is not reset
between the iterations; an empty chunk of `input2` is `None` and is refused by `einsum`. -/
noncomputable def rightList (f : FTP) (x2 : IArr ℝ) : Option (List ℝ) → List Ins → List (List ℝ) → Except PyErr (List (List (List ℝ)))
  | _, [], _ => .ok []
  | out, ins :: l, ws =>
    match f.irreps1[ins.i1]?, f.irreps2[ins.i2]?, f.irrepsOut[ins.io]?, x2.chunks[ins.i2]? with
    | some a, some b, some c, some y2 => do
      let q ← takeWeight ins ws
      if a.dim = 0 ∨ b.dim = 0 ∨ c.dim = 0 then
        let r ← rightList f x2 out l q.2
        return List.replicate a.dim (List.replicate c.dim 0) :: r
      else
        let new ← match y2 with
          | some y2 => contractRight ins a.mul b.mul c.mul a.ir.dim b.ir.dim c.ir.dim q.1 (cgAt a.ir.l b.ir.l c.ir.l) y2
          | none => if ins.mode = .uvuLtV ∨ ins.mode = .uLtVw then .ok none else .error .typeError
        match new.or out with
        | none => .error .nameError
        | some o =>
          let o := o.map (ins.pathWeight * ·)
          let m ← FLin.reshape a.dim c.dim o
          let r ← rightList f x2 (some o) l q.2
          return m :: r
    | _, _, _, _ => .error .indexError

/-- `sum_tensors(xs, shape)`, sum_tensors.py:4-12, of matrices of the given sizes: zeros if there is none. -/
def sumMats (r c : ℕ) (xs : List (List (List ℝ))) : List (List ℝ) :=
  match xs with
  | [] => List.replicate r (List.replicate c 0)
  | x :: l => l.foldl FLin.addRows x

/-- `jnp.concatenate(..., axis=1)` of matrices with the same number of rows, core_tensor_product.py:781-799. -/
def hcat (xs : List (List (List ℝ))) : List (List ℝ) :=
  match xs with
  | [] => []
  | x :: l => l.foldl (List.zipWith (· ++ ·)) x

/-- `right`, core_tensor_product.py:285-313, and `_right`, 689-804, for a list of weights. -/
noncomputable def FTP.right (f : FTP) (ws : List (List ℝ)) (x2 : IArr ℝ) : Except PyErr (List (List ℝ)) := do
  let x2 ← x2.rechunk f.irreps2
  if f.irreps1.dim = 0 ∨ f.irreps2.dim = 0 ∨ f.irrepsOut.dim = 0 then
    return List.replicate f.irreps1.dim (List.replicate f.irrepsOut.dim 0)
  else
    let outs ← rightList f x2 none f.instructions ws
    return ((f.irreps1.zipIdx.filter fun mi => 0 < mi.1.mul).map fun mi =>
      hcat ((f.irrepsOut.zipIdx.filter fun mo => 0 < mo.1.mul).map fun mo =>
        sumMats mi.1.dim mo.1.dim (((f.instructions.zip outs).filter fun q => q.1.i1 == mi.2 && q.1.io == mo.2).map Prod.snd))).flatten

/-- The instructions of `FunctionalFullyConnectedTensorProduct`, functional_fully_connected_tensor_product.py:22-28. -/
def fullyConnectedIns (irreps1 irreps2 irrepsOut : Irreps) : List InsArg :=
  irreps1.zipIdx.flatMap fun a => irreps2.zipIdx.flatMap fun b => irrepsOut.zipIdx.filterMap fun c =>
    if c.1.ir ∈ Irrep.mul a.1.ir b.1.ir then some ⟨a.2, b.2, c.2, .uvw, true, none⟩ else none

/-- `FunctionalFullyConnectedTensorProduct`, functional_fully_connected_tensor_product.py:7-40. -/
noncomputable def fullyConnected (irreps1 irreps2 irrepsOut : Irreps) (v1 v2 vo : Option (List ℝ)) (n : IrNorm) (a g : ℝ) :
    Except PyErr FTP :=
  init irreps1 irreps2 irrepsOut (fullyConnectedIns irreps1 irreps2 irrepsOut) v1 v2 vo n a g

end E3nn.LTP
