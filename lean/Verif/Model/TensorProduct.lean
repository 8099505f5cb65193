import Verif.Model.Linear

/-!
# Model of `e3nn_jax/_src/tensor_products.py` and of `_align_two_irreps` (basic.py)

Numbers are elements of a commutative ring `K` (a ring of functions of the leading indices when
there are leading axes, after `_prepare_inputs` has broadcast both inputs to a common leading
shape).  The Clebsch-Gordan tensors and the square root are parameters.  Dtypes are not
represented.
-/

namespace E3nn

/-- `e3nn.clebsch_gordan(l1, l2, l3)` (a `(2l1+1) × (2l2+1) × (2l3+1)` array) and `jnp.sqrt` on
the rational numbers that occur (tensor_products.py:108-122). -/
structure TPCtx (K : Type) where
  cg : Nat → Nat → Nat → List (List (List K))
  sqrt : ℚ → K

/-- The argument `irrep_normalization` (after the default has been read from the configuration) (tensor_products.py:86-90). -/
inductive IrNorm where
  | component
  | norm
  | none
  | other
  deriving DecidableEq, Repr

namespace TP

variable {K : Type} [CommRing K]

/-- `einsum("i,j,ijk->k", a, b, cg)`, tensor_products.py:122, 207. -/
def contract (d : Nat) (cg : List (List (List K))) (a b : List K) : List K :=
  FLin.linComb d a (cg.map fun ci => FLin.linComb d b ci)

/-- `cg * c`, tensor_products.py:110-113. -/
def scaleCg (c : K) (cg : List (List (List K))) : List (List (List K)) :=
  cg.map fun m => m.map fun r => r.map (c * ·)

/-- The normalisation of the Clebsch-Gordan tensor, tensor_products.py:110-119, 195-204. -/
def normalized (ctx : TPCtx K) (n : IrNorm) (ir1 ir2 ir : Irrep) : Except PyErr (List (List (List K))) :=
  match n with
  | .component => .ok (scaleCg (ctx.sqrt ir.dim) (ctx.cg ir1.l ir2.l ir.l))
  | .norm => .ok (scaleCg (ctx.sqrt (ir1.dim * ir2.dim)) (ctx.cg ir1.l ir2.l ir.l))
  | .none => .ok (ctx.cg ir1.l ir2.l ir.l)
  | .other => .error .valueError

/-- The pairs of rows of `einsum("...ui,...vj,ijk->...uvk").reshape(mul_1 * mul_2, dim)`,
tensor_products.py:122-125: `u` is the slow index. -/
def outer (a b : List (List K)) : List (List K × List K) := a.flatMap fun r => b.map fun s => (r, s)

/-- Contract every pair of rows with the tensor (tensor_products.py:122). -/
def rowsOf (d : Nat) (cg : List (List (List K))) (ps : List (List K × List K)) : List (List K) :=
  ps.map fun q => contract d cg q.1 q.2

/-- One entry `(mul, ir_out)` with its chunk, tensor_products.py:105-129 and 190-211; `pair` says
which pairs of rows are combined. -/
def path (ctx : TPCtx K) (n : IrNorm) (pair : List (List K) → List (List K) → List (List K × List K)) (mul : Nat)
    (p1 p2 : MulIrrep × Chunk K) (ir : Irrep) : Except PyErr (MulIrrep × Chunk K) :=
  match p1.2, p2.2 with
  | some a, some b => do
    let cg ← normalized ctx n p1.1.ir p2.1.ir ir
    return (⟨mul, ir⟩, some (rowsOf ir.dim cg (pair a b)))
  | _, _ => .ok (⟨mul, ir⟩, none)

/-- `for ir_out in ir_1 * ir_2: if filter_ir_out is not None and ir_out not in filter_ir_out: continue`,
tensor_products.py:101-103, 186-188. -/
def irsOut (filter : Option (List Irrep)) (ir1 ir2 : Irrep) : List Irrep :=
  (ir1.mul ir2).filter fun ir => match filter with
    | none => true
    | some l => l.contains ir

/-- `from_chunks`, `sort` and, if asked, `regroup`, tensor_products.py:131-135, 368-372. -/
def finish (regroup : Bool) (ps : List (MulIrrep × Chunk K)) : Except PyErr (IArr K) := do
  let y ← IArr.fromChunks (ps.map Prod.fst) (ps.map Prod.snd)
  let y ← y.sort
  if regroup then y.regroup else return y

/-- `if regroup_output: input = input.regroup()`, tensor_products.py:93-95, 249-250. -/
def prepare (regroup : Bool) (x : IArr K) : Except PyErr (IArr K) := if regroup then x.regroup else .ok x

/-- The triples visited by the loops of `tensor_product`, tensor_products.py:99-103. -/
def triples (filter : Option (List Irrep)) (x1 x2 : List (MulIrrep × Chunk K)) :
    List ((MulIrrep × Chunk K) × (MulIrrep × Chunk K) × Irrep) :=
  x1.flatMap fun p1 => x2.flatMap fun p2 => (irsOut filter p1.1.ir p2.1.ir).map fun ir => (p1, p2, ir)

/-- `tensor_product`, tensor_products.py:39-135. -/
def tensorProduct (ctx : TPCtx K) (n : IrNorm) (filter : Option (List Irrep)) (regroup : Bool)
    (x1 x2 : IArr K) : Except PyErr (IArr K) := do
  let x1 ← prepare regroup x1
  let x2 ← prepare regroup x2
  let ps ← (triples filter (x1.irreps.zip x1.chunks) (x2.irreps.zip x2.chunks)).mapM fun t =>
    path ctx n outer (t.1.1.mul * t.2.1.1.mul) t.1 t.2.1 t.2.2
  finish regroup ps

/-! ## elementwise -/

/-- The loop of `_align_two_irreps`, basic.py:142-155: the entries from index `i` on (those before
`i` are returned). -/
def alignLoop : Nat → Irreps → Irreps → Irreps × Irreps
  | 0, l, k => (l, k)
  | fuel + 1, m1 :: l, m2 :: k =>
    if m1.mul < m2.mul then
      let r := alignLoop fuel l (⟨m2.mul - m1.mul, m2.ir⟩ :: k)
      (m1 :: r.1, ⟨m1.mul, m2.ir⟩ :: r.2)
    else if m2.mul < m1.mul then
      let r := alignLoop fuel (⟨m1.mul - m2.mul, m1.ir⟩ :: l) k
      (⟨m2.mul, m1.ir⟩ :: r.1, m2 :: r.2)
    else
      let r := alignLoop fuel l k
      (m1 :: r.1, m2 :: r.2)
  | _ + 1, l, k => (l, k)

/-- `_align_two_irreps`, basic.py:134-158.  Every turn of the loop removes the head of one of the
lists, hence the fuel. -/
def alignTwo (x y : Irreps) : Except PyErr (Irreps × Irreps) :=
  if x.numIrreps ≠ y.numIrreps then .error .assertion
  else
    let r := alignLoop (x.length + y.length) x y
    if r.1.map MulIrrep.mul ≠ r.2.map MulIrrep.mul then .error .assertion
    else .ok r

/-- `_align_two_irreps_arrays`, basic.py:161-169. -/
def alignArrays (x y : IArr K) : Except PyErr (IArr K × IArr K) := do
  let r ← alignTwo x.irreps y.irreps
  let x ← x.rechunk r.1
  let y ← y.rechunk r.2
  if x.irreps.map MulIrrep.mul ≠ y.irreps.map MulIrrep.mul then .error .assertion
  else return (x, y)

/-- `elementwise_tensor_product`, tensor_products.py:139-213. -/
def elementwise (ctx : TPCtx K) (n : IrNorm) (filter : Option (List Irrep)) (x1 x2 : IArr K) :
    Except PyErr (IArr K) :=
  if x1.irreps.numIrreps ≠ x2.irreps.numIrreps then .error .valueError
  else do
    let r ← alignArrays x1 x2
    let ps ← (((r.1.irreps.zip r.1.chunks).zip (r.2.irreps.zip r.2.chunks)).flatMap fun pq =>
      (irsOut filter pq.1.1.ir pq.2.1.ir).map fun ir => (pq, ir)).mapM fun t =>
        path ctx n List.zip t.1.1.1.mul t.1.1 t.1.2 t.2
    IArr.fromChunks (ps.map Prod.fst) (ps.map Prod.snd)

/-! ## tensor_square -/

/-- `itertools.combinations(l, 2)` (tensor_products.py:312). -/
def pairsOf {α : Type} : List α → List (α × α)
  | [] => []
  | a :: l => l.map (fun b => (a, b)) ++ pairsOf l

/-- `alpha` of the off-diagonal paths, tensor_products.py:263-280. -/
def alphaOff (n : IrNorm) (normalizedInput : Bool) (ir1 ir2 ir : Irrep) : ℚ :=
  match n, normalizedInput with
  | .component, true => ir1.dim * ir2.dim * ir.dim
  | .component, false => ir.dim
  | .norm, _ => ir1.dim * ir2.dim
  | _, _ => 1

/-- `alpha` of the diagonal paths, tensor_products.py:321-354. -/
def alphaDiag (n : IrNorm) (normalizedInput : Bool) (ir1 ir2 ir : Irrep) : ℚ :=
  match n, normalizedInput with
  | .component, true => if ir.l = 0 then ir.dim * ir1.dim else ir1.dim * (ir1.dim + 2) / 2 * ir.dim
  | .norm, true => if ir.l = 0 then ir.dim * ir1.dim else ir1.dim * (ir1.dim + 2) / 2
  | .component, false => if ir.l = 0 then ir.dim / (ir1.dim + 2) else ir.dim / 2
  | .norm, false => if ir.l = 0 then ir1.dim * ir2.dim / (ir1.dim + 2) else ir1.dim * ir2.dim / 2
  | _, _ => 1

/-- What one turn of the inner loop appends, tensor_products.py:262-364; the indices are those of
`enumerate`.  The contraction with the 0/1 tensor `uvw` (308-317) is the list of pairs `u < v`. -/
def squareStep (ctx : TPCtx K) (n : IrNorm) (ni : Bool) (q1 q2 : (MulIrrep × Chunk K) × Nat) (ir : Irrep) :
    List (MulIrrep × Chunk K) :=
  let m1 := q1.1.1
  let m2 := q2.1.1
  if q1.2 < q2.2 then
    [(⟨m1.mul * m2.mul, ir⟩,
      match q1.1.2, q2.1.2 with
      | some a, some b => some (rowsOf ir.dim
          (scaleCg (ctx.sqrt (alphaOff n ni m1.ir m2.ir ir)) (ctx.cg m1.ir.l m2.ir.l ir.l)) (outer a b))
      | _, _ => none)]
  else if q1.2 = q2.2 then
    (if m1.mul > 1 then
      [(⟨m1.mul * (m1.mul - 1) / 2, ir⟩, q1.1.2.map fun x => rowsOf ir.dim
        (scaleCg (ctx.sqrt (alphaOff n ni m1.ir m2.ir ir)) (ctx.cg m1.ir.l m1.ir.l ir.l)) (pairsOf x))]
    else []) ++
    (if ir.l % 2 = 0 then
      [(⟨m1.mul, ir⟩, q1.1.2.map fun x => rowsOf ir.dim
        (scaleCg (ctx.sqrt (alphaDiag n ni m1.ir m2.ir ir)) (ctx.cg m1.ir.l m1.ir.l ir.l)) (x.map fun r => (r, r)))]
    else [])
  else []

/-- The entries produced by the loops of `tensor_square`, tensor_products.py:260-364. -/
def squareEntries (ctx : TPCtx K) (n : IrNorm) (ni : Bool) (ps : List (MulIrrep × Chunk K)) :
    List (MulIrrep × Chunk K) :=
  ps.zipIdx.flatMap fun q1 => ps.zipIdx.flatMap fun q2 => (q1.1.1.ir.mul q2.1.1.ir).flatMap fun ir =>
    squareStep ctx n ni q1 q2 ir

/-- `tensor_square`, tensor_products.py:216-372. -/
def tensorSquare (ctx : TPCtx K) (n : IrNorm) (ni : Bool) (regroup : Bool) (x : IArr K) : Except PyErr (IArr K) := do
  let x ← prepare regroup x
  if n = .other then .error .assertion
  else finish regroup (squareEntries ctx n ni (x.irreps.zip x.chunks))

end TP
end E3nn
