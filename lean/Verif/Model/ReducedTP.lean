import Verif.Model.PermRepr
import Verif.Model.LinAlg
import Verif.Model.TransformO3

/-!
# Model of `e3nn_jax/_src/reduced_tensor_product.py`, part 3: the change of basis

An array with several tensor axes is a function of the index on every axis: `t σ` is the entry whose index on axis `i` is `σ i`.  An axis
of size one that numpy broadcasts is an axis on which the function does not depend.  An `IrrepsArray` of shape `(d1, ..., dn, dim)` is
an `IArr` whose components are such functions.  The arithmetic is exact and `_rounding` (reduced_tensor_product.py:754-757) is left out.
`frozenset`s of axes are sorted lists (Python iterates frozensets of integers below 8 in that order).
-/

namespace E3nn.RTP

open E3nn.PermRepr E3nn.LinAlg

/-- An array, as a function of the index on every axis (reduced_tensor_product.py:228-243). -/
abbrev Ten := (ℕ → ℕ) → ℝ

/-- Row `j` of `np.eye(irreps.dim)` on axis `i` (reduced_tensor_product.py:233-239). -/
def coord (i j : ℕ) : Ten := fun σ => if σ i = j then 1 else 0

/-- The `IrrepsArray` of the identity on axis `i`, reduced_tensor_product.py:231-240. -/
def identityBasis (i : ℕ) (irreps : Irreps) : Except PyErr (IArr Ten) :=
  IArr.ofArray irreps ((List.range irreps.dim).map (coord i))

/-- `reduce_basis_product`, reduced_tensor_product.py:579-612.  `np.einsum` with `sqrt(ir.dim) * clebsch_gordan` is the path of
`tensor_product` with the normalisation "component"; no chunk is `None` (such a chunk would count as zeros here). -/
noncomputable def reduceBasisProduct (a b : IArr Ten) (filter : Option (List Irrep)) : Except PyErr (IArr Ten) := do
  let a ← a.regroup
  let b ← b.regroup
  let ps ← (TP.triples filter (a.irreps.zip a.chunks) (b.irreps.zip b.chunks)).mapM fun t =>
    TP.path (realCtx Ten) .component TP.outer (t.1.1.mul * t.2.1.1.mul) t.1 t.2.1 t.2.2
  let y ← IArr.fromChunks (ps.map Prod.fst) (ps.map Prod.snd)
  y.regroup

/-- The entries of an array of shape `dims` in row-major order (reduced_tensor_product.py:633-646). -/
def flatten (dims : List ℕ) (t : Ten) : Fin dims.prod → ℝ :=
  fun k => t fun i => ((fullBase dims).getD k []).getD i 0

/-- A row of the permutation basis, reduced_tensor_product.py:633-636. -/
def ofRow (dims : List ℕ) (r : List ℝ) : Fin dims.prod → ℝ := fun k => r.getD k 0

/-- The rows of a chunk (`None` counts as zeros; it does not occur) (reduced_tensor_product.py:643). -/
def chunkRows (p : MulIrrep × Chunk Ten) : List (List Ten) :=
  match p.2 with
  | some r => r
  | none => List.replicate p.1.mul (List.replicate p.1.ir.dim 0)

/-- `rot_basis`, reduced_tensor_product.py:642-643. -/
def rotBasis (x : IArr Ten) (ir : Irrep) : List (List Ten) :=
  ((x.irreps.zip x.chunks).filter fun p => p.1.ir = ir).flatMap chunkRows

/-- `R`, reduced_tensor_product.py:645-646: the first component of every irrep. -/
def firstComponents (dims : List ℕ) (rb : List (List Ten)) : List (Fin dims.prod → ℝ) := rb.map fun r => flatten dims (r.headD 0)

open Classical in
/-- `perm_opt`, reduced_tensor_product.py:649: the rows that do not vanish where some row of `R` does not vanish. -/
noncomputable def permOpt {N : ℕ} (R perm : List (Fin N → ℝ)) : List (Fin N → ℝ) :=
  perm.filter fun p => decide (∃ k, (∃ r ∈ R, r k ≠ 0) ∧ p k ≠ 0)

/-- `np.einsum("vu,...ui->...vi", P, rot_basis)`, reduced_tensor_product.py:655. -/
def mix {n : ℕ} (d : ℕ) (P : List (Fin n → ℝ)) (rb : List (List Ten)) : List (List Ten) :=
  P.map fun c => (List.range d).map fun i => ∑ u : Fin n, c u • (rb.getD (u : ℕ) []).getD i 0

/-- `sorted({ir for mul, ir in irreps})`, reduced_tensor_product.py:641. -/
def distinctIrreps (x : Irreps) : List Irrep := pySorted Irrep.lt (x.map MulIrrep.ir).eraseDups

/-- One turn of the loop of `constrain_rotation_basis_by_permutation_basis`, reduced_tensor_product.py:641-655. -/
noncomputable def constrainIr (eigh : Eigh) (eps : ℝ) (dims : List ℕ) (x : IArr Ten) (perm : List (List ℝ)) (ir : Irrep) : MulIrrep × Chunk Ten :=
  let rb := rotBasis x ir
  let R := firstComponents dims rb
  let P := (basisIntersection eigh eps R (permOpt R (perm.map (ofRow dims)))).1
  (⟨P.length, ir⟩, some (mix ir.dim P rb))

/-- `constrain_rotation_basis_by_permutation_basis`, reduced_tensor_product.py:615-659. -/
noncomputable def constrain (eigh : Eigh) (eps : ℝ) (dims : List ℕ) (x : IArr Ten) (perm : List (List ℝ)) : Except PyErr (IArr Ten) :=
  let ps := (distinctIrreps x.irreps).map (constrainIr eigh eps dims x perm)
  IArr.fromChunks (ps.map Prod.fst) (ps.map Prod.snd)

/-- `_tp_ir_seq`, reduced_tensor_product.py:300-308; a set of irreps is a list, of which only the membership matters. -/
def tpIrSeq (irs1 : Option (List Irrep)) (irs2 : List Irrep) : Option (List Irrep) :=
  irs1.map fun l => l.flatMap fun a => irs2.flatMap fun b => a.mul b

/-- `frozenset(fa | fb)` as a sorted list of axes below `n` (reduced_tensor_product.py:259, 275). -/
def union (n : ℕ) (fa fb : List ℕ) : List ℕ := (List.range n).filter fun i => fa.contains i || fb.contains i

/-- The pairs `i < j` in the order of the loops, reduced_tensor_product.py:271-272. -/
def indexPairs (m : ℕ) : List (ℕ × ℕ) :=
  (List.range m).flatMap fun i => (List.range' (i + 1) (m - (i + 1))).map fun j => (i, j)

/-- The greedy choice, reduced_tensor_product.py:267-279: the first pair for which the dimension is smallest. -/
def bestPair (n : ℕ) (G : Finset SPerm) (dims : List ℕ) (fs : List (List ℕ)) : Option (ℕ × ℕ × List ℕ) :=
  ((indexPairs fs.length).foldl (fun (acc : Option (ℕ × (ℕ × ℕ × List ℕ))) ij =>
    let f := union n (fs.getD ij.1 []) (fs.getD ij.2 [])
    let p := reduceSubgroupDim f G dims
    match acc with
    | none => some (p, (ij.1, ij.2, f))
    | some (mp, best) => if p < mp then some (p, (ij.1, ij.2, f)) else some (mp, best)) none).map Prod.snd

/-- `keep` of the recursive call, reduced_tensor_product.py:287-290. -/
def subKeep (irr : List Irreps) (f : List ℕ) (keep : Option (List Irrep)) : Option (List Irrep) :=
  irr.zipIdx.foldl (fun keep q => if f.contains q.2 then keep else tpIrSeq keep (q.1.map MulIrrep.ir)) keep

/-- An array on the axes `0, 1, ...` placed on the axes `f` (the `reshape` of reduced_tensor_product.py:294-296). -/
def place (f : List ℕ) (t : Ten) : Ten := fun σ => t fun k => σ (f.getD k 0)

/-- The intermediate bases: the set of axes and the array, reduced_tensor_product.py:228-243. -/
abbrev Bases := List (List ℕ × IArr Ten)

/-- The initial list, reduced_tensor_product.py:228-243. -/
def initial (irr : List Irreps) : Except PyErr Bases :=
  irr.zipIdx.mapM fun q => (identityBasis q.2 q.1).map fun b => ([q.2], b)

/-- The case of one array, reduced_tensor_product.py:249-254. -/
def finishOne (n : ℕ) (keep : Option (List Irrep)) (f : List ℕ) (b : IArr Ten) : Except PyErr (IArr Ten) :=
  if f ≠ List.range n then .error .assertion
  else do
    let b ← match keep with
      | none => .ok b
      | some l => b.filter (some (.irs l)) none none
    b.regroup

/-- The case of two arrays, reduced_tensor_product.py:256-265; the `reshape` with `-1` of an empty array (line 691) raises when some
irreps have dimension zero. -/
noncomputable def finishTwo (eigh : Eigh) (eps : ℝ) (n : ℕ) (dims : List ℕ) (G : Finset SPerm) (keep : Option (List Irrep)) (a b : List ℕ × IArr Ten) :
    Except PyErr (IArr Ten) := do
  let f := union n a.1 b.1
  let ab ← reduceBasisProduct a.2 b.2 keep
  if (subrepr f G).card = 1 then ab.regroup
  else do
    if dims.prod = 0 then .error .valueError
    else
    let p ← reduceSubgroup f G dims
    let ab ← constrain eigh eps dims ab p
    ab.regroup

/-- How `_optimized_reduced_symmetric_tensor_product_basis` is called: irreps, degree, `keep_ir` (reduced_tensor_product.py:220-222). -/
abbrev Optimized := Irreps → ℕ → Option (List Irrep) → Except PyErr (IArr Ten)

/-- The test for the optimized case, reduced_tensor_product.py:213-218. -/
def useOptimized (flag : Bool) (irr : List Irreps) (G : Finset SPerm) : Bool :=
  flag && decide (G = symmetricPermRepr irr.length) && decide (1 < irr.length) && decide (1 < (irr.headD []).numIrreps)

/-- The beginning of `_reduced_tensor_product_basis`, reduced_tensor_product.py:212-243; `loop` is the rest. -/
def start (opt : Optimized) (flag : Bool) (loop : List Irreps → Finset SPerm → Option (List Irrep) → Bases → Option (Except PyErr (IArr Ten)))
    (irr : List Irreps) (G : Finset SPerm) (keep : Option (List Irrep)) : Option (Except PyErr (IArr Ten)) :=
  if useOptimized flag irr G then some (opt (irr.headD []) irr.length keep)
  else match initial irr with
    | .error e => some (.error e)
    | .ok bases => loop irr G keep bases

/-- The loop of `_reduced_tensor_product_basis` with fuel for `while True` and the recursion, reduced_tensor_product.py:245-297. -/
noncomputable def loop (eigh : Eigh) (eps : ℝ) (opt : Optimized) (flag : Bool) : ℕ → List Irreps → Finset SPerm → Option (List Irrep) → Bases →
    Option (Except PyErr (IArr Ten))
  | 0, _, _, _, _ => none
  | fuel + 1, irr, G, keep, bases =>
    let n := irr.length
    let dims := irr.map Irreps.dim
    match bases with
    | [] => some (.error .runtimeError)
    | [(f, b)] => some (finishOne n keep f b)
    | [a, b] => some (finishTwo eigh eps n dims G keep a b)
    | bases =>
      match bestPair n G dims (bases.map Prod.fst) with
      | none => some (.error .typeError)
      | some (i, j, f) =>
        let rest := (bases.eraseIdx j).eraseIdx i
        match start opt flag (loop eigh eps opt flag fuel) (f.map fun k => irr.getD k []) (subrepr f G) (subKeep irr f keep) with
        | none => none
        | some (.error e) => some (.error e)
        | some (.ok ab) =>
          match ab.mapCols (place f) with
          | .error e => some (.error e)
          | .ok ab => loop eigh eps opt flag fuel irr G keep ((f, ab) :: rest)

/-- `_reduced_tensor_product_basis`, reduced_tensor_product.py:204-297. -/
noncomputable def basis (eigh : Eigh) (eps : ℝ) (opt : Optimized) (flag : Bool) (fuel : ℕ) (irr : List Irreps) (G : Finset SPerm) (keep : Option (List Irrep)) :
    Option (Except PyErr (IArr Ten)) :=
  start opt flag (loop eigh eps opt flag fuel) irr G keep

end E3nn.RTP
