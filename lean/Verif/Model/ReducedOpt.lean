import Verif.Model.ReducedFront

/-!
# Model of `e3nn_jax/_src/reduced_tensor_product.py`, part 5: `_optimized_reduced_symmetric_tensor_product_basis`

The default algorithm for a symmetric power of irreps with more than one irrep: the powers of the single irreps are computed by the
general algorithm, multiplied, and placed at all arrangements of the irreps on the axes.
-/

namespace E3nn.RTP

open E3nn.PermRepr E3nn.LinAlg

/-- `Irreps([(1, ir) for mul, ir in irreps for _ in range(mul)])`, reduced_tensor_product.py:431. -/
def singles (irreps : Irreps) : Irreps := irreps.flatMap fun m => List.replicate m.mul ⟨1, m.ir⟩

/-- `generate_tuples_with_fixed_sum`, reduced_tensor_product.py:340-352 (the length 0 does not occur). -/
def tuplesWithSum : ℕ → ℕ → List (List ℕ)
  | 0, _ => []
  | 1, s => [[s]]
  | n + 2, 0 => [List.replicate (n + 2) 0]
  | n + 2, s + 1 => (List.range (s + 2)).reverse.flatMap fun first => (tuplesWithSum (n + 1) (s + 1 - first)).map (first :: ·)

/-- `non_zero_indices` and `non_zero_powers`, reduced_tensor_product.py:464-465: the pairs (index, power). -/
def nonZero (powers : List ℕ) : List (ℕ × ℕ) := (powers.zipIdx.filter fun q => q.1 != 0).map fun q => (q.2, q.1)

/-- `repeat_indices`, reduced_tensor_product.py:380-385. -/
def repeatIndices (l : List (ℕ × ℕ)) : List ℕ := l.flatMap fun q => List.replicate q.2 q.1

/-- `reshape_for_basis_product`, reduced_tensor_product.py:410-428: the axes of the terms follow each other, from the axis `o` on. -/
def placeTerms : ℕ → List (ℕ × IArr Ten) → Except PyErr (List (IArr Ten))
  | _, [] => .ok []
  | o, (n, t) :: r => do
    let t ← t.mapCols (place (List.range' o n))
    let r ← placeTerms (o + n) r
    return t :: r

/-- `product_basis`, reduced_tensor_product.py:478-488. -/
noncomputable def productBasis (keep : Option (List Irrep)) : List (IArr Ten) → Except PyErr (IArr Ten)
  | [] => .error .indexError
  | [t] => t.filter (keep.map .irs) none none
  | t :: u :: ts => do
    let cur ← (u :: ts).dropLast.foldlM (fun cur next => reduceBasisProduct cur next none) t
    reduceBasisProduct cur ((u :: ts).getLast (by simp)) keep

/-- `cumsum_before([ir.dim for ir in irreps])[k]`, reduced_tensor_product.py:366-373, 396-401; for the next index it is the end of the
slice, `total - stop` (lines 403-408, 513-517). -/
def startOf (irreps : Irreps) (k : ℕ) : ℕ := Irreps.dim (irreps.take k)

/-- `itertools.permutations`, reduced_tensor_product.py:387-394: the arrangements of `n` elements of the list, in the order of the
positions (the elements are distinct). -/
def lexPerms : ℕ → List ℕ → List (List ℕ)
  | 0, _ => [[]]
  | n + 1, l => l.flatMap fun x => (lexPerms n (l.erase x)).map (x :: ·)

/-- The permutations of the axes that give a sequence not seen before, reduced_tensor_product.py:497-505. -/
def newPerms (c : List ℕ) : List (List ℕ) :=
  (lexPerms c.length (List.range c.length)).foldl (fun acc a =>
    if acc.any fun b => b.map (fun i => c.getD i 0) == a.map (fun i => c.getD i 0) then acc else acc ++ [a]) []

open Classical in
/-- The array transposed by `permuted_axes` and added to zeros in the slices of the permuted indices, reduced_tensor_product.py:507-519. -/
noncomputable def embed (irreps : Irreps) (c a : List ℕ) (t : Ten) : Ten := fun σ =>
  if ∀ m < a.length, startOf irreps (c.getD (a.getD m 0) 0) ≤ σ m ∧ σ m < startOf irreps (c.getD (a.getD m 0) 0 + 1) then
    t fun k => σ (a.idxOf k) - startOf irreps (c.getD k 0)
  else 0

/-- `symmetrized_sum_of_permuted_bases`, reduced_tensor_product.py:493-524. -/
noncomputable def symmetrize (irreps : Irreps) (c : List ℕ) (t : Ten) : Ten :=
  (Real.sqrt (newPerms c).length)⁻¹ • ((newPerms c).map fun a => embed irreps c a t).sum

/-- `_tp_ir_seq_pow`, reduced_tensor_product.py:311-317. -/
def tpIrSeqPow (irs : List Irrep) (n : ℕ) : List Irrep :=
  (List.range n).foldl (fun out _ => out.flatMap fun a => irs.flatMap fun b => a.mul b) [⟨0, .e⟩]

/-- How the powers of one irrep are computed: `reduced_symmetric_tensor_product_basis(mul_ir, n, keep_ir=keep)`
(reduced_tensor_product.py:438-443). -/
abbrev Power := MulIrrep → ℕ → Option (List Irrep) → Except PyErr (IArr Ten)

/-- One turn of the loop over the tuples, reduced_tensor_product.py:460-528: nothing if the product is empty. -/
noncomputable def term (irreps : Irreps) (pows : List (List (IArr Ten))) (keep : Option (List Irrep)) (powers : List ℕ) :
    Except PyErr (Option (IArr Ten)) := do
  let nz := nonZero powers
  let ts ← placeTerms 0 (nz.map fun q => (q.2, (pows.getD q.1 []).getD (q.2 - 1) ⟨[], [], none, none⟩))
  let p ← productBasis keep ts
  if p.irreps.dim = 0 then return none
  else do
    let y ← IArr.ofArray p.irreps (p.array.map (symmetrize irreps (repeatIndices nz)))
    return some y

/-- `_optimized_reduced_symmetric_tensor_product_basis`, reduced_tensor_product.py:320-534. -/
noncomputable def optimizedWith (pow : Power) : Optimized := fun irreps degree keep => do
  let irreps := singles irreps
  let pows ← irreps.mapM fun mi => (List.range degree).mapM fun n =>
    pow mi (n + 1) (tpIrSeq keep (tpIrSeqPow (irreps.map MulIrrep.ir) (degree - (n + 1))))
  let ys ← (tuplesWithSum irreps.length degree).mapM (term irreps pows keep)
  let basis ← IArr.concatenate ys.reduceOption
  let basis ← basis.sort
  IArr.ofArray basis.irreps.simplify basis.array

/-- The powers of one irrep, by the general algorithm (the test of reduced_tensor_product.py:213-218 fails for a single irrep, see
`Single.not_optimized` of Props/C97); the fuel is enough (C94). -/
noncomputable def power (eigh : Eigh) (eps : ℝ) : Power := fun mi n keep =>
  (symmetricBasis eigh eps (fun _ _ _ => .error .runtimeError) true ((n - 1) ^ 2 + n) [mi] n keep).getD (.error .runtimeError)

/-- The optimized algorithm as it is called by `_reduced_tensor_product_basis`, reduced_tensor_product.py:212-223. -/
noncomputable def optimized (eigh : Eigh) (eps : ℝ) : Optimized := optimizedWith (power eigh eps)

end E3nn.RTP
