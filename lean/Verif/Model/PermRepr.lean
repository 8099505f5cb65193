import Verif.Model.Parse
import Verif.Model.PermGroup
import Mathlib.Data.Finset.Image
import Mathlib.Data.List.Permutation
import Mathlib.Analysis.SpecialFunctions.Pow.Real
import Mathlib.Analysis.SpecialFunctions.Sqrt

/-!
# Model of `e3nn_jax/_src/reduced_tensor_product.py`, part 2: index symmetries

A signed permutation is a pair `(s, p)`. A Python `frozenset` is a `Finset` (or, inside the closure loop, a duplicate-free list).
-/

namespace E3nn.PermRepr

open E3nn.Perm E3nn.Parse

/-- `(sign, permutation of the indices)` (reduced_tensor_product.py:557). -/
abbrev SPerm := ℤ × List ℕ

/-- `[(-1 if f.startswith("-") else 1, f.replace("-", "")) for f in formula.split("=")]`, reduced_tensor_product.py:542-544. -/
def formulas (formula : List Char) : List (ℤ × List Char) :=
  (splitOn '=' formula).map fun f => (if f.head? = some '-' then -1 else 1, f.filter (· ≠ '-'))

/-- The tests of a formula; `len(set(f)) != len(f)` is "a letter is repeated" (reduced_tensor_product.py:548-552). -/
def badFormula (f0 f : List Char) : Bool :=
  f.eraseDups.length != f.length || !(f.all (f0.contains ·) && f0.all (f.contains ·)) || f0.length != f.length

/-- `(s, tuple(f.index(i) for i in f0))`  (reduced_tensor_product.py:557). -/
def generator (f0 : List Char) (q : ℤ × List Char) : SPerm := (q.1, f0.map q.2.idxOf)

/-- One round of the loop (reduced_tensor_product.py:565-572). -/
def closeStep (s : List SPerm) : Except PyErr (List SPerm) :=
  match s.mapM (fun q => (inverse q.2).map fun r => (q.1, r)) with
  | .error e => .error e
  | .ok invs =>
    let s1 := (s ++ invs).eraseDups
    match (s1.flatMap fun a => s1.map fun b => (a, b)).mapM (fun ab => (compose ab.1.2 ab.2.2).map fun r => (ab.1.1 * ab.2.1, r)) with
    | .error e => .error e
    | .ok comps => .ok (s1 ++ comps).eraseDups

/-- The loop with fuel for `while True`; `none` means the fuel is exhausted (reduced_tensor_product.py:563-574). -/
def close : ℕ → List SPerm → Option (Except PyErr (List SPerm))
  | 0, _ => none
  | fuel + 1, s =>
    match closeStep s with
    | .error e => some (.error e)
    | .ok s' => if s'.length = s.length then some (.ok s') else close fuel s'

/-- `germinate_perm_repr`, reduced_tensor_product.py:537-576. -/
def germinatePermRepr (fuel : ℕ) (formula : List Char) : Option (Except PyErr (List Char × Finset SPerm)) :=
  match formulas formula with
  | [] => some (.error .indexError)
  | (s0, f0) :: rest =>
    if s0 ≠ 1 then some (.error .assertion)
    else if ((s0, f0) :: rest).any fun q => badFormula f0 q.2 then some (.error .runtimeError)
    else
      match close fuel ((((s0, f0) :: rest).map (generator f0)).eraseDups) with
      | none => none
      | some (.error e) => some (.error e)
      | some (.ok g) => some (.ok (f0, g.toFinset))

/-- `_symmetric_perm_repr`, reduced_tensor_product.py:118-119; `itertools.permutations` as a set. -/
def symmetricPermRepr (n : ℕ) : Finset SPerm := (List.range n).permutations.toFinset.image fun p => (1, p)

/-- `_antisymmetric_perm_repr`, reduced_tensor_product.py:161-162. -/
def antisymmetricPermRepr (n : ℕ) : Finset SPerm := (List.range n).permutations.toFinset.image fun p => ((sign p).getD 0, p)

/-- `subrepr_permutation`, reduced_tensor_product.py:662-672: `sub` is `sorted(sub_f0)`. -/
def subrepr (sub : List ℕ) (G : Finset SPerm) : Finset SPerm :=
  (G.filter fun q => (q.2.zipIdx).all fun ij => sub.contains ij.1 || ij.1 == ij.2).image fun q => (q.1, (q.2.filter fun i => sub.contains i).map sub.idxOf)

/-- `itertools.product(*(range(d) for d in dims))`, reduced_tensor_product.py:698-699. -/
def fullBase : List ℕ → List (List ℕ)
  | [] => [[]]
  | d :: ds => (List.range d).flatMap fun k => (fullBase ds).map (k :: ·)

/-- `tuple(x[i] for i in p)` (reduced_tensor_product.py:715). -/
def permute (x p : List ℕ) : List ℕ := p.map fun i => x.getD i 0

/-- `xs`, reduced_tensor_product.py:715. -/
def orbit (G : Finset SPerm) (x : List ℕ) : Finset SPerm := G.image fun q => (q.1, permute x q.2)

/-- `{(-s, x) for s, x in xs}`, reduced_tensor_product.py:720. -/
def negOrbit (xs : Finset SPerm) : Finset SPerm := xs.image fun q => (-q.1, q.2)

/-- `reduce_permutation_base`, reduced_tensor_product.py:703-724. -/
def reducePermutationBase (G : Finset SPerm) (dims : List ℕ) : Finset (Finset (Finset SPerm)) :=
  (((fullBase dims).filter fun x => decide ((-1, x) ∉ orbit G x)).map fun x => ({orbit G x, negOrbit (orbit G x)} : Finset (Finset SPerm))).toFinset

/-- Python's `<` on tuples and lists (lexicographic) (reduced_tensor_product.py:732-733). -/
def ltList {α : Type} [DecidableEq α] (lt : α → α → Bool) : List α → List α → Bool
  | [], [] => false
  | [], _ :: _ => true
  | _ :: _, [] => false
  | a :: as, b :: bs => if a = b then ltList lt as bs else lt a b

/-- `<` on the pairs `(s, x)` (reduced_tensor_product.py:732-733). -/
def ltPair (a b : SPerm) : Bool := if a.1 = b.1 then ltList (fun i j => decide (i < j)) a.2 b.2 else decide (a.1 < b.1)

/-- `max(l, key)` for a non-empty list: the first of the largest (reduced_tensor_product.py:741). -/
def maxKey (key : List SPerm → ℤ) : List (List SPerm) → List SPerm
  | [] => []
  | a :: l => l.foldl (fun m b => if key m < key b then b else m) a

/-- The position of the multi-index `e`, reduced_tensor_product.py:743-746. -/
def flat (dims e : List ℕ) : ℕ := (e.zip dims).foldl (fun j q => j * q.2 + q.1) 0

/-- The sorted list of lists `base`, reduced_tensor_product.py:732-734. -/
noncomputable def sortedBase (base : Finset (Finset (Finset SPerm))) : List (List (List SPerm)) :=
  pySorted (ltList (ltList ltPair)) (base.toList.map fun x => pySorted (ltList ltPair) (x.toList.map fun xs => pySorted ltPair xs.toList))

/-- One row of `Q`, reduced_tensor_product.py:740-747. -/
noncomputable def row (dims : List ℕ) (x : List (List SPerm)) : List ℝ :=
  let xs := maxKey (fun xs => (xs.map Prod.fst).sum) x
  xs.foldl (fun r q => r.set (flat dims q.2) ((q.1 : ℝ) / Real.sqrt xs.length)) (List.replicate dims.prod 0)

/-- The scalar product of two rows (reduced_tensor_product.py:749). -/
noncomputable def dotRows (a b : List ℝ) : ℝ := (List.zipWith (· * ·) a b).sum

open Classical in
/-- `reduce_permutation_matrix`, reduced_tensor_product.py:728-751: the rows of `Q` before the final reshape; line 749 raises unless
`Q @ Q.T` is the identity (exactly, in the model). -/
noncomputable def reducePermutationMatrix (base : Finset (Finset (Finset SPerm))) (dims : List ℕ) : Except PyErr (List (List ℝ)) :=
  let Q := (sortedBase base).map (row dims)
  if ∀ i < Q.length, ∀ j < Q.length, dotRows (Q.getD i []) (Q.getD j []) = if i = j then 1 else 0 then .ok Q else .error .assertion

/-- `reduce_subgroup_permutation`, reduced_tensor_product.py:675-694, without the final reshape; `sub` is the sorted list of `sub_f0`
(the code iterates the frozenset, which is sorted for the small integers that occur with at most 8 indices). -/
noncomputable def reduceSubgroup (sub : List ℕ) (G : Finset SPerm) (dims : List ℕ) : Except PyErr (List (List ℝ)) :=
  let subDims := sub.map fun i => dims.getD i 0
  if (subrepr sub G).card = 1 then .ok ((List.range subDims.prod).map fun i => (List.range subDims.prod).map fun j => if i = j then 1 else 0)
  else reducePermutationMatrix (reducePermutationBase (subrepr sub G) subDims) subDims

/-- `reduce_subgroup_permutation(..., return_dim=True)` (reduced_tensor_product.py:681-689). -/
def reduceSubgroupDim (sub : List ℕ) (G : Finset SPerm) (dims : List ℕ) : ℕ :=
  let subDims := sub.map fun i => dims.getD i 0
  if (subrepr sub G).card = 1 then subDims.prod else (reducePermutationBase (subrepr sub G) subDims).card

end E3nn.PermRepr
