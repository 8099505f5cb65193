import Verif.Model.ReducedTP

/-!
# Model of `e3nn_jax/_src/reduced_tensor_product.py`, part 4: the functions that users call

The keyword arguments `i="1o", ...` are a dictionary in insertion order; their values are already `Irreps` (C11 is about the strings).
`for _sign, p in perm_repr` iterates a `frozenset`: the order is an argument of the model.  `keep_ir` is already a set of irreps.
-/

namespace E3nn.RTP

open E3nn.PermRepr E3nn.LinAlg

/-- A dictionary from names to irreps, in insertion order (reduced_tensor_product.py:81). -/
abbrev Dict := List (List Char × Irreps)

/-- `d.get(k)`; `k in d` is `(d.get k).isSome` (reduced_tensor_product.py:91-100). -/
def Dict.get (d : Dict) (k : List Char) : Option Irreps := (List.find? (fun q => q.1 == k) d).map Prod.snd

/-- `d[k] = v` (reduced_tensor_product.py:97-100). -/
def Dict.set (d : Dict) (k : List Char) (v : Irreps) : Dict :=
  if (Dict.get d k).isSome then List.map (fun q => if q.1 == k then (k, v) else q) d else d ++ [(k, v)]

/-- The body of the inner loop, reduced_tensor_product.py:90-100. -/
def unify (d : Dict) (i j : Char) : Except PyErr Dict :=
  if (match Dict.get d [i], Dict.get d [j] with | some a, some b => decide (a ≠ b) | _, _ => false) then .error .runtimeError
  else
    let d := match Dict.get d [i] with | some a => Dict.set d [j] a | none => d
    let d := match Dict.get d [j] with | some b => Dict.set d [i] b | none => d
    .ok d

/-- The two loops, reduced_tensor_product.py:87-100. -/
def unifyAll (f0 : List Char) (order : List SPerm) (d : Dict) : Except PyErr Dict :=
  order.foldlM (fun d q => (f0.zip (q.2.map fun i => f0.getD i ' ')).foldlM (fun d ij => unify d ij.1 ij.2) d) d

/-- The irreps of the indices, reduced_tensor_product.py:83-111. -/
def irrepsTuple (f0 : List Char) (order : List SPerm) (kw : Dict) : Except PyErr (List Irreps) :=
  if kw.any fun q => q.1.length != 1 then .error .typeError
  else match unifyAll f0 order kw with
    | .error e => .error e
    | .ok d =>
      if f0.any fun c => (Dict.get d [c]).isNone then .error .runtimeError
      else if d.any fun q => !(f0.any fun c => q.1 == [c]) then .error .runtimeError
      else .ok (f0.map fun c => (Dict.get d [c]).getD [])

/-- `reduced_tensor_product_basis` for a formula, reduced_tensor_product.py:78-115; `order G` is the order in which the frozenset `G`
is iterated, `fuel` bounds the two loops. -/
noncomputable def formulaBasis (eigh : Eigh) (eps : ℝ) (opt : Optimized) (flag : Bool) (order : Finset SPerm → List SPerm) (fuel : ℕ) (formula : List Char)
    (kw : Dict) (keep : Option (List Irrep)) : Option (Except PyErr (IArr Ten)) :=
  match germinatePermRepr fuel formula with
  | none => none
  | some (.error e) => some (.error e)
  | some (.ok (f0, G)) =>
    match irrepsTuple f0 (order G) kw with
    | .error e => some (.error e)
    | .ok irr => basis eigh eps opt flag fuel irr G keep

/-- `reduced_tensor_product_basis` for a list of irreps, reduced_tensor_product.py:68-76. -/
noncomputable def listBasis (eigh : Eigh) (eps : ℝ) (opt : Optimized) (flag : Bool) (fuel : ℕ) (irr : List Irreps) (keep : Option (List Irrep)) :
    Option (Except PyErr (IArr Ten)) :=
  basis eigh eps opt flag fuel irr {(1, List.range irr.length)} keep

/-- `reduced_symmetric_tensor_product_basis`, reduced_tensor_product.py:122-158. -/
noncomputable def symmetricBasis (eigh : Eigh) (eps : ℝ) (opt : Optimized) (flag : Bool) (fuel : ℕ) (irreps : Irreps) (degree : ℕ) (keep : Option (List Irrep)) :
    Option (Except PyErr (IArr Ten)) :=
  basis eigh eps opt flag fuel (List.replicate degree irreps) (symmetricPermRepr degree) keep

/-- `reduced_antisymmetric_tensor_product_basis`, reduced_tensor_product.py:165-201. -/
noncomputable def antisymmetricBasis (eigh : Eigh) (eps : ℝ) (opt : Optimized) (flag : Bool) (fuel : ℕ) (irreps : Irreps) (degree : ℕ) (keep : Option (List Irrep)) :
    Option (Except PyErr (IArr Ten)) :=
  basis eigh eps opt flag fuel (List.replicate degree irreps) (antisymmetricPermRepr degree) keep

end E3nn.RTP
