import Verif.Model.ReducedOpt

/-!
# Model of `e3nn_jax/_src/symmetric_tensor_product_haiku.py` (`SymmetricTensorProduct`)

One element of the batch axes (`hk.vmap`, lines 144-149); the channel axis is represented: a column of the input is a function of the channel.
The entries of the parameters are a function of the order, the irrep, the position `k` in the multiplicity and the channel.
-/

namespace E3nn.SymTP

open E3nn.RTP Finset

variable {C : Type}

/-- The parameters `w{order}_{ir_out}` of shape `(mul, num_channel)`, symmetric_tensor_product_haiku.py:103-107. -/
abbrev Weights (C : Type) := ℕ → Irrep → ℕ → C → ℝ

/-- The contraction of axis `n` with the vector `x`: `...j,j->...` (symmetric_tensor_product_haiku.py:112, 128-130). -/
noncomputable def contract (n d : ℕ) (x : ℕ → ℝ) (t : Ten) : Ten := fun σ => ∑ j ∈ range d, t (Function.update σ n j) * x j

/-- The value of a key of `out`: the mark `"special"` and the array, of shape `(num_channel, (irreps_x.dim)^n, ir_out.dim)`, as the list over the last
axis (symmetric_tensor_product_haiku.py:110-113). -/
abbrev Entry (C : Type) := Bool × List (C → Ten)

/-- The dictionary `out`, symmetric_tensor_product_haiku.py:80. -/
abbrev Out (C : Type) := List (Irrep × Entry C)

/-- `out[ir]` (symmetric_tensor_product_haiku.py:109-117). -/
def look (out : Out C) (ir : Irrep) : Option (Entry C) := (out.find? fun q => q.1 == ir).map Prod.snd

/-- `jnp.einsum("...ki,kc->c...i", u / mul, w)`, symmetric_tensor_product_haiku.py:95-117. -/
noncomputable def weighted (rows : List (List Ten)) (dim : ℕ) (w : ℕ → C → ℝ) : List (C → Ten) :=
  (List.range dim).map fun i c => ∑ k ∈ range rows.length, w k c • ((rows.length : ℝ)⁻¹ • (rows.getD k []).getD i 0)

/-- The array of the input, channel by channel (symmetric_tensor_product_haiku.py:112). -/
def vec (x : IArr (C → ℝ)) (c : C) (j : ℕ) : ℝ := x.array.getD j 0 c

/-- One turn of the loop over the irreps of `U`, symmetric_tensor_product_haiku.py:92-117.  Adding an array to the tuple `("special", ...)`
raises `TypeError`.  A chunk that is `None` counts as zeros (`RTP.chunkRows`). -/
noncomputable def addIrrep (order : ℕ) (x : IArr (C → ℝ)) (w : Weights C) (out : Out C) (q : MulIrrep × Chunk Ten) : Except PyErr (Out C) :=
  let v := weighted (chunkRows q) q.1.ir.dim (w order q.1.ir)
  match look out q.1.ir with
  | none => .ok (out ++ [(q.1.ir, true, v.map fun t c => contract (order - 1) x.irreps.dim (vec x c) (t c))])
  | some (true, _) => .error .typeError
  | some (false, _) => .ok (out.map fun p => if p.1 = q.1.ir then (p.1, p.2.1, List.zipWith (· + ·) p.2.2 v) else p)

/-- The second loop, symmetric_tensor_product_haiku.py:123-130. -/
noncomputable def contractAll (order : ℕ) (x : IArr (C → ℝ)) (out : Out C) : Out C :=
  out.map fun p => (p.1, false, if p.2.1 then p.2.2 else p.2.2.map fun t c => contract (order - 1) x.irreps.dim (vec x c) (t c))

/-- One turn of the loop over the orders, symmetric_tensor_product_haiku.py:82-134; `U` is `reduced_symmetric_tensor_product_basis(x.irreps, order, keep_ir=...)`. -/
noncomputable def step (orders : List ℕ) (U : ℕ → Except PyErr (IArr Ten)) (w : Weights C) (x : IArr (C → ℝ)) (out : Out C) (order : ℕ) : Except PyErr (Out C) := do
  let u ← U order
  let out ← if order ∈ orders then (u.irreps.zip u.chunks).foldlM (addIrrep order x w) out else .ok out
  return contractAll order x out

/-- `SymmetricTensorProduct.__call__` (and the assertions of `__init__`, lines 50-52), symmetric_tensor_product_haiku.py:68-149. -/
noncomputable def call (orders : List ℕ) (U : ℕ → Except PyErr (IArr Ten)) (w : Weights C) (x : IArr (C → ℝ)) : Except PyErr (IArr (C → ℝ)) :=
  if orders.any (· == 0) then .error .assertion
  else match orders.max? with
    | none => .error .valueError
    | some m => do
      let out ← ((List.range m).reverse.map (· + 1)).foldlM (step orders U w x) []
      let irs := pySorted Irrep.lt (out.map Prod.fst)
      IArr.fromChunks (irs.map fun ir => ⟨1, ir⟩) (irs.map fun ir => (look out ir).map fun e => [e.2.map fun t c => t c fun _ => 0])

/-- `SymmetricTensorProduct(orders, keep_irrep_out)(x)` with the bases of `reduced_symmetric_tensor_product_basis`, symmetric_tensor_product_haiku.py:40-149.
Simplification: `keep_irrep_out` is `None` or a list of irreps (the parsing of strings, lines 55-60, is not modelled). -/
noncomputable def symmetricTensorProduct (eigh : LinAlg.Eigh) (eps : ℝ) (fuel : ℕ) (orders : List ℕ) (keep : Option (List Irrep)) (w : Weights C) (x : IArr (C → ℝ)) :
    Except PyErr (IArr (C → ℝ)) :=
  call orders (fun r => (symmetricBasis eigh eps (optimized eigh eps) true fuel x.irreps r keep).getD (.error .runtimeError)) w x

end E3nn.SymTP
