import Verif.Model.Basic
import Verif.Model.Transform

/-!
# Model of `normal` and `where` (basic.py)
-/

namespace E3nn.Basic

open E3nn.IArr

variable {ι : Type}

/-- `r / jnp.linalg.norm(r, axis=-1, keepdims=True)` of one row, basic.py:630.  (A row of zeros gives nan
in the code and zeros here.) -/
noncomputable def unitRow (_ir : Irrep) (r : List (ι → ℝ)) : List (ι → ℝ) :=
  r.map fun c i => c i / Real.sqrt (rowDot r r i)

/-- `r / jnp.sqrt(ir.dim)` of one row, basic.py:644. -/
noncomputable def scaleRow (ir : Irrep) (r : List (ι → ℝ)) : List (ι → ℝ) :=
  r.map fun c i => c i / Real.sqrt ir.dim

/-- `normal(irreps, key, leading_shape, normalize=.., normalization=..)`, basic.py:562-648.  The pseudo-random
numbers are an argument: `g` is the concatenation of the arrays of standard normal numbers drawn by
`jax.random.normal` (one draw of `irreps.dim` numbers at 637, one draw of shape `(mul, ir.dim)` for each
term at 629 and 643, with a key of its own). -/
noncomputable def normal (normalize : Bool) (n : IrNorm) (irreps : Irreps) (g : List (ι → ℝ)) : Except PyErr (IArr (ι → ℝ)) := do
  let draws ← ofArray irreps g
  if normalize then
    fromChunks irreps ((irreps.zip draws.chunks).map (actRows unitRow))
  else
    match n with
    | .component => ofArray irreps g
    | .norm => fromChunks irreps ((irreps.zip draws.chunks).map (actRows scaleRow))
    | _ => .error .valueError

/-- `jnp.where(mask, x, y)` of one column; the mask has last dimension 1, so it is a function of the leading
indices, basic.py:686. -/
def sel (mask : ι → Bool) (a b : ι → ℝ) : ι → ℝ := fun i => if mask i then a i else b i

/-- The function `f` of `where` on one pair of chunks, basic.py:689-697. -/
def whereChunk (mask : ι → Bool) : Chunk (ι → ℝ) → Chunk (ι → ℝ) → Chunk (ι → ℝ)
  | none, none => none
  | none, some y => some (y.map fun r => r.map (sel mask 0))
  | some x, none => some (x.map fun r => r.map fun a => sel mask a 0)
  | some x, some y => some (List.zipWith (List.zipWith (sel mask)) x y)

/-- `where(mask, x, y)`, basic.py:651-704; `maskDim` is the last dimension of the mask (the mask itself is used
only when it is 1). -/
def where_ (maskDim : Nat) (mask : ι → Bool) (x y : IArr (ι → ℝ)) : Except PyErr (IArr (ι → ℝ)) :=
  if x.irreps ≠ y.irreps then .error .valueError
  else if maskDim ≠ 1 ∧ maskDim ≠ x.irreps.numIrreps then .error .valueError
  else if maskDim ≠ 1 then .error .notImplemented
  else
    make x.irreps (List.zipWith (sel mask) x.array y.array) (some (List.zipWith (· && ·) x.zeroFlags y.zeroFlags))
      (some (List.zipWith (whereChunk mask) x.chunks y.chunks))

end E3nn.Basic
