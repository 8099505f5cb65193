import Verif.Model.TransformO3
import Mathlib.Analysis.Calculus.FDeriv.Basic
import Mathlib.Analysis.Calculus.FDeriv.Pi

/-!
# Model of `e3nn_jax/_src/grad.py`

The function is differentiated with respect to one argument; the other arguments are part of `fun`
(`argnums`), and the auxiliary output of `has_aux=True`, which is passed on unchanged, is not represented.
`jax.jacobian` is the Fréchet derivative over the real numbers.  `α` are the leading indices of the output, `β`
those of the argument; those of the result are the pairs.
-/

namespace E3nn.Grad

open E3nn.IArr

variable {α β : Type}

/-- The numbers in a list of chunks of shapes `(leading, mul, 2 l + 1)`: one per term, copy, component and leading
index, grad.py:46. -/
abbrev Pt (ms : Irreps) (β : Type) :=
  (t : Fin ms.length) → Fin (ms.get t).mul → Fin (2 * (ms.get t).ir.l + 1) → β → ℝ

/-- The list of chunks, grad.py:46. -/
def chunksOf {ms : Irreps} (w : Pt ms β) : List (Chunk (β → ℝ)) :=
  List.ofFn fun t => some (List.ofFn fun v => List.ofFn fun j => w t v j)

/-- The number at a term, copy, component of a list of chunks, grad.py:46, 63, 68. -/
def entry (cs : List (Chunk (α → ℝ))) (s u i : ℕ) : α → ℝ := (((cs.getD s none).getD []).getD u []).getD i 0

/-- The argument in these coordinates, grad.py:45-46. -/
def ptOf (x : IArr (β → ℝ)) : Pt x.irreps β := fun t v j => entry x.chunks t v j

/-- `naked_fun`, grad.py:48-68: one number of the chunks returned by `fun` (0 where `fun` raises). -/
def naked (fn : IArr (β → ℝ) → Except PyErr (IArr (α → ℝ))) (ms : Irreps) (w : Pt ms β) (s u i : ℕ) (a : α) : ℝ :=
  match fromChunks ms (chunksOf w) >>= fn with
  | .ok y => entry y.chunks s u i a
  | .error _ => 0

/-- The direction of one coordinate. -/
def unit {ms : Irreps} [DecidableEq β] (t : Fin ms.length) (v : Fin (ms.get t).mul) (j : Fin (2 * (ms.get t).ir.l + 1)) (b : β) : Pt ms β :=
  Pi.single t (Pi.single v (Pi.single j (Pi.single b 1)))

/-- An entry of `jax.jacobian(naked_fun)`, grad.py:70-74. -/
noncomputable def jac [Fintype β] [DecidableEq β] (fn : IArr (β → ℝ) → Except PyErr (IArr (α → ℝ))) (ms : Irreps) (w : Pt ms β)
    (s u i : ℕ) (a : α) (t : Fin ms.length) (v : Fin (ms.get t).mul) (j : Fin (2 * (ms.get t).ir.l + 1)) (b : β) : ℝ :=
  fderiv ℝ (fun w => naked fn ms w s u i a) w (unit t v j b)

/-- One entry of `lst` with its entry of `irreps`, grad.py:82-114; the copies are those of the output times those of the input. -/
noncomputable def contracted [Fintype β] [DecidableEq β] (fn : IArr (β → ℝ) → Except PyErr (IArr (α → ℝ))) (ms : Irreps) (w : Pt ms β)
    (mo : MulIrrep) (s : ℕ) (t : Fin ms.length) (ir : Irrep) : MulIrrep × Chunk (α × β → ℝ) :=
  (⟨mo.mul * (ms.get t).mul, ir⟩,
    some ((List.range mo.mul).flatMap fun u => List.ofFn fun v => List.ofFn fun k : Fin (2 * ir.l + 1) => fun ab =>
      ∑ i : Fin (2 * mo.ir.l + 1), ∑ j : Fin (2 * (ms.get t).ir.l + 1),
        jac fn ms w s u i ab.1 t v j ab.2 * (Real.sqrt ir.dim * SU2.clebschGordan mo.ir.l (ms.get t).ir.l ir.l i j k)))

/-- The loops, grad.py:81-114. -/
noncomputable def entries [Fintype β] [DecidableEq β] (fn : IArr (β → ℝ) → Except PyErr (IArr (α → ℝ))) (ms : Irreps) (w : Pt ms β) (out : Irreps) :
    List (MulIrrep × Chunk (α × β → ℝ)) :=
  out.zipIdx.flatMap fun mo => (List.finRange ms.length).flatMap fun t =>
    (mo.1.ir.mul (ms.get t).ir).map fun ir => contracted fn ms w mo.1 mo.2 t ir

/-- `grad(fun, regroup_output=regroup)(x)`, grad.py:37-123.  Where a chunk of the output is `None` the Jacobian has `None` at its place, and
`zip(irreps_in, None)` raises. -/
noncomputable def grad [Fintype β] [DecidableEq β] (fn : IArr (β → ℝ) → Except PyErr (IArr (α → ℝ))) (regroup : Bool) (x : IArr (β → ℝ)) :
    Except PyErr (IArr (α × β → ℝ)) := do
  let x ← ofArray x.irreps x.array
  let y ← fromChunks x.irreps x.chunks >>= fn
  if y.chunks.any Option.isNone then .error .typeError
  else do
    let es := entries fn x.irreps (ptOf x) y.irreps
    let out ← fromChunks (es.map Prod.fst) (es.map Prod.snd)
    if regroup then out.regroup else .ok out

end E3nn.Grad
