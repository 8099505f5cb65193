import Verif.Model.Py
import Mathlib.Data.Real.Basic
import Mathlib.Data.List.Dedup
import Mathlib.Algebra.BigOperators.Group.Finset.Basic

/-!
# `einsum` with its custom derivative (utils/einsum.py:8-17)

`jnp.einsum` is an external function; it is modelled for an equation that is already split at the commas and the arrow, without ellipsis and
with the output written out. Tensors have real entries. The contraction order (`optimize="optimal"`) does not change exact values.
-/

namespace E3nn.Ein

/-- An array: its shape and its entries; entries outside the shape are never read (utils/einsum.py:9: the operands `*xs`). -/
structure Tensor where
  shape : List ℕ
  val : List ℕ → ℝ

/-- The equation `"ab,bc->ac"`, split into the letters of each operand and of the output (utils/einsum.py:9: `eq`). -/
structure Eqn where
  ins : List (List Char)
  out : List Char

/-- The letters of the operands with the lengths of their axes (utils/einsum.py:10, inside `jnp.einsum`). -/
def pairs (e : Eqn) (xs : List Tensor) : List (Char × ℕ) := (List.zipWith (fun ls x => ls.zip x.shape) e.ins xs).flatten

/-- The length belonging to a letter: its first axis (utils/einsum.py:10, inside `jnp.einsum`). -/
def size (e : Eqn) (xs : List Tensor) (c : Char) : ℕ := ((pairs e xs).lookup c).getD 0

/-- The checks of `jnp.einsum` (utils/einsum.py:10): as many operands as in the equation, one letter for each axis, one length for each
letter, output letters that are distinct and occur in the operands. Simplified: axes of length one are not broadcast against others, the
call is then `undefined`. -/
def check (e : Eqn) (xs : List Tensor) : Except PyErr Unit :=
  if e.ins = [] ∨ e.ins.length ≠ xs.length then .error .valueError
  else if (e.ins.zip xs).any fun p => p.1.length != p.2.shape.length then .error .valueError
  else if (pairs e xs).any fun p => size e xs p.1 != p.2 then
    if (pairs e xs).any fun p => size e xs p.1 != p.2 && p.2 != 1 && size e xs p.1 != 1 then .error .valueError else .error .undefined
  else if ¬ e.out.Nodup then .error .valueError
  else if e.out.any fun c => !(e.ins.flatten.contains c) then .error .valueError
  else .ok ()

/-- The letters that are summed (utils/einsum.py:10, inside `jnp.einsum`). -/
def summed (e : Eqn) : List Char := e.ins.flatten.dedup.filter fun c => !(e.out.contains c)

/-- The product of one entry of each operand (utils/einsum.py:10, inside `jnp.einsum`). -/
def prodAt (ins : List (List Char)) (xs : List Tensor) (s : Char → ℕ) : ℝ := (List.zipWith (fun ls x => x.val (ls.map s)) ins xs).prod

/-- The nested sums over the letters that are not in the output (utils/einsum.py:10, inside `jnp.einsum`). -/
noncomputable def sumOver (n : Char → ℕ) (F : (Char → ℕ) → ℝ) : List Char → (Char → ℕ) → ℝ
  | [], s => F s
  | c :: cs, s => ∑ k ∈ Finset.range (n c), sumOver n F cs (Function.update s c k)

/-- The values of the output letters at a position of the output (utils/einsum.py:10, inside `jnp.einsum`). -/
def outEnv (out : List Char) (o : List ℕ) (c : Char) : ℕ := ((out.zip o).lookup c).getD 0

/-- `einsum(eq, *xs)`, utils/einsum.py:8-10. -/
noncomputable def einsum (e : Eqn) (xs : List Tensor) : Except PyErr Tensor :=
  match check e xs with
  | .error err => .error err
  | .ok _ => .ok ⟨e.out.map (size e xs), fun o => sumOver (size e xs) (prodAt e.ins xs) (summed e) (outEnv e.out o)⟩

/-- Entrywise sum of two arrays of equal shapes (utils/einsum.py:15, `sum`). -/
def add (a b : Tensor) : Tensor := ⟨a.shape, fun i => a.val i + b.val i⟩

/-- `einsum_jvp(eq, xs, x_dots)`, utils/einsum.py:13-17: `sum` starts with the number `0`, which is broadcast. -/
noncomputable def einsumJvp (e : Eqn) (xs xds : List Tensor) : Except PyErr (Tensor × Tensor) := do
  let y ← einsum e xs
  let ts ← xds.zipIdx.mapM fun p => einsum e (xs.take p.2 ++ [p.1] ++ xs.drop (p.2 + 1))
  .ok (y, ts.foldl add ⟨y.shape, fun _ => 0⟩)

end E3nn.Ein
