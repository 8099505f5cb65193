import Verif.Model.Einsum
import Mathlib.Algebra.BigOperators.Finprod
import Mathlib.Analysis.Calculus.Deriv.Mul
import Mathlib.Analysis.Calculus.Deriv.Add

/-!
# What `einsum` and a derivative of it are

Nothing here uses the helpers of the model.
-/

namespace E3nn.Ein

/-- A position of an array of this shape. -/
def InShape (i shape : List ℕ) : Prop := List.Forall₂ (· < ·) i shape

/-- The assignments of numbers to letters that meet the lengths of all axes and give the position `o` of the output
(letters that do not occur have the number zero). -/
def Assign (e : Eqn) (xs : List Tensor) (o : List ℕ) : Set (Char → ℕ) :=
  {s | (∀ p ∈ e.ins.zip xs, InShape (p.1.map s) p.2.shape) ∧ (∀ c, (∀ ls ∈ e.ins, c ∉ ls) → s c = 0) ∧ e.out.map s = o}

/-- The sum over all assignments of the products of the entries. -/
noncomputable def value (e : Eqn) (xs : List Tensor) (o : List ℕ) : ℝ :=
  ∑ᶠ s ∈ Assign e xs o, ((e.ins.zip xs).map fun p => p.2.val (p.1.map s)).prod

/-- The equation fits the operands. -/
structure Fits (e : Eqn) (xs : List Tensor) : Prop where
  nonempty : e.ins ≠ []
  number : e.ins.length = xs.length
  rank : ∀ p ∈ e.ins.zip xs, p.1.length = p.2.shape.length
  lengths : ∀ p ∈ e.ins.zip xs, ∀ q ∈ e.ins.zip xs, ∀ c m n, (c, m) ∈ p.1.zip p.2.shape → (c, n) ∈ q.1.zip q.2.shape → m = n
  out_nodup : e.out.Nodup
  out_mem : ∀ c ∈ e.out, ∃ ls ∈ e.ins, c ∈ ls

/-- A curve of arrays of one shape passes at time `t` through `x` with velocity `d`. -/
def Velocity (X : ℝ → Tensor) (t : ℝ) (x d : Tensor) : Prop :=
  (∀ u, (X u).shape = x.shape) ∧ d.shape = x.shape ∧
    ∀ i, InShape i x.shape → (X t).val i = x.val i ∧ HasDerivAt (fun u => (X u).val i) (d.val i) t

end E3nn.Ein
