import Verif.Model.TransformO3
import Verif.Spec.IArr

/-!
# What is assumed of a function passed to `grad`
-/

namespace E3nn.Grad

open E3nn.IArr E3nn.Rot

variable {α β : Type}

/-- No term is flagged as zero. -/
def Unflagged {γ : Type} (x : IArr γ) : Prop := ∀ z ∈ x.zeroFlags, z = false

/-- `fn` computes, on arguments of irreps `ms`, arrays of irreps `out` without flagged terms, by the function `F` of the numbers. -/
def Computes (fn : IArr (β → ℝ) → Except PyErr (IArr (α → ℝ))) (ms out : Irreps)
    (F : (Fin (dimOf (expand ms)) → β → ℝ) → Fin (dimOf (expand out)) → α → ℝ) : Prop :=
  ∀ x : IArr (β → ℝ), x.Coherent → x.irreps = ms → Unflagged x → ∃ y, fn x = .ok y ∧ y.Coherent ∧ y.irreps = out ∧ Unflagged y ∧
    y.array = List.ofFn (F fun k => x.array.getD k 0)

/-- `g` at the transformed argument is the transformed value of `f`. -/
def Follows (R : Mat) (f g : IArr (β → ℝ) → Except PyErr (IArr (α → ℝ))) (ms : Irreps) : Prop :=
  ∀ x x' x'' : IArr (β → ℝ), x.Coherent → x.irreps = ms → Unflagged x → x'.Coherent → x'.irreps = ms → Unflagged x' →
    x.transformByMatrix R = .ok x'' → x'.array = x''.array →
    ∀ y y' y'', f x = .ok y → g x' = .ok y' → y.transformByMatrix R = .ok y'' → y'.irreps = y''.irreps ∧ y'.array = y''.array

end E3nn.Grad
