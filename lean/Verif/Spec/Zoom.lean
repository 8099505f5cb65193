import Mathlib.Algebra.Order.Archimedean.Real.Basic
import Mathlib.Algebra.Module.Basic

/-!
# Resampling of images
-/

namespace E3nn.Zoom

variable {V : Type} [AddCommGroup V] [Module ℝ V]

/-- `f` is the broken line through the values `g`: the value `g k` at `k`, linear between neighbouring integers, constant outside of `[0, n - 1]`. -/
structure BrokenLine {n : ℕ} (g : Fin n → V) (f : ℝ → V) : Prop where
  node : ∀ k : Fin n, f (k : ℕ) = g k
  between : ∀ (k : ℕ) (t : ℝ), k + 1 < n → 0 ≤ t → t ≤ 1 → f (k + t) = (1 - t) • f k + t • f (k + 1)
  left : ∀ x, x ≤ 0 → f x = f 0
  right : ∀ x, (n : ℝ) - 1 ≤ x → f x = f ((n : ℝ) - 1)

/-- The position, in voxels of the source, of the centre of voxel `k` of the target, when `n` voxels and `m` voxels cover the same interval
and voxel `0` of the source is centred at `0`. -/
noncomputable def centre (n m : ℕ) (k : ℕ) : ℝ := (k + 1 / 2) * n / m - 1 / 2

/-- `a` is nearest to `x` among `0, ..., n - 1`, and even if there are two. -/
def Nearest (n : ℕ) (x : ℝ) (a : Fin n) : Prop :=
  (∀ b : Fin n, |x - (a : ℕ)| ≤ |x - (b : ℕ)|) ∧ ∀ b : Fin n, b ≠ a → |x - (a : ℕ)| = |x - (b : ℕ)| → Even (a : ℕ)

/-- `m` is the integer nearest to `x`, the even one if there are two. -/
def IsRound (x : ℝ) (m : ℕ) : Prop := |x - m| ≤ 1 / 2 ∧ (|x - m| = 1 / 2 → Even m)

end E3nn.Zoom
