import Verif.Model.Perm
import Mathlib.Probability.Distributions.Uniform

/-!
# `perm.rand` (perm.py:30-32)
-/

namespace E3nn.Perm

/-- The numbers `randint(0, n! - 1)` can return (perm.py:31). -/
theorem randint_nonempty (n : ℕ) : (Finset.Icc 0 (factorial n - 1)).Nonempty := ⟨0, by simp⟩

/-- `rand(n)`, perm.py:30-32. `random.randint(a, b)` draws uniformly from `a, …, b`, both included (Python documentation); `0` is at most
`n! - 1`, so the call does not raise. -/
noncomputable def rand (n : ℕ) : PMF (List ℕ) :=
  (PMF.uniformOfFinset (Finset.Icc 0 (factorial n - 1)) (randint_nonempty n)).map fun i => fromInt i n

end E3nn.Perm
