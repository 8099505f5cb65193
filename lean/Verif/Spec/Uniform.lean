import Mathlib.MeasureTheory.Measure.Lebesgue.Basic
import Mathlib.MeasureTheory.Measure.Prod

/-!
# The uniform random numbers
-/

namespace E3nn.SO3

open MeasureTheory

/-- The uniform distribution on `[0, 1)`. -/
noncomputable def unif : Measure ℝ := volume.restrict (Set.Ico 0 1)

/-- Three independent numbers, each uniform on `[0, 1)`. -/
noncomputable def unif3 : Measure (ℝ × ℝ × ℝ) := unif.prod (unif.prod unif)

end E3nn.SO3
