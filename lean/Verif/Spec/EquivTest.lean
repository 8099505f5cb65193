import Verif.Spec.IArr
import Verif.Spec.Uniform
import Verif.Model.TransformO3
import Verif.Spec.Rotation
import Mathlib.Probability.Distributions.Gaussian.Real
import Mathlib.MeasureTheory.Constructions.Pi

/-!
# What the equivariance test is meant to decide
-/

namespace E3nn.EqTest

open MeasureTheory ProbabilityTheory E3nn.SO3 E3nn.Rot
open scoped Matrix

/-- The columns of the arguments: one vector for each of the irreps `ins`. -/
abbrev Vecs (ins : List Irreps) : Type := ∀ k : Fin ins.length, Fin (ins.get k).dim → ℝ

/-- The arrays `args` have the irreps `ins` and the columns `v`. -/
structure Holds (ins : List Irreps) (v : Vecs ins) (args : List (IArr ℝ)) : Prop where
  length : args.length = ins.length
  args : ∀ k : Fin ins.length, (args.get (k.cast length.symm)).Coherent ∧ (args.get (k.cast length.symm)).irreps = ins.get k ∧
    (args.get (k.cast length.symm)).array = List.ofFn (v k)

/-- The function `fn` returns arrays of irreps `out`, with the columns `F v`, for arguments of irreps `ins` and columns `v`. -/
def Computes (fn : List (IArr ℝ) → Except PyErr (IArr ℝ)) (ins : List Irreps) (out : Irreps) (F : Vecs ins → Fin out.dim → ℝ) : Prop :=
  ∀ v args, Holds ins v args → ∃ y, fn args = .ok y ∧ y.Coherent ∧ y.irreps = out ∧ y.array = List.ofFn (F v)

/-- Transforming the arguments or the result gives the same, up to `err`. -/
def Commutes (fn : List (IArr ℝ) → Except PyErr (IArr ℝ)) (ok : ℝ → ℝ → Prop) (R : Matrix (Fin 3) (Fin 3) ℝ) (args : List (IArr ℝ)) : Prop :=
  ∃ targs out1 y out2, args.mapM (fun a => a.transformByMatrix R) = .ok targs ∧ fn targs = .ok out1 ∧ fn args = .ok y ∧ y.transformByMatrix R = .ok out2 ∧
    out1.irreps = out2.irreps ∧ List.Forall₂ ok out1.array out2.array

/-- `fn` commutes with every rotation and reflection. -/
def Equivariant (fn : List (IArr ℝ) → Except PyErr (IArr ℝ)) (ins : List Irreps) : Prop :=
  ∀ R : Matrix (Fin 3) (Fin 3) ℝ, R * Rᵀ = 1 → ∀ v args, Holds ins v args → Commutes fn (· = ·) R args

/-- The law of the random numbers of the test: three uniform numbers for the rotation, and independent standard normal numbers for the arguments. -/
noncomputable def law (ins : List Irreps) : Measure ((ℝ × ℝ × ℝ) × Vecs ins) := unif3.prod (Measure.pi fun _ => Measure.pi fun _ => gaussianReal 0 1)

end E3nn.EqTest
