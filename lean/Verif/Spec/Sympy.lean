import Verif.Model.Sympy

/-! Contract of `Fraction.limit_denominator(10**6)` (Python documentation) and the entries of a nested array. -/

namespace E3nn.Sym

/-- "Finds and returns the closest Fraction to self that has denominator at most max_denominator." -/
def Closest (ld : ℚ → ℚ) : Prop := ∀ x, (ld x).den ≤ 10 ^ 6 ∧ ∀ r : ℚ, r.den ≤ 10 ^ 6 → |x - ld x| ≤ |x - r|

/-- `x[i_1, ..., i_n]` when all axes are given. -/
def Nd.get? {α : Type} : Nd α → List ℕ → Option α
  | .scalar a, [] => some a
  | .rows l, i :: is => match l[i]? with
    | none => none
    | some r => r.get? is
  | _, _ => none

end E3nn.Sym
