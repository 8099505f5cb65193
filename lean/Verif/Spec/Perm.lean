import Verif.Model.Py

/-! # Specification vocabulary for permutations -/

namespace E3nn

/-- `p` is (the value tuple of) a bijection of `{0, …, n-1}`: it has length `n`, all entries are
below `n`, and every value below `n` is taken. -/
def IsBij (n : Nat) (p : List Nat) : Prop :=
  p.length = n ∧ (∀ i ∈ p, i < n) ∧ (∀ j, j < n → j ∈ p) ∧
    ∀ i j, i < n → j < n → p[i]? = p[j]? → i = j

end E3nn
