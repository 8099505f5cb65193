import Verif.Model.PermRand
import Verif.Props.C24_C25

/-!
# C121: `perm.rand` is uniform
-/

namespace E3nn
open Perm

theorem factorial_pos' (n : ℕ) : 0 < factorial n := by
  induction n with
  | zero => exact Nat.one_pos
  | succ n ih => rw [(factorial_eq n).2]; positivity

theorem factorial_nat (n : ℕ) : factorial n = n.factorial := by
  induction n with
  | zero => rfl
  | succ n ih => rw [(factorial_eq n).2, ih, Nat.factorial_succ]

theorem fromInt_inj (n : ℕ) {i j : ℕ} (hi : i < factorial n) (hj : j < factorial n) (h : fromInt i n = fromInt j n) : i = j := by
  have h1 := C25_toInt_fromInt i n hi
  have h2 := C25_toInt_fromInt j n hj
  rw [h, h2] at h1
  exact (Except.ok.inj h1).symm

/-- Every permutation of `0, …, n-1` is drawn with the probability `1 / n!`, and nothing else is ever drawn. -/
theorem C121_rand (n : ℕ) (p : List ℕ) :
    (IsBij n p → rand n p = (n.factorial : ENNReal)⁻¹) ∧ (¬ IsBij n p → rand n p = 0) := by
  classical
  have hpos := factorial_pos' n
  constructor
  · intro h
    obtain ⟨t, -, ht, he⟩ := C25_fromInt_toInt n p h
    unfold rand
    rw [PMF.map_apply, tsum_eq_single t]
    · rw [if_pos he.symm, PMF.uniformOfFinset_apply_of_mem _ (by rw [Finset.mem_Icc]; omega), Nat.card_Icc, ← factorial_nat]
      congr 2
      omega
    · intro i hi
      by_cases hp : p = fromInt i n
      · rw [if_pos hp]
        apply PMF.uniformOfFinset_apply_of_notMem
        rw [Finset.mem_Icc]
        rintro ⟨-, hle⟩
        exact hi (fromInt_inj n (by omega) ht (by rw [he, ← hp]))
      · rw [if_neg hp]
  · intro h
    unfold rand
    rw [PMF.map_apply, ENNReal.tsum_eq_zero]
    intro i
    rw [if_neg]
    rintro rfl
    exact h (C25_fromInt_isBij i n)

/-- So the law is invariant: composing with a fixed permutation does not change it. -/
theorem C121_invariant (n : ℕ) (q : List ℕ) (hq : IsBij n q) (p r : List ℕ) (hp : IsBij n p) (hr : compose q p = .ok r) :
    rand n r = rand n p := by
  have hb : IsBij n r := by
    obtain ⟨r', h1, h2, _⟩ := C24_compose_spec hq hp
    rw [hr] at h1
    exact (Except.ok.inj h1) ▸ h2
  rw [(C121_rand n r).1 hb, (C121_rand n p).1 hp]

/-- A case: the permutation `(2, 0, 1)` has the probability `1/6`. -/
example : rand 3 [2, 0, 1] = (6 : ENNReal)⁻¹ := by
  have h : IsBij 3 [2, 0, 1] := (C24_isPerm_iff [2, 0, 1]).mp (by decide)
  rw [(C121_rand 3 _).1 h]
  norm_num [Nat.factorial]

end E3nn
