import Verif.Spec.Irreps
import Mathlib.Tactic.Ring
import Mathlib.Tactic.Linarith
import Mathlib.Algebra.Ring.Parity

/-! # Helper lemmas on irreps -/

namespace E3nn

/-- The integer `-p * (-1)^l` compared by the code is `-1` for the spherical-harmonics parity and
`1` for the other one. -/
theorem key_snd (a : Irrep) : a.key.2 = if a.p = Parity.ofPow a.l then -1 else 1 := by
  obtain ⟨l, p⟩ := a
  rcases Nat.even_or_odd l with h | h
  · have h2 : l % 2 = 0 := Nat.even_iff.mp h
    cases p <;> simp [Irrep.key, Parity.toInt, Parity.ofPow, h2, h.neg_one_pow]
  · have h2 : l % 2 = 1 := Nat.odd_iff.mp h
    cases p <;> simp [Irrep.key, Parity.toInt, Parity.ofPow, h2, h.neg_one_pow]

theorem dimOf_range' (p : Parity) (s n : Nat) :
    dimOf ((List.range' s n).map fun l => ⟨l, p⟩) + s * s = (s + n) * (s + n) := by
  induction n generalizing s with
  | zero => simp [dimOf]
  | succ n ih =>
    have := ih (s + 1)
    simp only [List.range'_succ, List.map_cons, dimOf, List.sum_cons] at this ⊢
    have e : s + 1 + n = s + (n + 1) := by omega
    rw [e] at this
    linarith

end E3nn
