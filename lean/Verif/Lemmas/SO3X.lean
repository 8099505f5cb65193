import Verif.Lemmas.SO3
namespace E3nn.SU2
open Matrix

/-- The entries of the generator around x, real basis. -/
noncomputable def xUp (l b : ℕ) : ℂ :=
  if b < l then (if b + 1 = l then 0 else -(1 / 2) * rc (2 * l) b) else if b = l then (Real.sqrt 2 : ℂ) / 2 * rc (2 * l) b
  else 1 / 2 * rc (2 * l) b

theorem realBasis_zero (l : ℕ) : realBasis l (generators (2 * l) 0) = up (2 * l) (xUp l) + dn (2 * l) (fun b => -xUp l b) := by
  have key : changeBasis l * (up (2 * l) (xUp l) + dn (2 * l) (fun b => -xUp l b)) = generators (2 * l) 0 * changeBasis l := by
    ext ⟨a, ha⟩ ⟨b, hb⟩
    rw [Q_mul, mul_Q, gen_zero]
    congr 1
    have h2 := sqrt2_sq
    have h0 := sqrt2_ne
    have hI : Complex.I * Complex.I = -1 := Complex.I_mul_I
    have hR : ∀ c, c < 2 * l → rc (2 * l) (2 * l - 1 - c) = rc (2 * l) c := fun c hc => rc_rev hc
    simp only [Matrix.add_apply, Matrix.smul_apply, up, dn, rev_sub, qu, qw, xUp, smul_eq_mul]
    by_cases c1 : a = b + 1
    · subst c1
      rcases lt_trichotomy (b + 1) l with h | h | h
      · obtain ⟨d, rfl⟩ : ∃ d, l = b + 1 + (d + 1) := ⟨l - b - 2, by omega⟩
        have e1 := hR b (by omega)
        rw [show 2 * (b + 1 + (d + 1)) - 1 - b = 2 * (b + 1 + (d + 1)) - (b + 1) by omega] at e1
        simp (disch := omega) only [if_pos, if_neg]
        all_goals (try field_simp)
        all_goals (try grind)
      · subst h
        have e1 := hR b (by omega)
        rw [show 2 * (b + 1) - 1 - b = b + 1 by omega] at e1
        have e2 : (-1 : ℂ) ^ (2 * (b + 1) - b - (b + 1)) = -1 := by rw [show 2 * (b + 1) - b - (b + 1) = 1 by omega]; simp
        simp only [e2, if_true]
        simp (disch := omega) only [if_pos, if_neg]
        all_goals (try field_simp)
        all_goals (try grind)
      · obtain ⟨d, rfl⟩ : ∃ d, b = l + d := ⟨b - l, by omega⟩
        rcases Nat.eq_zero_or_pos d with rfl | hd
        · have e1 := hR l (by omega)
          have e2 : (-1 : ℂ) ^ (l + 0 + 1 - l) = -1 := by rw [show l + 0 + 1 - l = 1 by omega]; simp
          simp only [e2]
          simp (disch := omega) only [if_pos, if_neg]
          all_goals (try field_simp)
          all_goals (try grind)
        · have e2 : (-1 : ℂ) ^ (l + d + 1 - l) = -(-1) ^ (l + d - l) := by rw [show l + d + 1 - l = (l + d - l) + 1 by omega, pow_succ]; ring
          simp only [e2]
          simp (disch := omega) only [if_pos, if_neg]
          all_goals (try field_simp)
          all_goals (try grind)
    · by_cases c2 : b = a + 1
      · subst c2
        rcases lt_trichotomy (a + 1) l with h | h | h
        · simp (disch := omega) only [if_pos, if_neg]
          all_goals (try field_simp)
          all_goals (try grind)
        · subst h
          simp (disch := omega) only [if_pos, if_neg]
          all_goals (try field_simp)
          all_goals (try grind)
        · obtain ⟨d, rfl⟩ : ∃ d, a = l + d := ⟨a - l, by omega⟩
          rcases Nat.eq_zero_or_pos d with rfl | hd
          · have e2 : (-1 : ℂ) ^ (l + 0 + 1 - l) = -1 := by rw [show l + 0 + 1 - l = 1 by omega]; simp
            simp only [e2]
            simp (disch := omega) only [if_pos, if_neg]
            all_goals (try field_simp)
            all_goals (try grind)
          · have e2 : (-1 : ℂ) ^ (l + d + 1 - l) = -(-1) ^ (l + d - l) := by rw [show l + d + 1 - l = (l + d - l) + 1 by omega, pow_succ]; ring
            simp only [e2]
            simp (disch := omega) only [if_pos, if_neg]
            all_goals (try field_simp)
            all_goals (try grind)
      · by_cases c3 : a + b + 1 = 2 * l
        · rcases lt_trichotomy a l with h | h | h
          · have e2 : (-1 : ℂ) ^ (b - l) = (-1) ^ (b - l) := rfl
            obtain ⟨d, rfl⟩ : ∃ d, l = a + d + 1 := ⟨l - a - 1, by omega⟩
            obtain rfl : b = a + 2 * d + 1 := by omega
            have e1 := hR a (by omega)
            rw [show 2 * (a + d + 1) - 1 - a = a + 2 * d + 1 by omega] at e1
            simp (disch := omega) only [if_pos, if_neg]
            all_goals (try field_simp)
            all_goals (try grind)
          · omega
          · obtain ⟨d, rfl⟩ : ∃ d, l = b + d + 1 := ⟨l - b - 1, by omega⟩
            obtain rfl : a = b + 2 * d + 1 := by omega
            have e1 := hR b (by omega)
            rw [show 2 * (b + d + 1) - 1 - b = b + 2 * d + 1 by omega] at e1
            have e2 : (-1 : ℂ) ^ (2 * (b + d + 1) - b - (b + d + 1)) = -(-1) ^ (b + 2 * d + 1 - (b + d + 1)) := by
              rw [show 2 * (b + d + 1) - b - (b + d + 1) = (b + 2 * d + 1 - (b + d + 1)) + 1 by omega, pow_succ]; ring
            simp only [e2]
            simp (disch := omega) only [if_pos, if_neg]
            all_goals (try field_simp)
            all_goals (try grind)
        · by_cases c4 : a + b = 2 * l + 1
          · rcases lt_trichotomy a l with h | h | h
            · have e2 : (-1 : ℂ) ^ (2 * l - a - l) = (-1) ^ (l - a) := by congr 1; omega
              have e3 : (-1 : ℂ) ^ (2 * l - b - l) = (-1) ^ (l - b) := by congr 1; omega
              have e1 := hR (2 * l - a) (by omega)
              simp (disch := omega) only [if_pos, if_neg]
              all_goals (try field_simp)
              all_goals (try grind)
            · omega
            · obtain ⟨d, rfl⟩ : ∃ d, a = l + d + 1 := ⟨a - l - 1, by omega⟩
              have e1 := hR (2 * l - (l + d + 1)) (by omega)
              rw [show 2 * l - 1 - (2 * l - (l + d + 1)) = 2 * l - b by omega] at e1
              have e2 : (-1 : ℂ) ^ (l + d + 1 - l) = -(-1) ^ (2 * l - b - l) := by
                rw [show l + d + 1 - l = (2 * l - b - l) + 1 by omega, pow_succ]; ring
              simp only [e2]
              simp (disch := omega) only [if_pos, if_neg]
              all_goals (try field_simp)
              all_goals (try grind)
          · rw [if_neg c1, if_neg c2, if_neg c1, if_neg c2]
            rw [if_neg (show ¬ 2 * l - a = b + 1 by omega), if_neg (show ¬ b = 2 * l - a + 1 by omega),
              if_neg (show ¬ a = 2 * l - b + 1 by omega), if_neg (show ¬ 2 * l - b = a + 1 by omega)]
            simp
  rw [realBasis, Matrix.mul_assoc, ← key, ← Matrix.mul_assoc, Q_conj_mul, Matrix.one_mul]
/-- Real version of `xUp`. -/
noncomputable def xUpR (l b : ℕ) : ℝ :=
  (if b < l then (if b + 1 = l then 0 else -(1 / 2)) else if b = l then Real.sqrt 2 / 2 else 1 / 2) *
    Real.sqrt ((2 * (l : ℝ) - b) * (b + 1))

theorem so3_gen_zero (l : ℕ) (a b : Fin (2 * l + 1)) :
    so3Generators l 0 a b = if a.val = b.val + 1 then xUpR l b else if b.val = a.val + 1 then -xUpR l a else 0 := by
  have hx : ∀ b, xUp l b = (xUpR l b : ℂ) := by
    intro b
    unfold xUp xUpR rc
    push_cast
    split_ifs <;> simp
  unfold so3Generators
  rw [Matrix.map_apply, realBasis_zero, Matrix.add_apply, up, dn]
  by_cases h1 : a.val = b.val + 1
  · rw [if_pos h1, if_neg (show ¬ b.val = a.val + 1 by omega), if_pos h1, hx]; simp
  · rw [if_neg h1, if_neg h1]
    split
    · rw [hx]; simp
    · simp

end E3nn.SU2
