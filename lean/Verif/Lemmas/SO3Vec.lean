import Verif.Lemmas.SO3

namespace E3nn.SU2

open Matrix

theorem so3_vec_0 : so3Generators 1 0 = !![0, 0, 0; 0, 0, -1; 0, 1, 0] := by
  have hr0 : rc 2 0 = (Real.sqrt 2 : ℂ) := by simp [rc]
  have hr1 : rc 2 1 = (Real.sqrt 2 : ℂ) := by simp only [rc]; norm_num
  have hs' := sqrt2_sq
  have hs0' := sqrt2_ne
  have hI : Complex.I * Complex.I = -1 := Complex.I_mul_I
  apply ofReal_inj
  rw [so3_ofReal, realBasis, changeBasis_eq, gen_zero]
  ext a b
  fin_cases a <;> fin_cases b <;>
    simp [Matrix.mul_apply, Fin.sum_univ_three, up, dn, dg, an, qu, qw, hr0, hr1] <;> field_simp <;> grind

theorem so3_vec_1 : so3Generators 1 1 = !![0, 0, 1; 0, 0, 0; -1, 0, 0] := by
  ext a b
  rw [so3_gen_one]
  fin_cases a <;> fin_cases b <;> simp; norm_num

theorem so3_vec_2 : so3Generators 1 2 = !![0, -1, 0; 1, 0, 0; 0, 0, 0] := by
  have := so3_comm 1 (comm_01 _)
  rw [← this, so3_vec_0, so3_vec_1]
  ext a b
  fin_cases a <;> fin_cases b <;> simp

end E3nn.SU2
