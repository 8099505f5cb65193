import Verif.Lemmas.LinearSHTP3
import Verif.Spec.LinearSHTP

/-!
# Lemmas about `LinearSHTP` and `shtp`: all the equivariant maps, and their number
-/

namespace E3nn.LSH

open E3nn.IArr E3nn.Rot E3nn.Wig E3nn.SU2 E3nn.SH E3nn.TPSH Matrix

/-- A matrix that commutes with the rotations around the pole. -/
theorem pole_gen {lx lz : ℕ} {M : Matrix (Fin (2 * lz + 1)) (Fin (2 * lx + 1)) ℝ} (h : ∀ t, rotY lz t * M = M * rotY lx t)
    (k : Fin (2 * lz + 1)) (i : Fin (2 * lx + 1)) : ((lx : ℝ) - i) * M k i.rev = -(((lz : ℝ) - k) * M k.rev i) := by
  have hc : M * so3Generators lx 1 = so3Generators lz 1 * M := commute_gen fun t => by rw [exp_gen_one, exp_gen_one, h]
  have e := congrFun (congrFun hc k) i
  rw [Matrix.mul_apply, Matrix.mul_apply] at e
  have hk := k.isLt
  have hi := i.isLt
  rw [Finset.sum_eq_single i.rev, Finset.sum_eq_single k.rev] at e
  · rw [so3_gen_one, so3_gen_one, if_pos (by rw [Fin.val_rev]; omega), if_pos (by rw [Fin.val_rev]; omega)] at e
    have : ((i.rev.val : ℕ) : ℝ) = 2 * lx - i := by
      rw [Fin.val_rev, show 2 * lx + 1 - (i.val + 1) = 2 * lx - i.val by omega, Nat.cast_sub (by omega)]; push_cast; ring
    rw [this] at e
    linear_combination -e
  · intro b _ hb
    rw [so3_gen_one, if_neg, zero_mul]
    intro e'
    apply hb
    apply Fin.ext
    rw [Fin.val_rev]; omega
  · intro h'; exact absurd (Finset.mem_univ _) h'
  · intro b _ hb
    rw [so3_gen_one, if_neg, mul_zero]
    intro e'
    apply hb
    apply Fin.ext
    rw [Fin.val_rev]; omega
  · intro h'; exact absurd (Finset.mem_univ _) h'

/-- The entry of a matrix, zero outside. -/
noncomputable def at' {a b : ℕ} (M : Matrix (Fin a) (Fin b) ℝ) (k i : ℕ) : ℝ := if h : k < a ∧ i < b then M ⟨k, h.1⟩ ⟨i, h.2⟩ else 0

theorem at'_val {a b : ℕ} (M : Matrix (Fin a) (Fin b) ℝ) (k : Fin a) (i : Fin b) : at' M k i = M k i := by
  unfold at'; rw [dif_pos ⟨k.isLt, i.isLt⟩]

theorem pole_class {lx lz : ℕ} {M : Matrix (Fin (2 * lz + 1)) (Fin (2 * lx + 1)) ℝ} (h : ∀ t, rotY lz t * M = M * rotY lx t) :
    M = MS lx lz (fun n => at' M (lz + n) (lx + n)) + MA lx lz (fun n => at' M (lz + n) (lx - n)) := by
  ext k i
  have hk := k.isLt
  have hi := i.isLt
  have g1 := pole_gen h k i
  have g2 := pole_gen h k.rev i.rev
  have g3 := pole_gen h k i.rev
  have g4 := pole_gen h k.rev i
  rw [Fin.rev_rev] at g2 g3 g4
  have ck : ((k.rev.val : ℕ) : ℝ) = 2 * lz - k := by
    rw [Fin.val_rev, show 2 * lz + 1 - (k.val + 1) = 2 * lz - k.val by omega, Nat.cast_sub (by omega)]; push_cast; ring
  have ci : ((i.rev.val : ℕ) : ℝ) = 2 * lx - i := by
    rw [Fin.val_rev, show 2 * lx + 1 - (i.val + 1) = 2 * lx - i.val by omega, Nat.cast_sub (by omega)]; push_cast; ring
  rw [ck] at g2 g4
  rw [ci] at g2 g3
  try rw [Fin.rev_rev] at g4
  have vk : k.rev.val = 2 * lz - k.val := by rw [Fin.val_rev]; omega
  have vi : i.rev.val = 2 * lx - i.val := by rw [Fin.val_rev]; omega
  rw [Matrix.add_apply]
  unfold MS MA ab
  by_cases hS : k.val + lx = i.val + lz
  · rw [if_pos hS]
    have e : (lz : ℝ) - k = lx - i := by have : (k.val : ℝ) + lx = i + lz := by exact_mod_cast hS
                                         linarith
    by_cases hA : k.val + i.val = lx + lz
    · have hk0 : k.val = lz := by omega
      have hi0 : i.val = lx := by omega
      rw [if_pos hA, if_neg (by omega), if_pos hk0, add_zero, ← at'_val M k i]
      congr 1 <;> omega
    · rw [if_neg hA, add_zero]
      rcases Nat.lt_or_ge k.val lz with hlt | hge
      · -- use the opposite entry
        have hm : M k i = M k.rev i.rev := by
          have hne : (lz : ℝ) - k ≠ 0 := by have : (k.val : ℝ) < lz := by exact_mod_cast hlt
                                            linarith
          rw [e] at g3
          have g3' : ((lx : ℝ) - i) * (M k i - M k.rev i.rev) = 0 := by linear_combination -g3
          rw [← e] at g3'
          rcases mul_eq_zero.mp g3' with h' | h'
          · exact absurd h' hne
          · linarith
        rw [hm, ← at'_val M k.rev i.rev, vk, vi]
        congr 1 <;> omega
      · rw [← at'_val M k i]
        congr 1 <;> omega
  · rw [if_neg hS, zero_add]
    by_cases hA : k.val + i.val = lx + lz
    · rw [if_pos hA]
      have e : (lz : ℝ) - k = -(lx - i) := by have : (k.val : ℝ) + i = lx + lz := by exact_mod_cast hA
                                              linarith
      rcases Nat.lt_trichotomy k.val lz with hlt | heq | hgt
      · rw [if_pos hlt]
        have hm : M k i = -M k.rev i.rev := by
          have hne : (lz : ℝ) - k ≠ 0 := by have : (k.val : ℝ) < lz := by exact_mod_cast hlt
                                            linarith
          have g3' : ((lz : ℝ) - k) * (M k i + M k.rev i.rev) = 0 := by
            linear_combination g3 - (e) * (- M k i)
          rcases mul_eq_zero.mp g3' with h' | h'
          · exact absurd h' hne
          · linarith
        rw [hm, ← at'_val M k.rev i.rev, vk, vi]
        congr 2 <;> omega
      · exfalso; omega
      · rw [if_neg (by omega), if_neg (by omega), ← at'_val M k i]
        congr 1 <;> omega
    · rw [if_neg hA]
      have z : (((lz : ℝ) - k) ^ 2 - ((lx : ℝ) - i) ^ 2) * M k i = 0 := by
        linear_combination ((lx : ℝ) - i) * g3 - ((lz : ℝ) - k) * g4
      have z2 : (((lz : ℝ) - k) - ((lx : ℝ) - i)) * ((((lz : ℝ) - k) + ((lx : ℝ) - i)) * M k i) = 0 := by linear_combination z
      rcases mul_eq_zero.mp z2 with h' | h'
      · exfalso
        apply hS
        have : (k.val : ℝ) + lx = i + lz := by linarith
        exact_mod_cast this
      · rcases mul_eq_zero.mp h' with h' | h'
        · exfalso
          apply hA
          have : (k.val : ℝ) + i = lx + lz := by linarith
          exact_mod_cast this
        · exact h'

theorem flip_stab_o : Stab .o flipX := by
  refine ⟨flipX_orth, ?_⟩
  rw [(C39_defining flipX_orth).1]
  funext i
  fin_cases i <;> simp [flipX, Matrix.mulVec, dotProduct, Fin.sum_univ_three, Matrix.diagonal]

theorem matY_stab (p : Parity) (t : ℝ) : Stab p (matrixY t) := by
  refine ⟨(matrixY_rot t).1, ?_⟩
  rw [dMatrix_one p (matrixY_rot t)]
  funext i
  fin_cases i <;> simp [matrixY, Matrix.mulVec, dotProduct, Fin.sum_univ_three]

theorem neg_stab_e : Stab .e (-1) := by
  refine ⟨neg_one_orth, ?_⟩
  rw [C39_inversion]
  simp [Parity.toInt]

/-- The symmetric weights vanish, or the condition of the code holds. -/
theorem pole_condS {p : Parity} {irx irz : Irrep} {M : Matrix (Fin (2 * irz.l + 1)) (Fin (2 * irx.l + 1)) ℝ} (h : PoleMap p irx irz M) (hc : ¬ condS p irx irz) (n : ℕ) :
    at' M (irz.l + n) (irx.l + n) = 0 := by
  unfold at'
  split
  · rename_i hh
    cases p with
    | e =>
      have e := congrFun (congrFun (h _ neg_stab_e) ⟨_, hh.1⟩) ⟨_, hh.2⟩
      rw [C39_inversion, C39_inversion] at e
      simp only [Matrix.smul_mul, Matrix.mul_smul, Matrix.one_mul, Matrix.mul_one, Matrix.smul_apply, smul_eq_mul] at e
      unfold condS at hc
      rw [pow_mod_e] at hc
      cases hx : irx.p <;> cases hz : irz.p <;> rw [hx, hz] at hc e <;> simp [Parity.mul, Parity.toInt] at hc e <;> linarith
    | o =>
      have e := congrFun (congrFun (h _ flip_stab_o) ⟨_, hh.1⟩) ⟨_, hh.2⟩
      rw [dMatrix_flip, dMatrix_flip] at e
      unfold sgM at e
      rw [Matrix.smul_mul, Matrix.mul_smul, Matrix.smul_apply, Matrix.smul_apply, Matrix.diagonal_mul, Matrix.mul_diagonal] at e
      unfold sg at e
      simp only [smul_eq_mul, Nat.not_lt.mpr (Nat.le_add_right _ _), if_false, one_mul, mul_one] at e
      have hc' : ((-1 : ℝ)) ^ (irx.l + irz.l) ≠ irx.p.toInt * irz.p.toInt := by
        intro e'
        apply hc
        unfold condS
        have := pow_o (irx.l + irz.l)
        rw [e', ← mul_toInt] at this
        cases h1 : Parity.pow .o ((irx.l + irz.l) % 2) <;> cases h2 : irx.p.mul irz.p <;> rw [h1, h2] at this <;> first | rfl | (norm_num [Parity.toInt] at this)
      rw [pow_add] at hc'
      rcases parity_sign irx.p with a | a <;> rcases parity_sign irz.p with b | b <;> rw [a, b] at hc' e <;>
        rcases neg_one_pow_eq_or ℝ irx.l with c | c <;> rcases neg_one_pow_eq_or ℝ irz.l with d | d <;> rw [c, d] at hc' e <;>
        first | (exfalso; apply hc'; norm_num; done) | linarith
  · rfl

theorem pole_condA {p : Parity} {irx irz : Irrep} {M : Matrix (Fin (2 * irz.l + 1)) (Fin (2 * irx.l + 1)) ℝ} (h : PoleMap p irx irz M) (hc : ¬ condA p irx irz) {n : ℕ} (hn : 0 < n)
    (hnx : n ≤ irx.l) : at' M (irz.l + n) (irx.l - n) = 0 := by
  unfold at'
  split
  · rename_i hh
    have hc : p.pow ((irx.l + irz.l + 1) % 2) ≠ irx.p.mul irz.p := by
      intro e
      exact hc ⟨e, by omega⟩
    cases p with
    | e =>
      have e := congrFun (congrFun (h _ neg_stab_e) ⟨_, hh.1⟩) ⟨_, hh.2⟩
      rw [C39_inversion, C39_inversion] at e
      simp only [Matrix.smul_mul, Matrix.mul_smul, Matrix.one_mul, Matrix.mul_one, Matrix.smul_apply, smul_eq_mul] at e
      rw [pow_mod_e] at hc
      cases hx : irx.p <;> cases hz : irz.p <;> rw [hx, hz] at hc e <;> simp [Parity.mul, Parity.toInt] at hc e <;> linarith
    | o =>
      have e := congrFun (congrFun (h _ flip_stab_o) ⟨_, hh.1⟩) ⟨_, hh.2⟩
      rw [dMatrix_flip, dMatrix_flip] at e
      unfold sgM at e
      rw [Matrix.smul_mul, Matrix.mul_smul, Matrix.smul_apply, Matrix.smul_apply, Matrix.diagonal_mul, Matrix.mul_diagonal] at e
      unfold sg at e
      simp only [smul_eq_mul, Nat.not_lt.mpr (Nat.le_add_right _ _), if_false, one_mul, show irx.l - n < irx.l by omega, if_true] at e
      have hc' : ((-1 : ℝ)) ^ (irx.l + irz.l + 1) ≠ irx.p.toInt * irz.p.toInt := by
        intro e'
        apply hc
        have := pow_o (irx.l + irz.l + 1)
        rw [e', ← mul_toInt] at this
        cases h1 : Parity.pow .o ((irx.l + irz.l + 1) % 2) <;> cases h2 : irx.p.mul irz.p <;> rw [h1, h2] at this <;> first | rfl | (norm_num [Parity.toInt] at this)
      rw [pow_add, pow_add, pow_one] at hc'
      rcases parity_sign irx.p with a | a <;> rcases parity_sign irz.p with b | b <;> rw [a, b] at hc' e <;>
        rcases neg_one_pow_eq_or ℝ irx.l with c | c <;> rcases neg_one_pow_eq_or ℝ irz.l with d | d <;> rw [c, d] at hc' e <;>
        first | (exfalso; apply hc'; norm_num; done) | linarith
  · rfl

/-! ### the number of couplings -/

theorem filter_parity (m : ℕ) (f : ℕ → Bool) :
    ((List.range (2 * m + 1)).filter fun j => f (j % 2)).length = (if f 0 then m + 1 else 0) + (if f 1 then m else 0) := by
  induction m with
  | zero => cases h0 : f 0 <;> cases h1 : f 1 <;> simp [List.filter, h0]
  | succ m ih =>
    rw [show 2 * (m + 1) + 1 = (2 * m + 1) + 1 + 1 by ring, List.range_succ, List.range_succ, List.filter_append, List.filter_append, List.length_append, List.length_append, ih]
    have e1 : (2 * m + 1) % 2 = 1 := by omega
    have e2 : (2 * m + 1 + 1) % 2 = 0 := by omega
    simp only [List.filter_cons, List.filter_nil, e1, e2]
    cases h0 : f 0 <;> cases h1 : f 1 <;> simp <;> omega

theorem pow_mod (p : Parity) (n : ℕ) : p.pow n = p.pow (n % 2) := by
  cases p
  · rfl
  · unfold Parity.pow Parity.ofPow; simp

theorem par_eq (a b c : Parity) : a = b.mul c ↔ c = b.mul a := by cases a <;> cases b <;> cases c <;> simp [Parity.mul]

theorem couplings_eq (p : Parity) (irx irz : Irrep) :
    couplings p irx irz = (if condS p irx irz then min irx.l irz.l + 1 else 0) + (if condA p irx irz then min irx.l irz.l else 0) := by
  unfold couplings
  obtain ⟨m, hm⟩ : ∃ m, m = min irx.l irz.l := ⟨_, rfl⟩
  obtain ⟨d, hd⟩ : ∃ d, d = irx.l + irz.l - 2 * m := ⟨_, rfl⟩
  rw [show irx.l + irz.l + 1 = d + (2 * m + 1) by omega, List.range_add, List.filter_append, List.length_append]
  have h1 : ((List.range d).filter fun ly => decide (Couples p irx irz ly)) = [] := by
    rw [List.filter_eq_nil_iff]
    intro ly hly
    rw [List.mem_range] at hly
    rw [decide_eq_true_eq]
    rintro ⟨a, b, c, -⟩
    omega
  have h2 : (((List.range (2 * m + 1)).map fun x => d + x).filter fun ly => decide (Couples p irx irz ly)).length =
      ((List.range (2 * m + 1)).filter fun j => (fun r => decide (p.pow ((d + r) % 2) = irx.p.mul irz.p)) (j % 2)).length := by
    rw [List.filter_map, List.length_map]
    congr 1
    apply List.filter_congr
    intro j hj
    rw [List.mem_range] at hj
    simp only [Function.comp_apply]
    rw [decide_eq_decide]
    unfold Couples
    rw [pow_mod, show (d + j % 2) % 2 = (d + j) % 2 by omega]
    constructor
    · rintro ⟨-, -, -, e⟩; exact (par_eq _ _ _).mpr e
    · intro e; exact ⟨by omega, by omega, by omega, (par_eq _ _ _).mp e⟩
  rw [h1, h2, filter_parity m (fun r => decide (p.pow ((d + r) % 2) = irx.p.mul irz.p))]
  simp only [List.length_nil, zero_add, decide_eq_true_eq]
  rw [← hm]
  congr 1
  · apply if_congr _ rfl rfl
    unfold condS
    rw [show (d + 0) % 2 = (irx.l + irz.l) % 2 by omega]
  · rcases Nat.eq_zero_or_pos m with h0 | h0
    · rw [h0]; split <;> split <;> rfl
    · apply if_congr _ rfl rfl
      unfold condA
      rw [show (d + 1) % 2 = (irx.l + irz.l + 1) % 2 by omega, ← hm]
      simp [h0]

end E3nn.LSH
