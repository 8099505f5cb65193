import Verif.Lemmas.Legendre
import Verif.Lemmas.SHCore

/-! # The legendre algorithm computes the polynomials of the recursion -/

namespace E3nn.SH

open E3nn.SU2 E3nn.Wig E3nn.Rot Matrix Polynomial

theorem repD_matrixY (l : ℕ) (t : ℝ) : repD l (matrixY t) = rotY l t := by
  rw [← log_ey, ← repD_log, wignerLog_ey]

theorem rotY_uvec (l : ℕ) (a b : ℝ) (k : Fin (2 * l + 1)) : (rotY l a *ᵥ uvec l b) k =
    if h : k.val < l then Real.sin (((l : ℝ) - k) * a) * uvec l b ⟨2 * l - k.val, by omega⟩ else Real.cos (((l : ℝ) - k) * a) * uvec l b k := by
  simp only [mulVec, dotProduct, rotY_eq, add_mul, ite_mul, zero_mul, Finset.sum_add_distrib]
  rw [Finset.sum_ite_eq Finset.univ k]
  rw [if_pos (Finset.mem_univ _)]
  have hk := k.isLt
  rw [Finset.sum_eq_single (⟨2 * l - k.val, by omega⟩ : Fin (2 * l + 1))]
  · rw [if_pos (by simp only; omega)]
    split
    · rename_i h
      have : uvec l b k = 0 := by unfold uvec; rw [if_pos h]
      rw [this]; ring
    · rename_i h
      by_cases e : k.val = l
      · have : (l : ℝ) - k.val = 0 := by rw [e]; ring
        rw [this]; simp
      · have : uvec l b ⟨2 * l - k.val, by omega⟩ = 0 := by unfold uvec; rw [if_pos (by simp only; omega)]
        rw [this]; ring
  · intro j _ hj
    rw [if_neg]
    intro e
    exact hj (Fin.ext (by simp only; omega))
  · intro h; exact absurd (Finset.mem_univ _) h

/-- Polar coordinates around `e_y`. -/
theorem polar (x : Fin 3 → ℝ) :
    x = Real.sqrt (r2 x) • (matrixY (arctan2 (x 0) (x 2)) *ᵥ (matrixX (Real.arccos (x 1 / (if 0 < Real.sqrt (r2 x) then Real.sqrt (r2 x) else 1))) *ᵥ ey)) ∧
    -1 ≤ x 1 / (if 0 < Real.sqrt (r2 x) then Real.sqrt (r2 x) else 1) ∧ x 1 / (if 0 < Real.sqrt (r2 x) then Real.sqrt (r2 x) else 1) ≤ 1 := by
  by_cases h : 0 < Real.sqrt (r2 x)
  · rw [if_pos h]
    set n := Real.sqrt (r2 x) with hn
    have hn2 : n ^ 2 = r2 x := Real.sq_sqrt (r2_nonneg x)
    have hb : |x 1| ≤ n := by
      rw [hn]; apply Real.abs_le_sqrt; unfold r2; nlinarith [sq_nonneg (x 0), sq_nonneg (x 2)]
    have hle : -1 ≤ x 1 / n ∧ x 1 / n ≤ 1 := by
      rw [le_div_iff₀ h, div_le_iff₀ h]
      have := abs_le.mp hb
      constructor <;> linarith
    refine ⟨?_, hle⟩
    have hc := Real.cos_arccos hle.1 hle.2
    have hs := Real.sin_arccos (x 1 / n)
    set z : ℂ := ⟨x 2, x 0⟩ with hz
    have hr : n * Real.sin (Real.arccos (x 1 / n)) = ‖z‖ := by
      rw [hs, Complex.norm_def, ← Real.sqrt_sq h.le, ← Real.sqrt_mul (sq_nonneg _), Real.sqrt_sq h.le]
      congr 1
      rw [hz]
      simp only [Complex.normSq_mk]
      field_simp
      rw [hn2]; unfold r2; ring
    have e0 : ‖z‖ * Real.sin (Complex.arg z) = x 0 := by rw [Complex.norm_mul_sin_arg]
    have e2 : ‖z‖ * Real.cos (Complex.arg z) = x 2 := by rw [Complex.norm_mul_cos_arg]
    funext i
    fin_cases i
    · simp [matrixX, matrixY, ey, arctan2, Matrix.mulVec, dotProduct, Fin.sum_univ_three]
      rw [← hz]; linear_combination -e0 - Real.sin (Complex.arg z) * hr
    · simp [matrixX, matrixY, ey, arctan2, Matrix.mulVec, dotProduct, Fin.sum_univ_three, hc]
      field_simp
    · simp [matrixX, matrixY, ey, arctan2, Matrix.mulVec, dotProduct, Fin.sum_univ_three]
      rw [← hz]; linear_combination -e2 - Real.cos (Complex.arg z) * hr
  · rw [if_neg h]
    have h0 : Real.sqrt (r2 x) = 0 := le_antisymm (not_lt.mp h) (Real.sqrt_nonneg _)
    have hx := r2_eq_zero ((Real.sqrt_eq_zero (r2_nonneg x)).mp h0)
    rw [h0, hx]
    simp

theorem Y_polar (nrm : Normalization) (l : ℕ) (x : Fin 3 → ℝ) :
    Y nrm l x = (Real.sqrt (r2 x) ^ l * poleVal nrm l) •
      (rotY l (arctan2 (x 0) (x 2)) *ᵥ uvec l (Real.arccos (x 1 / (if 0 < Real.sqrt (r2 x) then Real.sqrt (r2 x) else 1)))) := by
  conv_lhs => rw [(polar x).1]
  rw [Y_smul, Y_rot nrm (matrixY_rot _), Y_rot nrm (matrixX_rot _), repD_matrixX, repD_matrixY, Y_pole]
  have : (fun k => if k = mid l then poleVal nrm l else 0) = poleVal nrm l • eMid l := by
    funext k; simp [eMid]
  rw [this, Matrix.mulVec_smul, Matrix.mulVec_smul, smul_smul, rotX_mid]

theorem shAlpha_get {lmax : ℕ} {m : ℤ} (h : m.natAbs ≤ lmax) (a : ℝ) : (shAlpha lmax a).getD ((lmax : ℤ) + m).toNat 0 =
    if m < 0 then Real.sqrt 2 * Real.sin (m.natAbs * a) else if m = 0 then 1 else Real.sqrt 2 * Real.cos (m.natAbs * a) := by
  unfold shAlpha
  rw [List.getD_eq_getElem?_getD, List.append_assoc]
  by_cases h1 : m < 0
  · rw [if_pos h1, List.getElem?_append_left (by simp; omega), List.getElem?_map, List.getElem?_range (by omega)]
    simp only [Option.map_some, Option.getD_some]
    rw [show lmax - ((lmax : ℤ) + m).toNat = m.natAbs by omega]
  · rw [if_neg h1, List.getElem?_append_right (by simp; omega)]
    simp only [List.length_map, List.length_range]
    by_cases h2 : m = 0
    · rw [if_pos h2, h2]; simp
    · rw [if_neg h2, List.getElem?_append_right (by simp; omega), List.getElem?_map]
      simp only [List.length_singleton]
      rw [List.getElem?_range (by omega)]
      simp only [Option.map_some, Option.getD_some]
      rw [show ((lmax : ℤ) + m).toNat - lmax - 1 + 1 = m.natAbs by omega]

/-- The factor of the normalisation. -/
noncomputable def legFac (nrm : Normalization) (l : ℕ) : ℝ := match nrm with
    | .norm => Real.sqrt (4 * Real.pi) / Real.sqrt (2 * l + 1)
    | .component => Real.sqrt (4 * Real.pi)
    | .integral => 1

theorem legFac_eq (nrm : Normalization) (l : ℕ) : Real.sqrt ((2 * l + 1) / (4 * Real.pi)) * legFac nrm l = poleVal nrm l := by
  have hp : (0 : ℝ) ≤ 4 * Real.pi := by positivity
  have h4 : Real.sqrt (4 * Real.pi) ≠ 0 := (Real.sqrt_pos.mpr (by positivity)).ne'
  have hl : Real.sqrt (2 * (l : ℝ) + 1) ≠ 0 := (Real.sqrt_pos.mpr (by positivity)).ne'
  cases nrm
  · simp [legFac, poleVal]
  · simp only [legFac, poleVal]
    rw [Real.sqrt_div (by positivity)]; field_simp
  · simp only [legFac, poleVal]
    rw [Real.sqrt_div (by positivity)]; field_simp

theorem legendreVal_eq (nrm : Normalization) {lmax l : ℕ} (hl : l ≤ lmax) (x : Fin 3 → ℝ) (k : Fin (2 * l + 1)) :
    legendreVal nrm lmax x l ((k.val : ℤ) - l) = Y nrm l x k := by
  have hk := k.isLt
  obtain ⟨-, hz1, hz2⟩ := polar x
  rw [Y_polar, Pi.smul_apply, smul_eq_mul, rotY_uvec]
  have e1 : legendreVal nrm lmax x l ((k.val : ℤ) - l) = shBeta l ((k.val : ℤ) - l).natAbs (x 1 / (if 0 < Real.sqrt (r2 x) then Real.sqrt (r2 x) else 1)) *
      Real.sqrt (r2 x) ^ l * legFac nrm l * (shAlpha lmax (arctan2 (x 0) (x 2))).getD ((lmax : ℤ) + ((k.val : ℤ) - l)).toNat 0 := by
    unfold legendreVal legFac
    cases nrm <;> simp [r2]
  rw [e1, shAlpha_get (by omega)]
  generalize Real.sqrt (r2 x) = n at *
  generalize x 1 / (if 0 < n then n else 1) = z at *
  generalize arctan2 (x 0) (x 2) = a at *
  have hb : ∀ m ≤ l, shBeta l m z = Real.sqrt ((2 * l + 1) / (4 * Real.pi)) * (Real.sqrt ((l - m).factorial / (l + m).factorial) * pm l m (Real.arccos z)) := by
    intro m hm
    unfold shBeta lpmn pm PD
    rw [if_neg (by omega), Real.sin_arccos, Real.cos_arccos hz1 hz2, Real.sqrt_mul (by positivity)]
    have : ((-1 : ℝ) ^ m) * (-1) ^ m = 1 := by rw [← mul_pow]; norm_num
    linear_combination (Real.sqrt ((2 * l + 1) / (4 * Real.pi)) * Real.sqrt ((l - m).factorial / (l + m).factorial) * (Real.sqrt (1 - z ^ 2) ^ m * (derivative^[m] (legendrePoly l)).eval z)) * this
  have hf := legFac_eq nrm l
  rcases lt_trichotomy k.val l with h | h | h
  · rw [dif_pos h, if_pos (by omega), hb _ (by omega)]
    unfold uvec
    rw [if_neg (by simp only; omega), if_neg (by simp only; omega)]
    simp only
    rw [← hf]
    have hm : ((k.val : ℤ) - l).natAbs = l - k.val := by omega
    rw [hm, show 2 * l - (2 * l - k.val) = l - (l - k.val) by omega, show l + (l - k.val) = 2 * l - k.val by omega,
      show 2 * l - k.val - l = l - k.val by omega, Nat.cast_sub h.le]
    ring
  · rw [dif_neg (by omega), if_neg (by omega), if_pos (by omega), hb _ (by omega)]
    unfold uvec
    rw [if_neg (by omega), if_pos h, ← hf, h]
    simp only [sub_self, Int.natAbs_zero, Nat.sub_zero, Nat.add_zero, zero_mul, Real.cos_zero]
    rw [div_self (by exact_mod_cast Nat.factorial_ne_zero _), Real.sqrt_one]
    ring
  · rw [dif_neg (by omega), if_neg (by omega), if_neg (by omega), hb _ (by omega)]
    unfold uvec
    rw [if_neg (by omega), if_neg (by omega), ← hf]
    have hm : ((k.val : ℤ) - l).natAbs = k.val - l := by omega
    rw [hm, show l - (k.val - l) = 2 * l - k.val by omega, show l + (k.val - l) = k.val by omega]
    have : ((l : ℝ) - k.val) * a = -(((k.val - l : ℕ) : ℝ) * a) := by rw [Nat.cast_sub h.le]; ring
    rw [this, Real.cos_neg]
    ring

/-! ### the loops -/

theorem foldl_set_getD {f : ℕ → ℝ} (g : ℕ → ℕ) (hg : ∀ i j, g i = g j → i = j) (n : ℕ) (s : List ℝ) (hs : ∀ i < n, g i < s.length) :
    ((List.range n).foldl (fun s i => s.set (g i) (f i)) s).length = s.length ∧
    (∀ i < n, ((List.range n).foldl (fun s i => s.set (g i) (f i)) s).getD (g i) 0 = f i) ∧
    (∀ j, (∀ i < n, g i ≠ j) → ((List.range n).foldl (fun s i => s.set (g i) (f i)) s).getD j 0 = s.getD j 0) := by
  induction n with
  | zero => simp
  | succ n ih =>
    obtain ⟨l1, l2, l3⟩ := ih (fun i hi => hs i (by omega))
    rw [List.range_succ, List.foldl_append]
    simp only [List.foldl_cons, List.foldl_nil]
    generalize (List.range n).foldl (fun s i => s.set (g i) (f i)) s = t at *
    refine ⟨by rw [List.length_set, l1], ?_, ?_⟩
    · intro i hi
      by_cases e : i = n
      · subst e
        rw [List.getD_eq_getElem?_getD, List.getElem?_set_self (by rw [l1]; exact hs i hi)]; rfl
      · rw [List.getD_eq_getElem?_getD, List.getElem?_set_ne (fun h => e (hg _ _ h).symm), ← List.getD_eq_getElem?_getD]
        exact l2 i (by omega)
    · intro j hj
      rw [List.getD_eq_getElem?_getD, List.getElem?_set_ne (hj n (by omega)), ← List.getD_eq_getElem?_getD]
      exact l3 j (fun i hi => hj i (by omega))

theorem legendreSH_get (nrm : Normalization) (lmax : ℕ) (x : Fin 3 → ℝ) {l i : ℕ} (hl : l ≤ lmax) (hi : i < 2 * l + 1) :
    (legendreSH nrm lmax x).getD (l ^ 2 + i) 0 = legendreVal nrm lmax x l ((i : ℤ) - l) := by
  have key : ∀ n ≤ lmax + 1, ((List.range n).foldl (fun sh l =>
      (List.range (2 * l + 1)).foldl (fun sh i => sh.set ((l : ℤ) ^ 2 + l + ((i : ℤ) - l)).toNat (legendreVal nrm lmax x l ((i : ℤ) - l))) sh)
      (List.replicate ((lmax + 1) ^ 2) 0)).length = (lmax + 1) ^ 2 ∧ ∀ l < n, ∀ i < 2 * l + 1, ((List.range n).foldl (fun sh l =>
      (List.range (2 * l + 1)).foldl (fun sh i => sh.set ((l : ℤ) ^ 2 + l + ((i : ℤ) - l)).toNat (legendreVal nrm lmax x l ((i : ℤ) - l))) sh)
      (List.replicate ((lmax + 1) ^ 2) 0)).getD (l ^ 2 + i) 0 = legendreVal nrm lmax x l ((i : ℤ) - l) := by
    intro n
    induction n with
    | zero => simp
    | succ n ih =>
      intro hn
      obtain ⟨h1, h2⟩ := ih (by omega)
      rw [List.range_succ, List.foldl_append]
      simp only [List.foldl_cons, List.foldl_nil]
      generalize (List.range n).foldl _ _ = s at *
      have hg : (fun (sh : List ℝ) (i : ℕ) => sh.set ((n : ℤ) ^ 2 + n + ((i : ℤ) - n)).toNat (legendreVal nrm lmax x n ((i : ℤ) - n))) =
          fun sh i => sh.set (n ^ 2 + i) (legendreVal nrm lmax x n ((i : ℤ) - n)) := by
        funext sh i
        have : ((n : ℤ) ^ 2 + n + ((i : ℤ) - n)) = ((n ^ 2 + i : ℕ) : ℤ) := by push_cast; ring
        rw [this, Int.toNat_natCast]
      rw [hg]
      have hb : ∀ i < 2 * n + 1, n ^ 2 + i < s.length := by
        intro i hi
        rw [h1]
        have : (n + 1) ^ 2 ≤ (lmax + 1) ^ 2 := Nat.pow_le_pow_left (by omega) 2
        nlinarith
      obtain ⟨l1, l2, l3⟩ := foldl_set_getD (f := fun i => legendreVal nrm lmax x n ((i : ℤ) - n)) (fun i => n ^ 2 + i) (fun i j h => by omega) (2 * n + 1) s hb
      refine ⟨by rw [l1, h1], ?_⟩
      intro l hl i hi
      by_cases e : l = n
      · subst e; exact l2 i hi
      · rw [l3 _ ?_]
        · exact h2 l (by omega) i hi
        · intro j _
          have : (l + 1) ^ 2 ≤ n ^ 2 := Nat.pow_le_pow_left (by omega) 2
          nlinarith
  unfold legendreSH
  exact (key (lmax + 1) le_rfl).2 l (by omega) i hi

theorem le_foldl_max (ls : List ℕ) : ∀ a, a ≤ ls.foldl max a ∧ ∀ l ∈ ls, l ≤ ls.foldl max a := by
  induction ls with
  | nil => intro a; simp
  | cons b ls ih =>
    intro a
    obtain ⟨h1, h2⟩ := ih (max a b)
    refine ⟨le_trans (le_max_left a b) h1, ?_⟩
    intro l hl
    rcases List.mem_cons.mp hl with rfl | h
    · exact le_trans (le_max_right a l) h1
    · exact h2 l h

theorem coreOk_legendre (nrm : Normalization) {alg : List String} (h0 : "legendre" ∈ alg) : CoreOk nrm alg := by
  intro ls hls x
  unfold shCore
  rw [if_pos h0]
  cases ls with
  | nil => exact absurd rfl hls
  | cons a ls =>
    simp only
    congr 1
    apply List.map_congr_left
    intro l hl
    have hmax := (le_foldl_max (a :: ls) 0).2 l hl
    congr 1
    funext i
    have hi := i.isLt
    rw [← legendreVal_eq nrm hmax, ← legendreSH_get nrm _ x hmax hi, List.getD_eq_getElem?_getD, List.getElem?_drop, List.getElem?_take,
      if_pos (by nlinarith), List.getD_eq_getElem?_getD]

end E3nn.SH
