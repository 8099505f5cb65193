import Verif.Model.SphericalHarmonics
import Verif.Lemmas.CGStretch
import Verif.Props.C39
import Verif.Props.C36_C38
import Mathlib.Tactic.FieldSimp

/-! # The spherical harmonics of the recursive algorithm -/

namespace E3nn.SH

open E3nn.SU2 E3nn.Wig E3nn.Rot Matrix

/-- The polynomials computed by the recursion. -/
noncomputable def Y (nrm : Normalization) : (l : ℕ) → (Fin 3 → ℝ) → Fin (2 * l + 1) → ℝ
  | 0, _ => fun _ => cst0 nrm
  | 1, x => fun i => cst1 nrm * x i
  | n + 2, x => fun k =>
    let l2 := biggestPowerOfTwo (n + 2 - 1)
    let l1 := n + 2 - l2
    cstStep nrm (n + 2) l1 l2 * ((∑ i, ∑ j, Y nrm l1 x i * Y nrm l2 x j * clebschGordan l1 l2 (n + 2) i j k) / poleNorm l1 l2 (n + 2))
termination_by l => l
decreasing_by
  · have := biggestPowerOfTwo_pos (n + 2 - 1); omega
  · have := biggestPowerOfTwo_le (n := n + 2 - 1) (by omega); omega

theorem Y_zero (nrm : Normalization) (x : Fin 3 → ℝ) : Y nrm 0 x = fun _ => cst0 nrm := by rw [Y]

theorem Y_one (nrm : Normalization) (x : Fin 3 → ℝ) : Y nrm 1 x = fun i : Fin 3 => cst1 nrm * x i := by rw [Y]

theorem Y_step (nrm : Normalization) (n : ℕ) (x : Fin 3 → ℝ) : Y nrm (n + 2) x = fun k =>
    cstStep nrm (n + 2) (n + 2 - biggestPowerOfTwo (n + 2 - 1)) (biggestPowerOfTwo (n + 2 - 1)) *
      ((∑ i, ∑ j, Y nrm (n + 2 - biggestPowerOfTwo (n + 2 - 1)) x i * Y nrm (biggestPowerOfTwo (n + 2 - 1)) x j *
        clebschGordan (n + 2 - biggestPowerOfTwo (n + 2 - 1)) (biggestPowerOfTwo (n + 2 - 1)) (n + 2) i j k) /
        poleNorm (n + 2 - biggestPowerOfTwo (n + 2 - 1)) (biggestPowerOfTwo (n + 2 - 1)) (n + 2)) := by
  rw [Y]

/-- The induction that follows the recursion. -/
theorem shInduction {P : ℕ → Prop} (h0 : P 0) (h1 : P 1)
    (hs : ∀ l1 l2 l, 0 < l1 → 0 < l2 → l = l1 + l2 → P l1 → P l2 →
      (∀ nrm x, Y nrm l x = fun k => cstStep nrm l l1 l2 * ((∑ i, ∑ j, Y nrm l1 x i * Y nrm l2 x j * clebschGordan l1 l2 l i j k) / poleNorm l1 l2 l)) → P l)
    (l : ℕ) : P l := by
  induction l using Nat.strong_induction_on with
  | _ l ih =>
    match l with
    | 0 => exact h0
    | 1 => exact h1
    | n + 2 =>
      have hp := biggestPowerOfTwo_pos (n + 2 - 1)
      have hl := biggestPowerOfTwo_le (n := n + 2 - 1) (by omega)
      exact hs (n + 2 - biggestPowerOfTwo (n + 2 - 1)) (biggestPowerOfTwo (n + 2 - 1)) (n + 2) (by omega) hp (by omega)
        (ih _ (by omega)) (ih _ (by omega)) (fun nrm x => Y_step nrm n x)

/-- The value at the pole `e_y`. -/
noncomputable def poleVal : Normalization → ℕ → ℝ
  | .integral, l => Real.sqrt ((2 * l + 1) / (4 * Real.pi))
  | .component, l => Real.sqrt (2 * l + 1)
  | .norm, _ => 1

theorem poleVal_pos (nrm : Normalization) (l : ℕ) : 0 < poleVal nrm l := by
  cases nrm
  · exact Real.sqrt_pos.mpr (by positivity)
  · exact Real.sqrt_pos.mpr (by positivity)
  · exact one_pos

theorem cst0_eq (nrm : Normalization) : cst0 nrm = poleVal nrm 0 := by
  cases nrm <;> simp [cst0, poleVal]

theorem cst1_eq (nrm : Normalization) : cst1 nrm = poleVal nrm 1 := by
  cases nrm <;> simp [cst1, poleVal] <;> norm_num

theorem cstStep_eq (nrm : Normalization) (l l1 l2 : ℕ) : cstStep nrm l l1 l2 = poleVal nrm l / (poleVal nrm l1 * poleVal nrm l2) := by
  cases nrm
  · rfl
  · simp only [cstStep, poleVal]
    rw [Real.sqrt_div (by positivity), Real.sqrt_mul (by positivity)]
  · simp [cstStep, poleVal]

/-- The unit vector at the middle index. -/
def eMid (l : ℕ) : Fin (2 * l + 1) → ℝ := fun i => if i = mid l then 1 else 0

theorem cg_stretch' {l1 l2 l : ℕ} (h : l = l1 + l2) : ∃ v : ℝ, 0 < v ∧ ∀ c, clebschGordan l1 l2 l (mid l1) (mid l2) c = if c = mid l then v else 0 := by
  subst h; exact cg_stretch l1 l2

theorem sum_mid (l1 l2 : ℕ) (f : Fin (2 * l1 + 1) → Fin (2 * l2 + 1) → ℝ) (a b : ℝ) :
    (∑ i, ∑ j, (if i = mid l1 then a else 0) * (if j = mid l2 then b else 0) * f i j) = a * b * f (mid l1) (mid l2) := by
  rw [Finset.sum_eq_single (mid l1), Finset.sum_eq_single (mid l2)]
  · simp
  · intro j _ hj; simp [hj]
  · intro h; exact absurd (Finset.mem_univ _) h
  · intro i _ hi; simp [hi]
  · intro h; exact absurd (Finset.mem_univ _) h

/-- `norm` of recursive.py:79 is the entry of the Clebsch-Gordan tensor at the poles. -/
theorem poleNorm_eq {l1 l2 l : ℕ} (h : l = l1 + l2) : 0 < poleNorm l1 l2 l ∧
    ∀ c, clebschGordan l1 l2 l (mid l1) (mid l2) c = if c = mid l then poleNorm l1 l2 l else 0 := by
  obtain ⟨v, hv, hc⟩ := cg_stretch' h
  have hp : poleNorm l1 l2 l = v := by
    unfold poleNorm
    have hi : ∀ i : Fin (2 * l1 + 1), (i.val = l1) ↔ i = mid l1 := fun i => ⟨fun h => Fin.ext h, fun h => by rw [h]; rfl⟩
    have hj : ∀ i : Fin (2 * l2 + 1), (i.val = l2) ↔ i = mid l2 := fun i => ⟨fun h => Fin.ext h, fun h => by rw [h]; rfl⟩
    simp only [hi, hj, sum_mid, hc, one_mul]
    rw [Finset.sum_eq_single (mid l)]
    · simp [Real.sqrt_sq hv.le]
    · intro c _ hn; simp [hn]
    · intro h; exact absurd (Finset.mem_univ _) h
  rw [hp]
  exact ⟨hv, hc⟩

/-- The pole `e_y`. -/
def ey : Fin 3 → ℝ := ![0, 1, 0]

theorem Y_pole (nrm : Normalization) (l : ℕ) : Y nrm l ey = fun k => if k = mid l then poleVal nrm l else 0 := by
  induction l using shInduction with
  | h0 =>
    rw [Y_zero, cst0_eq]
    funext k
    rw [if_pos (by ext; omega)]
  | h1 =>
    rw [Y_one, cst1_eq]
    funext k
    fin_cases k <;> simp [ey, mid]
  | hs l1 l2 l hl1 hl2 hl ih1 ih2 hY =>
    obtain ⟨hp, hc⟩ := poleNorm_eq hl
    rw [hY, ih1, ih2]
    funext k
    simp only [sum_mid]
    rw [hc, cstStep_eq]
    have h1 := (poleVal_pos nrm l1).ne'
    have h2 := (poleVal_pos nrm l2).ne'
    have := hp.ne'
    split <;> field_simp <;> simp

theorem Y_smul (nrm : Normalization) (c : ℝ) (l : ℕ) (x : Fin 3 → ℝ) : Y nrm l (c • x) = c ^ l • Y nrm l x := by
  induction l using shInduction generalizing x with
  | h0 => rw [Y_zero, Y_zero]; simp
  | h1 => rw [Y_one, Y_one]; funext i; simp; ring
  | hs l1 l2 l hl1 hl2 hl ih1 ih2 hY =>
    rw [hY, hY]
    funext k
    simp only [ih1, ih2, Pi.smul_apply, smul_eq_mul]
    have : (∑ i, ∑ j, c ^ l1 * Y nrm l1 x i * (c ^ l2 * Y nrm l2 x j) * clebschGordan l1 l2 l i j k) =
        c ^ l * ∑ i, ∑ j, Y nrm l1 x i * Y nrm l2 x j * clebschGordan l1 l2 l i j k := by
      have e : c ^ l = c ^ l1 * c ^ l2 := by rw [← pow_add, hl]
      rw [Finset.mul_sum]
      refine Finset.sum_congr rfl fun i _ => ?_
      rw [Finset.mul_sum]
      refine Finset.sum_congr rfl fun j _ => by rw [e]; ring
    rw [this]
    ring

theorem parity_pow_add (p : Parity) (a b : ℕ) : p.pow (a + b) = (p.pow a).mul (p.pow b) := by
  cases p
  · simp [Parity.pow, Parity.mul]
  · simp only [Parity.pow, Parity.ofPow]
    rcases Nat.mod_two_eq_zero_or_one a with ha | ha <;> rcases Nat.mod_two_eq_zero_or_one b with hb | hb <;>
      simp [Nat.add_mod, ha, hb, Parity.mul]

/-- Equivariance under O(3). -/
theorem Y_equivariant (nrm : Normalization) (p : Parity) {R : Matrix (Fin 3) (Fin 3) ℝ} (hR : IsOrth R) (l : ℕ) (x : Fin 3 → ℝ) :
    Y nrm l (dMatrix ⟨1, p⟩ R *ᵥ x) = dMatrix ⟨l, p.pow l⟩ R *ᵥ Y nrm l x := by
  induction l using shInduction with
  | h0 =>
    have h : p.pow 0 = .e := by cases p <;> rfl
    rw [h, (C39_defining hR).2.2.1, Y_zero, Y_zero, Matrix.one_mulVec]
  | h1 =>
    have h : p.pow 1 = p := by cases p <;> rfl
    rw [h, Y_one, Y_one]
    funext i
    have : (fun i : Fin 3 => cst1 nrm * x i) = cst1 nrm • x := by funext i; simp
    rw [this, Matrix.mulVec_smul]
    simp
  | hs l1 l2 l hl1 hl2 hl ih1 ih2 hY =>
    have hp : p.pow l = (p.pow l1).mul (p.pow l2) := by rw [hl, parity_pow_add]
    have hC := C39_clebsch_gordan l1 l2 l (p.pow l1) (p.pow l2) hR (Y nrm l1 x) (Y nrm l2 x)
    simp only at hC
    rw [← ih1, ← ih2, ← hp] at hC
    have hform : ∀ x, Y nrm l x = (cstStep nrm l l1 l2 / poleNorm l1 l2 l) • fun c => ∑ a, ∑ b, clebschGordan l1 l2 l a b c * Y nrm l1 x a * Y nrm l2 x b := by
      intro x
      rw [hY]
      funext k
      simp only [Pi.smul_apply, smul_eq_mul]
      rw [div_mul_eq_mul_div, mul_div_assoc]
      congr 2
      exact Finset.sum_congr rfl fun i _ => Finset.sum_congr rfl fun j _ => by ring
    rw [hform, hform, hC, Matrix.mulVec_smul]

theorem Y_rot (nrm : Normalization) {R : Matrix (Fin 3) (Fin 3) ℝ} (hR : IsRotation R) (l : ℕ) (x : Fin 3 → ℝ) :
    Y nrm l (R *ᵥ x) = repD l R *ᵥ Y nrm l x := by
  have := Y_equivariant nrm .o hR.1 l x
  rwa [(C39_defining hR.1).1, dMatrix_rot _ hR] at this

/-- `|x|^2`. -/
def r2 (x : Fin 3 → ℝ) : ℝ := x 0 ^ 2 + x 1 ^ 2 + x 2 ^ 2

theorem r2_nonneg (x : Fin 3 → ℝ) : 0 ≤ r2 x := by unfold r2; positivity

theorem r2_eq_zero {x : Fin 3 → ℝ} (h : r2 x = 0) : x = 0 := by
  unfold r2 at h
  funext i
  fin_cases i <;> simp <;> nlinarith [sq_nonneg (x 0), sq_nonneg (x 1), sq_nonneg (x 2)]

/-- Every nonzero vector is a multiple of a rotated pole. -/
theorem exists_rot (x : Fin 3 → ℝ) : ∃ R, IsRotation R ∧ x = Real.sqrt (r2 x) • (R *ᵥ ey) := by
  by_cases hx : x = 0
  · refine ⟨1, isRotation_one, ?_⟩
    subst hx
    simp [r2]
  · refine ⟨_, anglesToMatrix_rot (xyzToAngles x).1 (xyzToAngles x).2 0, ?_⟩
    · have h := (C36_xyz x hx).2
      have hn : Real.sqrt (r2 x) ≠ 0 := fun h => hx (r2_eq_zero ((Real.sqrt_eq_zero (r2_nonneg x)).mp h))
      unfold ey
      rw [h]
      funext i
      simp only [direction, Pi.smul_apply, smul_eq_mul]
      rw [← mul_assoc, show vnormSq x = r2 x from rfl, mul_inv_cancel₀ hn, one_mul]

/-- Two functions that are equivariant under rotations, homogeneous of degree `l` and equal at the pole are equal. -/
theorem equiv_unique {l : ℕ} {f g : (Fin 3 → ℝ) → Fin (2 * l + 1) → ℝ} (hf : ∀ R, IsRotation R → ∀ x, f (R *ᵥ x) = repD l R *ᵥ f x)
    (hg : ∀ R, IsRotation R → ∀ x, g (R *ᵥ x) = repD l R *ᵥ g x) (hf' : ∀ c : ℝ, ∀ x, f (c • x) = c ^ l • f x)
    (hg' : ∀ c : ℝ, ∀ x, g (c • x) = c ^ l • g x) (h : f ey = g ey) : f = g := by
  funext x
  obtain ⟨R, hR, hx⟩ := exists_rot x
  rw [hx, hf', hg', hf R hR, hg R hR, h]

theorem norm_repD {l : ℕ} {R : Mat} (hR : IsRotation R) (v : Fin (2 * l + 1) → ℝ) : ∑ k, (repD l R *ᵥ v) k ^ 2 = ∑ k, v k ^ 2 := by
  have h : (repD l R)ᵀ * repD l R = 1 := mul_eq_one_comm.mp (repD_orth l hR)
  have e : ∀ w : Fin (2 * l + 1) → ℝ, ∑ k, w k ^ 2 = w ⬝ᵥ w := fun w => by simp [dotProduct, sq]
  rw [e, e, Matrix.dotProduct_mulVec, Matrix.vecMul_mulVec, h, Matrix.vecMul_one]

/-- The norm of the spherical harmonics. -/
theorem Y_norm (nrm : Normalization) (l : ℕ) (x : Fin 3 → ℝ) : ∑ k, Y nrm l x k ^ 2 = poleVal nrm l ^ 2 * r2 x ^ l := by
  obtain ⟨R, hR, hx⟩ := exists_rot x
  have h1 : Y nrm l x = Real.sqrt (r2 x) ^ l • (repD l R *ᵥ Y nrm l ey) := by
    conv_lhs => rw [hx]
    rw [Y_smul, Y_rot nrm hR]
  rw [h1]
  simp only [Pi.smul_apply, smul_eq_mul, mul_pow]
  rw [← Finset.mul_sum, norm_repD hR, Y_pole, Finset.sum_eq_single (mid l)]
  · simp only [if_true]
    rw [← pow_mul, mul_comm l 2, pow_mul, Real.sq_sqrt (r2_nonneg x), mul_comm]
  · intro k _ hk; simp [hk]
  · intro h; exact absurd (Finset.mem_univ _) h

end E3nn.SH
