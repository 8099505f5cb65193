import Verif.Lemmas.SO3X
import Verif.Lemmas.JWitness
import Verif.Model.Wigner

namespace E3nn.Wig

open Matrix E3nn.SU2 E3nn.Rot

/-! ### integer checks, evaluated by the kernel -/

/-- `Σ_{i < n} f i`. -/
def sumTo : ℕ → (ℕ → ℤ) → ℤ
  | 0, _ => 0
  | n + 1, f => sumTo n f + f n

/-- All `i < n`. -/
def allTo : ℕ → (ℕ → Bool) → Bool
  | 0, _ => true
  | n + 1, p => p n && allTo n p

theorem allTo_spec {n : ℕ} {p : ℕ → Bool} (h : allTo n p = true) {i : ℕ} (hi : i < n) : p i = true := by
  induction n with
  | zero => omega
  | succ n ih =>
    rw [allTo, Bool.and_eq_true] at h
    rcases Nat.lt_succ_iff_lt_or_eq.mp hi with h' | rfl
    · exact ih h.2 h'
    · exact h.1

theorem sumTo_eq (n : ℕ) (f : ℕ → ℤ) : sumTo n f = ∑ i : Fin n, f i := by
  induction n with
  | zero => rfl
  | succ n ih => rw [sumTo, Fin.sum_univ_castSucc, ih]; rfl

/-- The weights. -/
def wt (l a : ℕ) : ℕ := (2 * l).choose a * if a = l then 1 else 2

def jAt (l a c : ℕ) : JE := ((jTables.getD l []).getD a []).getD c ⟨0, 0, 1⟩
def pAt (l a c : ℕ) : ℤ := ((pTables.getD l []).getD a []).getD c 0

/-- `2 X_x` in the rescaled basis. -/
def xAt (l a b : ℕ) : ℤ :=
  if a = b + 1 then (if b < l then (if b + 1 = l then 0 else -(2 * l - b)) else if b = l then 2 * (2 * l - b) else 2 * l - b)
  else if b = a + 1 then (if a < l then (if a + 1 = l then 0 else b) else -b)
  else 0

def entryCheck (l : ℕ) : Bool := allTo (2 * l + 1) fun a => allTo (2 * l + 1) fun c =>
  let e := jAt l a c
  let p := pAt l a c
  decide (0 ≤ e.num * p) && decide (e.num * e.num * e.rad * wt l a * 4 ^ l = p * p * (e.den * e.den * wt l c : ℕ)) && decide (0 < e.den)

def squareCheck (l : ℕ) : Bool := allTo (2 * l + 1) fun a => allTo (2 * l + 1) fun b =>
  decide (sumTo (2 * l + 1) (fun c => pAt l a c * pAt l c b) = if a = b then 4 ^ l else 0)

def genCheck (l : ℕ) : Bool := allTo (2 * l + 1) fun a => allTo (2 * l + 1) fun b =>
  decide (2 * sumTo (2 * l + 1) (fun c => pAt l a c * (((l : ℤ) - c) * pAt l (2 * l - c) b)) = xAt l a b * 4 ^ l)

set_option maxRecDepth 100000 in
theorem checks_ok : ∀ l < 12, entryCheck l = true ∧ squareCheck l = true ∧ genCheck l = true := by
  decide +kernel

theorem wt_pos {l a : ℕ} (h : a ≤ 2 * l) : 0 < wt l a := by
  unfold wt
  have := Nat.choose_pos h
  split <;> omega

theorem wt_rev {l a : ℕ} (h : a ≤ 2 * l) : wt l (2 * l - a) = wt l a := by
  unfold wt
  rw [Nat.choose_symm h]
  congr 1
  by_cases h1 : a = l
  · rw [if_pos h1, if_pos (by omega)]
  · rw [if_neg h1, if_neg (by omega)]

/-- `sqrt w_a`. -/
noncomputable def sw (l a : ℕ) : ℝ := Real.sqrt (wt l a)

theorem sw_pos {l a : ℕ} (h : a ≤ 2 * l) : 0 < sw l a := by
  unfold sw
  have := wt_pos h
  positivity

theorem jMatrix_scaled {l : ℕ} (hl : l < 12) (a c : Fin (2 * l + 1)) :
    sw l a * jMatrix l a c = (pAt l a c : ℝ) / 2 ^ l * sw l c := by
  have h := allTo_spec (allTo_spec (checks_ok l hl).1 a.isLt) c.isLt
  simp only [Bool.and_eq_true, decide_eq_true_eq] at h
  obtain ⟨⟨h1, h2⟩, h3⟩ := h
  show sw l a * ((jAt l a c).num * Real.sqrt (jAt l a c).rad / (jAt l a c).den) = _
  generalize jAt l a c = e at *
  generalize pAt l a c = p at *
  have h2' : (e.num : ℝ) * e.num * e.rad * wt l a * 4 ^ l = p * p * (e.den * e.den * wt l c) := by exact_mod_cast h2
  have h1' : (0 : ℝ) ≤ e.num * p := by exact_mod_cast h1
  have hd : (0 : ℝ) < e.den := by exact_mod_cast h3
  have hw := sw_pos (l := l) (a := a) (by omega)
  have hw' := sw_pos (l := l) (a := c) (by omega)
  have s1 : sw l a * sw l a = wt l a := Real.mul_self_sqrt (by positivity)
  have s2 : sw l c * sw l c = wt l c := Real.mul_self_sqrt (by positivity)
  have s3 : Real.sqrt e.rad * Real.sqrt e.rad = e.rad := Real.mul_self_sqrt (by positivity)
  have hr : 0 ≤ Real.sqrt e.rad := Real.sqrt_nonneg _
  have h4 : (4 : ℝ) ^ l = 2 ^ l * 2 ^ l := by rw [← mul_pow]; norm_num
  have h2p : (0 : ℝ) < 2 ^ l := by positivity
  have key : sw l a * e.num * Real.sqrt e.rad * 2 ^ l = p * sw l c * e.den := by
    have hsq : (sw l a * e.num * Real.sqrt e.rad * 2 ^ l) ^ 2 = (p * sw l c * e.den) ^ 2 := by
      calc _ = (e.num : ℝ) * e.num * (Real.sqrt e.rad * Real.sqrt e.rad) * (sw l a * sw l a) * (2 ^ l * 2 ^ l) := by ring
        _ = p * p * (e.den * e.den * (sw l c * sw l c)) := by rw [s1, s2, s3, ← h4, h2']
        _ = _ := by ring
    rcases sq_eq_sq_iff_eq_or_eq_neg.mp hsq with h | h
    · exact h
    · have hprod : 0 ≤ (sw l a * e.num * Real.sqrt e.rad * 2 ^ l) * (p * sw l c * e.den) := by
        have : (sw l a * e.num * Real.sqrt e.rad * 2 ^ l) * (p * sw l c * e.den) =
            (e.num * p) * (sw l a * Real.sqrt e.rad * 2 ^ l * (sw l c * e.den)) := by ring
        rw [this]; positivity
      rw [h] at hprod ⊢
      have : (p * sw l c * e.den) ^ 2 ≤ 0 := by nlinarith
      have : p * sw l c * e.den = 0 := pow_eq_zero_iff (two_ne_zero) |>.mp (le_antisymm this (sq_nonneg _))
      rw [this]; simp
  field_simp
  linarith

theorem jMatrix_sq {l : ℕ} (hl : l < 12) : jMatrix l * jMatrix l = 1 := by
  ext a b
  have hw := sw_pos (l := l) (a := a) (by omega)
  have h := allTo_spec (allTo_spec (checks_ok l hl).2.1 a.isLt) b.isLt
  simp only [decide_eq_true_eq, sumTo_eq] at h
  have h' : ∑ c : Fin (2 * l + 1), (pAt l a c : ℝ) * pAt l c b = if a.val = b.val then 4 ^ l else 0 := by
    have := congrArg (fun z : ℤ => (z : ℝ)) h
    push_cast at this
    rw [this]
  apply mul_left_cancel₀ hw.ne'
  rw [Matrix.mul_apply, Finset.mul_sum]
  have e : ∀ c : Fin (2 * l + 1), sw l a * (jMatrix l a c * jMatrix l c b) = ((pAt l a c : ℝ) * pAt l c b) * (sw l b / 4 ^ l) := by
    intro c
    rw [← mul_assoc, jMatrix_scaled hl, mul_assoc, jMatrix_scaled hl, show (4 : ℝ) ^ l = 2 ^ l * 2 ^ l by rw [← mul_pow]; norm_num]
    field_simp
  rw [Finset.sum_congr rfl fun c _ => e c, ← Finset.sum_mul, h', Matrix.one_apply]
  by_cases hab : a = b
  · subst hab; simp; field_simp
  · rw [if_neg (fun h => hab (Fin.ext h)), if_neg hab]; simp

theorem wt_step {l b : ℕ} (hb : b < 2 * l) : (2 * l).choose (b + 1) * (b + 1) = (2 * l).choose b * (2 * l - b) :=
  Nat.choose_succ_right_eq _ _

theorem sqrt_ratio {x y u v : ℝ} (hx : 0 < x) (hy : 0 < y) (hu : 0 < u) (h : x * v = y * u) :
    Real.sqrt x * Real.sqrt (u * v) = u * Real.sqrt y := by
  rw [← Real.sqrt_mul hx.le, show x * (u * v) = u ^ 2 * y by linear_combination u * h,
    Real.sqrt_mul (by positivity), Real.sqrt_sq hu.le]

theorem gen_zero_scaled (l : ℕ) (a b : Fin (2 * l + 1)) :
    sw l a * so3Generators l 0 a b = (xAt l a b : ℝ) / 2 * sw l b := by
  have ha := a.isLt
  have hb := b.isLt
  rw [so3_gen_zero]
  -- the two neighbours
  have step : ∀ c : ℕ, c < 2 * l → Real.sqrt ((2 * l).choose (c + 1) : ℕ) * Real.sqrt ((2 * (l : ℝ) - c) * (c + 1)) =
        (2 * (l : ℝ) - c) * Real.sqrt ((2 * l).choose c : ℕ) ∧
      Real.sqrt ((2 * l).choose c : ℕ) * Real.sqrt ((2 * (l : ℝ) - c) * (c + 1)) =
        ((c : ℝ) + 1) * Real.sqrt ((2 * l).choose (c + 1) : ℕ) := by
    intro c hc
    have h := wt_step hc
    have p1 : 0 < (2 * l).choose (c + 1) := Nat.choose_pos (by omega)
    have p2 : 0 < (2 * l).choose c := Nat.choose_pos (by omega)
    have hr : (((2 * l).choose (c + 1) : ℕ) : ℝ) * ((c : ℝ) + 1) = ((2 * l).choose c : ℕ) * (2 * (l : ℝ) - c) := by
      have := congrArg (fun n : ℕ => (n : ℝ)) h
      push_cast [Nat.cast_sub hc.le] at this
      exact this
    have hc' : (0 : ℝ) < 2 * (l : ℝ) - c := by
      have : (c : ℝ) < 2 * l := by exact_mod_cast hc
      linarith
    constructor
    · exact sqrt_ratio (by exact_mod_cast p1) (by exact_mod_cast p2) hc' hr
    · rw [mul_comm (2 * (l : ℝ) - c)]
      exact sqrt_ratio (by exact_mod_cast p2) (by exact_mod_cast p1) (by positivity) hr.symm
  have s2 : Real.sqrt 2 * Real.sqrt 2 = 2 := Real.mul_self_sqrt (by norm_num)
  have swn : ∀ c : ℕ, c ≠ l → sw l c = Real.sqrt ((2 * l).choose c : ℕ) * Real.sqrt 2 := by
    intro c hc
    unfold sw wt
    rw [if_neg hc]; push_cast; rw [Real.sqrt_mul (by positivity)]
  have swe : sw l l = Real.sqrt ((2 * l).choose l : ℕ) := by
    unfold sw wt
    rw [if_pos rfl, mul_one]
  unfold xAt
  by_cases h1 : a.val = b.val + 1
  · rw [if_pos h1, if_pos h1, h1]
    obtain ⟨g1, g2⟩ := step b.val (by omega)
    unfold xUpR
    rcases lt_trichotomy b.val l with h | h | h
    · rw [if_pos h, if_pos h]
      by_cases h' : b.val + 1 = l
      · rw [if_pos h', if_pos h']; simp
      · rw [if_neg h', if_neg h', swn _ h', swn _ (by omega)]
        push_cast
        linear_combination -(1 / 2) * Real.sqrt 2 * g1
    · simp (disch := omega) only [if_pos, if_neg]
      rw [swn (b.val + 1) (by omega), h, swe]
      rw [h] at g1
      push_cast
      linear_combination (Real.sqrt 2 * Real.sqrt 2 / 2) * g1 + (2 * (l : ℝ) - l) * Real.sqrt ((2 * l).choose l : ℕ) / 2 * s2
    · simp (disch := omega) only [if_neg]
      rw [swn _ (by omega), swn _ (by omega)]
      push_cast
      linear_combination (1 / 2) * Real.sqrt 2 * g1
  · rw [if_neg h1, if_neg h1]
    by_cases h2 : b.val = a.val + 1
    · rw [if_pos h2, if_pos h2, h2]
      obtain ⟨g1, g2⟩ := step a.val (by omega)
      unfold xUpR
      rcases lt_trichotomy a.val l with h | h | h
      · rw [if_pos h, if_pos h]
        by_cases h' : a.val + 1 = l
        · rw [if_pos h', if_pos h']; simp
        · rw [if_neg h', if_neg h', swn _ h', swn _ (by omega)]
          push_cast
          linear_combination (1 / 2) * Real.sqrt 2 * g2
      · simp (disch := omega) only [if_pos, if_neg]
        rw [swn (a.val + 1) (by omega), h, swe]
        rw [h] at g2
        push_cast
        linear_combination -(Real.sqrt 2 / 2) * g2
      · simp (disch := omega) only [if_neg]
        rw [swn _ (by omega), swn _ (by omega)]
        push_cast
        linear_combination -(1 / 2) * Real.sqrt 2 * g2
    · rw [if_neg h2, if_neg h2]; simp

/-- The tables turn the rotation around y into the rotation around x. -/
theorem jMatrix_gen {l : ℕ} (hl : l < 12) : jMatrix l * so3Generators l 1 * jMatrix l = so3Generators l 0 := by
  ext a b
  have hw := sw_pos (l := l) (a := a) (by omega)
  have h := allTo_spec (allTo_spec (checks_ok l hl).2.2 a.isLt) b.isLt
  simp only [decide_eq_true_eq, sumTo_eq] at h
  have h' : 2 * ∑ c : Fin (2 * l + 1), (pAt l a c : ℝ) * (((l : ℝ) - c) * pAt l (2 * l - c) b) = xAt l a b * 4 ^ l := by
    have := congrArg (fun z : ℤ => (z : ℝ)) h
    push_cast at this
    exact this
  apply mul_left_cancel₀ hw.ne'
  rw [gen_zero_scaled, Matrix.mul_assoc, Matrix.mul_apply, Finset.mul_sum]
  have e : ∀ c : Fin (2 * l + 1), sw l a * (jMatrix l a c * (so3Generators l 1 * jMatrix l) c b) =
      ((pAt l a c : ℝ) * (((l : ℝ) - c) * pAt l (2 * l - c) b)) * (sw l b / 4 ^ l) := by
    intro c
    have hc := c.isLt
    have hy : (so3Generators l 1 * jMatrix l) c b = ((l : ℝ) - c) * jMatrix l c.rev b := by
      rw [Matrix.mul_apply, Finset.sum_eq_single c.rev]
      · rw [so3_gen_one, if_pos (by rw [rev_sub]; omega)]
      · intro d _ hd
        rw [so3_gen_one, if_neg, zero_mul]
        intro h
        exact hd (Fin.ext (by rw [rev_sub]; omega))
      · simp
    have hr : sw l c = sw l c.rev := by unfold sw; rw [rev_sub, wt_rev (by omega)]
    rw [hy, ← mul_assoc, jMatrix_scaled hl, hr]
    have hj := jMatrix_scaled hl c.rev b
    rw [show (4 : ℝ) ^ l = 2 ^ l * 2 ^ l by rw [← mul_pow]; norm_num]
    rw [rev_sub] at *
    have h2p : (2 : ℝ) ^ l ≠ 0 := by positivity
    field_simp at hj ⊢
    linear_combination (pAt l a c : ℝ) * ((l : ℝ) - c) * hj
  rw [Finset.sum_congr rfl fun c _ => e c, ← Finset.sum_mul]
  have : (4 : ℝ) ^ l ≠ 0 := by positivity
  generalize ∑ c : Fin (2 * l + 1), (pAt l a c : ℝ) * (((l : ℝ) - c) * pAt l (2 * l - c) b) = S at h' ⊢
  field_simp
  linear_combination sw l b * h'

end E3nn.Wig
