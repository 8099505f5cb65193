import Verif.Spec.Sympy
import Mathlib.Algebra.Order.Round
import Mathlib.Tactic.Linarith
import Mathlib.Tactic.FieldSimp
import Mathlib.Tactic.NormNum
import Mathlib.Tactic.Positivity

/-!
# C124: numbers recognised as square roots of rationals
-/

namespace E3nn.Sym

theorem rat_gap {a b : ℚ} (h : |a - b| < 1 / (a.den * b.den)) : a = b := by
  by_contra hne
  have hd : (0 : ℚ) < a.den * b.den := by have := a.pos; have := b.pos; positivity
  have e : a - b = ((a.num * b.den - b.num * a.den : ℤ) : ℚ) / (a.den * b.den) := by
    have h1 : (a.den : ℚ) ≠ 0 := by have := a.pos; positivity
    have h2 : (b.den : ℚ) ≠ 0 := by have := b.pos; positivity
    push_cast
    rw [eq_div_iff (by positivity)]
    have ha := Rat.mul_den_eq_num a
    have hb := Rat.mul_den_eq_num b
    rw [← ha, ← hb]
    ring
  have hn : a.num * b.den - b.num * a.den ≠ 0 := by
    intro h0
    rw [h0] at e
    simp at e
    exact hne (sub_eq_zero.mp e)
  rw [e, abs_div, abs_of_pos hd, div_lt_div_iff_of_pos_right hd, ← Int.cast_abs] at h
  have h1 : (1 : ℤ) ≤ |a.num * b.den - b.num * a.den| := Int.one_le_abs hn
  have : ((1 : ℤ) : ℚ) ≤ ((|a.num * b.den - b.num * a.den| : ℤ) : ℚ) := by exact_mod_cast h1
  push_cast at this h
  linarith

/-- A square within `1 / (2 q 10^6)` of `p / q` with `q ≤ 10^6` is recognised: the result is exactly `± sqrt(p / q)`, with the sign of `x`. -/
theorem C124_recognised (ld sq : ℚ → ℚ) (hld : Closest ld) (x : ℚ) (r : ℚ) (hr : r.den ≤ 10 ^ 6) (h : |sq x - r| < 1 / (2 * r.den * 10 ^ 6)) :
    sqrtQ ld sq x = if 0 ≤ x then Real.sqrt r else -Real.sqrt r := by
  obtain ⟨h1, h2⟩ := hld (sq x)
  have hrp : (0 : ℚ) < r.den := by have := r.pos; positivity
  have hlp : (0 : ℚ) < (ld (sq x)).den := by have := (ld (sq x)).pos; positivity
  have h1' : ((ld (sq x)).den : ℚ) ≤ 10 ^ 6 := by exact_mod_cast h1
  have key : ld (sq x) = r := by
    apply rat_gap
    have h3 : |ld (sq x) - r| ≤ |sq x - ld (sq x)| + |sq x - r| := by
      have := abs_sub_le (ld (sq x)) (sq x) r
      rwa [abs_sub_comm (ld (sq x)) (sq x)] at this
    have h4 := h2 r hr
    have h5 : |ld (sq x) - r| < 1 / (r.den * 10 ^ 6) := by
      have : 2 * (1 / (2 * (r.den : ℚ) * 10 ^ 6)) = 1 / (r.den * 10 ^ 6) := by field_simp
      linarith
    refine lt_of_lt_of_le h5 ?_
    apply one_div_le_one_div_of_le (by positivity)
    rw [mul_comm]
    exact mul_le_mul_of_nonneg_left h1' hrp.le
  unfold sqrtQ qToSympy
  rw [key]
  split_ifs <;> simp

/-- For every number the square of the result is a rational with denominator at most `10^6` (if the result is not `0`), within `1 / (2 * 10^6)` of the square of the
number, and the result has the sign of the number. -/
theorem C124_bound (ld sq : ℚ → ℚ) (hld : Closest ld) (x : ℚ) (hs : 0 ≤ sq x) :
    (∃ r : ℚ, r.den ≤ 10 ^ 6 ∧ sqrtQ ld sq x ^ 2 = r ∧ |sq x - r| ≤ 1 / (2 * 10 ^ 6)) ∧
      (0 ≤ x → 0 ≤ sqrtQ ld sq x) ∧ (x < 0 → sqrtQ ld sq x ≤ 0) := by
  obtain ⟨h1, h2⟩ := hld (sq x)
  have hnn : 0 ≤ ld (sq x) := by
    by_contra hneg
    push Not at hneg
    have := h2 0 (by norm_num)
    rw [sub_zero, abs_of_nonneg hs, abs_of_pos (by linarith)] at this
    linarith
  refine ⟨⟨ld (sq x), h1, ?_, ?_⟩, ?_, ?_⟩
  · unfold sqrtQ qToSympy
    rw [mul_pow, Real.sq_sqrt (by exact_mod_cast hnn)]
    split_ifs <;> norm_num
  · set n : ℤ := round (sq x * 10 ^ 6) with hn
    have hden : ((n : ℚ) / 10 ^ 6).den ≤ 10 ^ 6 := by
      have h := Rat.den_dvd n (10 ^ 6)
      have h' : (((n : ℚ) / ((10 ^ 6 : ℤ) : ℚ)).den : ℤ) ∣ 10 ^ 6 := by
        rw [← Rat.divInt_eq_div]; exact h
      have h2 := Int.le_of_dvd (by norm_num) h'
      have h3 : ((n : ℚ) / ((10 ^ 6 : ℤ) : ℚ)).den ≤ 10 ^ 6 := by
        have h4 : ((((n : ℚ) / ((10 ^ 6 : ℤ) : ℚ)).den : ℕ) : ℤ) ≤ ((10 ^ 6 : ℕ) : ℤ) := by simpa using h2
        exact Int.ofNat_le.mp h4
      have e : (((10 ^ 6 : ℤ) : ℚ)) = 10 ^ 6 := by norm_num
      rwa [e] at h3
    refine (h2 _ hden).trans ?_
    have hr := abs_sub_round (sq x * 10 ^ 6)
    have e : sq x - (n : ℚ) / 10 ^ 6 = (sq x * 10 ^ 6 - n) / 10 ^ 6 := by field_simp
    rw [e, abs_div, abs_of_pos (by norm_num : (0 : ℚ) < 10 ^ 6), div_le_iff₀ (by norm_num)]
    calc |sq x * 10 ^ 6 - n| ≤ 1 / 2 := hr
      _ = 1 / (2 * 10 ^ 6) * 10 ^ 6 := by norm_num
  · intro h
    unfold sqrtQ
    rw [if_pos h, one_mul]
    exact Real.sqrt_nonneg _
  · intro h
    unfold sqrtQ
    rw [if_neg (by simpa using h), neg_one_mul, neg_nonpos]
    exact Real.sqrt_nonneg _

/-- Arrays are converted entry by entry, with the same shape. -/
theorem C124_array (ld sq : ℚ → ℚ) (x : Nd ℚ) (i : List ℕ) : (sqrtQarray ld sq x).get? i = (x.get? i).map (sqrtQ ld sq) := by
  induction i generalizing x with
  | nil =>
    cases x with
    | scalar a => simp [sqrtQarray, Nd.get?]
    | rows l => simp [sqrtQarray, Nd.get?]
  | cons k is ih =>
    cases x with
    | scalar a => simp [sqrtQarray, Nd.get?]
    | rows l =>
      have e : sqrtQarray ld sq (.rows l) = .rows (l.map (sqrtQarray ld sq)) := by
        rw [sqrtQarray]
        simp
      rw [e]
      simp only [Nd.get?, List.getElem?_map]
      cases l[k]? with
      | none => rfl
      | some r => simpa using ih r

/-- The contract of `limit_denominator` can be met. -/
theorem C124_contract : ∃ ld : ℚ → ℚ, Closest ld := by
  have : ∀ x : ℚ, ∃ y : ℚ, y.den ≤ 10 ^ 6 ∧ ∀ r : ℚ, r.den ≤ 10 ^ 6 → |x - y| ≤ |x - r| := by
    intro x
    obtain ⟨d, hd, hmin⟩ := Finset.exists_min_image (Finset.Icc 1 (10 ^ 6)) (fun d : ℕ => |x - (round (x * d) : ℚ) / d|) ⟨1, by simp⟩
    rw [Finset.mem_Icc] at hd
    refine ⟨(round (x * d) : ℚ) / d, ?_, ?_⟩
    · have h' : ((((round (x * d) : ℤ) : ℚ) / ((d : ℤ) : ℚ)).den : ℤ) ∣ (d : ℤ) := by
        rw [← Rat.divInt_eq_div]; exact Rat.den_dvd _ _
      have := Int.le_of_dvd (by omega) h'
      have h2 : (((round (x * d) : ℤ) : ℚ) / ((d : ℤ) : ℚ)).den ≤ d := by exact_mod_cast this
      push_cast at h2
      exact h2.trans hd.2
    · intro r hr
      refine (hmin r.den (by rw [Finset.mem_Icc]; exact ⟨r.pos, hr⟩)).trans ?_
      have hp : (0 : ℚ) < r.den := by have := r.pos; positivity
      have e1 : x - (round (x * r.den) : ℚ) / r.den = (x * r.den - round (x * r.den)) / r.den := by field_simp
      have e2 : x - r = (x * r.den - r.num) / r.den := by
        rw [← Rat.mul_den_eq_num r]; field_simp
      rw [e1, e2, abs_div, abs_div]
      exact div_le_div_of_nonneg_right (round_le (x * r.den) r.num) (abs_nonneg _)
  choose ld h using this
  exact ⟨ld, h⟩

/-- A case: the float nearest to `-sqrt(1/3)`, about `-0.5773502691896257`, is recognised. -/
example (ld sq : ℚ → ℚ) (hld : Closest ld) (hsq : |sq (-5773502691896257 / 10 ^ 16) - 1 / 3| < 1 / 10 ^ 15) :
    sqrtQ ld sq (-5773502691896257 / 10 ^ 16) = -Real.sqrt ((1 / 3 : ℚ) : ℝ) := by
  have hden : (1 / 3 : ℚ).den = 3 := by decide +kernel
  rw [C124_recognised ld sq hld _ (1 / 3) (by rw [hden]; norm_num) (by rw [hden]; refine hsq.trans ?_; norm_num), if_neg (by norm_num)]

end E3nn.Sym
