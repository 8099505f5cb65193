import Verif.Lemmas.RadialPoly
import Mathlib.Analysis.SpecialFunctions.SmoothTransition
import Mathlib.Analysis.SpecialFunctions.Integrals.Basic
import Mathlib.Analysis.SpecialFunctions.Trigonometric.Deriv
import Mathlib.Analysis.SpecialFunctions.Trigonometric.DerivHyp
import Mathlib.Tactic.Positivity

/-!
# C49: radial functions
-/

namespace E3nn.Radial

open Polynomial

/-! ### `sus` and `soft_envelope` -/

theorem sus_eq : sus = expNegInvGlue := by
  funext x
  unfold sus expNegInvGlue
  by_cases h : 0 < x
  · rw [if_pos h, if_pos h, if_neg (by linarith)]
    congr 1
    rw [neg_div, one_div]
  · rw [if_neg h, if_pos (by linarith)]

/-- **C49 (sus).** Zero on the non-positive numbers, `exp(-1/x)` on the positive ones, infinitely differentiable, increasing, with values in `[0,1)`. -/
theorem C49_sus : (∀ x ≤ 0, sus x = 0) ∧ (∀ x, 0 < x → sus x = Real.exp (-1 / x)) ∧ ContDiff ℝ (⊤ : ℕ∞) sus ∧ Monotone sus ∧ ∀ x, 0 ≤ sus x ∧ sus x < 1 := by
  refine ⟨fun x hx => ?_, fun x hx => ?_, ?_, ?_, fun x => ⟨?_, ?_⟩⟩
  · rw [sus_eq]; exact expNegInvGlue.zero_of_nonpos hx
  · unfold sus; rw [if_pos hx, if_pos hx]
  · rw [sus_eq]; exact expNegInvGlue.contDiff
  · rw [sus_eq]; exact expNegInvGlue.monotone
  · rw [sus_eq]; exact expNegInvGlue.nonneg x
  · unfold sus
    split
    · rename_i h
      rw [Real.exp_lt_one_iff]
      rw [neg_div]
      have : 0 < 1 / x := by positivity
      linarith
    · norm_num

theorem sus_pos {x : ℝ} (h : 0 < x) : 0 < sus x := by rw [sus_eq]; exact expNegInvGlue.pos_of_pos h

/-- **C49 (soft_envelope).** With `x_max > 0` and `arg_multiplicator > 0`: the value at the origin is `value_at_origin`, the value is zero beyond `x_max`, the function is infinitely
differentiable, and it decreases when `value_at_origin` is not negative. -/
theorem C49_soft_envelope {xMax a v : ℝ} (hx : 0 < xMax) (ha : 0 < a) :
    softEnvelope 0 xMax a v = v ∧ (∀ x, xMax ≤ x → softEnvelope x xMax a v = 0) ∧ ContDiff ℝ (⊤ : ℕ∞) (fun x => softEnvelope x xMax a v) ∧
      (0 ≤ v → Antitone fun x => softEnvelope x xMax a v) := by
  have hs := sus_pos ha
  refine ⟨?_, fun x h => ?_, ?_, fun hv x y h => ?_⟩
  · unfold softEnvelope
    rw [zero_div, sub_zero, mul_one, div_mul_cancel₀ _ hs.ne']
  · unfold softEnvelope
    rw [C49_sus.1 _ (mul_nonpos_of_nonneg_of_nonpos ha.le (by rw [sub_nonpos, one_le_div hx]; exact h)), mul_zero]
  · unfold softEnvelope
    exact contDiff_const.mul (C49_sus.2.2.1.comp (contDiff_const.mul (contDiff_const.sub (contDiff_id.div_const _))))
  · unfold softEnvelope
    refine mul_le_mul_of_nonneg_left (C49_sus.2.2.2.1 ?_) (div_nonneg hv hs.le)
    refine mul_le_mul_of_nonneg_left ?_ ha.le
    have := div_le_div_of_nonneg_right h hx.le
    linarith

example : softEnvelope 0 1 2 1.2 = 1.2 := (C49_soft_envelope one_pos two_pos).1

/-! ### `soft_one_hot_linspace` -/

/-- The distance between two centers. -/
noncomputable def spacing (start stop : ℝ) (sz ez : Bool) (number : ℕ) : ℝ := (stop - start) / ((number : ℝ) + (if sz then 1 else 0) + (if ez then 1 else 0) - 1)

/-- The center of the function `i`: the points are regularly spaced, and the first (last) point is left out when the basis is zero there. -/
noncomputable def center (start stop : ℝ) (sz ez : Bool) (number i : ℕ) : ℝ := start + ((i : ℝ) + (if sz then 1 else 0)) * spacing start stop sz ez number

theorem count_cast (sz ez : Bool) (number : ℕ) : ((count sz ez number : ℕ) : ℝ) = (number : ℝ) + (if sz then 1 else 0) + (if ez then 1 else 0) := by
  unfold count; push_cast; rfl

theorem drop_one_map_range {β : Type} (f : ℕ → β) (n : ℕ) : ((List.range n).map f).drop 1 = (List.range (n - 1)).map fun i => f (i + 1) := by
  apply List.ext_getElem (by simp)
  intro i h1 h2
  simp [Nat.add_comm]

theorem dropLast_map_range {β : Type} (f : ℕ → β) (n : ℕ) : ((List.range n).map f).dropLast = (List.range (n - 1)).map f := by
  apply List.ext_getElem (by simp)
  intro i h1 h2
  simp

theorem values_eq (start stop : ℝ) (sz ez : Bool) (number : ℕ) : values start stop sz ez number = (List.range number).map (center start stop sz ez number) := by
  unfold values linspace
  cases sz <;> cases ez <;>
    simp only [drop_one_map_range, dropLast_map_range, count, Nat.add_sub_cancel, Bool.false_eq_true, if_true, if_false, Nat.add_zero] <;>
    refine List.map_congr_left fun i _ => ?_ <;>
    simp [center, spacing]

theorem step_eq {start stop : ℝ} {sz ez : Bool} {number : ℕ} (h : 2 ≤ count sz ez number) : step start stop sz ez number = spacing start stop sz ez number := by
  unfold step linspace spacing
  rw [← count_cast]
  obtain ⟨n, hn⟩ : ∃ n, count sz ez number = n + 2 := ⟨count sz ez number - 2, by omega⟩
  rw [hn]
  simp [List.getD_eq_getElem?_getD]

/-- The profile of a basis. -/
noncomputable def profile : Basis → ℝ → ℝ
  | .gaussian, d => Real.exp (-d ^ 2) / 1.12
  | .cosine, d => if |d| < 1 then Real.cos (Real.pi * d / 2) else 0
  | .smoothFinite, d => 1.14136 * Real.exp 2 * sus (d + 1) * sus (1 - d)
  | _, _ => 0

theorem profile_cosine (d : ℝ) : profile .cosine d = if |d| < 1 then Real.cos (Real.pi * d / 2) else 0 := rfl

/-- **C49 (values).** For at least two points, `soft_one_hot_linspace` with the basis `gaussian`, `cosine` or `smooth_finite` returns `number` values, the value `i` being the
profile of the basis at `(x - center_i) / spacing`. -/
theorem C49_one_hot (x start stop : ℝ) {number : ℕ} {sz ez : Bool} (h : 2 ≤ count sz ez number) {b : Basis} (hb : b = .gaussian ∨ b = .cosine ∨ b = .smoothFinite) :
    softOneHotLinspace x start stop number b none (some sz) (some ez) =
      .ok ((List.range number).map fun i => profile b ((x - center start stop sz ez number i) / spacing start stop sz ez number)) := by
  unfold softOneHotLinspace project
  simp only [Option.isSome_none, Bool.false_and, Bool.false_eq_true, if_false, values_eq, step_eq h, List.map_map]
  rcases hb with rfl | rfl | rfl
  · simp only [profile, Function.comp_def]
  · simp only [profile, Function.comp_def, abs_lt]
    congr 2
    funext i
    rw [mul_comm (Real.pi / 2), mul_div_assoc', mul_comm Real.pi]
  · simp only [profile, Function.comp_def]

/-- **C49 (cutoff).** `cutoff=b` is `start_zero=b, end_zero=b`. -/
theorem C49_cutoff (x start stop : ℝ) (number : ℕ) (b : Basis) (c : Bool) :
    softOneHotLinspace x start stop number b (some c) none none = softOneHotLinspace x start stop number b none (some c) (some c) := by
  unfold softOneHotLinspace; simp

/-- **C49 (refusal).** The flags must be given, once; the Fourier basis asks for equal flags; an unknown basis is refused. -/
theorem C49_refuse (x start stop : ℝ) (number : ℕ) (b : Basis) (c sz ez : Option Bool) :
    (c.isSome → sz.isSome ∨ ez.isSome → softOneHotLinspace x start stop number b c sz ez = .error .assertion) ∧
    (c = none → sz = none ∨ ez = none → softOneHotLinspace x start stop number b c sz ez = .error .valueError) ∧
    (∀ s e : Bool, s ≠ e → softOneHotLinspace x start stop number .fourier none (some s) (some e) = .error .valueError) ∧
    (∀ s e : Bool, softOneHotLinspace x start stop number .other none (some s) (some e) = .error .valueError) := by
  refine ⟨fun h1 h2 => ?_, fun h1 h2 => ?_, fun s e h => ?_, fun s e => ?_⟩
  · unfold softOneHotLinspace; rw [if_pos (by rcases h2 with h | h <;> simp [h1, h])]
  · subst h1
    unfold softOneHotLinspace
    rcases h2 with rfl | rfl
    · simp
    · cases sz <;> simp
  · unfold softOneHotLinspace project
    cases s <;> cases e <;> simp_all
  · unfold softOneHotLinspace project
    simp

/-- The profiles of `cosine` and `smooth_finite` vanish exactly outside `(-1, 1)`. -/
theorem profile_support {b : Basis} (hb : b = .cosine ∨ b = .smoothFinite) (d : ℝ) : profile b d ≠ 0 ↔ |d| < 1 := by
  rcases hb with rfl | rfl
  · unfold profile
    constructor
    · intro h; by_contra hc; exact h (if_neg hc)
    · intro h
      simp only [if_pos h]
      rw [abs_lt] at h
      have hp := Real.pi_pos
      exact (Real.cos_pos_of_mem_Ioo ⟨by nlinarith, by nlinarith⟩).ne'
  · unfold profile
    have he := Real.exp_pos 2
    rw [abs_lt]
    constructor
    · intro h
      constructor
      · by_contra hc; exact h (by simp only; rw [C49_sus.1 (d + 1) (by linarith)]; ring)
      · by_contra hc; exact h (by simp only; rw [C49_sus.1 (1 - d) (by linarith)]; ring)
    · rintro ⟨h1, h2⟩
      have a := sus_pos (show 0 < d + 1 by linarith)
      have c := sus_pos (show 0 < 1 - d by linarith)
      positivity

theorem spacing_pos {start stop : ℝ} (h : start < stop) {sz ez : Bool} {number : ℕ} (hc : 2 ≤ count sz ez number) : 0 < spacing start stop sz ez number := by
  unfold spacing
  rw [← count_cast]
  have : (2 : ℝ) ≤ count sz ez number := by exact_mod_cast hc
  exact _root_.div_pos (by linarith) (by linarith)

theorem spacing_total (start stop : ℝ) {sz ez : Bool} {number : ℕ} (hc : 2 ≤ count sz ez number) :
    stop = start + ((number : ℝ) + (if sz then 1 else 0) + (if ez then 1 else 0) - 1) * spacing start stop sz ez number := by
  unfold spacing
  rw [← count_cast]
  have : (2 : ℝ) ≤ count sz ez number := by exact_mod_cast hc
  rw [mul_div_cancel₀ _ (by linarith)]
  ring

/-- **C49 (support).** With `start < end`, the function `i` of the bases `cosine` and `smooth_finite` is not zero exactly at the points nearer to its center than the spacing;
with `start_zero` all of them vanish for `x ≤ start`, with `end_zero` for `x ≥ end`. -/
theorem C49_support {start stop : ℝ} (h : start < stop) {number : ℕ} {sz ez : Bool} (hc : 2 ≤ count sz ez number) {b : Basis} (hb : b = .cosine ∨ b = .smoothFinite) (x : ℝ) :
    ∃ ys, softOneHotLinspace x start stop number b none (some sz) (some ez) = .ok ys ∧ ys.length = number ∧
      (∀ i < number, ys.getD i 0 ≠ 0 ↔ |x - center start stop sz ez number i| < spacing start stop sz ez number) ∧
      (sz = true → x ≤ start → ∀ y ∈ ys, y = 0) ∧ (ez = true → stop ≤ x → ∀ y ∈ ys, y = 0) := by
  have hs := spacing_pos h hc
  have key : ∀ i : ℕ, profile b ((x - center start stop sz ez number i) / spacing start stop sz ez number) ≠ 0 ↔ |x - center start stop sz ez number i| < spacing start stop sz ez number := by
    intro i
    rw [profile_support hb, abs_div, abs_of_pos hs, div_lt_one hs]
  refine ⟨_, C49_one_hot x start stop hc (by tauto), by simp, fun i hi => ?_, fun h1 h2 y hy => ?_, fun h1 h2 y hy => ?_⟩
  · rw [← key i]
    simp [List.getD_eq_getElem?_getD, hi]
  · rw [List.mem_map] at hy
    obtain ⟨i, hi, rfl⟩ := hy
    by_contra hne
    have := (key i).mp hne
    rw [abs_lt] at this
    unfold center at this
    subst h1
    simp only [if_true] at this
    have h0 : (0 : ℝ) ≤ (i : ℝ) * spacing start stop true ez number := by positivity
    linarith [this.1]
  · rw [List.mem_map] at hy
    obtain ⟨i, hi, rfl⟩ := hy
    rw [List.mem_range] at hi
    by_contra hne
    have := (key i).mp hne
    rw [abs_lt] at this
    have ht := spacing_total start stop hc
    unfold center at this
    subst h1
    simp only [if_true] at this ht
    have hi' : (i : ℝ) + 1 ≤ number := by exact_mod_cast hi
    have h0 : (0 : ℝ) ≤ ((number : ℝ) - 1 - i) * spacing start stop sz true number := mul_nonneg (by linarith) hs.le
    linarith [this.2]

/-- **C49 (gaussian).** The gaussian basis is never zero: `cutoff=True` does not cut it. -/
theorem C49_gaussian_never_zero (x start stop : ℝ) {number : ℕ} {sz ez : Bool} (hc : 2 ≤ count sz ez number) :
    ∃ ys, softOneHotLinspace x start stop number .gaussian none (some sz) (some ez) = .ok ys ∧ ys.length = number ∧ ∀ y ∈ ys, 0 < y := by
  refine ⟨_, C49_one_hot x start stop hc (.inl rfl), by simp, fun y hy => ?_⟩
  rw [List.mem_map] at hy
  obtain ⟨i, _, rfl⟩ := hy
  unfold profile
  positivity

/-- **C49 (smoothness).** Each function of the bases `gaussian` and `smooth_finite` is infinitely differentiable; those of `cosine` are continuous. -/
theorem C49_smooth (start stop : ℝ) {number : ℕ} {sz ez : Bool} (hc : 2 ≤ count sz ez number) {b : Basis} (hb : b = .gaussian ∨ b = .cosine ∨ b = .smoothFinite) (i : ℕ) :
    ∃ f : ℝ → ℝ, (∀ x, ∃ ys, softOneHotLinspace x start stop number b none (some sz) (some ez) = .ok ys ∧ ys[i]? = if i < number then some (f x) else none) ∧
      Continuous f ∧ (b ≠ .cosine → ContDiff ℝ (⊤ : ℕ∞) f) := by
  refine ⟨fun x => profile b ((x - center start stop sz ez number i) / spacing start stop sz ez number), fun x => ⟨_, C49_one_hot x start stop hc hb, ?_⟩, ?_⟩
  · split
    · rename_i h; simp [h]
    · rename_i h; simp [h]
  have hin : ContDiff ℝ (⊤ : ℕ∞) fun x : ℝ => (x - center start stop sz ez number i) / spacing start stop sz ez number := (contDiff_id.sub contDiff_const).div_const _
  rcases hb with rfl | rfl | rfl
  · have : ContDiff ℝ (⊤ : ℕ∞) (profile .gaussian) := by
      unfold profile
      exact (Real.contDiff_exp.comp (contDiff_id.pow 2).neg).div_const _
    exact ⟨(this.comp hin).continuous, fun _ => this.comp hin⟩
  · refine ⟨?_, fun h => absurd rfl h⟩
    have : Continuous (profile .cosine) := by
      have e : profile .cosine = fun d => if |d| ≤ 1 then Real.cos (Real.pi * d / 2) else 0 := by
        funext d
        rw [profile_cosine]
        by_cases h : |d| < 1
        · rw [if_pos h, if_pos h.le]
        · rw [if_neg h]
          by_cases h' : |d| ≤ 1
          · rw [if_pos h']
            have : |d| = 1 := le_antisymm h' (by linarith)
            rcases (abs_eq zero_le_one).mp this with rfl | rfl
            · simp
            · rw [show Real.pi * (-1) / 2 = -(Real.pi / 2) by ring, Real.cos_neg, Real.cos_pi_div_two]
          · rw [if_neg h']
      rw [e]
      refine Continuous.if_le (Real.continuous_cos.comp (by fun_prop)) continuous_const continuous_abs continuous_const ?_
      intro d hd
      rcases (abs_eq zero_le_one).mp hd with rfl | rfl
      · simp
      · rw [show Real.pi * (-1) / 2 = -(Real.pi / 2) by ring, Real.cos_neg, Real.cos_pi_div_two]
    exact this.comp hin.continuous
  · have : ContDiff ℝ (⊤ : ℕ∞) (profile .smoothFinite) := by
      unfold profile
      exact (contDiff_const.mul (C49_sus.2.2.1.comp (contDiff_id.add contDiff_const))).mul (C49_sus.2.2.1.comp (contDiff_const.sub contDiff_id))
    exact ⟨(this.comp hin).continuous, fun _ => this.comp hin⟩

theorem cosine_sum (t : ℝ) (n : ℕ) : ∑ i ∈ Finset.range n, profile .cosine (t - i) ^ 2 =
    (if 0 ≤ ⌊t⌋ ∧ ⌊t⌋ < n then Real.cos (Real.pi * Int.fract t / 2) ^ 2 else 0) + (if 0 ≤ ⌊t⌋ + 1 ∧ ⌊t⌋ + 1 < n then Real.sin (Real.pi * Int.fract t / 2) ^ 2 else 0) := by
  have h0 := Int.fract_nonneg t
  have h1 := Int.fract_lt_one t
  have ht := Int.floor_add_fract t
  have key : ∀ i : ℕ, profile .cosine (t - i) ^ 2 = (if (i : ℤ) = ⌊t⌋ then Real.cos (Real.pi * Int.fract t / 2) ^ 2 else 0) + (if (i : ℤ) = ⌊t⌋ + 1 then Real.sin (Real.pi * Int.fract t / 2) ^ 2 else 0) := by
    intro i
    rw [profile_cosine]
    rcases lt_trichotomy (i : ℤ) ⌊t⌋ with h | h | h
    · have hn : ¬ |t - (i : ℝ)| < 1 := by
        have : ((i : ℤ) : ℝ) + 1 ≤ ⌊t⌋ := by exact_mod_cast h
        push_cast at this
        rw [abs_lt]; push Not; intro _; linarith
      rw [if_neg hn, if_neg (show ¬ ((i : ℤ) = ⌊t⌋) by omega), if_neg (show ¬ ((i : ℤ) = ⌊t⌋ + 1) by omega)]
      ring
    · rw [if_pos (show (i : ℤ) = ⌊t⌋ from h), if_neg (show ¬ ((i : ℤ) = ⌊t⌋ + 1) by omega)]
      have e : t - i = Int.fract t := by
        have : ((i : ℤ) : ℝ) = ⌊t⌋ := by exact_mod_cast h
        push_cast at this
        linarith
      rw [e, if_pos (by rw [abs_of_nonneg h0]; exact h1)]
      ring
    · rw [if_neg (show ¬ ((i : ℤ) = ⌊t⌋) by omega)]
      by_cases h2 : (i : ℤ) = ⌊t⌋ + 1
      · rw [if_pos (show (i : ℤ) = ⌊t⌋ + 1 from h2)]
        have e : t - i = Int.fract t - 1 := by
          have : ((i : ℤ) : ℝ) = ⌊t⌋ + 1 := by exact_mod_cast h2
          push_cast at this
          linarith
        rw [e]
        by_cases hf : Int.fract t = 0
        · rw [hf]; norm_num
        · have : 0 < Int.fract t := lt_of_le_of_ne h0 (Ne.symm hf)
          rw [if_pos (by rw [abs_lt]; constructor <;> linarith)]
          rw [show Real.pi * (Int.fract t - 1) / 2 = Real.pi * Int.fract t / 2 - Real.pi / 2 by ring, Real.cos_sub_pi_div_two]
          ring
      · have hn : ¬ |t - (i : ℝ)| < 1 := by
          have : (⌊t⌋ : ℝ) + 2 ≤ ((i : ℤ) : ℝ) := by exact_mod_cast (by omega : ⌊t⌋ + 2 ≤ (i : ℤ))
          push_cast at this
          rw [abs_lt]; push Not; intro h3; linarith
        rw [if_neg hn, if_neg (show ¬ ((i : ℤ) = ⌊t⌋ + 1) from h2)]
        ring
  simp only [key]
  rw [Finset.sum_add_distrib]
  have pick : ∀ (z : ℤ) (v : ℝ), ∑ i ∈ Finset.range n, (if (i : ℤ) = z then v else 0) = if 0 ≤ z ∧ z < n then v else 0 := by
    intro z v
    by_cases hz : 0 ≤ z ∧ z < n
    · rw [if_pos hz]
      obtain ⟨k, rfl⟩ := Int.eq_ofNat_of_zero_le hz.1
      rw [Finset.sum_eq_single k]
      · simp
      · intro j _ hj; rw [if_neg (by exact_mod_cast hj)]
      · intro hk; exact absurd (Finset.mem_range.mpr (by exact_mod_cast hz.2)) hk
    · rw [if_neg hz]
      refine Finset.sum_eq_zero fun i hi => ?_
      rw [if_neg]
      rintro rfl
      exact hz ⟨by omega, by exact_mod_cast Finset.mem_range.mp hi⟩
  rw [pick, pick]

/-- **C49 (cosine, sum of squares).** The sum of the squares of the functions of the basis `cosine` is at most one everywhere, and exactly one between the first and the
last center. -/
theorem C49_cosine_squares {start stop : ℝ} (h : start < stop) {number : ℕ} {sz ez : Bool} (hc : 2 ≤ count sz ez number) (x : ℝ) :
    ∃ ys, softOneHotLinspace x start stop number .cosine none (some sz) (some ez) = .ok ys ∧ (ys.map (· ^ 2)).sum ≤ 1 ∧
      (center start stop sz ez number 0 ≤ x → x ≤ center start stop sz ez number (number - 1) → 1 ≤ number → (ys.map (· ^ 2)).sum = 1) := by
  have hs := spacing_pos h hc
  refine ⟨_, C49_one_hot x start stop hc (.inr (.inl rfl)), ?_⟩
  set t := (x - center start stop sz ez number 0) / spacing start stop sz ez number with ht
  have hsum : ((((List.range number).map fun i => profile .cosine ((x - center start stop sz ez number i) / spacing start stop sz ez number))).map (· ^ 2)).sum =
      ∑ i ∈ Finset.range number, profile .cosine (t - i) ^ 2 := by
    rw [List.map_map, Finset.sum_range, ← List.sum_ofFn]
    congr 1
    rw [List.ofFn_eq_map, ← List.map_coe_finRange_eq_range, List.map_map]
    refine List.map_congr_left fun i _ => ?_
    simp only [Function.comp_apply]
    congr 2
    rw [ht]
    unfold center
    field_simp
    push_cast
    ring
  have hcs := Real.sin_sq_add_cos_sq (Real.pi * Int.fract t / 2)
  rw [hsum, cosine_sum]
  constructor
  · have a := sq_nonneg (Real.sin (Real.pi * Int.fract t / 2))
    have b := sq_nonneg (Real.cos (Real.pi * Int.fract t / 2))
    split <;> split <;> linarith
  · intro h1 h2 hn
    have t0 : 0 ≤ t := div_nonneg (by linarith) hs.le
    have t1 : t ≤ (number : ℝ) - 1 := by
      rw [ht, div_le_iff₀ hs]
      unfold center at h2 ⊢
      rw [Nat.cast_sub hn] at h2
      push_cast at h2 ⊢
      nlinarith
    have f0 : 0 ≤ ⌊t⌋ := Int.floor_nonneg.mpr t0
    have f1 : ⌊t⌋ < number := by
      rw [Int.floor_lt]; push_cast; linarith
    rw [if_pos ⟨f0, f1⟩]
    by_cases hl : ⌊t⌋ + 1 < number
    · rw [if_pos ⟨by omega, hl⟩]; linarith
    · rw [if_neg (by omega)]
      have e : ⌊t⌋ = (number : ℤ) - 1 := by omega
      have hfr : Int.fract t = 0 := by
        have a := Int.fract_nonneg t
        have b := Int.floor_add_fract t
        have c : ((⌊t⌋ : ℤ) : ℝ) = (number : ℝ) - 1 := by rw [e]; push_cast; ring
        linarith
      rw [hfr]; simp

/-! ### Fourier basis and Bessel functions -/

theorem integral_cos_int (n : ℤ) {c : ℝ} (hc : 0 < c) : ∫ r in (0 : ℝ)..c, Real.cos (n * Real.pi * r / c) = if n = 0 then c else 0 := by
  have hp := Real.pi_ne_zero
  split
  · rename_i h; subst h; simp
  · rename_i h
    have hn : (n : ℝ) ≠ 0 := by exact_mod_cast h
    have hd : ∀ r ∈ Set.uIcc 0 c, HasDerivAt (fun r => c / (n * Real.pi) * Real.sin (n * Real.pi * r / c)) (Real.cos (n * Real.pi * r / c)) r := by
      intro r _
      have h1 : HasDerivAt (fun r : ℝ => n * Real.pi * r / c) (n * Real.pi / c) r := by
        have := (hasDerivAt_id r).const_mul (n * Real.pi / c)
        rw [mul_one] at this
        refine this.congr_of_eventuallyEq (Filter.Eventually.of_forall fun y => ?_)
        simp only [id]; ring
      refine (h1.sin.const_mul (c / (n * Real.pi))).congr_deriv ?_
      field_simp
    rw [intervalIntegral.integral_eq_sub_of_hasDerivAt hd (Continuous.intervalIntegrable (by fun_prop) _ _)]
    rw [show n * Real.pi * c / c = n * Real.pi by field_simp, Real.sin_int_mul_pi]
    simp

theorem integral_sin_sin {c : ℝ} (hc : 0 < c) {j k : ℕ} (hj : 0 < j) (_hk : 0 < k) :
    ∫ r in (0 : ℝ)..c, Real.sin (j * Real.pi * r / c) * Real.sin (k * Real.pi * r / c) = if j = k then c / 2 else 0 := by
  have e : ∀ r : ℝ, Real.sin (j * Real.pi * r / c) * Real.sin (k * Real.pi * r / c) =
      (1 / 2) * Real.cos (((j : ℤ) - (k : ℤ) : ℤ) * Real.pi * r / c) - (1 / 2) * Real.cos (((j : ℤ) + (k : ℤ) : ℤ) * Real.pi * r / c) := by
    intro r
    have a : (((j : ℤ) - (k : ℤ) : ℤ) : ℝ) * Real.pi * r / c = j * Real.pi * r / c - k * Real.pi * r / c := by push_cast; ring
    have b : (((j : ℤ) + (k : ℤ) : ℤ) : ℝ) * Real.pi * r / c = j * Real.pi * r / c + k * Real.pi * r / c := by push_cast; ring
    rw [a, b, Real.cos_sub, Real.cos_add]; ring
  simp only [e]
  rw [intervalIntegral.integral_sub (Continuous.intervalIntegrable (by fun_prop) _ _) (Continuous.intervalIntegrable (by fun_prop) _ _),
    intervalIntegral.integral_const_mul, intervalIntegral.integral_const_mul, integral_cos_int _ hc, integral_cos_int _ hc]
  rw [if_neg (show ¬((j : ℤ) + k = 0) by omega)]
  by_cases h : j = k
  · rw [if_pos (by omega), if_pos h]; ring
  · rw [if_neg (by omega), if_neg h]; ring

theorem integral_cos_cos {c : ℝ} (hc : 0 < c) (j k : ℕ) :
    ∫ r in (0 : ℝ)..c, Real.cos (j * Real.pi * r / c) * Real.cos (k * Real.pi * r / c) = if j = k then (if j = 0 then c else c / 2) else 0 := by
  have e : ∀ r : ℝ, Real.cos (j * Real.pi * r / c) * Real.cos (k * Real.pi * r / c) =
      (1 / 2) * Real.cos (((j : ℤ) - (k : ℤ) : ℤ) * Real.pi * r / c) + (1 / 2) * Real.cos (((j : ℤ) + (k : ℤ) : ℤ) * Real.pi * r / c) := by
    intro r
    have a : (((j : ℤ) - (k : ℤ) : ℤ) : ℝ) * Real.pi * r / c = j * Real.pi * r / c - k * Real.pi * r / c := by push_cast; ring
    have b : (((j : ℤ) + (k : ℤ) : ℤ) : ℝ) * Real.pi * r / c = j * Real.pi * r / c + k * Real.pi * r / c := by push_cast; ring
    rw [a, b, Real.cos_sub, Real.cos_add]; ring
  simp only [e]
  rw [intervalIntegral.integral_add (Continuous.intervalIntegrable (by fun_prop) _ _) (Continuous.intervalIntegrable (by fun_prop) _ _),
    intervalIntegral.integral_const_mul, intervalIntegral.integral_const_mul, integral_cos_int _ hc, integral_cos_int _ hc]
  by_cases h : j = k
  · rw [if_pos (by omega), if_pos h]
    by_cases h0 : j = 0
    · rw [if_pos (by omega), if_pos h0]; ring
    · rw [if_neg (by omega), if_neg h0]; ring
  · rw [if_neg (by omega), if_neg h, if_neg (by omega)]; ring

/-- **C49 (fourier).** With `start < end`, the Fourier basis with cutoff returns `sin(π (i+1) z)/sqrt(1/4 + number/2)`, `z = (x - start)/(end - start)`, inside the interval and zero outside; without cutoff
`cos(π i z)/sqrt(1/4 + number/2)`; over the interval two different functions are orthogonal. -/
theorem C49_fourier {start stop : ℝ} (h : start < stop) (number : ℕ) (cut : Bool) :
    ∃ f : ℕ → ℝ → ℝ, (∀ x, softOneHotLinspace x start stop number .fourier none (some cut) (some cut) = .ok ((List.range number).map fun i => f i x)) ∧
      (∀ i, ∀ x, start < x → x < stop → f i x = (if cut then Real.sin (Real.pi * (i + 1) * ((x - start) / (stop - start))) else Real.cos (Real.pi * i * ((x - start) / (stop - start)))) / Real.sqrt (1 / 4 + number / 2)) ∧
      (cut = true → ∀ i, ∀ x, x ≤ start ∨ stop ≤ x → f i x = 0) ∧
      (∀ i j, i ≠ j → ∫ x in start..stop, f i x * f j x = 0) := by
  have hd : 0 < stop - start := by linarith
  have h14 : (0.25 : ℝ) = 1 / 4 := by norm_num
  cases cut with
  | true =>
    refine ⟨fun i x => if 0 < (x - start) / (stop - start) ∧ (x - start) / (stop - start) < 1 then Real.sin (Real.pi * ((i : ℝ) + 1) * ((x - start) / (stop - start))) / Real.sqrt (0.25 + number / 2) else 0, fun x => ?_, fun i x h1 h2 => ?_, fun _ i x h1 => ?_, fun i j hij => ?_⟩
    · unfold softOneHotLinspace project
      simp [Function.comp_def]
    · dsimp only
      rw [if_pos ⟨_root_.div_pos (by linarith) hd, by rw [div_lt_one hd]; linarith⟩, h14]
      simp
    · dsimp only
      rw [if_neg]
      rintro ⟨a, b⟩
      rw [div_lt_one hd] at b
      rcases h1 with h1 | h1
      · exact absurd a (not_lt.mpr (div_nonpos_of_nonpos_of_nonneg (by linarith) hd.le))
      · linarith
    · have hfun : ∀ x, x ∈ Set.uIcc start stop → (if 0 < (x - start) / (stop - start) ∧ (x - start) / (stop - start) < 1 then Real.sin (Real.pi * ((i : ℝ) + 1) * ((x - start) / (stop - start))) / Real.sqrt (0.25 + number / 2) else 0) *
          (if 0 < (x - start) / (stop - start) ∧ (x - start) / (stop - start) < 1 then Real.sin (Real.pi * ((j : ℝ) + 1) * ((x - start) / (stop - start))) / Real.sqrt (0.25 + number / 2) else 0) =
          (1 / Real.sqrt (0.25 + number / 2) ^ 2) * (Real.sin (((i + 1 : ℕ) : ℝ) * Real.pi * (x - start) / (stop - start)) * Real.sin (((j + 1 : ℕ) : ℝ) * Real.pi * (x - start) / (stop - start))) := by
        intro x hx
        rw [Set.uIcc_of_le h.le] at hx
        by_cases hz : 0 < (x - start) / (stop - start) ∧ (x - start) / (stop - start) < 1
        · rw [if_pos hz, if_pos hz]
          have e : ∀ k : ℕ, Real.pi * ((k : ℝ) + 1) * ((x - start) / (stop - start)) = ((k + 1 : ℕ) : ℝ) * Real.pi * (x - start) / (stop - start) := by
            intro k; push_cast; ring
          rw [e, e]; ring
        · rw [if_neg hz]
          have hb : x = start ∨ x = stop := by
            by_contra hcon
            push Not at hcon
            apply hz
            have h1 := lt_of_le_of_ne hx.1 (Ne.symm hcon.1)
            have h2 := lt_of_le_of_ne hx.2 hcon.2
            exact ⟨_root_.div_pos (by linarith) hd, by rw [div_lt_one hd]; linarith⟩
          rcases hb with rfl | rfl
          · simp
          · have e : ((i + 1 : ℕ) : ℝ) * Real.pi * (x - start) / (x - start) = ((i + 1 : ℕ) : ℝ) * Real.pi := mul_div_cancel_right₀ _ hd.ne'
            rw [e, Real.sin_nat_mul_pi]; ring
      rw [intervalIntegral.integral_congr hfun, intervalIntegral.integral_const_mul]
      have := intervalIntegral.integral_comp_sub_right (a := start) (b := stop) (fun x => Real.sin (((i + 1 : ℕ) : ℝ) * Real.pi * x / (stop - start)) * Real.sin (((j + 1 : ℕ) : ℝ) * Real.pi * x / (stop - start))) start
      rw [this, sub_self, integral_sin_sin hd (by omega) (by omega), if_neg (by omega), mul_zero]
  | false =>
    refine ⟨fun i x => Real.cos (Real.pi * (i : ℝ) * ((x - start) / (stop - start))) / Real.sqrt (0.25 + number / 2), fun x => ?_, fun i x h1 h2 => ?_, fun h => absurd h (by simp), fun i j hij => ?_⟩
    · unfold softOneHotLinspace project
      simp
    · rw [h14]; simp
    · have hfun : ∀ x, x ∈ Set.uIcc start stop → Real.cos (Real.pi * (i : ℝ) * ((x - start) / (stop - start))) / Real.sqrt (0.25 + number / 2) * (Real.cos (Real.pi * (j : ℝ) * ((x - start) / (stop - start))) / Real.sqrt (0.25 + number / 2)) =
          (1 / Real.sqrt (0.25 + number / 2) ^ 2) * (Real.cos ((i : ℝ) * Real.pi * (x - start) / (stop - start)) * Real.cos ((j : ℝ) * Real.pi * (x - start) / (stop - start))) := by
        intro x _
        have e : ∀ k : ℕ, Real.pi * (k : ℝ) * ((x - start) / (stop - start)) = (k : ℝ) * Real.pi * (x - start) / (stop - start) := by
          intro k; ring
        rw [e, e]; ring
      rw [intervalIntegral.integral_congr hfun, intervalIntegral.integral_const_mul]
      have := intervalIntegral.integral_comp_sub_right (a := start) (b := stop) (fun x => Real.cos ((i : ℝ) * Real.pi * x / (stop - start)) * Real.cos ((j : ℝ) * Real.pi * x / (stop - start))) start
      rw [this, sub_self, integral_cos_cos hd, if_neg hij, mul_zero]

/-- **C49 (bessel).** For `x_max = c > 0` the functions returned by `bessel` are continuous (also at `0`), vanish at `c`, and obey the documented normalisation `∫_0^c r² B_i B_j dr = δ_ij`. -/
theorem C49_bessel {c : ℝ} (hc : 0 < c) (n : ℕ) :
    ∃ B : ℕ → ℝ → ℝ, (∀ x, bessel x n c = (List.range n).map fun i => B i x) ∧ (∀ i, Continuous (B i)) ∧ (∀ i, B i c = 0) ∧
      (∀ i, ∀ x, x ≠ 0 → B i x = Real.sqrt (2 / c) * Real.sin ((i + 1) * Real.pi * x / c) / x) ∧
      ∀ i j, ∫ r in (0 : ℝ)..c, r ^ 2 * B i r * B j r = if i = j then 1 else 0 := by
  have hval : ∀ (i : ℕ) (x : ℝ), x ≠ 0 → Real.sqrt (2 / c) * (if x = 0 then ((i + 1 : ℕ) : ℝ) * Real.pi / c else Real.sin (((i + 1 : ℕ) : ℝ) * Real.pi / c * (if x = 0 then 1 else x)) / (if x = 0 then 1 else x)) =
      Real.sqrt (2 / c) * Real.sin ((i + 1) * Real.pi * x / c) / x := by
    intro i x hx
    rw [if_neg hx, if_neg hx, mul_div_assoc (Real.sqrt (2 / c))]
    have e : ((i + 1 : ℕ) : ℝ) * Real.pi / c * x = ((i : ℝ) + 1) * Real.pi * x / c := by push_cast; ring
    rw [e]
  refine ⟨fun i x => Real.sqrt (2 / c) * (if x = 0 then ((i + 1 : ℕ) : ℝ) * Real.pi / c else Real.sin (((i + 1 : ℕ) : ℝ) * Real.pi / c * (if x = 0 then 1 else x)) / (if x = 0 then 1 else x)), fun x => ?_, fun i => ?_, fun i => ?_, hval, fun i j => ?_⟩
  · unfold bessel
    simp only [List.map_map, Function.comp_def]
  · refine continuous_const.mul ?_
    rw [continuous_iff_continuousAt]
    intro x
    set w : ℝ := ((i + 1 : ℕ) : ℝ) * Real.pi / c with hw
    by_cases hx : x = 0
    · subst hx
      have hd : HasDerivAt (fun y => Real.sin (w * y)) w 0 := by
        have h1 : HasDerivAt (fun y : ℝ => w * y) w 0 := by simpa using (hasDerivAt_id (0 : ℝ)).const_mul w
        simpa using h1.sin
      have hs := hasDerivAt_iff_tendsto_slope.mp hd
      refine continuousAt_of_tendsto_nhds (y := w) ?_ |>.congr (Filter.Eventually.of_forall fun y => rfl)
      rw [← nhdsNE_sup_pure, Filter.tendsto_sup]
      constructor
      · refine hs.congr' ?_
        filter_upwards [self_mem_nhdsWithin] with y hy
        have hy' : y ≠ 0 := hy
        rw [if_neg hy', if_neg hy', slope_def_field]
        simp
      · rw [Filter.tendsto_pure_left]
        intro s hs
        rw [if_pos rfl]; exact mem_of_mem_nhds hs
    · have hc1 : ContinuousAt (fun y => Real.sin (w * y) / y) x :=
        ContinuousAt.div (Real.continuous_sin.comp (continuous_const.mul continuous_id)).continuousAt continuousAt_id hx
      refine hc1.congr ?_
      filter_upwards [isOpen_ne.mem_nhds hx] with y hy
      rw [if_neg hy, if_neg hy]
  · dsimp only
    rw [hval i c hc.ne']
    rw [show ((i : ℝ) + 1) * Real.pi * c / c = ((i + 1 : ℕ) : ℝ) * Real.pi by push_cast; field_simp, Real.sin_nat_mul_pi]
    simp
  · have hfun : ∀ r, r ^ 2 * (Real.sqrt (2 / c) * (if r = 0 then ((i + 1 : ℕ) : ℝ) * Real.pi / c else Real.sin (((i + 1 : ℕ) : ℝ) * Real.pi / c * (if r = 0 then 1 else r)) / (if r = 0 then 1 else r))) *
        (Real.sqrt (2 / c) * (if r = 0 then ((j + 1 : ℕ) : ℝ) * Real.pi / c else Real.sin (((j + 1 : ℕ) : ℝ) * Real.pi / c * (if r = 0 then 1 else r)) / (if r = 0 then 1 else r))) =
        (2 / c) * (Real.sin (((i + 1 : ℕ) : ℝ) * Real.pi * r / c) * Real.sin (((j + 1 : ℕ) : ℝ) * Real.pi * r / c)) := by
      intro r
      by_cases hr : r = 0
      · subst hr; simp
      · rw [hval i r hr, hval j r hr]
        have hq : Real.sqrt (2 / c) * Real.sqrt (2 / c) = 2 / c := Real.mul_self_sqrt (by positivity)
        push_cast
        have e : ∀ a b : ℝ, r ^ 2 * (Real.sqrt (2 / c) * a / r) * (Real.sqrt (2 / c) * b / r) = Real.sqrt (2 / c) * Real.sqrt (2 / c) * (a * b) := by
          intro a b; field_simp
        rw [e, hq]
    simp only [hfun]
    rw [intervalIntegral.integral_const_mul, integral_sin_sin hc (by omega) (by omega)]
    by_cases h : i = j
    · rw [if_pos (by omega), if_pos h]; field_simp
    · rw [if_neg (by omega), if_neg h, mul_zero]

/-! ### Polynomial envelopes -/

theorem env_poly (n0 n1 : ℕ) {a : ℝ} (ha : 0 < a) : ∃ (f : ℝ → ℝ) (Q : ℝ[X]), polyEnvelope n0 n1 a = .ok f ∧ Q.degree < ((n0 + n1 + 2 : ℕ) : WithBot ℕ) ∧ X ^ (n0 + 1) ∣ Q - 1 ∧
    (X - C a) ^ (n1 + 1) ∣ Q ∧ f = fun x => if x < a then Q.eval x else 0 := by
  obtain ⟨P, hP, hd, h0, h1⟩ := solve_env n0 n1
  set L : ℝ[X] := C (1 / a) * X - C 0.5 with hL
  have hLd : L.natDegree = 1 := by
    rw [hL, natDegree_sub_C, natDegree_C_mul_X]
    exact (by positivity : (1 / a : ℝ) ≠ 0)
  have c0 : (X - C (-0.5) : ℝ[X]).comp L = C (1 / a) * X := by
    rw [sub_comp, X_comp, C_comp, hL, C_neg]; ring
  have c1 : (X - C (0.5) : ℝ[X]).comp L = C (1 / a) * (X - C a) := by
    rw [sub_comp, X_comp, C_comp, hL, mul_sub, ← C_mul, one_div, inv_mul_cancel₀ ha.ne']
    have : (C (1 : ℝ) : ℝ[X]) = C 0.5 + C 0.5 := by rw [← C_add]; norm_num
    rw [this]; ring
  refine ⟨fun x => if x < a then (P.comp L).eval x else 0, P.comp L, ?_, ?_, ?_, ?_, rfl⟩
  · unfold polyEnvelope
    rw [hP]
    simp only
    congr 1
    funext x
    by_cases h : x < a
    · rw [if_pos h, if_pos h, if_pos h, eval_comp, hL]
      congr 1
      simp only [eval_sub, eval_mul, eval_C, eval_X]
      ring
    · rw [if_neg h, if_neg h]
  · by_cases hz : P = 0
    · rw [hz, zero_comp, degree_zero]; exact WithBot.bot_lt_coe _
    · rw [degree_eq_natDegree hz] at hd
      refine degree_le_natDegree.trans_lt ?_
      have : (P.comp L).natDegree ≤ P.natDegree := by
        refine natDegree_comp_le.trans ?_
        rw [hLd, mul_one]
      exact lt_of_le_of_lt (by exact_mod_cast this) hd
  · obtain ⟨R, hR⟩ := h0
    have : P.comp L - 1 = (P - 1).comp L := by simp
    rw [this, hR, mul_comp, pow_comp, c0, mul_pow]
    exact ⟨C (1 / a) ^ (n0 + 1) * R.comp L, by ring⟩
  · obtain ⟨R, hR⟩ := h1
    rw [hR, mul_comp, pow_comp, c1, mul_pow]
    exact ⟨C (1 / a) ^ (n1 + 1) * R.comp L, by ring⟩

/-- **C49 (poly_envelope).** For `x_max > 0`, `poly_envelope(n0, n1, x_max)` never fails; the returned function is a polynomial of degree at most `n0 + n1 + 1` below `x_max` and zero from `x_max` on,
its value at `0` is `1`, its derivatives of order `1` to `n0` vanish at `0`, it is `n1` times continuously differentiable (so that `n1` derivatives vanish at `x_max`), and it decreases from `1` to `0` on `[0, ∞)`. -/
theorem C49_poly_envelope (n0 n1 : ℕ) {xMax : ℝ} (ha : 0 < xMax) :
    ∃ f, polyEnvelope n0 n1 xMax = .ok f ∧ (∃ Q : ℝ[X], Q.natDegree ≤ n0 + n1 + 1 ∧ ∀ x < xMax, f x = Q.eval x) ∧ (∀ x, xMax ≤ x → f x = 0) ∧
      f 0 = 1 ∧ (∀ d, 1 ≤ d → d ≤ n0 → iteratedDeriv d f 0 = 0) ∧ ContDiff ℝ n1 f ∧ (∀ d ≤ n1, iteratedDeriv d f xMax = 0) ∧ AntitoneOn f (Set.Ici 0) ∧ ∀ x, 0 ≤ x → 0 ≤ f x ∧ f x ≤ 1 := by
  obtain ⟨f, Q, hf, hd, h0, h1, hfQ⟩ := env_poly n0 n1 ha
  have hdvd := h1
  obtain ⟨R, hR⟩ := h1
  have hz : ∀ x, xMax ≤ x → f x = 0 := fun x hx => by rw [hfQ]; exact if_neg (not_lt.mpr hx)
  have hp : ∀ x < xMax, f x = Q.eval x := fun x hx => by rw [hfQ]; exact if_pos hx
  have hQ0 : Q.eval 0 = 1 := by
    obtain ⟨S, hS⟩ := h0
    have := congrArg (eval 0) hS
    simp only [eval_sub, eval_one, eval_mul, eval_pow, eval_X, ne_eq, Nat.add_eq_zero_iff, one_ne_zero, and_false, not_false_eq_true, zero_pow, zero_mul] at this
    linarith
  have hQa : Q.eval xMax = 0 := by rw [hR]; simp
  have hcd : ContDiff ℝ n1 f := by rw [hfQ, hR]; exact cut_contDiff xMax n1 R
  have f0 : f 0 = 1 := by rw [hp 0 ha, hQ0]
  have hfe : ∀ x ∈ Set.Icc 0 xMax, f x = Q.eval x := by
    intro x hx
    rcases lt_or_eq_of_le hx.2 with h | h
    · exact hp x h
    · rw [h, hz xMax le_rfl, hQa]
  have hanti : AntitoneOn f (Set.Icc 0 xMax) := by
    obtain ⟨c, hc⟩ := deriv_shape ha hd h0 hdvd
    -- the sign of the derivative
    have hder : ∀ x, deriv (fun x => Q.eval x) x = c * (x ^ n0 * (x - xMax) ^ n1) := by
      intro x; rw [Polynomial.deriv, hc]; simp
    obtain ⟨y, hy, hy'⟩ := exists_deriv_eq_slope (fun x => Q.eval x) ha Q.differentiable.continuous.continuousOn (Q.differentiable.differentiableOn)
    rw [hder, hQa, hQ0] at hy'
    have hneg : c * (y ^ n0 * (y - xMax) ^ n1) < 0 := by
      rw [hy']; apply div_neg_of_neg_of_pos <;> linarith
    have hsign : ∀ x ∈ Set.Ioo 0 xMax, c * (x ^ n0 * (x - xMax) ^ n1) ≤ 0 := by
      intro x hx
      have e : ∀ z : ℝ, (z - xMax) ^ n1 = (-1) ^ n1 * (xMax - z) ^ n1 := by
        intro z; rw [← mul_pow]; congr 1; ring
      rw [e] at hneg ⊢
      have p1 : 0 < y ^ n0 * (xMax - y) ^ n1 := mul_pos (pow_pos hy.1 _) (pow_pos (by linarith [hy.2]) _)
      have p2 : 0 < x ^ n0 * (xMax - x) ^ n1 := mul_pos (pow_pos hx.1 _) (pow_pos (by linarith [hx.2]) _)
      have q : (c * (-1) ^ n1) * (y ^ n0 * (xMax - y) ^ n1) < 0 := by linarith [show c * (y ^ n0 * ((-1) ^ n1 * (xMax - y) ^ n1)) = (c * (-1) ^ n1) * (y ^ n0 * (xMax - y) ^ n1) by ring]
      have hc' : c * (-1) ^ n1 < 0 := by
        by_contra hcon
        push Not at hcon
        nlinarith [mul_nonneg hcon p1.le]
      have := mul_nonpos_of_nonpos_of_nonneg hc'.le p2.le
      linarith [show c * (x ^ n0 * ((-1) ^ n1 * (xMax - x) ^ n1)) = (c * (-1) ^ n1) * (x ^ n0 * (xMax - x) ^ n1) by ring]
    have hQanti : AntitoneOn (fun x => Q.eval x) (Set.Icc 0 xMax) := by
      refine antitoneOn_of_deriv_nonpos (convex_Icc _ _) Q.differentiable.continuous.continuousOn Q.differentiable.differentiableOn ?_
      intro x hx
      rw [interior_Icc] at hx
      rw [hder]; exact hsign x hx
    intro x hx y hy hxy
    rw [hfe x hx, hfe y hy]
    exact hQanti hx hy hxy
  have hnn : ∀ x ∈ Set.Icc 0 xMax, 0 ≤ f x := by
    intro x hx
    have := hanti hx ⟨ha.le, le_rfl⟩ hx.2
    rwa [hz xMax le_rfl] at this
  have hanti' : AntitoneOn f (Set.Ici 0) := by
    intro x hx y hy hxy
    by_cases hy' : y ≤ xMax
    · exact hanti ⟨hx, hxy.trans hy'⟩ ⟨hy, hy'⟩ hxy
    · rw [hz y (by linarith)]
      by_cases hx' : x ≤ xMax
      · exact hnn x ⟨hx, hx'⟩
      · rw [hz x (by linarith)]
  refine ⟨f, hf, ⟨Q, ?_, hp⟩, hz, f0, fun d h1' h2 => ?_, hcd, fun d hd' => ?_, hanti', fun x hx => ⟨?_, ?_⟩⟩
  · rw [natDegree_le_iff_degree_le]
    by_cases hq : Q = 0
    · rw [hq, degree_zero]; exact bot_le
    · rw [degree_eq_natDegree hq] at hd ⊢
      norm_cast at hd ⊢
      omega
  · have he : f =ᶠ[nhds 0] fun x => Q.eval x := by
      filter_upwards [Iio_mem_nhds ha] with y hy
      exact hp y hy
    rw [he.iteratedDeriv_eq, iteratedDeriv_poly]
    have := derivs_of_dvd (P := Q - 1) (a := 0) (n := n0) (by rw [C_0, sub_zero]; exact h0) d h2
    rw [iterate_derivative_sub, eval_sub] at this
    have h1 : derivative^[d] (1 : ℝ[X]) = 0 := by
      rw [← C_1]; exact iterate_derivative_C (by omega)
    rw [h1] at this
    simpa using this
  · have hcont : Continuous (iteratedDeriv d f) := hcd.continuous_iteratedDeriv d (by exact_mod_cast hd')
    have hright : ∀ x, xMax < x → iteratedDeriv d f x = 0 := by
      intro x hx
      have he : f =ᶠ[nhds x] fun _ => 0 := by
        filter_upwards [Ioi_mem_nhds hx] with y hy
        exact hz y (le_of_lt hy)
      rw [he.iteratedDeriv_eq]
      simp
    have hcl : IsClosed {x | iteratedDeriv d f x = 0} := isClosed_eq hcont continuous_const
    have : xMax ∈ closure (Set.Ioi xMax) := by rw [closure_Ioi]; exact Set.self_mem_Ici
    exact hcl.closure_subset_iff.mpr (fun x hx => hright x hx) this
  · by_cases hx' : x ≤ xMax
    · exact hnn x ⟨hx, hx'⟩
    · rw [hz x (by linarith)]
  · have := hanti' (Set.mem_Ici.mpr le_rfl) (Set.mem_Ici.mpr hx) hx
    rwa [f0] at this

/-- **C49 (u).** `u(p, x)` is `poly_envelope(p-1, 2)(x)` below `1`, as documented. -/
theorem C49_u (p : ℕ) (hp : 1 ≤ p) : ∃ f, polyEnvelope (p - 1) 2 1 = .ok f ∧ ∀ x < 1, u p x = f x := by
  obtain ⟨f, Q, hf, hd, h0, h1, hfQ⟩ := env_poly (p - 1) 2 one_pos
  refine ⟨f, hf, fun x hx => ?_⟩
  obtain ⟨q, rfl⟩ : ∃ q, p = q + 1 := ⟨p - 1, by omega⟩
  simp only [Nat.add_sub_cancel] at hd h0
  set U : ℝ[X] := 1 - C (((q : ℝ) + 2) * (q + 3) / 2) * X ^ (q + 1) + C (((q : ℝ) + 1) * (q + 3)) * X ^ (q + 2) - C (((q : ℝ) + 1) * (q + 2) / 2) * X ^ (q + 3) with hU
  have hUe : ∀ x, u (q + 1) x = U.eval x := by
    intro x
    rw [hU]
    unfold u
    simp only [eval_sub, eval_add, eval_one, eval_mul, eval_C, eval_pow, eval_X]
    push_cast
    ring
  have hU0 : X ^ (q + 1) ∣ U - 1 := by
    refine ⟨-C (((q : ℝ) + 2) * (q + 3) / 2) + C (((q : ℝ) + 1) * (q + 3)) * X - C (((q : ℝ) + 1) * (q + 2) / 2) * X ^ 2, ?_⟩
    rw [hU]; ring
  have hU1 : (X - C 1) ^ (2 + 1) ∣ U := by
    refine dvd_of_derivs fun d hd => ?_
    have hd1 : derivative U = -(C (((q : ℝ) + 1) * (q + 2) * (q + 3) / 2) * X ^ q) + C (((q : ℝ) + 1) * (q + 2) * (q + 3)) * X ^ (q + 1) - C (((q : ℝ) + 1) * (q + 2) * (q + 3) / 2) * X ^ (q + 2) := by
      rw [hU]
      simp only [derivative_sub, derivative_add, derivative_one, derivative_C_mul_X_pow, zero_sub, Nat.add_sub_cancel]
      rw [show q + 2 - 1 = q + 1 by omega, show q + 3 - 1 = q + 2 by omega]
      have a1 : ((q : ℝ) + 2) * (q + 3) / 2 * ((q + 1 : ℕ) : ℝ) = ((q : ℝ) + 1) * (q + 2) * (q + 3) / 2 := by push_cast; ring
      have a2 : ((q : ℝ) + 1) * (q + 3) * ((q + 2 : ℕ) : ℝ) = ((q : ℝ) + 1) * (q + 2) * (q + 3) := by push_cast; ring
      have a3 : ((q : ℝ) + 1) * (q + 2) / 2 * ((q + 3 : ℕ) : ℝ) = ((q : ℝ) + 1) * (q + 2) * (q + 3) / 2 := by push_cast; ring
      rw [a1, a2, a3]
    interval_cases d
    · simp only [Function.iterate_zero, id]
      rw [hU]
      simp only [eval_sub, eval_add, eval_one, eval_mul, eval_C, eval_pow, eval_X, one_pow]
      ring
    · simp only [Function.iterate_one]
      rw [hd1]
      simp only [eval_sub, eval_add, eval_neg, eval_mul, eval_C, eval_pow, eval_X, one_pow]
      ring
    · rw [Function.iterate_succ_apply, Function.iterate_one, hd1]
      simp only [derivative_sub, derivative_add, derivative_neg, derivative_C_mul_X_pow, eval_sub, eval_add, eval_neg, eval_mul, eval_C, eval_pow, eval_X, one_pow]
      push_cast
      ring
  have hdU : U.degree < ((q + 2 + 2 : ℕ) : WithBot ℕ) := by
    have : U.natDegree ≤ q + 3 := by
      rw [hU]
      compute_degree
      all_goals omega
    refine degree_le_natDegree.trans_lt ?_
    exact_mod_cast (by omega : U.natDegree < q + 2 + 2)
  have hz : U - Q = 0 := by
    refine hermite_zero (a := 0) (b := 1) (n0 := q) (n1 := 2) zero_ne_one ?_ ?_ (dvd_sub hU1 h1)
    · exact (degree_sub_le _ _).trans_lt (max_lt hdU hd)
    · rw [C_0, sub_zero]
      have : U - Q = (U - 1) - (Q - 1) := by ring
      rw [this]; exact dvd_sub hU0 h0
  rw [hUe, sub_eq_zero.mp hz, hfQ]
  simp only [if_pos hx]

example : ∃ f, polyEnvelope 4 3 2 = .ok f ∧ f 0 = 1 ∧ f 5 = 0 := by
  obtain ⟨f, h1, _, h3, h4, _⟩ := C49_poly_envelope 4 3 (xMax := 2) (by norm_num)
  exact ⟨f, h1, h4, h3 5 (by norm_num)⟩

example : count true true 4 = 6 ∧ count false true 1 = 2 := by decide

end E3nn.Radial
