import Verif.Model.LimitDenom
import Mathlib.Tactic.LinearCombination
import Mathlib.Tactic.Linarith
import Mathlib.Tactic.Ring
import Mathlib.Tactic.FieldSimp
import Mathlib.Data.Rat.Lemmas
import Mathlib.Algebra.Order.Field.Basic
import Mathlib.Algebra.Order.Field.Rat
import Mathlib.RingTheory.Coprime.Lemmas
import Mathlib.RingTheory.Int.Basic

/-! # C50: `limit_denominator` -/

namespace E3nn.LimDen

/-- `r` is a best approximation of `x` by a fraction whose denominator is at most `M`. -/
def BestApprox (M : ℤ) (x r : ℤ × ℤ) : Prop :=
  1 ≤ r.2 ∧ r.2 ≤ M ∧ ∀ p q : ℤ, 1 ≤ q → q ≤ M → |(r.1 : ℚ) / r.2 - x.1 / x.2| ≤ |(p : ℚ) / q - x.1 / x.2|

/-! ### one entry -/

/-- The invariant of the loop for an entry with `d0 > M`. -/
structure Ok (M : ℤ) (s : St) : Prop where
  big : M < s.d0
  M1 : 1 ≤ M
  cop : IsCoprime s.n0 s.d0
  hn : s.n0 = s.p1 * s.n + s.p0 * s.d
  hd : s.d0 = s.q1 * s.n + s.q0 * s.d
  d : 0 < s.d
  det : s.p1 * s.q0 - s.p0 * s.q1 = 1 ∨ s.p1 * s.q0 - s.p0 * s.q1 = -1
  q : (s.q0 = 1 ∧ s.q1 = 0) ∨ (0 ≤ s.q0 ∧ 1 ≤ s.q1 ∧ s.q0 ≤ M ∧ s.q1 ≤ M ∧ s.d < s.n)

theorem ok_init {M n d : ℤ} (hM : 1 ≤ M) (hd : M < d) (hc : IsCoprime n d) : Ok M (init (n, d)) :=
  ⟨hd, hM, hc, by simp [init], by simp [init], by simp only [init]; omega, by simp [init], by simp [init]⟩

theorem fdiv_spec {n d : ℤ} (hd : 0 < d) : 0 ≤ n - Int.fdiv n d * d ∧ n - Int.fdiv n d * d < d := by
  have h1 := Int.mul_fdiv_add_fmod n d
  have h2 := Int.fmod_nonneg_of_pos n hd
  have h3 := Int.fmod_lt_of_pos n hd
  constructor <;> nlinarith

theorem ok_step {M : ℤ} {s : St} (h : Ok M s) (hs : s.stop M = false) : Ok M (s.step M) ∧ (s.step M).d < s.d := by
  obtain ⟨big, M1, cop, hn, hd, d, det, q⟩ := h
  have hs' := hs
  unfold St.stop at hs
  simp only [Bool.or_eq_false_iff, decide_eq_false_iff_not, not_lt, not_le] at hs
  unfold St.step
  simp only [hs', Bool.false_eq_true, if_false]
  obtain ⟨f1, f2⟩ := fdiv_spec (n := s.n) d
  set a := Int.fdiv s.n s.d with ha
  have hn' : s.n0 = (s.p0 + a * s.p1) * s.d + s.p1 * (s.n - a * s.d) := by rw [hn]; ring
  have hd' : s.d0 = (s.q0 + a * s.q1) * s.d + s.q1 * (s.n - a * s.d) := by rw [hd]; ring
  have hq2 : 1 ≤ s.q0 + a * s.q1 := by
    rcases q with ⟨e1, e2⟩ | ⟨e1, e2, e3, e4, e5⟩
    · rw [e1, e2]; omega
    · have ha0 : 1 ≤ a := by
        by_contra hlt
        have : a ≤ 0 := by omega
        nlinarith
      nlinarith
  refine ⟨⟨big, M1, cop, hn', hd', ?_, ?_, ?_⟩, f2⟩
  · rcases lt_or_eq_of_le f1 with h | h
    · exact h
    · exfalso
      rw [← h] at hn' hd'
      have : IsUnit s.d := cop.isUnit_of_dvd' ⟨s.p0 + a * s.p1, by rw [hn']; ring⟩ ⟨s.q0 + a * s.q1, by rw [hd']; ring⟩
      have : s.d = 1 := by
        rcases Int.isUnit_iff.mp this with h | h <;> omega
      rw [this] at hd'
      omega
  · rcases det with h | h
    · right; simp only; linear_combination -h
    · left; simp only; linear_combination -h
  · right
    simp only
    refine ⟨?_, hq2, ?_, hs.1, f2⟩
    · rcases q with ⟨e1, e2⟩ | ⟨e1, e2, e3, e4, e5⟩ <;> omega
    · rcases q with ⟨e1, e2⟩ | ⟨e1, e2, e3, e4, e5⟩ <;> omega

theorem ok_terminates {M : ℤ} : ∀ (m : ℕ) {s : St}, Ok M s → s.d ≤ m → ∃ k, ((St.step M)^[k] s).stop M = true ∧ Ok M ((St.step M)^[k] s) := by
  intro m
  induction m with
  | zero => intro s h hm; have := h.d; omega
  | succ m ih =>
    intro s h hm
    cases hs : s.stop M with
    | true => exact ⟨0, hs, h⟩
    | false =>
      obtain ⟨h1, h2⟩ := ok_step h hs
      obtain ⟨k, k1, k2⟩ := ih h1 (by push_cast at hm; omega)
      exact ⟨k + 1, k1, k2⟩

theorem step_fix {M : ℤ} {s : St} (h : s.stop M = true) : s.step M = s := by
  unfold St.step; simp [h]

theorem iterate_fix {M : ℤ} {s : St} (h : s.stop M = true) (k : ℕ) : (St.step M)^[k] s = s := by
  induction k with
  | zero => rfl
  | succ k ih => rw [Function.iterate_succ_apply, step_fix h, ih]

theorem iterate_unique {M : ℤ} {s : St} {j k : ℕ} (hj : ((St.step M)^[j] s).stop M = true) (hk : ((St.step M)^[k] s).stop M = true) :
    (St.step M)^[j] s = (St.step M)^[k] s := by
  rcases le_total j k with h | h
  · obtain ⟨i, rfl⟩ := Nat.exists_eq_add_of_le h
    rw [Nat.add_comm, Function.iterate_add_apply, iterate_fix hj]
  · obtain ⟨i, rfl⟩ := Nat.exists_eq_add_of_le h
    rw [Nat.add_comm, Function.iterate_add_apply, iterate_fix hk]

theorem close_iff {a b c d n0 d0 : ℤ} (hb : 0 < b) (hd : 0 < d) (h0 : 0 < d0) :
    |(a : ℚ) / b - n0 / d0| ≤ |(c : ℚ) / d - n0 / d0| ↔ |d * (a * d0 - n0 * b)| ≤ |b * (c * d0 - n0 * d)| := by
  have hb' : (0 : ℚ) < b := by exact_mod_cast hb
  have hd' : (0 : ℚ) < d := by exact_mod_cast hd
  have h0' : (0 : ℚ) < d0 := by exact_mod_cast h0
  have e1 : (a : ℚ) / b - n0 / d0 = ((d * (a * d0 - n0 * b) : ℤ) : ℚ) / (b * d * d0) := by
    push_cast; field_simp
  have e2 : (c : ℚ) / d - n0 / d0 = ((b * (c * d0 - n0 * d) : ℤ) : ℚ) / (b * d * d0) := by
    push_cast; field_simp
  have hp : (0 : ℚ) < b * d * d0 := by positivity
  rw [e1, e2, abs_div, abs_div, div_le_div_iff_of_pos_right (abs_pos.mpr hp.ne'), ← Int.cast_abs, ← Int.cast_abs, Int.cast_le]

/-- The integer core: `n2/d2` and `n1/d1` are on both sides of `x`, no fraction of small denominator is strictly between. -/
theorem between {M n0 d0 n1 d1 n2 d2 e u v : ℤ} (he : e = 1 ∨ e = -1) (h1 : n2 * d0 - n0 * d2 = e * u) (h2 : n1 * d0 - n0 * d1 = -e * v)
    (hu : 0 ≤ u) (hv : 0 ≤ v) (hdet : n2 * d1 - n1 * d2 = e) (hd1 : 1 ≤ d1) (hd2 : 1 ≤ d2) (hM : M < d1 + d2) (h0 : 0 < d0)
    (p q : ℤ) (hq : 1 ≤ q) (hqM : q ≤ M) :
    |q * (n2 * d0 - n0 * d2)| ≤ |d2 * (p * d0 - n0 * q)| ∨ |q * (n1 * d0 - n0 * d1)| ≤ |d1 * (p * d0 - n0 * q)| := by
  have key : q * e = d1 * (n2 * q - p * d2) + d2 * (p * d1 - n1 * q) := by rw [← hdet]; ring
  have i2 : d2 * (p * d0 - n0 * q) = q * (n2 * d0 - n0 * d2) - d0 * (n2 * q - p * d2) := by ring
  have i1 : d1 * (p * d0 - n0 * q) = q * (n1 * d0 - n0 * d1) + d0 * (p * d1 - n1 * q) := by ring
  rw [i1, i2, h1, h2]
  generalize n2 * q - p * d2 = A at *
  generalize p * d1 - n1 * q = B at *
  rcases he with rfl | rfl
  · have hAB : A ≤ 0 ∨ B ≤ 0 := by
      by_contra hc
      push Not at hc
      nlinarith
    rcases hAB with h | h
    · left
      rw [abs_of_nonneg (by positivity), abs_of_nonneg (by nlinarith [mul_nonneg (by omega : (0:ℤ) ≤ q) hu])]
      nlinarith
    · right
      rw [abs_of_nonpos (by nlinarith [mul_nonneg (by omega : (0:ℤ) ≤ q) hv]), abs_of_nonpos (by nlinarith [mul_nonneg (by omega : (0:ℤ) ≤ q) hv])]
      nlinarith
  · have hAB : 0 ≤ A ∨ 0 ≤ B := by
      by_contra hc
      push Not at hc
      nlinarith
    rcases hAB with h | h
    · left
      rw [abs_of_nonpos (by nlinarith [mul_nonneg (by omega : (0:ℤ) ≤ q) hu]), abs_of_nonpos (by nlinarith [mul_nonneg (by omega : (0:ℤ) ≤ q) hu])]
      nlinarith
    · right
      rw [abs_of_nonneg (by nlinarith [mul_nonneg (by omega : (0:ℤ) ≤ q) hv]), abs_of_nonneg (by nlinarith [mul_nonneg (by omega : (0:ℤ) ≤ q) hv])]
      nlinarith

theorem finish_best {M : ℤ} {s : St} (h : Ok M s) (hs : s.stop M = true) : BestApprox M (s.n0, s.d0) (s.finish M) := by
  obtain ⟨big, M1, cop, hn, hd, d, det, q⟩ := h
  unfold St.stop at hs
  simp only [Bool.or_eq_true, decide_eq_true_eq] at hs
  have hs : M < s.q0 + Int.fdiv s.n s.d * s.q1 := by
    rcases hs with h | h
    · exact h
    · omega
  obtain ⟨g1, g2, g3, g4, g5⟩ : 0 ≤ s.q0 ∧ 1 ≤ s.q1 ∧ s.q0 ≤ M ∧ s.q1 ≤ M ∧ s.d < s.n := by
    rcases q with ⟨e1, e2⟩ | h
    · rw [e1, e2] at hs; omega
    · exact h
  obtain ⟨f1, f2⟩ := fdiv_spec (n := s.n) d
  obtain ⟨k1, k2⟩ := fdiv_spec (n := M - s.q0) (d := s.q1) (by omega)
  set a := Int.fdiv s.n s.d with ha
  unfold St.finish
  simp only
  rw [if_neg (by omega)]
  set k := Int.fdiv (M - s.q0) s.q1 with hk
  have hka : k ≤ a := by
    by_contra hlt
    have : a + 1 ≤ k := by omega
    nlinarith
  have hD1 : 1 ≤ s.q0 + k * s.q1 := by nlinarith
  have hu : s.p1 * s.d0 - s.n0 * s.q1 = (s.p1 * s.q0 - s.p0 * s.q1) * s.d := by rw [hn, hd]; ring
  have hv : (s.p0 + k * s.p1) * s.d0 - s.n0 * (s.q0 + k * s.q1) = -(s.p1 * s.q0 - s.p0 * s.q1) * (s.n - k * s.d) := by
    rw [hn, hd]; ring
  have hv0 : 0 ≤ s.n - k * s.d := by nlinarith
  have hdet : s.p1 * (s.q0 + k * s.q1) - (s.p0 + k * s.p1) * s.q1 = s.p1 * s.q0 - s.p0 * s.q1 := by ring
  have hb := between det hu hv d.le hv0 hdet hD1 g2 (by nlinarith : M < (s.q0 + k * s.q1) + s.q1) (by omega)
  have h0 : 0 < s.d0 := by omega
  by_cases hm : |(s.q0 + k * s.q1) * (s.p1 * s.d0 - s.n0 * s.q1)| ≤ |s.q1 * ((s.p0 + k * s.p1) * s.d0 - s.n0 * (s.q0 + k * s.q1))|
  · rw [if_pos (by simpa using hm)]
    refine ⟨g2, g4, fun p q hq hqM => ?_⟩
    rcases hb p q hq hqM with h | h
    · exact (close_iff (by omega) (by omega) h0).mpr h
    · exact ((close_iff (by omega) (by omega) h0).mpr hm).trans ((close_iff (by omega) (by omega) h0).mpr h)
  · rw [if_neg (by simpa using hm)]
    have hm' : |s.q1 * ((s.p0 + k * s.p1) * s.d0 - s.n0 * (s.q0 + k * s.q1))| ≤ |(s.q0 + k * s.q1) * (s.p1 * s.d0 - s.n0 * s.q1)| := by omega
    refine ⟨hD1, by nlinarith, fun p q hq hqM => ?_⟩
    rcases hb p q hq hqM with h | h
    · exact ((close_iff (by omega) (by omega) h0).mpr hm').trans ((close_iff (by omega) (by omega) h0).mpr h)
    · exact (close_iff (by omega) (by omega) h0).mpr h

/-! ### arrays -/

/-- The final state of an entry. -/
theorem entry_stops {M : ℤ} (hM : 1 ≤ M) (x : ℤ × ℤ) (hx : 0 < x.2 ∧ IsCoprime x.1 x.2) :
    ∃ k, ((St.step M)^[k] (init x)).stop M = true ∧
      (x.2 < M → ((St.step M)^[k] (init x)).finish M = x) ∧
      (x.2 = M → ((St.step M)^[k] (init x)).finish M = (0, 1)) ∧
      (M < x.2 → BestApprox M x (((St.step M)^[k] (init x)).finish M)) := by
  obtain ⟨n, d⟩ := x
  rcases lt_or_ge M d with h | h
  · obtain ⟨k, k1, k2⟩ := ok_terminates d.toNat (ok_init hM h hx.2) (by simp only [init]; omega)
    have inv : ∀ j, ((St.step M)^[j] (init (n, d))).n0 = n ∧ ((St.step M)^[j] (init (n, d))).d0 = d := by
      intro j
      induction j with
      | zero => exact ⟨rfl, rfl⟩
      | succ j ih =>
        rw [Function.iterate_succ_apply']
        generalize (St.step M)^[j] (init (n, d)) = s at ih
        unfold St.step
        simp only
        split
        · exact ih
        · exact ih
    refine ⟨k, k1, fun h' => absurd h' (by simp only; omega), fun h' => absurd h' (by simp only; omega), fun _ => ?_⟩
    have := finish_best k2 k1
    rw [(inv k).1, (inv k).2] at this
    exact this
  · refine ⟨0, ?_, ?_, ?_, fun h' => absurd h' (by simp only; omega)⟩
    · simp [St.stop, init, h]
    · intro h'
      simp only at h'
      simp [St.finish, init, h']
    · intro h'
      simp only at h'
      subst h'
      have : ¬ |d| ≤ 0 := by rw [abs_of_pos hx.1]; have := hx.1; simp only at this; omega
      simp [St.finish, init, this]

theorem iterate_map {α : Type} (f : α → α) (k : ℕ) (l : List α) : (List.map f)^[k] l = l.map f^[k] := by
  induction k generalizing l with
  | zero => simp
  | succ k ih => rw [Function.iterate_succ_apply, ih, List.map_map]; rfl

/-- **C50.** On normalised fractions `n/d` (`d > 0`, coprime) and `max_denominator ≥ 1`, the loop terminates and each entry of the result is:
`n/d` itself if `d < max_denominator`; a best approximation of `n/d` by fractions of denominator at most `max_denominator` if
`d > max_denominator`; and `0/1` if `d = max_denominator`. -/
theorem C50_limit_denominator (M : ℤ) (hM : 1 ≤ M) (xs : List (ℤ × ℤ)) (hx : ∀ x ∈ xs, 0 < x.2 ∧ IsCoprime x.1 x.2) :
    ∃ f : ℤ × ℤ → ℤ × ℤ, limitDenominator M xs = .ok (xs.map f) ∧
      ∀ x ∈ xs, (x.2 < M → f x = x) ∧ (M < x.2 → BestApprox M x (f x)) ∧ (x.2 = M → f x = (0, 1)) := by
  have hex : ∃ k : ℕ, ((List.map (St.step M))^[k] (xs.map init)).all (St.stop M) := by
    induction xs with
    | nil => exact ⟨0, rfl⟩
    | cons x xs ih =>
      obtain ⟨k, hk⟩ := ih fun y hy => hx y (List.mem_cons_of_mem _ hy)
      obtain ⟨j, hj, -⟩ := entry_stops hM x (hx x List.mem_cons_self)
      have lift : ∀ (s : St) (i m : ℕ), ((St.step M)^[i] s).stop M = true → i ≤ m → ((St.step M)^[m] s).stop M = true := by
        intro s i m h him
        obtain ⟨e, rfl⟩ := Nat.exists_eq_add_of_le him
        rw [Nat.add_comm, Function.iterate_add_apply, iterate_fix h]; exact h
      refine ⟨max j k, ?_⟩
      rw [iterate_map] at hk ⊢
      simp only [List.map_cons, List.all_cons, Bool.and_eq_true, List.all_map, List.all_eq_true] at hk ⊢
      exact ⟨lift _ _ _ hj (le_max_left _ _), fun y hy => lift _ _ _ (hk y hy) (le_max_right _ _)⟩
  refine ⟨fun x => ((St.step M)^[Nat.find hex] (init x)).finish M, ?_, ?_⟩
  · unfold limitDenominator loop
    rw [dif_pos hex]
    simp only [bind, Except.bind, pure, Except.pure, iterate_map, List.map_map]
    rfl
  · intro x hmem
    obtain ⟨j, hj, h1, h2, h3⟩ := entry_stops hM x (hx x hmem)
    have hk := Nat.find_spec hex
    rw [iterate_map, List.map_map, List.all_map, List.all_eq_true] at hk
    have hk := hk x hmem
    have : (St.step M)^[Nat.find hex] (init x) = (St.step M)^[j] (init x) := iterate_unique hk hj
    simp only [this]
    exact ⟨h1, h3, h2⟩

/-- The code disagrees with the intended property (a best approximation, `n/d` itself when it is allowed) exactly when the denominator equals
`max_denominator`: `limit_denominator(5, 7, 7)` is `0/1`. -/
theorem C50_equal_denominator_witness : limitDenominator 7 [(5, 7)] = .ok [(0, 1)] ∧ ¬ BestApprox 7 (5, 7) (0, 1) := by
  constructor
  · obtain ⟨f, h1, h2⟩ := C50_limit_denominator 7 (by norm_num) [(5, 7)] (by
      intro x hx; simp only [List.mem_singleton] at hx; subst hx; exact ⟨by norm_num, ⟨3, -2, by norm_num⟩⟩)
    rw [h1]
    simp [(h2 (5, 7) (by simp)).2.2 rfl]
  · rintro ⟨-, -, h⟩
    have := h 5 7 (by norm_num) (by norm_num)
    norm_num at this

/-- A case with a large denominator meets the hypotheses: 355/113 with denominators at most 10 gives 22/7, in particular. -/
example : BestApprox 10 (355, 113) (((St.step 10)^[3] (init (355, 113))).finish 10) ∧ ((St.step 10)^[3] (init (355, 113))).finish 10 = (22, 7) := by
  have e : ((St.step 10)^[3] (init (355, 113))).finish 10 = (22, 7) := by decide
  obtain ⟨k, hk, -, -, h⟩ := entry_stops (M := 10) (by norm_num) (355, 113) ⟨by norm_num, ⟨-7, 22, by norm_num⟩⟩
  have hk3 : ((St.step 10)^[3] (init (355, 113))).stop 10 = true := by decide
  rw [iterate_unique hk hk3] at h
  exact ⟨h (by norm_num), e⟩

end E3nn.LimDen
