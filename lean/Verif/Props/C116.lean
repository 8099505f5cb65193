import Verif.Model.SqrtRational
import Verif.Props.C50
import Mathlib.Tactic

/-! # C116: `round_to_sqrt_rational` -/

namespace E3nn.LimDen

theorem npRound_spec (v : ℝ) : |v - npRound v| ≤ 1 / 2 := by
  have h1 := Int.floor_le v
  have h2 := Int.lt_floor_add_one v
  unfold npRound
  split
  · rw [abs_le]; constructor <;> linarith
  · split
    · push_cast; rw [abs_le]; constructor <;> linarith
    · split
      · rw [abs_le]; constructor <;> linarith
      · push_cast; rw [abs_le]; constructor <;> linarith

theorem normalizeRatio_spec {n d : ℤ} (hd : 0 < d) :
    0 < (normalizeRatio n d).2 ∧ IsCoprime (normalizeRatio n d).1 (normalizeRatio n d).2 ∧
    ((normalizeRatio n d).1 : ℚ) / (normalizeRatio n d).2 = n / d := by
  have hg : 0 < Int.gcd n d := Int.gcd_pos_of_ne_zero_right _ hd.ne'
  have e : normalizeRatio n d = (n / (Int.gcd n d : ℤ), d / (Int.gcd n d : ℤ)) := by
    unfold normalizeRatio
    rw [if_neg (not_lt.mpr hd.le)]
    simp only [Int.fdiv_eq_ediv_of_nonneg _ (Int.natCast_nonneg _)]
  have hgz : (0 : ℤ) < Int.gcd n d := by exact_mod_cast hg
  rw [e]
  refine ⟨Int.ediv_pos_of_pos_of_dvd hd hgz.le (Int.gcd_dvd_right _ _), ?_, ?_⟩
  · rw [Int.isCoprime_iff_gcd_eq_one]
    exact Int.gcd_ediv_gcd_ediv_gcd hg
  · have hq : ((Int.gcd n d : ℤ) : ℚ) ≠ 0 := by exact_mod_cast hgz.ne'
    simp only
    rw [Int.cast_div (Int.gcd_dvd_left _ _) hq, Int.cast_div (Int.gcd_dvd_right _ _) hq]
    field_simp

/-- Different fractions with denominators `a` and `b` are at least `1/(ab)` apart. -/
theorem frac_apart {a b c d : ℤ} (hb : 0 < b) (hd : 0 < d) (h : (a : ℚ) / b ≠ c / d) :
    1 / ((b : ℚ) * d) ≤ |(a : ℚ) / b - c / d| := by
  have hb' : (0 : ℚ) < b := by exact_mod_cast hb
  have hd' : (0 : ℚ) < d := by exact_mod_cast hd
  have e : (a : ℚ) / b - c / d = (a * d - c * b : ℤ) / (b * d) := by
    push_cast; field_simp
  have hne : (a * d - c * b : ℤ) ≠ 0 := by
    intro h0
    apply h
    rw [← sub_eq_zero, e, h0]; simp
  rw [e, abs_div, abs_of_pos (by positivity : (0 : ℚ) < b * d)]
  gcongr
  have := Int.one_le_abs hne
  exact_mod_cast this

theorem core {M : ℤ} {x f : ℤ × ℤ} {pp qq : ℤ} (hx : 0 < x.2 ∧ IsCoprime x.1 x.2)
    (hf : (x.2 < M → f = x) ∧ (M < x.2 → BestApprox M x f) ∧ (x.2 = M → f = (0, 1)))
    (hq : 1 ≤ qq) (hqM : qq < M) (hn : |(x.1 : ℚ) / x.2 - pp / qq| < 1 / (2 * M * qq)) :
    0 < f.2 ∧ (f.1 : ℚ) / f.2 = pp / qq := by
  have hqq : (0 : ℚ) < qq := by exact_mod_cast hq
  have hM : (0 : ℚ) < M := by exact_mod_cast (by omega : 0 < M)
  have hx2 : (0 : ℚ) < x.2 := by exact_mod_cast hx.1
  have small : x.2 ≤ M → (x.1 : ℚ) / x.2 = pp / qq := by
    intro hle
    by_contra hne
    have h1 := frac_apart hx.1 (by omega : 0 < qq) hne
    have h2 : 1 / (2 * (M : ℚ) * qq) ≤ 1 / ((x.2 : ℚ) * qq) := by
      apply one_div_le_one_div_of_le (by positivity)
      have : (x.2 : ℚ) ≤ M := by exact_mod_cast hle
      nlinarith
    linarith
  rcases lt_trichotomy x.2 M with h | h | h
  · rw [hf.1 h]
    exact ⟨hx.1, small h.le⟩
  · exfalso
    have e := small h.le
    rw [div_eq_div_iff hx2.ne' hqq.ne'] at e
    have e' : x.1 * qq = pp * x.2 := by exact_mod_cast e
    have hdvd : x.2 ∣ qq := by
      have : x.2 ∣ x.1 * qq := ⟨pp, by rw [e']; ring⟩
      exact hx.2.symm.dvd_of_dvd_mul_left this
    have := Int.le_of_dvd (by omega) hdvd
    omega
  · obtain ⟨b1, b2, b3⟩ := hf.2.1 h
    refine ⟨by omega, ?_⟩
    by_contra hne
    have h1 := frac_apart (by omega : 0 < f.2) (by omega : 0 < qq) hne
    have h2 := b3 pp qq hq hqM.le
    have h3 : |(f.1 : ℚ) / f.2 - pp / qq| ≤ |(f.1 : ℚ) / f.2 - x.1 / x.2| + |(x.1 : ℚ) / x.2 - pp / qq| :=
      abs_sub_le _ _ _
    rw [abs_sub_comm ((pp : ℚ) / qq)] at h2
    have hf2 : (0 : ℚ) < f.2 := by exact_mod_cast b1
    have h4 : 1 / ((M : ℚ) * qq) ≤ 1 / ((f.2 : ℚ) * qq) := by
      apply one_div_le_one_div_of_le (by positivity)
      have : (f.2 : ℚ) ≤ M := by exact_mod_cast b2
      nlinarith
    have h5 : 1 / ((M : ℚ) * qq) = 1 / (2 * M * qq) + 1 / (2 * M * qq) := by field_simp; norm_num
    linarith

theorem approxAbs_near {M p q : ℕ} {y : ℝ} (hy : 0 ≤ y) (hq : 1 ≤ q) (hqM : q < M)
    (hp : 4 * (M + 1) * (p + 1) ≤ 2 ^ 51) (hn : |y - p / q| < 1 / (4 * M * q)) :
    0 < (approxAbs y).2 ∧ |((approxAbs y).1 : ℝ) / (approxAbs y).2 - p / q| < 1 / (2 * M * q) := by
  have hq' : (1 : ℝ) ≤ q := by exact_mod_cast hq
  have hqM' : (q : ℝ) < M := by exact_mod_cast hqM
  have hM' : (2 : ℝ) ≤ M := by exact_mod_cast (by omega : 2 ≤ M)
  have hp0 : (0 : ℝ) ≤ p := by positivity
  have hB : 4 * ((M : ℝ) + 1) * (p + 1) ≤ 2 ^ 51 := by exact_mod_cast hp
  obtain ⟨B, hBdef⟩ : ∃ B : ℝ, B = 2 ^ 51 := ⟨_, rfl⟩
  rw [← hBdef] at hB
  have hB12 : 12 ≤ B := by nlinarith
  -- `q y` is close to `p`
  have hqy : |q * y - p| < 1 / (4 * M) := by
    have e : (q : ℝ) * y - p = q * (y - p / q) := by field_simp
    rw [e, abs_mul, abs_of_pos (by linarith : (0 : ℝ) < q)]
    calc (q : ℝ) * |y - p / q| < q * (1 / (4 * M * q)) := by gcongr
      _ = 1 / (4 * M) := by field_simp
  have hM4 : 1 / (4 * (M : ℝ)) ≤ 1 / 8 := by
    apply one_div_le_one_div_of_le <;> linarith
  have hMM : (M : ℝ) * (1 / (4 * M)) = 1 / 4 := by field_simp
  rw [abs_lt] at hqy
  obtain ⟨g1, g2⟩ := hqy
  -- it is enough to approximate `y` up to `1/(4 M q)`
  have fin : ∀ n d : ℤ, 0 < d → |(n : ℝ) / d - y| ≤ 1 / (4 * M * q) →
      0 < d ∧ |(n : ℝ) / d - p / q| < 1 / (2 * M * q) := by
    intro n d hd h
    refine ⟨hd, ?_⟩
    have h2 : |(n : ℝ) / d - p / q| ≤ |(n : ℝ) / d - y| + |y - p / q| := abs_sub_le _ _ _
    have h3 : 1 / (2 * (M : ℝ) * q) = 1 / (4 * M * q) + 1 / (4 * M * q) := by field_simp; norm_num
    linarith
  unfold approxAbs
  by_cases hy1 : y ≤ 1
  · simp only [if_pos hy1]
    unfold approxUnit
    simp only [← hBdef]
    have f1 := Int.floor_le (y * B)
    have f2 := Int.lt_floor_add_one (y * B)
    obtain ⟨n, hn'⟩ : ∃ n, n = ⌊y * B⌋ := ⟨_, rfl⟩
    rw [← hn'] at f1 f2 ⊢
    by_cases hn0 : n = 0
    · simp only [hn0, if_true]
      rw [hn0] at f2
      refine ⟨one_pos, ?_⟩
      have hpz : p = 0 := by
        by_contra hne
        have hp1 : (1 : ℝ) ≤ p := by exact_mod_cast Nat.one_le_iff_ne_zero.mpr hne
        have : 1 - 1 / 8 < (q : ℝ) * y := by linarith
        have h2 : (q : ℝ) * y * B ≤ q := by
          have : y * B < 1 := by simpa using f2
          nlinarith
        nlinarith
      rw [hpz]
      simp only [Int.cast_zero, Int.cast_one, zero_div, Nat.cast_zero, sub_zero, abs_zero]
      positivity
    · rw [if_neg hn0]
      have hnn : 0 ≤ n := by rw [hn']; exact Int.floor_nonneg.mpr (by positivity)
      have hn1 : (1 : ℝ) ≤ n := by exact_mod_cast (by omega : 1 ≤ n)
      have hyp : 0 < y := by
        rcases hy.eq_or_lt with h | h
        · rw [← h, zero_mul] at f1; linarith
        · exact h
      have hr := npRound_spec ((n : ℝ) / y)
      obtain ⟨d, hd⟩ : ∃ d, d = npRound ((n : ℝ) / y) := ⟨_, rfl⟩
      rw [← hd] at hr ⊢
      rw [abs_le] at hr
      have hny : (1 : ℝ) ≤ n / y := by rw [le_div_iff₀ hyp]; linarith
      have hd0 : 0 < d := by
        have : (0 : ℝ) < d := by linarith
        exact_mod_cast this
      have hd0' : (1 : ℝ) ≤ d := by exact_mod_cast hd0
      apply fin n d hd0
      have e : (n : ℝ) / d - y = y * (n / y - d) / d := by field_simp
      rw [e, abs_div, abs_mul, abs_of_pos hyp, abs_of_pos (by linarith : (0 : ℝ) < d)]
      have hdl : 2 * M * (q * y) ≤ (d : ℝ) := by
        by_cases hp1 : p = 0
        · rw [hp1] at g2
          have : (M : ℝ) * (q * y) ≤ M * (1 / (4 * M)) := by
            apply mul_le_mul_of_nonneg_left _ (by linarith)
            simpa using g2.le
          rw [hMM] at this
          linarith
        · have hp1 : (1 : ℝ) ≤ p := by exact_mod_cast Nat.one_le_iff_ne_zero.mpr hp1
          have hqy1 : 3 / 4 ≤ (q : ℝ) * y := by linarith
          have hyi : 1 / y ≤ 4 / 3 * M := by
            rw [div_le_iff₀ hyp]
            nlinarith
          have hnB : B - 1 / y ≤ n / y := by
            rw [le_div_iff₀ hyp, sub_mul, one_div, inv_mul_cancel₀ hyp.ne']
            linarith
          have : B - 4 / 3 * M - 1 / 2 ≤ (d : ℝ) := by linarith
          have h2 : 2 * M * ((q : ℝ) * y) ≤ 2 * M * (p + 1 / 8) := by
            apply mul_le_mul_of_nonneg_left _ (by linarith)
            linarith
          nlinarith
      rw [div_le_div_iff₀ (by linarith) (by positivity)]
      have h12 : |(n : ℝ) / y - d| ≤ 1 / 2 := abs_le.mpr hr
      have : y * |(n : ℝ) / y - d| ≤ y * (1 / 2) := by gcongr
      calc y * |(n : ℝ) / y - d| * (4 * M * q) ≤ y * (1 / 2) * (4 * M * q) := by gcongr
        _ = 2 * M * (q * y) := by ring
        _ ≤ 1 * d := by linarith
  · simp only [if_neg hy1]
    push Not at hy1
    rw [if_neg (not_lt.mpr hy1.le)]
    unfold approxUnit
    simp only [← hBdef]
    have hyp : 0 < y := by linarith
    have hqp : (q : ℝ) * y < p + 1 / 8 := by linarith
    have hBy : 4 * (M + 1) * q ≤ 1 / y * B := by
      rw [one_div, inv_mul_eq_div, le_div_iff₀ hyp]
      calc 4 * ((M : ℝ) + 1) * q * y = 4 * (M + 1) * (q * y) := by ring
        _ ≤ 4 * (M + 1) * (p + 1) := by gcongr; linarith
        _ ≤ B := hB
    have f2 := Int.lt_floor_add_one (1 / y * B)
    obtain ⟨d, hd⟩ : ∃ d, d = ⌊1 / y * B⌋ := ⟨_, rfl⟩
    rw [← hd] at f2 ⊢
    have hdl : 2 * M * (q : ℝ) ≤ d := by nlinarith
    have hd1 : (1 : ℝ) ≤ d := by nlinarith
    have hd0 : 0 < d := by
      have : (0 : ℝ) < d := by linarith
      exact_mod_cast this
    rw [if_neg hd0.ne']
    have hr := npRound_spec ((d : ℝ) / (1 / y))
    obtain ⟨n, hn'⟩ : ∃ n, n = npRound ((d : ℝ) / (1 / y)) := ⟨_, rfl⟩
    rw [← hn'] at hr ⊢
    apply fin n d hd0
    have e : (n : ℝ) / d - y = -((d / (1 / y) - n) / d) := by field_simp; ring
    rw [e, abs_neg, abs_div, abs_of_pos (by linarith : (0 : ℝ) < d)]
    rw [div_le_div_iff₀ (by linarith) (by positivity)]
    calc |(d : ℝ) / (1 / y) - n| * (4 * M * q) ≤ 1 / 2 * (4 * M * q) := by gcongr
      _ = 2 * M * q := by ring
      _ ≤ 1 * d := by linarith

/-- `x` lies near `± √(p/q)`, near enough for `max_denominator = N`: `q ≤ N²`, `p` not too large, and
`x²` within `1/(4 (N²+1) q)` of `p/q`. -/
def Near (N : ℕ) (x : ℝ) (p q : ℕ) : Prop :=
  1 ≤ q ∧ q ≤ N ^ 2 ∧ 4 * (N ^ 2 + 2) * (p + 1) ≤ 2 ^ 51 ∧ |x ^ 2 - p / q| < 1 / (4 * (N ^ 2 + 1) * q)

/-- The number of the form `± √(p/q)` with the sign of `x` (zero for `x = 0`). -/
noncomputable def target (x : ℝ) (p q : ℕ) : ℝ :=
  (if 0 < x then 1 else if x < 0 then -1 else 0) * Real.sqrt (p / q)

theorem approxRatio_near {N : ℕ} {x : ℝ} {p q : ℕ} (h : Near N x p q) :
    (0 < (approxRatio (x ^ 2)).2 ∧ IsCoprime (approxRatio (x ^ 2)).1 (approxRatio (x ^ 2)).2) ∧
    |((approxRatio (x ^ 2)).1 : ℚ) / (approxRatio (x ^ 2)).2 - (p : ℤ) / (q : ℤ)| <
      1 / (2 * (((N : ℤ) ^ 2 + 1 : ℤ) : ℚ) * (q : ℤ)) := by
  obtain ⟨h1, h2, h3, h4⟩ := h
  have hM : q < N ^ 2 + 1 := by omega
  have k := approxAbs_near (M := N ^ 2 + 1) (p := p) (q := q) (sq_nonneg x) h1 hM
    (by have : 4 * (N ^ 2 + 1 + 1) * (p + 1) = 4 * (N ^ 2 + 2) * (p + 1) := by ring
        omega) (by push_cast; exact h4)
  obtain ⟨k1, k2⟩ := k
  unfold approxRatio
  rw [abs_of_nonneg (sq_nonneg x)]
  have hs : signInt (x ^ 2) * (approxAbs (x ^ 2)).1 = (approxAbs (x ^ 2)).1 := by
    by_cases hx : x = 0
    · have : approxAbs (x ^ 2) = (0, 1) := by simp [hx, approxAbs, approxUnit]
      rw [this]; simp
    · have : 0 < x ^ 2 := by positivity
      simp [signInt, this]
  rw [hs]
  obtain ⟨n1, n2, n3⟩ := normalizeRatio_spec (n := (approxAbs (x ^ 2)).1) k1
  refine ⟨⟨n1, n2⟩, ?_⟩
  rw [n3]
  have cast := (Rat.cast_lt (K := ℝ) (p := |((approxAbs (x ^ 2)).1 : ℚ) / (approxAbs (x ^ 2)).2 - (p : ℤ) / (q : ℤ)|)
    (q := 1 / (2 * (((N : ℤ) ^ 2 + 1 : ℤ) : ℚ) * (q : ℤ))))
  apply cast.mp
  push_cast at k2 ⊢
  exact k2

/-- **C116.** Rounding: every entry near a number `± √(p/q)` with `q ≤ max_denominator²` is replaced by exactly
this number, all entries of an array independently of each other. -/
theorem C116_round (N : ℕ) (ts : List (ℝ × ℕ × ℕ)) (h : ∀ t ∈ ts, Near N t.1 t.2.1 t.2.2) :
    roundSqrt N (ts.map fun t => t.1) = .ok (ts.map fun t => some (target t.1 t.2.1 t.2.2)) := by
  have hx : ∀ x ∈ (ts.map fun t => t.1).map (fun x => approxRatio (x ^ 2)), 0 < x.2 ∧ IsCoprime x.1 x.2 := by
    intro x hx
    simp only [List.map_map, List.mem_map, Function.comp] at hx
    obtain ⟨t, ht, rfl⟩ := hx
    exact (approxRatio_near (h t ht)).1
  obtain ⟨f, f1, f2⟩ := C50_limit_denominator ((N : ℤ) ^ 2 + 1) (by nlinarith [sq_nonneg (N : ℤ)]) _ hx
  unfold roundSqrt
  rw [f1]
  simp only [List.map_map]
  show Except.ok _ = _
  congr 1
  rw [List.zipWith_map, List.zipWith_self]
  apply List.map_congr_left
  intro t ht
  obtain ⟨a1, a2⟩ := approxRatio_near (h t ht)
  have hq1 := (h t ht).1
  have hqN : (t.2.2 : ℤ) < (N : ℤ) ^ 2 + 1 := by
    have := (h t ht).2.1
    have : t.2.2 < N ^ 2 + 1 := by omega
    exact_mod_cast this
  have c := core a1 (f2 _ (by
      simp only [List.map_map, List.mem_map, Function.comp]
      exact ⟨t, ht, rfl⟩)) (by exact_mod_cast hq1) hqN a2
  obtain ⟨c1, c2⟩ := c
  simp only [Function.comp]
  have c3 : ((f (approxRatio (t.1 ^ 2))).1 : ℝ) / (f (approxRatio (t.1 ^ 2))).2 = t.2.1 / t.2.2 := by
    have := congrArg (Rat.cast : ℚ → ℝ) c2
    push_cast at this
    exact this
  unfold signedSqrt target signInt
  rw [c3, if_neg]
  · congr 2
    split
    · simp
    · split <;> simp
  · push Not
    exact ⟨c1.ne', by positivity⟩

/-- In particular `± √(p/q)` itself is left unchanged. -/
theorem C116_fixed (N : ℕ) (p q : ℕ) (hq : 1 ≤ q) (hqN : q ≤ N ^ 2) (hp : 4 * (N ^ 2 + 2) * (p + 1) ≤ 2 ^ 51)
    (x : ℝ) (hx : x = Real.sqrt (p / q) ∨ x = -Real.sqrt (p / q)) : roundSqrt N [x] = .ok [some x] := by
  have hx2 : x ^ 2 = p / q := by
    rcases hx with rfl | rfl
    · rw [Real.sq_sqrt (by positivity)]
    · rw [neg_sq, Real.sq_sqrt (by positivity)]
  have hN : Near N x p q := ⟨hq, hqN, hp, by rw [hx2, sub_self, abs_zero]; positivity⟩
  have := C116_round N [(x, p, q)] (by simpa using hN)
  simp only [List.map_cons, List.map_nil] at this
  rw [this]
  have e : target x p q = x := by
    unfold target
    have h0 := Real.sqrt_nonneg ((p : ℝ) / q)
    rcases h0.eq_or_lt with h | h
    · rw [← h] at hx ⊢
      have : x = 0 := by rcases hx with h | h <;> simpa using h
      simp [this]
    · rcases hx with rfl | rfl
      · rw [if_pos h, one_mul]
      · rw [if_neg (by linarith), if_pos (by linarith)]; ring
  rw [e]

/-- Complex arrays: real and imaginary parts are rounded separately. -/
theorem C116_complex (N : ℕ) (ts : List (ℂ × (ℕ × ℕ) × (ℕ × ℕ)))
    (h : ∀ t ∈ ts, Near N t.1.re t.2.1.1 t.2.1.2 ∧ Near N t.1.im t.2.2.1 t.2.2.2) :
    roundSqrtComplex N (ts.map fun t => t.1) =
      .ok (ts.map fun t => some (⟨target t.1.re t.2.1.1 t.2.1.2, target t.1.im t.2.2.1 t.2.2.2⟩ : ℂ)) := by
  have hr := C116_round N (ts.map fun t => (t.1.re, t.2.1)) (by
    intro t ht
    obtain ⟨s, hs, rfl⟩ := List.mem_map.mp ht
    exact (h s hs).1)
  have hi := C116_round N (ts.map fun t => (t.1.im, t.2.2)) (by
    intro t ht
    obtain ⟨s, hs, rfl⟩ := List.mem_map.mp ht
    exact (h s hs).2)
  rw [List.map_map, List.map_map] at hr hi
  unfold roundSqrtComplex
  have er : (ts.map fun t => t.1).map Complex.re = ts.map ((fun t : ℝ × ℕ × ℕ => t.1) ∘ fun t => (t.1.re, t.2.1)) := by
    rw [List.map_map]; rfl
  have ei : (ts.map fun t => t.1).map Complex.im = ts.map ((fun t : ℝ × ℕ × ℕ => t.1) ∘ fun t => (t.1.im, t.2.2)) := by
    rw [List.map_map]; rfl
  rw [er, ei, hr, hi]
  split
  · show Except.ok _ = _
    congr 1
    rw [List.zipWith_map, List.zipWith_self]
    rfl
  · rename_i hz
    push Not at hz
    show Except.ok _ = _
    congr 1
    rw [List.map_map]
    apply List.map_congr_left
    intro t ht
    have him : t.1.im = 0 := hz t.1 (List.mem_map_of_mem ht)
    have : target t.1.im t.2.2.1 t.2.2.2 = 0 := by simp [target, him]
    simp only [Function.comp, Option.map_some, this]
    rfl

/-- The docstring ("closest number of the form `sqrt(p)/q` for `q <= max_denominator`") is not what is computed:
with `max_denominator = 2` the number `√(1/3)` is returned unchanged, and it is not of the form `√p / q` with `q ≤ 2`. -/
theorem C116_docstring_witness :
    roundSqrt 2 [Real.sqrt ((1 : ℕ) / (3 : ℕ))] = .ok [some (Real.sqrt ((1 : ℕ) / (3 : ℕ)))] ∧
    ¬ ∃ p q : ℕ, 1 ≤ q ∧ q ≤ 2 ∧ Real.sqrt ((1 : ℕ) / (3 : ℕ)) = Real.sqrt p / q := by
  refine ⟨C116_fixed 2 1 3 (by norm_num) (by norm_num) (by norm_num) _ (.inl rfl), ?_⟩
  rintro ⟨p, q, h1, h2, e⟩
  have e2 := congrArg (· ^ 2) e
  simp only [div_pow] at e2
  rw [Real.sq_sqrt (by positivity), Real.sq_sqrt (by positivity)] at e2
  have hq : (q : ℝ) ≠ 0 := by exact_mod_cast (by omega : q ≠ 0)
  field_simp at e2
  have e3 : q ^ 2 = 3 * p := by
    push_cast at e2
    exact_mod_cast (by linarith : (q : ℝ) ^ 2 = 3 * p)
  interval_cases q <;> omega

/-- For numbers whose square exceeds `2^51` the approximation by integers has the denominator zero, and the
rounded value is not finite. -/
theorem C116_too_large (N : ℕ) (x : ℝ) (hx : 2 ^ 51 < x ^ 2) : roundSqrt N [x] = .ok [none] := by
  have h1 : ¬ x ^ 2 ≤ 1 := by
    have : (1 : ℝ) < 2 ^ 51 := by norm_num
    linarith
  have hpos : 0 < x ^ 2 := by
    have : (0 : ℝ) < 2 ^ 51 := by norm_num
    linarith
  have hfl : ⌊1 / x ^ 2 * 2 ^ 51⌋ = 0 := by
    rw [Int.floor_eq_zero_iff]
    refine ⟨by positivity, ?_⟩
    rw [one_div, inv_mul_eq_div, div_lt_one hpos]
    exact hx
  have ha : approxRatio (x ^ 2) = (1, 0) := by
    unfold approxRatio
    have : approxAbs |x ^ 2| = (1, 0) := by
      rw [abs_of_pos hpos]
      unfold approxAbs
      rw [if_neg h1]
      have h2 : ¬ x ^ 2 < 1 := by linarith
      simp only [if_neg h2]
      unfold approxUnit
      simp only [hfl, if_true]
    rw [this]
    simp [signInt, hpos, normalizeRatio]
  have hstop : (init (1, 0)).stop ((N : ℤ) ^ 2 + 1) = true := by
    simp only [init, St.stop, Bool.or_eq_true, decide_eq_true_eq]
    right
    exact decide_eq_true (by nlinarith [sq_nonneg (N : ℤ)])
  have hloop : ∃ k : ℕ, ((List.map (St.step ((N : ℤ) ^ 2 + 1)))^[k] [init (1, 0)]).all (St.stop ((N : ℤ) ^ 2 + 1)) :=
    ⟨0, by simp [hstop]⟩
  have hfind : Nat.find hloop = 0 := by
    rw [Nat.find_eq_zero]
    simp [hstop]
  have hlim : limitDenominator ((N : ℤ) ^ 2 + 1) [(1, 0)] = .ok [(1, 0)] := by
    have hl : loop ((N : ℤ) ^ 2 + 1) [init (1, 0)] = .ok [init (1, 0)] := by
      unfold loop
      rw [dif_pos hloop]
      have : (List.map (St.step ((N : ℤ) ^ 2 + 1)))^[Nat.find hloop] [init (1, 0)] = [init (1, 0)] := by
        rw [hfind]; rfl
      convert congrArg Except.ok this
    unfold limitDenominator
    simp only [List.map_cons, List.map_nil]
    rw [hl]
    show Except.ok _ = _
    have : (0 : ℤ) < (N : ℤ) ^ 2 + 1 := by positivity
    simp [St.finish, init, this]
  unfold roundSqrt
  simp only [List.map_cons, List.map_nil, ha, hlim]
  show Except.ok _ = _
  simp [signedSqrt]

/-- With the default `max_denominator = 4096` all `√(p/q)` with `p, q ≤ 2^24` are covered. -/
example (p q : ℕ) (hq : 1 ≤ q) (hq2 : q ≤ 2 ^ 24) (hp : p ≤ 2 ^ 24) :
    roundSqrt 4096 [Real.sqrt (p / q)] = .ok [some (Real.sqrt (p / q))] :=
  C116_fixed 4096 p q hq (by norm_num; omega) (by omega) _ (.inl rfl)

/-- A number that is not exactly a square root: `0.70710678` is rounded to `√(1/2)` by `max_denominator = 16`. -/
example : Near 16 0.70710678 1 2 := by
  refine ⟨by norm_num, by norm_num, by norm_num, ?_⟩
  rw [abs_lt]
  norm_num

end E3nn.LimDen
