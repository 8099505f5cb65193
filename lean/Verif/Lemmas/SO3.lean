import Verif.Lemmas.SU2

namespace E3nn.SU2

open Matrix

/-- Diagonal part of the change of basis. -/
noncomputable def qu (l r : ℕ) : ℂ :=
  if r < l then -Complex.I / (Real.sqrt 2 : ℂ) else if r = l then 1 else (-1) ^ (r - l) / (Real.sqrt 2 : ℂ)
/-- Antidiagonal part of the change of basis. -/
noncomputable def qw (l r : ℕ) : ℂ :=
  if r < l then 1 / (Real.sqrt 2 : ℂ) else if r = l then 0 else Complex.I * (-1) ^ (r - l) / (Real.sqrt 2 : ℂ)

theorem changeBasis_eq (l : ℕ) : changeBasis l = (-Complex.I) ^ l • (dg (2 * l) (qu l) + an (2 * l) (qw l)) := by
  ext r c
  simp only [changeBasis, Matrix.smul_apply, Matrix.add_apply, dg, an, qu, qw, smul_eq_mul, Fin.ext_iff]
  congr 1
  have hr := r.isLt
  have hc := c.isLt
  rcases lt_trichotomy r.val l with h | h | h
  · rw [if_pos (by omega), if_pos h, if_pos h]
    have e1 : (c.val = l + ((r.val : ℤ) - l).natAbs) ↔ (c.val + r.val = 2 * l) := by omega
    have e2 : (c.val + ((r.val : ℤ) - l).natAbs = l) ↔ (r.val = c.val) := by omega
    simp only [e1, e2]
    split
    · rw [if_neg (by omega)]; simp
    · simp
  · have e1 : (c.val = l) ↔ (r.val = c.val) := by omega
    simp only [if_neg (show ¬ ((r.val : ℤ) - l < 0) by omega), if_pos (show (r.val : ℤ) - l = 0 by omega),
      if_neg (show ¬ r.val < l by omega), if_pos h, e1]
    simp
  · simp only [if_neg (show ¬ ((r.val : ℤ) - l < 0) by omega), if_neg (show ¬ (r.val : ℤ) - l = 0 by omega),
      if_neg (show ¬ r.val < l by omega), if_neg (show ¬ r.val = l by omega)]
    have e1 : (c.val = l + ((r.val : ℤ) - l).natAbs) ↔ (r.val = c.val) := by omega
    have e2 : (c.val + ((r.val : ℤ) - l).natAbs = l) ↔ (c.val + r.val = 2 * l) := by omega
    have e3 : ((r.val : ℤ) - l).natAbs = r.val - l := by omega
    simp only [e1, e2]
    simp only [e3]
    split
    · rw [if_neg (by omega)]; simp
    · simp

theorem sqrt2_sq : (Real.sqrt 2 : ℂ) * (Real.sqrt 2 : ℂ) = 2 := by
  rw [← Complex.ofReal_mul, Real.mul_self_sqrt (by norm_num)]; norm_num

theorem sqrt2_ne : (Real.sqrt 2 : ℂ) ≠ 0 := by
  intro h; have := sqrt2_sq; rw [h] at this; norm_num at this

theorem negpow_sq (k : ℕ) : ((-1 : ℂ) ^ k) * (-1) ^ k = 1 := by
  rw [← mul_pow]; norm_num

theorem Q_mul (l : ℕ) (X : Matrix (Fin (2 * l + 1)) (Fin (2 * l + 1)) ℂ) (a b : Fin (2 * l + 1)) :
    (changeBasis l * X) a b = (-Complex.I) ^ l * (qu l a * X a b + qw l a * X a.rev b) := by
  rw [changeBasis_eq, Matrix.smul_mul, Matrix.add_mul, Matrix.smul_apply, Matrix.add_apply, dg_mul, an_mul, smul_eq_mul]

theorem mul_Q (l : ℕ) (X : Matrix (Fin (2 * l + 1)) (Fin (2 * l + 1)) ℂ) (a b : Fin (2 * l + 1)) :
    (X * changeBasis l) a b = (-Complex.I) ^ l * (X a b * qu l b + X a b.rev * qw l (2 * l - b)) := by
  rw [changeBasis_eq, Matrix.mul_smul, Matrix.mul_add, Matrix.smul_apply, Matrix.add_apply, mul_dg, mul_an, smul_eq_mul]

theorem iPow_conj (l : ℕ) : (starRingEnd ℂ) ((-Complex.I) ^ l) = (-1) ^ l * (-Complex.I) ^ l := by
  rw [map_pow, ← mul_pow]; simp

theorem iPow_sq (l : ℕ) : (-Complex.I) ^ l * (starRingEnd ℂ) ((-Complex.I) ^ l) = 1 := by
  rw [map_pow, ← mul_pow]; simp

theorem q_norm (l r : ℕ) : qu l r * (starRingEnd ℂ) (qu l r) + qw l r * (starRingEnd ℂ) (qw l r) = 1 := by
  have h2 := sqrt2_sq
  have h0 := sqrt2_ne
  have hI : Complex.I * Complex.I = -1 := Complex.I_mul_I
  have hk := negpow_sq (r - l)
  unfold qu qw
  split
  · simp only [map_div₀, map_neg, Complex.conj_I, Complex.conj_ofReal, map_one]
    field_simp
    grind
  · split
    · simp
    · simp only [map_div₀, map_neg, Complex.conj_I, Complex.conj_ofReal, map_one, map_pow, map_mul]
      field_simp
      grind

theorem q_cross {l r : ℕ} (h : r ≤ 2 * l) : qu l r * (starRingEnd ℂ) (qw l (2 * l - r)) +
    qw l r * (starRingEnd ℂ) (qu l (2 * l - r)) = 0 := by
  have h2 := sqrt2_sq
  have h0 := sqrt2_ne
  have hI : Complex.I * Complex.I = -1 := Complex.I_mul_I
  unfold qu qw
  rcases lt_trichotomy r l with hr | hr | hr
  · rw [if_pos hr, if_neg (by omega), if_neg (by omega), if_pos hr, if_neg (by omega), if_neg (by omega)]
    simp only [map_div₀, map_neg, Complex.conj_I, Complex.conj_ofReal, map_one, map_pow, map_mul]
    field_simp
    grind
  · subst hr
    simp [show 2 * r - r = r by omega]
  · rw [if_neg (by omega), if_neg (by omega), if_pos (by omega), if_neg (by omega), if_neg (by omega), if_pos (by omega)]
    simp only [map_div₀, map_neg, Complex.conj_I, Complex.conj_ofReal, map_one]
    field_simp
    grind

theorem rev_sub {l : ℕ} (b : Fin (2 * l + 1)) : (b.rev).val = 2 * l - b.val := by
  simp only [Fin.val_rev]; omega

theorem Q_mul_conj (l : ℕ) : changeBasis l * (changeBasis l)ᴴ = 1 := by
  have hc : (changeBasis l)ᴴ = (starRingEnd ℂ) ((-Complex.I) ^ l) •
      (dg (2 * l) (fun b => (starRingEnd ℂ) (qu l b)) + an (2 * l) fun b => (starRingEnd ℂ) (qw l (2 * l - b))) := by
    rw [changeBasis_eq, Matrix.conjTranspose_smul, Matrix.conjTranspose_add, dg_conj, an_conj]; rfl
  ext a b
  rw [Q_mul, hc]
  simp only [Matrix.smul_apply, Matrix.add_apply, dg, an, smul_eq_mul]
  have ha := rev_sub a
  have haa := a.isLt
  have hp := iPow_sq l
  generalize (starRingEnd ℂ) ((-Complex.I) ^ l) = P' at *
  generalize (-Complex.I) ^ l = P at *
  by_cases h1 : a = b
  · subst h1
    have hn := q_norm l a
    by_cases h2 : a.val = l
    · have h3 : a.rev = a := by ext; omega
      have hw : qw l a = 0 := by unfold qw; simp [h2]
      rw [h3]
      simp only [if_true, Matrix.one_apply_eq]
      rw [if_pos (by omega), show 2 * l - a.val = a.val by omega]
      simp only [hw, zero_mul, add_zero, map_zero, mul_zero] at *
      linear_combination P * P' * hn + hp
    · have h3 : a.rev ≠ a := by intro h; have := congrArg Fin.val h; omega
      simp only [if_neg (show ¬ a.val + a.val = 2 * l by omega), if_neg h3, if_true, ha,
        if_pos (show a.val + (2 * l - a.val) = 2 * l by omega),
        show 2 * l - (2 * l - a.val) = a.val by omega, Matrix.one_apply_eq]
      linear_combination P * P' * hn + hp
  · by_cases h2 : b.val + a.val = 2 * l
    · have h3 : a.rev = b := by ext; omega
      rw [h3, if_neg h1, if_pos h2, if_pos rfl, if_neg (by omega), Matrix.one_apply_ne h1]
      have := q_cross (l := l) (r := a.val) (by omega)
      have hb : b.val = 2 * l - a.val := by omega
      rw [hb]
      linear_combination P * P' * this
    · have h3 : a.rev ≠ b := by intro h; have := congrArg Fin.val h; omega
      rw [if_neg h1, if_neg h2, if_neg h3, if_neg (by omega), Matrix.one_apply_ne h1]
      ring

theorem Q_conj_mul (l : ℕ) : (changeBasis l)ᴴ * changeBasis l = 1 := mul_eq_one_comm.mp (Q_mul_conj l)

/-- `S_r = (-1)^r` on the antidiagonal. -/
noncomputable def sMat (l : ℕ) : Matrix (Fin (2 * l + 1)) (Fin (2 * l + 1)) ℂ := an (2 * l) fun r => (-1) ^ r

theorem sMat_sq (l : ℕ) : sMat l * sMat l = 1 := by
  ext a b
  unfold sMat
  rw [an_mul]
  simp only [an, rev_sub]
  have haa := a.isLt
  have hbb := b.isLt
  by_cases h : a = b
  · subst h
    rw [if_pos (by omega), ← pow_add, Matrix.one_apply_eq]
    rw [show a.val + (2 * l - a.val) = 2 * l by omega, pow_mul]; simp
  · rw [if_neg (by omega), Matrix.one_apply_ne h, mul_zero]

theorem sMat_conj (l : ℕ) : (sMat l)ᴴ = sMat l := by
  unfold sMat
  rw [an_conj]
  ext a b
  simp only [an]
  split
  · rw [map_pow]
    have haa := a.isLt
    have : (-1 : ℂ) ^ (2 * l - a.val) * ((-1) ^ a.val * (-1) ^ a.val) = (-1) ^ a.val := by
      rw [← mul_assoc, ← pow_add, show 2 * l - a.val + a.val = 2 * l by omega, pow_mul]; simp
    rw [negpow_sq, mul_one] at this
    simpa using this
  · rfl

theorem q_conj_u {l r : ℕ} (h : r ≤ 2 * l) (hl : r ≠ l) : (-1) ^ l * (starRingEnd ℂ) (qu l r) = (-1) ^ r * qw l (2 * l - r) := by
  unfold qu qw
  rcases lt_trichotomy r l with hr | hr | hr
  · rw [if_pos hr, if_neg (by omega), if_neg (by omega)]
    simp only [map_div₀, map_neg, Complex.conj_I, Complex.conj_ofReal]
    have : (-1 : ℂ) ^ l = (-1) ^ r * (-1) ^ (2 * l - r - l) := by rw [← pow_add]; congr 1; omega
    rw [this]; ring
  · exact absurd hr hl
  · rw [if_neg (by omega), if_neg (by omega), if_pos (by omega)]
    simp only [map_div₀, map_neg, Complex.conj_ofReal, map_pow, map_one]
    have : (-1 : ℂ) ^ r = (-1) ^ l * (-1) ^ (r - l) := by rw [← pow_add]; congr 1; omega
    rw [this]; ring

theorem q_conj_w {l r : ℕ} (h : r ≤ 2 * l) (hl : r ≠ l) : (-1) ^ l * (starRingEnd ℂ) (qw l r) = (-1) ^ r * qu l (2 * l - r) := by
  unfold qu qw
  rcases lt_trichotomy r l with hr | hr | hr
  · rw [if_pos hr, if_neg (by omega), if_neg (by omega)]
    simp only [map_div₀, map_one, Complex.conj_ofReal]
    have : (-1 : ℂ) ^ l = (-1) ^ r * (-1) ^ (2 * l - r - l) := by rw [← pow_add]; congr 1; omega
    rw [this]; ring
  · exact absurd hr hl
  · rw [if_neg (by omega), if_neg (by omega), if_pos (by omega)]
    simp only [map_div₀, map_neg, Complex.conj_ofReal, map_pow, map_one, map_mul, Complex.conj_I]
    have : (-1 : ℂ) ^ r = (-1) ^ l * (-1) ^ (r - l) := by rw [← pow_add]; congr 1; omega
    rw [this]; ring

/-- The complex conjugate of the change of basis. -/
theorem Q_conj (l : ℕ) : (changeBasis l).map (starRingEnd ℂ) = sMat l * changeBasis l := by
  ext a b
  unfold sMat
  rw [an_mul, Matrix.map_apply, changeBasis_eq]
  simp only [Matrix.smul_apply, Matrix.add_apply, smul_eq_mul, map_mul, map_add, iPow_conj, dg, an, rev_sub]
  have haa := a.isLt
  have hbb := b.isLt
  have e : (a.rev = b) ↔ b.val + a.val = 2 * l := by
    constructor
    · intro h; rw [← h, rev_sub]; omega
    · intro h; ext; rw [rev_sub]; omega
  have e2 : (b.val + (2 * l - a.val) = 2 * l) ↔ a = b := by
    constructor
    · intro h; ext; omega
    · intro h; subst h; omega
  simp only [e, e2]
  by_cases hl : a.val = l
  · have hu : qu l a = 1 := by unfold qu; simp [hl]
    have hw : qw l a = 0 := by unfold qw; simp [hl]
    rw [show 2 * l - a.val = a.val by omega, hu, hw, hl]
    have e3 : (b.val + l = 2 * l) ↔ a = b := by
      constructor
      · intro h; ext; omega
      · intro h; subst h; omega
    simp only [e3]
    split <;> simp <;> ring
  · have h1 := q_conj_u (l := l) (r := a.val) (by omega) hl
    have h2 := q_conj_w (l := l) (r := a.val) (by omega) hl
    by_cases h3 : a = b
    · rw [if_pos h3, if_pos h3, if_neg (by subst h3; omega), if_neg (by subst h3; omega)]
      simp only [map_zero, add_zero, zero_add]
      linear_combination (-Complex.I) ^ l * h1
    · rw [if_neg h3, if_neg h3]
      split
      · simp only [map_zero, add_zero, zero_add]
        linear_combination (-Complex.I) ^ l * h2
      · simp

theorem up_dn_s (l : ℕ) (c : ℂ) : (up (2 * l) (fun b => c * rc (2 * l) b)) * sMat l = -(sMat l * dn (2 * l) fun b => c * rc (2 * l) b) := by
  ext a b
  unfold sMat
  rw [Matrix.neg_apply, mul_an, an_mul]
  simp only [up, dn, rev_sub]
  have haa := a.isLt
  have hbb := b.isLt
  by_cases h : a.val = 2 * l - b.val + 1
  · rw [if_pos h, if_pos (by omega)]
    have h1 : rc (2 * l) (2 * l - b.val) = rc (2 * l) (2 * l - a.val) := by
      have := rc_rev (n := 2 * l) (b := 2 * l - a.val) (by omega)
      rw [← this]; congr 1; omega
    rw [h1, h, pow_succ]; ring
  · rw [if_neg h, if_neg (by omega)]; simp

theorem dn_up_s (l : ℕ) (c : ℂ) : (dn (2 * l) (fun b => c * rc (2 * l) b)) * sMat l = -(sMat l * up (2 * l) fun b => c * rc (2 * l) b) := by
  have h := up_dn_s l c
  have h2 := sMat_sq l
  generalize dn (2 * l) (fun b => c * rc (2 * l) b) = D at *
  generalize up (2 * l) (fun b => c * rc (2 * l) b) = U at *
  have h3 : sMat l * (U * sMat l) = -D := by
    rw [h, Matrix.mul_neg, ← Matrix.mul_assoc, h2, Matrix.one_mul]
  have h4 : D = -(sMat l * (U * sMat l)) := by rw [h3, neg_neg]
  rw [h4, Matrix.neg_mul, Matrix.mul_assoc, Matrix.mul_assoc, h2, Matrix.mul_one]

theorem gen_conj_s (l : ℕ) (i : Fin 3) :
    (generators (2 * l) i).map (starRingEnd ℂ) * sMat l = sMat l * generators (2 * l) i := by
  have hup : ∀ c : ℂ, (up (2 * l) (fun b => c * rc (2 * l) b)).map (starRingEnd ℂ) =
      up (2 * l) (fun b => (starRingEnd ℂ) c * rc (2 * l) b) := by
    intro c; ext a b; simp only [Matrix.map_apply, up]; split <;> simp [rc_conj]
  have hdn : ∀ c : ℂ, (dn (2 * l) (fun b => c * rc (2 * l) b)).map (starRingEnd ℂ) =
      dn (2 * l) (fun b => (starRingEnd ℂ) c * rc (2 * l) b) := by
    intro c; ext a b; simp only [Matrix.map_apply, dn]; split <;> simp [rc_conj]
  have g0 : generators (2 * l) 0 = up (2 * l) (fun b => (-(1 / 2)) * rc (2 * l) b) + dn (2 * l) (fun b => (1 / 2) * rc (2 * l) b) := by
    rw [gen_zero]; ext a b; simp only [Matrix.smul_apply, Matrix.add_apply, up, dn]; split <;> split <;> simp <;> ring
  have g2 : generators (2 * l) 2 = up (2 * l) (fun b => (1 / 2 * Complex.I) * rc (2 * l) b) + dn (2 * l) (fun b => (1 / 2 * Complex.I) * rc (2 * l) b) := by
    rw [gen_two]; ext a b; simp only [Matrix.smul_apply, Matrix.sub_apply, Matrix.add_apply, up, dn]; split <;> split <;> simp <;> ring
  have hneg_up : ∀ c : ℂ, up (2 * l) (fun b => -c * rc (2 * l) b) = - up (2 * l) (fun b => c * rc (2 * l) b) := by
    intro c; ext a b; simp only [up, Matrix.neg_apply]; split <;> simp
  have hneg_dn : ∀ c : ℂ, dn (2 * l) (fun b => -c * rc (2 * l) b) = - dn (2 * l) (fun b => c * rc (2 * l) b) := by
    intro c; ext a b; simp only [dn, Matrix.neg_apply]; split <;> simp
  fin_cases i
  · show (generators (2 * l) 0).map (starRingEnd ℂ) * sMat l = sMat l * generators (2 * l) 0
    rw [g0, Matrix.map_add _ (map_add _), hup, hdn, Matrix.add_mul, up_dn_s, dn_up_s, Matrix.mul_add]
    have h1 : (starRingEnd ℂ) (-(1 / 2)) = -(1 / 2 : ℂ) := by simp [map_ofNat]
    have h2 : (starRingEnd ℂ) (1 / 2) = (1 / 2 : ℂ) := by simp [map_ofNat]
    rw [h1, h2, hneg_up, hneg_dn, Matrix.mul_neg, Matrix.mul_neg]
    abel
  · show (generators (2 * l) 1).map (starRingEnd ℂ) * sMat l = sMat l * generators (2 * l) 1
    rw [gen_one]
    ext a b
    unfold sMat
    rw [mul_an, an_mul, Matrix.map_apply]
    simp only [dg, im]
    have haa := a.isLt
    have hbb := b.isLt
    by_cases h : a = b.rev
    · have h' : a.rev = b := by rw [h]; simp
      rw [if_pos h, if_pos h', rev_sub, h, rev_sub]
      have e : ((2 * l - (2 * l - b.val) : ℕ) : ℂ) = b.val := by congr 1; omega
      have e2 : ((2 * l - b.val : ℕ) : ℂ) = 2 * l - b.val := by
        rw [Nat.cast_sub (by omega)]; push_cast; ring
      rw [e, e2]
      simp [map_ofNat]
      ring
    · have h' : ¬ a.rev = b := by intro h2; exact h (by rw [← h2]; simp)
      rw [if_neg h, if_neg h']; simp
  · show (generators (2 * l) 2).map (starRingEnd ℂ) * sMat l = sMat l * generators (2 * l) 2
    rw [g2, Matrix.map_add _ (map_add _), hup, hdn, Matrix.add_mul, up_dn_s, dn_up_s, Matrix.mul_add]
    have h1 : (starRingEnd ℂ) (1 / 2 * Complex.I) = -(1 / 2 * Complex.I : ℂ) := by simp [map_ofNat]
    rw [h1, hneg_up, hneg_dn, Matrix.mul_neg, Matrix.mul_neg]
    abel

theorem conj_conjTranspose {n m : Type*} (M : Matrix n m ℂ) :
    (Mᴴ).map (starRingEnd ℂ) = (M.map (starRingEnd ℂ))ᴴ := by
  ext a b; simp

theorem realBasis_real (l : ℕ) (i : Fin 3) :
    (realBasis l (generators (2 * l) i)).map (starRingEnd ℂ) = realBasis l (generators (2 * l) i) := by
  unfold realBasis
  rw [Matrix.map_mul, Matrix.map_mul, conj_conjTranspose, Q_conj, Matrix.conjTranspose_mul, sMat_conj]
  have := gen_conj_s l i
  calc _ = (changeBasis l)ᴴ * sMat l * ((generators (2 * l) i).map (starRingEnd ℂ) * sMat l) * changeBasis l := by
        simp only [Matrix.mul_assoc]
    _ = (changeBasis l)ᴴ * (sMat l * sMat l) * generators (2 * l) i * changeBasis l := by
        rw [this]; simp only [Matrix.mul_assoc]
    _ = _ := by rw [sMat_sq, Matrix.mul_one]

theorem so3_ofReal (l : ℕ) (i : Fin 3) :
    (so3Generators l i).map ((↑) : ℝ → ℂ) = realBasis l (generators (2 * l) i) := by
  ext a b
  have := congrFun (congrFun (realBasis_real l i) a) b
  simp only [so3Generators, Matrix.map_apply] at *
  exact Complex.conj_eq_iff_re.mp this

theorem ofReal_inj {n m : Type*} {M N : Matrix n m ℝ} (h : M.map ((↑) : ℝ → ℂ) = N.map (↑)) : M = N := by
  ext a b
  have := congrFun (congrFun h a) b
  simpa using this

theorem ofReal_mul {n : Type*} [Fintype n] (M N : Matrix n n ℝ) :
    (M * N).map ((↑) : ℝ → ℂ) = M.map (↑) * N.map (↑) := Matrix.map_mul (f := Complex.ofRealHom)

theorem realBasis_mul (l : ℕ) (X Y : Matrix (Fin (2 * l + 1)) (Fin (2 * l + 1)) ℂ) :
    realBasis l X * realBasis l Y = realBasis l (X * Y) := by
  unfold realBasis
  calc _ = (changeBasis l)ᴴ * X * (changeBasis l * (changeBasis l)ᴴ) * Y * changeBasis l := by simp only [Matrix.mul_assoc]
    _ = _ := by rw [Q_mul_conj, Matrix.mul_one]; simp only [Matrix.mul_assoc]

theorem realBasis_sub (l : ℕ) (X Y : Matrix (Fin (2 * l + 1)) (Fin (2 * l + 1)) ℂ) :
    realBasis l X - realBasis l Y = realBasis l (X - Y) := by
  simp only [realBasis, Matrix.mul_sub, Matrix.sub_mul]

theorem realBasis_add (l : ℕ) (X Y : Matrix (Fin (2 * l + 1)) (Fin (2 * l + 1)) ℂ) :
    realBasis l X + realBasis l Y = realBasis l (X + Y) := by
  simp only [realBasis, Matrix.mul_add, Matrix.add_mul]

theorem so3_comm (l : ℕ) {i j k : Fin 3}
    (h : generators (2 * l) i * generators (2 * l) j - generators (2 * l) j * generators (2 * l) i = generators (2 * l) k) :
    so3Generators l i * so3Generators l j - so3Generators l j * so3Generators l i = so3Generators l k := by
  apply ofReal_inj
  rw [Matrix.map_sub _ Complex.ofReal_sub, ofReal_mul, ofReal_mul, so3_ofReal, so3_ofReal, so3_ofReal, realBasis_mul,
    realBasis_mul, realBasis_sub, h]

theorem so3_antisymm (l : ℕ) (i : Fin 3) : (so3Generators l i)ᵀ = -so3Generators l i := by
  have h : (realBasis l (generators (2 * l) i))ᴴ = -realBasis l (generators (2 * l) i) := by
    unfold realBasis
    simp only [Matrix.conjTranspose_mul, Matrix.conjTranspose_conjTranspose, gen_antiHermitian, Matrix.mul_neg,
      Matrix.neg_mul, Matrix.mul_assoc]
  ext a b
  have := congrArg Complex.re (congrFun (congrFun h a) b)
  simpa [so3Generators] using this

theorem so3_casimir (l : ℕ) : so3Generators l 0 * so3Generators l 0 + so3Generators l 1 * so3Generators l 1 +
    so3Generators l 2 * so3Generators l 2 = (-((l : ℝ) * (l + 1))) • (1 : Matrix (Fin (2 * l + 1)) (Fin (2 * l + 1)) ℝ) := by
  apply ofReal_inj
  rw [Matrix.map_add _ Complex.ofReal_add, Matrix.map_add _ Complex.ofReal_add]
  simp only [ofReal_mul, so3_ofReal, realBasis_mul, realBasis_add, casimir]
  have : realBasis l ((-(((2 * l : ℕ) : ℂ) / 2 * ((2 * l : ℕ) / 2 + 1))) • 1) = (-((l : ℂ) * (l + 1))) • 1 := by
    unfold realBasis
    rw [Matrix.mul_smul, Matrix.mul_one, Matrix.smul_mul, Q_conj_mul]
    push_cast
    congr 2
    ring
  rw [this]
  ext a b
  by_cases h : a = b
  · subst h; simp
  · simp [h]

/-- Irreducibility over the reals (and of the complexification). -/
theorem so3_commutant (l : ℕ) (T : Matrix (Fin (2 * l + 1)) (Fin (2 * l + 1)) ℝ)
    (h : ∀ i, T * so3Generators l i = so3Generators l i * T) : ∃ c : ℝ, T = c • 1 := by
  let T' := changeBasis l * T.map ((↑) : ℝ → ℂ) * (changeBasis l)ᴴ
  have hT : ∀ i, T' * generators (2 * l) i = generators (2 * l) i * T' := by
    intro i
    have h1 := congrArg (fun M => M.map ((↑) : ℝ → ℂ)) (h i)
    simp only [ofReal_mul, so3_ofReal] at h1
    unfold realBasis at h1
    have h2 := Q_mul_conj l
    show changeBasis l * T.map (↑) * (changeBasis l)ᴴ * generators (2 * l) i = _
    calc _ = changeBasis l * (T.map (↑) * ((changeBasis l)ᴴ * generators (2 * l) i * changeBasis l)) * (changeBasis l)ᴴ := by
          simp only [Matrix.mul_assoc, h2, Matrix.mul_one]
      _ = (changeBasis l * (changeBasis l)ᴴ) * generators (2 * l) i * (changeBasis l * T.map (↑) * (changeBasis l)ᴴ) := by
          rw [h1]; simp only [Matrix.mul_assoc]
      _ = _ := by rw [h2, Matrix.one_mul]
  obtain ⟨c, hc⟩ := gen_commutant (2 * l) T' hT
  have h3 : T.map ((↑) : ℝ → ℂ) = c • 1 := by
    calc T.map ((↑) : ℝ → ℂ) = ((changeBasis l)ᴴ * changeBasis l) * T.map (↑) * ((changeBasis l)ᴴ * changeBasis l) := by
          rw [Q_conj_mul, Matrix.one_mul, Matrix.mul_one]
      _ = (changeBasis l)ᴴ * T' * changeBasis l := by simp only [T', Matrix.mul_assoc]
      _ = c • 1 := by rw [hc, Matrix.mul_smul, Matrix.mul_one, Matrix.smul_mul, Q_conj_mul]
  refine ⟨c.re, ?_⟩
  ext a b
  have := congrArg Complex.re (congrFun (congrFun h3 a) b)
  by_cases hab : a = b
  · subst hab; simpa using this
  · simpa [hab] using this

/-- The generator of rotations around `y`. -/
theorem so3_gen_one (l : ℕ) (a b : Fin (2 * l + 1)) :
    so3Generators l 1 a b = if b.val + a.val = 2 * l then (l : ℝ) - a.val else 0 := by
  have haa := a.isLt
  have hbb := b.isLt
  have h : realBasis l (generators (2 * l) 1) a b = ((if b.val + a.val = 2 * l then (l : ℝ) - a.val else 0 : ℝ) : ℂ) := by
    unfold realBasis
    rw [mul_Q, gen_one, mul_dg, mul_dg]
    have hc : (changeBasis l)ᴴ = (starRingEnd ℂ) ((-Complex.I) ^ l) •
        (dg (2 * l) (fun b => (starRingEnd ℂ) (qu l b)) + an (2 * l) fun b => (starRingEnd ℂ) (qw l (2 * l - b))) := by
      rw [changeBasis_eq, Matrix.conjTranspose_smul, Matrix.conjTranspose_add, dg_conj, an_conj]; rfl
    rw [hc]
    have hp := iPow_sq l
    simp only [Matrix.smul_apply, Matrix.add_apply, smul_eq_mul, dg, an]
    generalize (starRingEnd ℂ) ((-Complex.I) ^ l) = P' at *
    generalize (-Complex.I) ^ l = P at *
    have h2 := sqrt2_sq
    have h0 := sqrt2_ne
    have hI : Complex.I * Complex.I = -1 := Complex.I_mul_I
    have hrev := rev_sub b
    have e1 : (b.rev.val + a.val = 2 * l) ↔ a = b := by
      constructor
      · intro h; ext; omega
      · intro h; subst h; omega
    have e2 : a = b.rev ↔ (b.val + a.val = 2 * l) := by
      constructor
      · intro h; subst h; omega
      · intro h; ext; omega
    simp only [e1, e2, hrev]
    have him : im (2 * l) b = -im (2 * l) (2 * l - b.val) := by
      unfold im
      rw [Nat.cast_sub (by omega)]
      push_cast
      ring
    have him2 : im (2 * l) (2 * l - b.val) = Complex.I * (l - b.val) := by
      unfold im
      rw [Nat.cast_sub (by omega)]
      push_cast
      ring
    rw [him, him2]
    by_cases h1 : a = b
    · subst h1
      by_cases h3 : a.val = l
      · have : (l : ℂ) - (a.val : ℂ) = 0 := by rw [h3]; simp
        have : (l : ℝ) - (a.val : ℝ) = 0 := by rw [h3]; simp
        simp [*]
      · simp only [if_true, if_neg (show ¬ a.val + a.val = 2 * l by omega),
          if_pos (show 2 * l - a.val + a.val = 2 * l by omega)]
        have h4 : (starRingEnd ℂ) (qu l a) * qu l a = (starRingEnd ℂ) (qw l (2 * l - a)) * qw l (2 * l - a) := by
          unfold qu qw
          rcases lt_trichotomy a.val l with hr | hr | hr
          · rw [if_pos hr, if_neg (by omega), if_neg (by omega)]
            simp only [map_div₀, map_neg, Complex.conj_I, Complex.conj_ofReal, map_one, map_pow, map_mul]
            have := negpow_sq (2 * l - a.val - l)
            field_simp
            grind
          · exact absurd hr h3
          · rw [if_neg (by omega), if_neg (by omega), if_pos (by omega)]
            simp only [map_div₀, map_neg, Complex.conj_I, Complex.conj_ofReal, map_one, map_pow, map_mul]
            have := negpow_sq (a.val - l)
            field_simp
            grind
        push_cast
        linear_combination (-P * P' * Complex.I * (l - a.val)) * h4
    · have h1' : ¬ (2 * l - b.val + a.val = 2 * l) := fun h => h1 (by ext; omega)
      simp only [if_neg h1, if_neg h1']
      by_cases h3 : b.val + a.val = 2 * l
      · simp only [if_pos h3]
        have ea : a.val = 2 * l - b.val := by omega
        have ea2 : 2 * l - a.val = b.val := by omega
        have eb : (a.val : ℂ) = 2 * l - b.val := by rw [ea, Nat.cast_sub (by omega)]; push_cast; ring
        rw [ea2]
        push_cast
        rw [eb, ea]
        have key : (starRingEnd ℂ) (qw l b.val) * qu l b.val = Complex.I / 2 * (if b.val < l then -1 else -1) ∧
            (starRingEnd ℂ) (qu l (2 * l - b.val)) * qw l (2 * l - b.val) = Complex.I / 2 := by
          have hbl : b.val ≠ l := fun h => h1 (by ext; omega)
          unfold qu qw
          rcases lt_trichotomy b.val l with hr | hr | hr
          · rw [if_pos hr, if_pos hr, if_pos hr, if_neg (by omega), if_neg (by omega), if_neg (by omega), if_neg (by omega)]
            simp only [map_div₀, map_neg, Complex.conj_I, Complex.conj_ofReal, map_one, map_pow, map_mul]
            have := negpow_sq (2 * l - b.val - l)
            constructor
            · field_simp
              grind
            · field_simp
              grind
          · exact absurd hr hbl
          · rw [if_neg (by omega), if_neg (by omega), if_neg (by omega), if_neg (by omega), if_neg (by omega),
              if_pos (by omega), if_pos (by omega)]
            simp only [map_div₀, map_neg, Complex.conj_I, Complex.conj_ofReal, map_one, map_pow, map_mul]
            have := negpow_sq (b.val - l)
            constructor
            · field_simp
              grind
            · field_simp
              grind
        obtain ⟨k1, k2⟩ := key
        simp only [ite_self] at k1
        linear_combination (-P * P' * Complex.I * (l - b.val)) * k1 + (P * P' * Complex.I * (l - b.val)) * k2 +
          (l - b.val) * P * P' * hI - (l - b.val) * hp
      · simp [if_neg h3]
  unfold so3Generators
  rw [Matrix.map_apply, h, Complex.ofReal_re]

end E3nn.SU2
