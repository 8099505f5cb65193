import Verif.Lemmas.SO3Int

/-!
# C82: signals on the rotations

The values are real numbers.  `lg` is `np.polynomial.legendre.leggauss`.
-/

namespace E3nn.SO3

open E3nn.SU2 E3nn.Rot E3nn.SH E3nn.Wig E3nn.S2 MeasureTheory
open scoped Matrix

variable {ι : Type}

/-- The rotation of a point of the grid. -/
noncomputable def gridRot (y : ℝ) (ra rt a t : ℕ) : Rotn := ⟨axisAngleToMatrix (gridVector y (gridAlpha ra a)) (gridTheta rt t), axisAngleToMatrix_rot _ _⟩

/-- The number computed by `integrate()`. -/
noncomputable def quadSum {rb : ℕ} (y w : Fin rb → ℝ) (ra rt : ℕ) (f : Rotn → ℝ) : ℝ :=
  (∑ a : Fin ra, ∑ b, w b * ((∑ t : Fin rt, f (gridRot (y b) ra rt a t) * (1 - Real.cos (gridTheta rt t))) * deltaTheta rt)) / ra * 4 * Real.pi / (8 * Real.pi ^ 2)

theorem quadSum_add {rb : ℕ} (y w : Fin rb → ℝ) (ra rt : ℕ) (f g : Rotn → ℝ) : quadSum y w ra rt (f + g) = quadSum y w ra rt f + quadSum y w ra rt g := by
  unfold quadSum
  simp only [Pi.add_apply, add_mul, Finset.sum_add_distrib, mul_add, add_div]

theorem quadSum_smul {rb : ℕ} (y w : Fin rb → ℝ) (ra rt : ℕ) (c : ℝ) (f : Rotn → ℝ) : quadSum y w ra rt (c • f) = c * quadSum y w ra rt f := by
  unfold quadSum
  simp only [Pi.smul_apply, smul_eq_mul, mul_assoc, ← Finset.mul_sum]
  simp only [mul_left_comm _ c, ← Finset.mul_sum, mul_div_assoc, mul_assoc]

theorem quadSum_zero {rb : ℕ} (y w : Fin rb → ℝ) (ra rt : ℕ) : quadSum y w ra rt 0 = 0 := by
  simp [quadSum]

theorem swap_sums {rb ra rt : ℕ} (w : Fin rb → ℝ) (F : Fin ra → Fin rb → Fin rt → ℝ) (c : Fin rt → ℝ) (d : ℝ) :
    (∑ a, ∑ b, w b * ((∑ t, F a b t * c t) * d)) / (ra : ℝ) = (∑ t, ((∑ a, ∑ b, w b * F a b t) / (ra : ℝ)) * c t) * d := by
  have e1 : ∀ a, ∑ b, w b * ((∑ t, F a b t * c t) * d) = ∑ t, (∑ b, w b * F a b t) * c t * d := by
    intro a
    simp_rw [Finset.sum_mul, Finset.mul_sum]
    rw [Finset.sum_comm]
    exact Finset.sum_congr rfl fun t _ => Finset.sum_congr rfl fun b _ => by ring
  simp_rw [e1]
  rw [Finset.sum_comm, Finset.sum_div, Finset.sum_mul]
  refine Finset.sum_congr rfl fun t _ => ?_
  rw [← Finset.sum_mul, ← Finset.sum_mul]
  ring

theorem quadSum_entry {D rb ra rt : ℕ} {y w : Fin rb → ℝ} (h : Exact D y w) {l : ℕ} (hD : 2 * l ≤ D) (hra : 2 * l < ra) (hrt : l + 3 ≤ rt) (i j : Fin (2 * l + 1)) :
    quadSum y w ra rt (fun R => repD l R.1 i j) = if l = 0 then 1 else 0 := by
  have e : quadSum y w ra rt (fun R => repD l R.1 i j) =
      (∑ t : Fin rt, ((∑ a : Fin ra, ∑ b, w b * repD l (axisAngleToMatrix (gridVector (y b) (gridAlpha ra a)) (gridTheta rt t)) i j) / ra) * (1 - Real.cos (gridTheta rt t))) * deltaTheta rt / (2 * Real.pi) := by
    unfold quadSum gridRot
    have hpi := Real.pi_ne_zero
    have : ∀ u : ℝ, u * 4 * Real.pi / (8 * Real.pi ^ 2) = u / (2 * Real.pi) := by intro u; field_simp; ring
    rw [this]
    congr 1
    exact swap_sums _ _ _ _
  rw [e]
  simp_rw [avg_entry h hD hra]
  by_cases hij : i = j
  · simp_rw [if_pos hij, div_mul_eq_mul_div]
    rw [← Finset.sum_div, div_mul_eq_mul_div, theta_sum hrt]
    by_cases hl : l = 0
    · subst hl; simp [Real.pi_ne_zero]
    · simp [hl]
  · have hl : l ≠ 0 := by
      rintro rfl
      have := i.isLt
      have := j.isLt
      exact hij (Fin.ext (by omega))
    simp [hij, hl]


theorem quadSum_band {D rb ra rt L : ℕ} {y w : Fin rb → ℝ} (h : Exact D y w) (hD : 2 * L ≤ D) (hra : 2 * L < ra) (hrt : L + 3 ≤ rt)
    {μ : Measure (Fin 3 → Fin 3 → ℝ)} (hμ : IsHaar μ) {f : Rotn → ℝ} (hf : f ∈ Band L) : ∃ p, polyFun p = f ∧ quadSum y w ra rt f = ∫ R, polyAt p R ∂μ := by
  unfold Band at hf
  induction hf using Submodule.span_induction with
  | mem f hf =>
    obtain ⟨l, hl, i, j, rfl⟩ := hf
    obtain ⟨p, hp⟩ := entry_poly l i j
    exact ⟨p, hp, by rw [quadSum_entry h (by omega) (by omega) (by omega), hμ.entry l i j hp]⟩
  | zero => exact ⟨0, by funext R; simp [polyFun, polyAt], by simp [quadSum_zero, polyAt]⟩
  | add f g _ _ hf hg =>
    obtain ⟨p, rfl, hp⟩ := hf
    obtain ⟨q, rfl, hq⟩ := hg
    refine ⟨p + q, by funext R; simp [polyFun, polyAt], ?_⟩
    rw [quadSum_add, hp, hq, ← integral_add (hμ.integrable p) (hμ.integrable q)]
    simp [polyAt]
  | smul c f _ hf =>
    obtain ⟨p, rfl, hp⟩ := hf
    refine ⟨MvPolynomial.C c * p, by funext R; simp [polyFun, polyAt], ?_⟩
    rw [quadSum_smul, hp, ← integral_const_mul]
    simp [polyAt]

theorem integrate_fromFunction {lg : LegGauss} (f : Mat → ι → ℝ) {rb : ℕ} (ra rt : ℕ) {q : Quad} {y w : Fin rb → ℝ} (hq : quadratureWeights lg q rb = .ok (y, w)) :
    ∃ x, fromFunction lg f rb ra rt q = .ok x ∧ integrate lg x = .ok fun i => quadSum y w ra rt fun R => f R.1 i := by
  refine ⟨_, by unfold fromFunction; rw [hq]; rfl, ?_⟩
  unfold integrate S2.integrate integrateOverAngles
  simp only
  rw [hq]
  rfl

/-- **C82 (the uniform distribution).** There is a uniform distribution of rotations. -/
theorem C82_haar : ∃ μ, IsHaar μ := ⟨haar, haar_isHaar⟩

/-- **C82 (integrals).** `SO3Signal.from_function(f, ...).integrate()` is exactly the mean of `f` over the uniform distribution of rotations, for every `f` which is a polynomial of degree at most
`L` in the entries of the rotation matrix, when the quadrature over the axes is exact up to degree `2 L`, `2 L < res_alpha` and `L + 3 ≤ res_theta`. -/
theorem C82_integrate {lg : LegGauss} (hlg : GaussLegendre lg) {L : ℕ} (p : ι → MvPolynomial (Fin 3 × Fin 3) ℝ) (hp : ∀ i, (p i).totalDegree ≤ L)
    {rb ra rt : ℕ} (hrb : 0 < rb) {q : Quad} {y w : Fin rb → ℝ} (hq : quadratureWeights lg q rb = .ok (y, w)) (hD : 2 * L ≤ gridDegree q rb) (hra : 2 * L < ra) (hrt : L + 3 ≤ rt)
    {μ : Measure (Fin 3 → Fin 3 → ℝ)} (hμ : IsHaar μ) :
    ∃ x, fromFunction lg (fun R i => polyAt (p i) R) rb ra rt q = .ok x ∧ integrate lg x = .ok fun i => ∫ R, polyAt (p i) R ∂μ := by
  obtain ⟨x, h1, h2⟩ := integrate_fromFunction (lg := lg) (fun R i => polyAt (p i) R) ra rt hq
  refine ⟨x, h1, ?_⟩
  rw [h2]
  congr 1
  funext i
  obtain ⟨p', hp', h3⟩ := quadSum_band (exact_of_grid hlg hrb hq) hD hra hrt hμ (poly_band (hp i))
  rw [← hμ.congr hp']
  exact h3

/-- **C82 (Wigner matrices).** The discrete inner product of two entries of the matrices of the irreps (`Irrep.D_from_matrix`, on rotations): different degrees and different entries are
orthogonal and the square of an entry integrates to `1 / (2 l + 1)`. -/
theorem C82_orthogonal {lg : LegGauss} (hlg : GaussLegendre lg) (r s : Irrep) (i j : Fin (2 * r.l + 1)) (i' j' : Fin (2 * s.l + 1))
    {rb ra rt : ℕ} (hrb : 0 < rb) {q : Quad} {y w : Fin rb → ℝ} (hq : quadratureWeights lg q rb = .ok (y, w)) (hD : 2 * (r.l + s.l) ≤ gridDegree q rb) (hra : 2 * (r.l + s.l) < ra) (hrt : r.l + s.l + 3 ≤ rt) :
    ∃ x, fromFunction lg (fun R (_ : Unit) => dMatrix r R i j * dMatrix s R i' j') rb ra rt q = .ok x ∧
      integrate lg x = .ok fun _ => if r.l = s.l ∧ i.val = i'.val ∧ j.val = j'.val then 1 / (2 * (r.l : ℝ) + 1) else 0 := by
  obtain ⟨x, h1, h2⟩ := integrate_fromFunction (lg := lg) (fun R (_ : Unit) => dMatrix r R i j * dMatrix s R i' j') ra rt hq
  refine ⟨x, h1, ?_⟩
  rw [h2]
  congr 1
  funext _
  have e : (fun R : Rotn => dMatrix r R.1 i j * dMatrix s R.1 i' j') =
      ∑ k, ∑ c, ∑ c', (cgAll r.l s.l ⟨k, c⟩ (i, i') * cgAll r.l s.l ⟨k, c'⟩ (j, j')) • (fun R : Rotn => repD (deg r.l s.l k) R.1 c c') := by
    funext R
    simp only [Finset.sum_apply, Pi.smul_apply, smul_eq_mul]
    rw [dMatrix_rot r R.2, dMatrix_rot s R.2]
    exact repD_prod r.l s.l R.2 (j, j') (i, i')
  have hex := exact_of_grid hlg hrb hq
  let Q : (Rotn → ℝ) →ₗ[ℝ] ℝ := ⟨⟨quadSum y w ra rt, quadSum_add y w ra rt⟩, quadSum_smul y w ra rt⟩
  have hQ : ∀ k c c', Q (fun R : Rotn => repD (deg r.l s.l k) R.1 c c') = if deg r.l s.l k = 0 then 1 else 0 := by
    intro k c c'
    have hk := k.isLt
    have hdk : deg r.l s.l k ≤ r.l + s.l := by
      unfold deg
      omega
    exact quadSum_entry hex (by omega) (by omega) (by omega) c c'
  rw [e]
  change Q _ = _
  have e5 : Q (∑ k, ∑ c, ∑ c', (cgAll r.l s.l ⟨k, c⟩ (i, i') * cgAll r.l s.l ⟨k, c'⟩ (j, j')) • (fun R : Rotn => repD (deg r.l s.l k) R.1 c c')) =
      ∑ k, ∑ c, ∑ c', (cgAll r.l s.l ⟨k, c⟩ (i, i') * cgAll r.l s.l ⟨k, c'⟩ (j, j')) * (if deg r.l s.l k = 0 then 1 else 0) := by
    rw [map_sum]
    refine Finset.sum_congr rfl fun k _ => ?_
    rw [map_sum]
    refine Finset.sum_congr rfl fun c _ => ?_
    rw [map_sum]
    refine Finset.sum_congr rfl fun c' _ => ?_
    rw [map_smul, smul_eq_mul, hQ k c c']
  rw [e5]
  clear e5 e hQ
  obtain ⟨a, v⟩ := r
  obtain ⟨b, v'⟩ := s
  simp only at *
  by_cases hab : a = b
  · subst hab
    rw [Finset.sum_eq_single (0 : Fin (2 * min a a + 1))]
    · have hz : max a a - min a a + ((0 : Fin (2 * min a a + 1)).val) = 0 := by simp
      have hz' : deg a a 0 = 0 := hz
      have e3 : ∀ (i j) c, cgAll a a ⟨(0 : Fin (2 * min a a + 1)), c⟩ (i, j) = if i = j then 1 / Real.sqrt (2 * (a : ℝ) + 1) else 0 := fun i j c => cg_deg_zero a hz i j c
      have e4 : ∀ (d : ℕ) (u : ℝ), d = 0 → ∑ _c : Fin (2 * d + 1), ∑ _c' : Fin (2 * d + 1), u = u := by rintro d u rfl; simp
      refine Eq.trans (Finset.sum_congr rfl fun c _ => Finset.sum_congr rfl fun c' _ => ?_) (e4 _ _ hz)
      rw [e3, e3, if_pos hz', mul_one]
      have hs2 : Real.sqrt (2 * (a : ℝ) + 1) * Real.sqrt (2 * a + 1) = 2 * a + 1 := Real.mul_self_sqrt (by positivity)
      have hval : ∀ u u' : Fin (2 * a + 1), (u.val = u'.val) = (u = u') := fun u u' => propext Fin.ext_iff.symm
      simp only [hval, true_and]
      by_cases h1 : i = i' <;> by_cases h2 : j = j' <;> simp [h1, h2]
      rw [← mul_inv, hs2]
    · intro k _ hk
      refine Finset.sum_eq_zero fun c _ => Finset.sum_eq_zero fun c' _ => ?_
      rw [if_neg, mul_zero]
      intro h
      apply hk
      have h' : max a a - min a a + k.val = 0 := h
      exact Fin.ext (show k.val = 0 by omega)
    · simp
  · rw [if_neg (fun h => hab h.1)]
    refine Finset.sum_eq_zero fun k _ => Finset.sum_eq_zero fun c _ => Finset.sum_eq_zero fun c' _ => ?_
    rw [if_neg, mul_zero]
    intro h
    have h' : max a b - min a b + k.val = 0 := h
    omega

/-- **C82 (too few angles).** With one or two angles the integral is zero whatever the values. -/
theorem C82_degenerate {lg : LegGauss} (x : SO3Signal ι) (h : x.resTheta ≤ 2) (hq : ∃ g, quadratureWeights lg x.s2.quad x.s2.resBeta = .ok g) : integrate lg x = .ok fun _ => 0 := by
  obtain ⟨g, hg⟩ := hq
  have hz : ∀ t : Fin x.resTheta, 1 - Real.cos (gridTheta x.resTheta t) = 0 := by
    intro t
    have ht := t.isLt
    unfold gridTheta
    rcases Nat.eq_zero_or_pos t.val with e | e
    · simp [e]
    · have e1 : t.val = 1 := by omega
      have e2 : x.resTheta = 2 := by omega
      rw [e1, e2]
      norm_num
  unfold integrate S2.integrate integrateOverAngles
  simp only
  rw [hg]
  simp_rw [hz]
  simp only [mul_zero, Finset.sum_const_zero, zero_mul, zero_div]
  change Except.ok (fun i => (0 : ℝ) / (8 * Real.pi ^ 2)) = _
  simp


/-! ### Arithmetic -/

/-- **C82 (arithmetic).** Products, quotients, opposites and `apply` of signals made from functions on the same grid are the signals made from the products, ... of the functions. -/
theorem C82_arithmetic {lg : LegGauss} (f g : Mat → ι → ℝ) (c : ℝ) (F : ℝ → ℝ) (rb ra rt : ℕ) (q : Quad) {w : (Fin rb → ℝ) × (Fin rb → ℝ)} (hq : quadratureWeights lg q rb = .ok w) :
    ∃ x y, fromFunction lg f rb ra rt q = .ok x ∧ fromFunction lg g rb ra rt q = .ok y ∧
      mul x y = fromFunction lg (fun R i => f R i * g R i) rb ra rt q ∧
      div x y = fromFunction lg (fun R i => f R i / g R i) rb ra rt q ∧
      fromFunction lg (fun R i => f R i * c) rb ra rt q = .ok (mulNumber x c) ∧
      fromFunction lg (fun R i => f R i / c) rb ra rt q = .ok (divNumber x c) ∧
      fromFunction lg (fun R i => -f R i) rb ra rt q = .ok (neg x) ∧
      apply x F = fromFunction lg (fun R i => F (f R i)) rb ra rt q := by
  have h : ∀ f : Mat → ι → ℝ, fromFunction lg f rb ra rt q = .ok ⟨rt, rb, ra, fun b a i => f (axisAngleToMatrix (gridVector (w.1 b) (gridAlpha ra a)) (gridTheta rt i.2)) i.1, q, .e, .o⟩ := by
    intro f
    unfold fromFunction
    rw [hq]
    rfl
  refine ⟨_, _, h f, h g, ?_, ?_, ?_, ?_, ?_, ?_⟩
  · rw [h]
    unfold mul
    rw [dif_pos ⟨rfl, rfl, rfl⟩]
    unfold mulSignals castTheta
    simp only [ne_eq, not_true_eq_false, if_false]
    rw [dif_pos ⟨rfl, rfl⟩]
    rfl
  · rw [h]
    unfold div
    rw [dif_pos ⟨rfl, rfl, rfl⟩]
    rfl
  · rw [h]
    rfl
  · rw [h]
    unfold divNumber mulNumber S2.mulNumber S2.replaceValues
    simp only [mul_one_div]
  · rw [h]
    unfold neg mulNumber S2.mulNumber S2.replaceValues
    simp only [mul_neg, mul_one]
  · rw [h]
    unfold apply applySignal
    simp [Parity.toInt]
    rfl

/-- **C82 (refusals).** Signals on grids of different sizes are neither multiplied nor divided, signals with different quadratures are not multiplied.  (They are divided: the values are
divided entry by entry although they belong to different rotations.) -/
theorem C82_refuse (x y : SO3Signal ι) :
    (x.resTheta ≠ y.resTheta ∨ x.s2.resBeta ≠ y.s2.resBeta ∨ x.s2.resAlpha ≠ y.s2.resAlpha → mul x y = .error .valueError ∧ div x y = .error .valueError) ∧
    (x.s2.quad ≠ y.s2.quad ∨ x.s2.pArg ≠ y.s2.pArg → mul x y = .error .valueError) ∧
    (∀ z, div x y = .ok z → z.resTheta = x.resTheta ∧ z.s2.quad = x.s2.quad) := by
  refine ⟨fun h => ?_, fun h => ?_, fun z hz => ?_⟩
  · have : ¬ SameShape x y := by
      rintro ⟨h1, h2, h3⟩
      tauto
    unfold mul div
    exact ⟨dif_neg this, dif_neg this⟩
  · unfold mul
    split
    · rename_i hs
      unfold mulSignals castTheta
      simp only
      split
      · rfl
      · rename_i h1
        rw [dif_pos ⟨hs.2.1, hs.2.2⟩, if_pos]
        · rfl
        · tauto
    · rfl
  · unfold div at hz
    split at hz
    · cases hz
      exact ⟨rfl, rfl⟩
    · cases hz

/-! ### Greatest value -/

theorem argmaxList_spec : ∀ {l : List ℝ}, l ≠ [] → argmaxList l < l.length ∧ (∀ k < l.length, l.getD k 0 ≤ l.getD (argmaxList l) 0) ∧ ∀ k < argmaxList l, l.getD k 0 < l.getD (argmaxList l) 0
  | [], h => absurd rfl h
  | [x], _ => by simp [argmaxList]
  | x :: y :: l, _ => by
    obtain ⟨h1, h2, h3⟩ := argmaxList_spec (l := y :: l) (by simp)
    unfold argmaxList
    split
    · rename_i h
      refine ⟨by simp, fun k hk => ?_, fun k hk => absurd hk (by omega)⟩
      cases k with
      | zero => rfl
      | succ k => exact (h2 k (by simpa using hk)).trans (by simpa using h)
    · rename_i h
      push Not at h
      refine ⟨by simpa using h1, fun k hk => ?_, fun k hk => ?_⟩
      · cases k with
        | zero => simpa using h.le
        | succ k => simpa using h2 k (by simpa using hk)
      · cases k with
        | zero => simpa using h
        | succ k => simpa using h3 k (by omega)

theorem getD_map_finRange {α : Type} {n : ℕ} (f : Fin n → α) (k : Fin n) (d : α) : ((List.finRange n).map f).getD k.val d = f k := by
  rw [List.getD_eq_getElem?_getD, List.getElem?_map, List.getElem?_eq_getElem (by simp)]
  simp

theorem flatValues_length (x : SO3Signal ι) (i : ι) : (flatValues x i).length = x.resTheta * (x.s2.resBeta * x.s2.resAlpha) := by
  unfold flatValues
  simp [List.length_flatMap]

theorem flatValues_get (x : SO3Signal ι) (i : ι) (t : Fin x.resTheta) (b : Fin x.s2.resBeta) (a : Fin x.s2.resAlpha) :
    (flatValues x i).getD ((t.val * (x.s2.resBeta * x.s2.resAlpha)) + (b.val * x.s2.resAlpha + a.val)) 0 = x.s2.values b a (i, t) := by
  have hlt : b.val * x.s2.resAlpha + a.val < x.s2.resBeta * x.s2.resAlpha := by
    have : (b.val + 1) * x.s2.resAlpha ≤ x.s2.resBeta * x.s2.resAlpha := Nat.mul_le_mul_right _ b.isLt
    have := a.isLt
    nlinarith
  unfold flatValues
  rw [List.flatMap_def, FLin.flatten_getD _ (x.s2.resBeta * x.s2.resAlpha) (by simp [List.length_flatMap]) _ _ hlt, getD_map_finRange,
    List.flatMap_def, FLin.flatten_getD _ x.s2.resAlpha (by simp) _ _ a.isLt, getD_map_finRange, getD_map_finRange]

/-- **C82 (greatest value).** `argmax` returns the rotation and the indices of a grid point at which the signal is greatest, the first such point in the order of the angles, then of `beta`, then of `alpha`. -/
theorem C82_argmax {lg : LegGauss} (x : SO3Signal ι) (hx : 0 < x.resTheta ∧ 0 < x.s2.resBeta ∧ 0 < x.s2.resAlpha) {y w : Fin x.s2.resBeta → ℝ} (hq : quadratureWeights lg x.s2.quad x.s2.resBeta = .ok (y, w)) :
    ∃ R idx, argmax lg x = .ok (R, idx) ∧ ∀ i, ∃ (t : Fin x.resTheta) (b : Fin x.s2.resBeta) (a : Fin x.s2.resAlpha), idx i = (t.val, b.val, a.val) ∧ R i = axisAngleToMatrix (gridVector (y b) (gridAlpha x.s2.resAlpha a)) (gridTheta x.resTheta t) ∧
      ∀ t' b' a', x.s2.values b' a' (i, t') ≤ x.s2.values b a (i, t) ∧
        (t' < t ∨ t' = t ∧ (b' < b ∨ b' = b ∧ a' < a) → x.s2.values b' a' (i, t') < x.s2.values b a (i, t)) := by
  obtain ⟨h1, h2, h3⟩ := hx
  have hM : 0 < x.s2.resBeta * x.s2.resAlpha := Nat.mul_pos h2 h3
  have hN : x.resTheta * (x.s2.resBeta * x.s2.resAlpha) ≠ 0 := (Nat.mul_pos h1 hM).ne'
  refine ⟨_, _, by unfold argmax; rw [if_neg hN, hq]; rfl, fun i => ?_⟩
  have hl := flatValues_length x i
  obtain ⟨k1, k2, k3⟩ := argmaxList_spec (l := flatValues x i) (fun e => hN (by rw [← hl, e]; rfl))
  rw [hl] at k1 k2
  set k := argmaxList (flatValues x i) with hk
  have ht : k / (x.s2.resBeta * x.s2.resAlpha) < x.resTheta := Nat.div_lt_of_lt_mul (by rw [mul_comm]; exact k1)
  have hr := Nat.mod_lt k hM
  have hb : k % (x.s2.resBeta * x.s2.resAlpha) / x.s2.resAlpha < x.s2.resBeta := Nat.div_lt_of_lt_mul (by rw [mul_comm x.s2.resAlpha]; exact hr)
  have ha : k % (x.s2.resBeta * x.s2.resAlpha) % x.s2.resAlpha < x.s2.resAlpha := Nat.mod_lt _ h3
  have hkk : k / (x.s2.resBeta * x.s2.resAlpha) * (x.s2.resBeta * x.s2.resAlpha) + (k % (x.s2.resBeta * x.s2.resAlpha) / x.s2.resAlpha * x.s2.resAlpha + k % (x.s2.resBeta * x.s2.resAlpha) % x.s2.resAlpha) = k := by
    rw [Nat.div_add_mod', Nat.div_add_mod']
  have hv := flatValues_get x i ⟨_, ht⟩ ⟨_, hb⟩ ⟨_, ha⟩
  simp only [hkk] at hv
  refine ⟨⟨_, ht⟩, ⟨_, hb⟩, ⟨_, ha⟩, rfl, ?_, fun t' b' a' => ?_⟩
  · simp only [← hk, dif_pos hb]
  · rw [← hv, ← flatValues_get x i t' b' a']
    have hlt : b'.val * x.s2.resAlpha + a'.val < x.s2.resBeta * x.s2.resAlpha := by
      have h5 : (b'.val + 1) * x.s2.resAlpha ≤ x.s2.resBeta * x.s2.resAlpha := Nat.mul_le_mul_right _ b'.isLt
      have h6 := a'.isLt
      rw [Nat.succ_mul] at h5
      omega
    refine ⟨k2 _ ?_, fun hless => k3 _ ?_⟩
    · have h5 : (t'.val + 1) * (x.s2.resBeta * x.s2.resAlpha) ≤ x.resTheta * (x.s2.resBeta * x.s2.resAlpha) := Nat.mul_le_mul_right _ t'.isLt
      rw [Nat.succ_mul] at h5
      omega
    · conv_rhs => rw [← hkk]
      rcases hless with h5 | ⟨rfl, h5 | ⟨rfl, h5⟩⟩
      · have h5' : t'.val + 1 ≤ k / (x.s2.resBeta * x.s2.resAlpha) := h5
        have h6 := Nat.mul_le_mul_right (x.s2.resBeta * x.s2.resAlpha) h5'
        rw [Nat.succ_mul] at h6
        omega
      · have h5' : b'.val + 1 ≤ k % (x.s2.resBeta * x.s2.resAlpha) / x.s2.resAlpha := h5
        have h6 := Nat.mul_le_mul_right x.s2.resAlpha h5'
        rw [Nat.succ_mul] at h6
        have h7 := a'.isLt
        simp only
        omega
      · have h5' : a'.val < k % (x.s2.resBeta * x.s2.resAlpha) % x.s2.resAlpha := h5
        simp only
        omega

/-! ### The hypotheses are met -/

/-- `R[0, 0]^2 + R[1, 2]` on a grid with 6 x 5 x 5 points: the integral is `1 / 3` by `C82_orthogonal` and `C82_integrate`. -/
example {lg : LegGauss} (hlg : GaussLegendre lg) {μ : Measure (Fin 3 → Fin 3 → ℝ)} (hμ : IsHaar μ) :
    ∃ x, fromFunction lg (fun R (_ : Unit) => polyAt (MvPolynomial.X (0, 0) ^ 2 + MvPolynomial.X (1, 2)) R) 6 5 5 .soft = .ok x ∧
      integrate lg x = .ok fun _ => ∫ R, polyAt (MvPolynomial.X (0, 0) ^ 2 + MvPolynomial.X (1, 2)) R ∂μ := by
  obtain ⟨w, hw⟩ : ∃ w, quadratureWeights lg .soft 6 = .ok w := ⟨_, rfl⟩
  refine C82_integrate hlg (L := 2) (fun _ => MvPolynomial.X (0, 0) ^ 2 + MvPolynomial.X (1, 2)) (fun _ => ?_) (by norm_num) (y := w.1) (w := w.2) hw (by decide) (by norm_num) (by norm_num) hμ
  refine (MvPolynomial.totalDegree_add _ _).trans (max_le ?_ ?_)
  · refine (MvPolynomial.totalDegree_pow _ _).trans ?_
    rw [MvPolynomial.totalDegree_X]
  · rw [MvPolynomial.totalDegree_X]
    norm_num

example {lg : LegGauss} (hlg : GaussLegendre lg) :
    ∃ x, fromFunction lg (fun R (_ : Unit) => dMatrix ⟨1, .o⟩ R 0 0 * dMatrix ⟨1, .o⟩ R 0 0) 6 5 5 .soft = .ok x ∧ integrate lg x = .ok fun _ => 1 / (2 * ((1 : ℕ) : ℝ) + 1) := by
  obtain ⟨w, hw⟩ : ∃ w, quadratureWeights lg .soft 6 = .ok w := ⟨_, rfl⟩
  obtain ⟨x, h1, h2⟩ := C82_orthogonal hlg ⟨1, .o⟩ ⟨1, .o⟩ 0 0 0 0 (rb := 6) (ra := 5) (rt := 5) (by norm_num) (y := w.1) (w := w.2) hw (by decide) (by norm_num) (by norm_num)
  exact ⟨x, h1, by rw [h2]; simp⟩

end E3nn.SO3
