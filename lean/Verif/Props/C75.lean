import Verif.Lemmas.S2Core
import Verif.Props.C64
import Verif.Lemmas.GaussExists

/-!
# C75: the grid on the sphere, its quadrature and `SphericalSignal.integrate`
-/

namespace E3nn.S2

open E3nn.IArr E3nn.SH MeasureTheory Metric

variable {ι : Type}

theorem exact_of_grid {lg : LegGauss} (hlg : GaussLegendre lg) {q : Quad} {n : ℕ} (hn : 0 < n) {y w : Fin n → ℝ} (h : quadratureWeights lg q n = .ok (y, w)) :
    Exact (gridDegree q n) y w := by
  cases q with
  | soft =>
    unfold quadratureWeights at h
    simp only at h
    by_cases he : n % 2 = 0
    · rw [if_pos he] at h
      injection h with h
      injection h with h1 h2
      subst h1; subst h2
      exact soft_exact he (by omega)
    · rw [if_neg he] at h; cases h
  | gauss =>
    unfold quadratureWeights at h
    simp only at h
    rw [if_neg (by omega)] at h
    injection h with h
    injection h with h1 h2
    subst h1; subst h2
    obtain ⟨a1, a2⟩ := hlg n hn
    refine ⟨fun b => by rw [sq_le_one_iff_abs_le_one]; exact abs_le.mpr (a1 b), fun p hp => ?_⟩
    rw [← a2 p hp, Finset.sum_div]
    exact Finset.sum_congr rfl fun i _ => by ring

/-- **C75 (soft).** For an even number `n > 0` of points, the quadrature "soft" has its nodes in `(-1, 1)`, in increasing order, positive weights of sum one, and gives
exactly the mean over `[-1, 1]` of every polynomial of degree less than `n`; an odd number of points is refused. -/
theorem C75_soft (lg : LegGauss) (n : ℕ) :
    (n % 2 = 1 → quadratureWeights lg .soft n = .error .assertion) ∧
    (n % 2 = 0 → 0 < n → ∃ y w, quadratureWeights lg .soft n = .ok (y, w) ∧ (∀ b, -1 < y b ∧ y b < 1) ∧ StrictMono y ∧ (∀ b, 0 < w b) ∧ ∑ b, w b = 1 ∧
      ∀ p : Polynomial ℝ, p.natDegree < n → ∑ b, w b * p.eval (y b) = (∫ t in (-1 : ℝ)..1, p.eval t) / 2) := by
  refine ⟨fun h => ?_, fun h h0 => ?_⟩
  · unfold quadratureWeights
    simp only
    rw [if_neg (by omega)]
  · have hx := soft_exact h (by omega)
    have hnr : (0 : ℝ) < n := by exact_mod_cast h0
    have hlt : ∀ b : Fin n, (b : ℝ) + 0.5 < n := by
      intro b
      have : (b : ℝ) + 1 ≤ n := by exact_mod_cast b.isLt
      linarith
    have hang : ∀ b : Fin n, 0 < ((b : ℝ) + 0.5) / n * Real.pi ∧ ((b : ℝ) + 0.5) / n * Real.pi < Real.pi := by
      intro b
      have hp := Real.pi_pos
      have hb : (0 : ℝ) ≤ b := Nat.cast_nonneg _
      have h1 : 0 < ((b : ℝ) + 0.5) / n := div_pos (by linarith) hnr
      have h2 : ((b : ℝ) + 0.5) / n < 1 := (div_lt_one hnr).mpr (hlt b)
      exact ⟨mul_pos h1 hp, by nlinarith⟩
    refine ⟨fun i : Fin n => -Real.cos ((i + 0.5) / n * Real.pi), fun i : Fin n => softWeight n i / 2, ?_, ?_, ?_, ?_, ?_, ?_⟩
    · unfold quadratureWeights
      simp only
      rw [if_pos h]
    · intro b
      obtain ⟨h1, h2⟩ := hang b
      have a1 := Real.strictAntiOn_cos (Set.mem_Icc.mpr ⟨le_rfl, Real.pi_pos.le⟩) (Set.mem_Icc.mpr ⟨h1.le, h2.le⟩) h1
      have a2 := Real.strictAntiOn_cos (Set.mem_Icc.mpr ⟨h1.le, h2.le⟩) (Set.mem_Icc.mpr ⟨Real.pi_pos.le, le_rfl⟩) h2
      rw [Real.cos_zero] at a1
      rw [Real.cos_pi] at a2
      exact ⟨by linarith, by linarith⟩
    · intro a b hab
      obtain ⟨h1, h2⟩ := hang a
      obtain ⟨h3, h4⟩ := hang b
      have hlt : ((a : ℝ) + 0.5) / n * Real.pi < ((b : ℝ) + 0.5) / n * Real.pi := by
        apply mul_lt_mul_of_pos_right _ Real.pi_pos
        apply div_lt_div_of_pos_right _ hnr
        have : (a : ℝ) < b := by exact_mod_cast hab
        linarith
      have := Real.strictAntiOn_cos (Set.mem_Icc.mpr ⟨h1.le, h2.le⟩) (Set.mem_Icc.mpr ⟨h3.le, h4.le⟩) hlt
      change -_ < -_
      linarith
    · intro b
      have := softWeight_pos h (by omega) b
      simp only
      linarith
    · have := hx.exact' 1 (by simp)
      simpa using this
    · intro p hp
      exact hx.exact' p (by omega)

/-- **C75 (gausslegendre).** With nodes and weights as `leggauss` documents them, the quadrature "gausslegendre" of `n > 0` points has nodes in `[-1, 1]`, weights of sum one,
and gives exactly the mean over `[-1, 1]` of every polynomial of degree less than `2 n`; no point at all is refused.  Such nodes and weights exist, for every `n`. -/
theorem C75_gauss :
    (∀ (lg : LegGauss), quadratureWeights lg .gauss 0 = .error .valueError) ∧
    (∀ (lg : LegGauss), GaussLegendre lg → ∀ n, 0 < n → ∃ y w, quadratureWeights lg .gauss n = .ok (y, w) ∧ (∀ b, -1 ≤ y b ∧ y b ≤ 1) ∧ ∑ b, w b = 1 ∧
      ∀ p : Polynomial ℝ, p.natDegree < 2 * n → ∑ b, w b * p.eval (y b) = (∫ t in (-1 : ℝ)..1, p.eval t) / 2) ∧
    ∃ lg : LegGauss, GaussLegendre lg := by
  refine ⟨fun lg => by simp [quadratureWeights], fun lg hlg n hn => ?_, gauss_exists⟩
  have hq : quadratureWeights lg .gauss n = .ok ((lg n).1, fun i => (lg n).2 i / 2) := by
    unfold quadratureWeights
    simp only
    rw [if_neg (by omega)]
  have hx := exact_of_grid hlg hn hq
  refine ⟨_, _, hq, (hlg n hn).1, ?_, fun p hp => hx.exact' p (by simp only [gridDegree]; omega)⟩
  have := hx.exact' 1 (by simp)
  simpa using this

/-- **C75 (grid vectors).** The points of the grid are on the unit sphere. -/
theorem C75_unit {lg : LegGauss} (hlg : GaussLegendre lg) {q : Quad} {n : ℕ} {y w : Fin n → ℝ} (h : quadratureWeights lg q n = .ok (y, w)) (b : Fin n) (alpha : ℝ) :
    gridVector (y b) alpha 0 ^ 2 + gridVector (y b) alpha 1 ^ 2 + gridVector (y b) alpha 2 ^ 2 = 1 := by
  have hy := (exact_of_grid hlg b.pos h).nodes b
  have e : (Real.sqrt (1 - y b ^ 2)) ^ 2 = 1 - y b ^ 2 := Real.sq_sqrt (by linarith)
  simp only [gridVector, Matrix.cons_val_zero, Matrix.cons_val_one, Matrix.cons_val]
  linear_combination (Real.sin alpha ^ 2 + Real.cos alpha ^ 2) * e + (1 - y b ^ 2) * Real.sin_sq_add_cos_sq alpha

theorem norm_zero_eq (x : Fin 3 → ℝ) (k : Fin (2 * 0 + 1)) : Y .norm 0 x k = 1 := by
  rw [Y_zero]
  rfl

/-- The discrete integral of one spherical harmonic. -/
theorem quad_one {D n : ℕ} {y w : Fin n → ℝ} (h : Exact D y w) {l ra : ℕ} (hl : l ≤ D) (hra : l < ra) (k : Fin (2 * l + 1)) :
    (∑ a : Fin ra, ∑ b, w b * Y .integral l (gridVector (y b) (gridAlpha ra a)) k) / ra = if l = 0 then 1 / Real.sqrt (4 * Real.pi) else 0 := by
  have hk := k.isLt
  have hb0 : ∀ b, shBeta 0 0 (y b) = 1 / Real.sqrt (4 * Real.pi) := by
    intro b
    simp [shBeta, lpmn, legendrePoly, Real.sqrt_inv]
  have e : ∀ (a : Fin ra) (b : Fin n), w b * Y .integral l (gridVector (y b) (gridAlpha ra a)) k = (w b * shBeta l ((k : ℤ) - l).natAbs (y b)) * ang ((k : ℤ) - l) (gridAlpha ra a) := by
    intro a b
    rw [← sh_grid k (h.nodes b)]; ring
  simp_rw [e, ← Finset.sum_mul]
  rw [← Finset.mul_sum, mul_div_assoc]
  have ho := ang_orth (n := ra) (mu := (k : ℤ) - l) (nu := 0) (by omega)
  have hz : ∀ a, ang 0 a = 1 := fun a => by simp [ang]
  simp_rw [hz, mul_one] at ho
  rw [Finset.sum_range] at ho
  rw [ho]
  have hpos : (0 : ℝ) < Real.sqrt (4 * Real.pi) := by positivity
  by_cases hm : (k : ℤ) - l = 0
  · rw [if_pos hm, mul_one, hm]
    have hs := h.shBeta (m := 0) (l := l) (j := 0) (by omega) (by omega) (by omega)
    simp_rw [hb0] at hs
    simp_rw [← mul_assoc] at hs
    rw [← Finset.sum_mul] at hs
    have e2 : ∑ b, w b * shBeta l (0 : ℤ).natAbs (y b) = (if l = 0 then 1 / (4 * Real.pi) else 0) * Real.sqrt (4 * Real.pi) := by
      rw [← hs]
      field_simp
      rfl
    rw [e2]
    by_cases h0 : l = 0
    · rw [if_pos h0, if_pos h0]
      have hq : Real.sqrt (4 * Real.pi) * Real.sqrt (4 * Real.pi) = 4 * Real.pi := Real.mul_self_sqrt (by positivity)
      have := Real.pi_ne_zero
      field_simp
      rw [pow_two, hq]
    · rw [if_neg h0, if_neg h0, zero_mul]
  · rw [if_neg hm, mul_zero, if_neg (by omega)]

/-- The integral over the sphere of one spherical harmonic. -/
theorem integral_one (l : ℕ) (k : Fin (2 * l + 1)) :
    ∫ ω : sphere (0 : EuclideanSpace ℝ (Fin 3)) 1, Y .integral l (fun i => (ω : EuclideanSpace ℝ (Fin 3)) i) k ∂((volume : Measure (EuclideanSpace ℝ (Fin 3))).toSphere) =
      4 * Real.pi * if l = 0 then 1 / Real.sqrt (4 * Real.pi) else 0 := by
  have h := C64_orthogonal .integral (f := Y .integral) (fun l => Y_spec .integral l) l 0 k 0
  have h0 : ∀ x, Y .integral 0 x 0 = 1 / Real.sqrt (4 * Real.pi) := by
    intro x
    have : Y .integral 0 x 0 = sphLength .integral 0 := by
      have e1 := (Y_spec .integral 0).pole 0
      rw [if_pos (by rfl)] at e1
      rw [← e1, Y_zero, Y_zero]
    rw [this]
    simp [sphLength, Real.sqrt_inv]
  simp_rw [h0] at h
  rw [integral_mul_const] at h
  have hpos : (0 : ℝ) < Real.sqrt (4 * Real.pi) := by positivity
  have hq : Real.sqrt (4 * Real.pi) * Real.sqrt (4 * Real.pi) = 4 * Real.pi := Real.mul_self_sqrt (by positivity)
  have h2 : ∫ ω : sphere (0 : EuclideanSpace ℝ (Fin 3)) 1, Y .integral l (fun i => (ω : EuclideanSpace ℝ (Fin 3)) i) k ∂((volume : Measure (EuclideanSpace ℝ (Fin 3))).toSphere) =
      (if l = 0 ∧ k.val = (0 : Fin (2 * 0 + 1)).val then sphIntegral .integral l else 0) * Real.sqrt (4 * Real.pi) := by
    rw [← h]; field_simp
  rw [h2]
  by_cases h0 : l = 0
  · have hk : k.val = 0 := by have := k.isLt; omega
    rw [if_pos ⟨h0, by rw [hk]; rfl⟩, if_pos h0]
    simp only [sphIntegral]
    field_simp
    rw [pow_two, hq]
  · rw [if_neg (fun h => h0 h.1), if_neg h0]; ring

theorem basis_c {c : ℕ → ℝ} {B : (l : ℕ) → (Fin 3 → ℝ) → Fin (2 * l + 1) → ℝ} (hB : IsBasis c B) (l : ℕ) (x : Fin 3 → ℝ) (k : Fin (2 * l + 1)) :
    B l x k = c l / sphLength .integral l * Y .integral l x k := by
  have h := isSH_smul (Y_spec .integral l) (c l / sphLength .integral l)
  have hp : sphLength .integral l ≠ 0 := by unfold sphLength; positivity
  rw [div_mul_cancel₀ _ hp] at h
  exact congrFun (congrFun (C48_unique (hB l) h) x) k

/-- **C75 (integrate).** The integral of a signal is a scalar of the parity `p_val`.  If the signal is the values on the grid of a series of spherical harmonics
(in any normalisation) of degrees up to the degree of the quadrature and less than `res_alpha`, it is the integral of the function over the sphere, for the area measure. -/
theorem C75_integrate {lg : LegGauss} (hlg : GaussLegendre lg) (x : Signal ι) {y w : Fin x.resBeta → ℝ} (hg : quadratureWeights lg x.quad x.resBeta = .ok (y, w))
    {c : ℕ → ℝ} {B : (l : ℕ) → (Fin 3 → ℝ) → Fin (2 * l + 1) → ℝ} (hB : IsBasis c B) (bs : List (Irrep × List (ι → ℝ)))
    (hl : ∀ b ∈ bs, b.1.l ≤ gridDegree x.quad x.resBeta ∧ b.1.l < x.resAlpha) (h0 : 0 < x.resBeta)
    (hx : ∀ b a i, x.values b a i = series B bs (gridVector (y b) (gridAlpha x.resAlpha a)) i) :
    ∃ out, integrate lg x = .ok out ∧ out.Coherent ∧ out.irreps = [⟨1, ⟨0, x.pVal⟩⟩] ∧
      out.array = [fun i => ∫ ω : sphere (0 : EuclideanSpace ℝ (Fin 3)) 1, series B bs (fun j => (ω : EuclideanSpace ℝ (Fin 3)) j) i ∂((volume : Measure (EuclideanSpace ℝ (Fin 3))).toSphere)] := by
  have hex := exact_of_grid hlg h0 hg
  obtain ⟨out, h1, h2, h3, h4, -, -⟩ := (C12_from_array [⟨1, ⟨0, x.pVal⟩⟩] [fun i => (∑ a, ∑ b, w b * x.values b a i) / x.resAlpha * 4 * Real.pi]).1 (by simp [expand, dimOf, Irrep.dim])
  refine ⟨out, ?_, h2, h3, ?_⟩
  · unfold integrate
    rw [hg]
    exact h1
  rw [h4]
  congr 1
  funext i
  simp_rw [hx]
  clear hx h1 h2 h3 h4 out
  have key : (∑ a : Fin x.resAlpha, ∑ b, w b * series B bs (gridVector (y b) (gridAlpha x.resAlpha a)) i) / x.resAlpha * 4 * Real.pi =
      (bs.map fun b => ∑ k : Fin (2 * b.1.l + 1), (4 * Real.pi * if b.1.l = 0 then 1 / Real.sqrt (4 * Real.pi) else 0) * (c b.1.l / sphLength .integral b.1.l * b.2.getD k 0 i)).sum := by
    induction bs with
    | nil => simp [series]
    | cons g bs ih =>
      have hs : ∀ z, series B (g :: bs) z i = (∑ k : Fin (2 * g.1.l + 1), B g.1.l z k * g.2.getD k 0 i) + series B bs z i := fun z => by simp [series]
      rw [List.map_cons, List.sum_cons, ← ih (fun b hb => hl b (by simp [hb]))]
      simp_rw [hs, mul_add, Finset.sum_add_distrib]
      have e : (∑ a : Fin x.resAlpha, ∑ b, w b * ∑ k : Fin (2 * g.1.l + 1), B g.1.l (gridVector (y b) (gridAlpha x.resAlpha a)) k * g.2.getD k 0 i) / x.resAlpha =
          ∑ k : Fin (2 * g.1.l + 1), ((∑ a : Fin x.resAlpha, ∑ b, w b * Y .integral g.1.l (gridVector (y b) (gridAlpha x.resAlpha a)) k) / x.resAlpha) * (c g.1.l / sphLength .integral g.1.l * g.2.getD k 0 i) := by
        simp_rw [Finset.mul_sum, Finset.sum_div, Finset.sum_mul]
        rw [Finset.sum_congr rfl fun a _ => Finset.sum_comm, Finset.sum_comm]
        refine Finset.sum_congr rfl fun k _ => Finset.sum_congr rfl fun a _ => Finset.sum_congr rfl fun b _ => ?_
        rw [basis_c hB]; ring
      have hgl := hl g (by simp)
      rw [add_div, e, Finset.sum_congr rfl fun k _ => by rw [quad_one hex hgl.1 hgl.2 k], add_mul, add_mul, Finset.sum_mul, Finset.sum_mul]
      congr 1
      exact Finset.sum_congr rfl fun k _ => by ring
  rw [key]
  clear key hl
  have hcont : ∀ l k, Continuous fun ω : sphere (0 : EuclideanSpace ℝ (Fin 3)) 1 => Y .integral l (fun j => (ω : EuclideanSpace ℝ (Fin 3)) j) k := fun l k => Y_continuous .integral l k
  have hBc : ∀ l k, Continuous fun ω : sphere (0 : EuclideanSpace ℝ (Fin 3)) 1 => B l (fun j => (ω : EuclideanSpace ℝ (Fin 3)) j) k := fun l k => by
    simp_rw [basis_c hB]
    exact continuous_const.mul (hcont l k)
  have hsc : ∀ bs : List (Irrep × List (ι → ℝ)), Continuous fun ω : sphere (0 : EuclideanSpace ℝ (Fin 3)) 1 => series B bs (fun j => (ω : EuclideanSpace ℝ (Fin 3)) j) i := by
    intro bs
    induction bs with
    | nil => simpa [series] using continuous_const
    | cons g bs ih =>
      have : ∀ z, series B (g :: bs) z i = (∑ k : Fin (2 * g.1.l + 1), B g.1.l z k * g.2.getD k 0 i) + series B bs z i := fun z => by simp [series]
      simp_rw [this]
      exact (continuous_finset_sum _ fun k _ => (hBc g.1.l k).mul continuous_const).add ih
  induction bs with
  | nil => simp [series]
  | cons g bs ih =>
    have hs : ∀ z, series B (g :: bs) z i = (∑ k : Fin (2 * g.1.l + 1), B g.1.l z k * g.2.getD k 0 i) + series B bs z i := fun z => by simp [series]
    simp_rw [hs]
    have i0 : ∀ k : Fin (2 * g.1.l + 1), Integrable (fun ω : sphere (0 : EuclideanSpace ℝ (Fin 3)) 1 => B g.1.l (fun j => (ω : EuclideanSpace ℝ (Fin 3)) j) k * g.2.getD k 0 i) ((volume : Measure (EuclideanSpace ℝ (Fin 3))).toSphere) :=
      fun k => integrable_of_continuous ((hBc g.1.l k).mul continuous_const)
    have i2 : Integrable (fun ω : sphere (0 : EuclideanSpace ℝ (Fin 3)) 1 => series B bs (fun j => (ω : EuclideanSpace ℝ (Fin 3)) j) i) ((volume : Measure (EuclideanSpace ℝ (Fin 3))).toSphere) :=
      integrable_of_continuous (hsc bs)
    rw [List.map_cons, List.sum_cons, ih, integral_add (integrable_finset_sum _ fun k _ => i0 k) i2]
    congr 1
    rw [integral_finset_sum _ fun k _ => i0 k]
    refine Finset.sum_congr rfl fun k _ => ?_
    rw [integral_mul_const]
    simp_rw [basis_c hB]
    rw [integral_const_mul, integral_one]
    ring

/-- **C75 (constant).** The integral of the constant signal `1` is `4π`, on every grid. -/
theorem C75_constant {lg : LegGauss} (hlg : GaussLegendre lg) (n ra : ℕ) (q : Quad) (v a : Parity) (hn : 0 < n) (hq : q = .soft → n % 2 = 0) (hra : 0 < ra) :
    ∃ out, integrate lg (⟨n, ra, fun _ _ _ => 1, q, v, a⟩ : Signal Unit) = .ok out ∧ out.irreps = [⟨1, ⟨0, v⟩⟩] ∧ out.array = [fun _ => 4 * Real.pi] := by
  obtain ⟨y, w, hg⟩ : ∃ y w, quadratureWeights lg q n = .ok (y, w) := by
    cases q with
    | soft => exact ⟨_, _, by unfold quadratureWeights; simp only; rw [if_pos (hq rfl)]⟩
    | gauss => exact ⟨_, _, by unfold quadratureWeights; simp only; rw [if_neg (by omega)]⟩
  have hex := exact_of_grid hlg hn hg
  have hsum : ∑ b, w b = 1 := by
    have := hex.exact' 1 (by simp)
    simpa using this
  obtain ⟨out, h1, h2, h3, h4, -, -⟩ := (C12_from_array [⟨1, ⟨0, v⟩⟩] [fun _ : Unit => (∑ _a : Fin ra, ∑ b, w b * 1) / (ra : ℝ) * 4 * Real.pi]).1 (by simp [expand, dimOf, Irrep.dim])
  refine ⟨out, ?_, h3, ?_⟩
  · unfold integrate
    simp only
    rw [hg]
    exact h1
  · rw [h4]
    have : (ra : ℝ) ≠ 0 := by exact_mod_cast hra.ne'
    simp_rw [mul_one, hsum]
    simp [this]

end E3nn.S2
