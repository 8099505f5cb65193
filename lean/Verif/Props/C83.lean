import Verif.Lemmas.Choice
import Verif.Props.C82

/-!
# C83: sampling

Uniform numbers in `[0, 1)` are the only source of randomness: `unif` is their distribution, different keys give independent numbers (`Measure.prod`).
-/

namespace E3nn.S2

open MeasureTheory E3nn.SH

variable {ι : Type}

theorem draw_prob {n m : ℕ} (hn : 0 < n) (hm : 0 < m) {w : Fin n → ℝ} {v : Fin n → Fin m → ℝ} (hw : ∀ b, 0 ≤ w b) (hv : ∀ b a, 0 ≤ v b a) (hT : 0 < ∑ b, w b * ∑ a, v b a) (b : Fin n) (a : Fin m) :
    (unif.prod unif) {u : ℝ × ℝ | (choice hn (fun b => w b * ∑ a, v b a) u.1, choice hm (v (choice hn (fun b => w b * ∑ a, v b a) u.1)) u.2) = (b, a)} =
      ENNReal.ofReal (w b * v b a / ∑ b, w b * ∑ a, v b a) := by
  have hp : ∀ b, 0 ≤ w b * ∑ a, v b a := fun b => mul_nonneg (hw b) (Finset.sum_nonneg fun a _ => hv b a)
  have hset : {u : ℝ × ℝ | (choice hn (fun b => w b * ∑ a, v b a) u.1, choice hm (v (choice hn (fun b => w b * ∑ a, v b a) u.1)) u.2) = (b, a)} =
      {u | choice hn (fun b => w b * ∑ a, v b a) u = b} ×ˢ {u | choice hm (v b) u = a} := by
    ext u
    simp only [Set.mem_setOf_eq, Set.mem_prod, Prod.mk.injEq]
    constructor
    · rintro ⟨h1, h2⟩
      rw [h1] at h2
      exact ⟨h1, h2⟩
    · rintro ⟨h1, h2⟩
      rw [h1]
      exact ⟨rfl, h2⟩
  rw [hset, Measure.prod_prod, choice_prob hn hp hT b]
  by_cases hz : ∑ a, v b a = 0
  · have hz' : v b a = 0 := (Finset.sum_eq_zero_iff_of_nonneg fun a _ => hv b a).mp hz a (Finset.mem_univ a)
    rw [hz, hz']
    simp
  · have hpos : 0 < ∑ a, v b a := lt_of_le_of_ne (Finset.sum_nonneg fun a _ => hv b a) (Ne.symm hz)
    rw [choice_prob hm (hv b) hpos a, ← ENNReal.ofReal_mul (div_nonneg (hp b) hT.le)]
    congr 1
    field_simp

theorem draw_set {n m : ℕ} (hn : 0 < n) (hm : 0 < m) (p : Fin n → ℝ) (v : Fin n → Fin m → ℝ) (b : Fin n) (a : Fin m) :
    {u : ℝ × ℝ | (choice hn p u.1, choice hm (v (choice hn p u.1)) u.2) = (b, a)} = {u | choice hn p u = b} ×ˢ {u | choice hm (v b) u = a} := by
  ext u
  simp only [Set.mem_setOf_eq, Set.mem_prod, Prod.mk.injEq]
  constructor
  · rintro ⟨h1, h2⟩
    rw [h1] at h2
    exact ⟨h1, h2⟩
  · rintro ⟨h1, h2⟩
    rw [h1]
    exact ⟨rfl, h2⟩

theorem draw_measurable {n m : ℕ} (hn : 0 < n) (hm : 0 < m) (p : Fin n → ℝ) (v : Fin n → Fin m → ℝ) : Measurable fun u : ℝ × ℝ => (choice hn p u.1, choice hm (v (choice hn p u.1)) u.2) := by
  refine measurable_to_countable' ?_
  rintro ⟨b, a⟩
  change MeasurableSet {u : ℝ × ℝ | (choice hn p u.1, choice hm (v (choice hn p u.1)) u.2) = (b, a)}
  rw [draw_set]
  exact (choice_measurable hn p (measurableSet_singleton b)).prod (choice_measurable hm (v b) (measurableSet_singleton a))

/-- The mean of a function of a draw. -/
theorem mean_draw {Ω S : Type} [MeasurableSpace Ω] {P : Measure Ω} [IsProbabilityMeasure P] [Fintype S] [MeasurableSpace S] [MeasurableSingletonClass S] {f : Ω → S} (hf : Measurable f)
    {q : S → ℝ} (hq0 : ∀ s, 0 ≤ q s) (hq : ∀ s, P {u | f u = s} = ENNReal.ofReal (q s)) (F : S → ℝ) : ∫ u, F (f u) ∂P = ∑ s, q s * F s := by
  haveI : IsProbabilityMeasure (P.map f) := Measure.isProbabilityMeasure_map hf.aemeasurable
  have h1 := integral_map (μ := P) hf.aemeasurable (f := F) (measurable_of_finite F).aestronglyMeasurable
  rw [← h1, integral_fintype (Integrable.of_finite)]
  refine Finset.sum_congr rfl fun s _ => ?_
  rw [measureReal_def, Measure.map_apply hf (measurableSet_singleton s)]
  have : f ⁻¹' {s} = {u | f u = s} := rfl
  rw [this, hq s, ENNReal.toReal_ofReal (hq0 s), smul_eq_mul]

/-- The sum of the weights times the values. -/
noncomputable def total (w : Fin n → ℝ) (v : Fin n → Fin m → ℝ) : ℝ := ∑ b, ∑ a, w b * v b a

theorem total_eq {n m : ℕ} (w : Fin n → ℝ) (v : Fin n → Fin m → ℝ) : total w v = ∑ b, w b * ∑ a, v b a := by
  unfold total
  simp_rw [Finset.mul_sum]

/-- **C83 (probabilities).** `SphericalSignal.sample` of a signal with non-negative values that are not all zero: for each leading index (with its own two uniform numbers), each grid point is drawn with
probability proportional to its value times the quadrature weight of its ring. -/
theorem C83_sample {lg : LegGauss} (hlg : GaussLegendre lg) (x : Signal ι) (hb : 0 < x.resBeta) (ha : 0 < x.resAlpha) {y w : Fin x.resBeta → ℝ} (hq : quadratureWeights lg x.quad x.resBeta = .ok (y, w))
    (hv : ∀ b a i, 0 ≤ x.values b a i) (hT : ∀ i, ∃ b a, 0 < w b * x.values b a i) :
    ∃ s : ι → ℝ × ℝ → Fin x.resBeta × Fin x.resAlpha, (∀ u, sample lg x u = .ok fun i => s i (u i)) ∧ (∀ i, Measurable (s i)) ∧
      ∀ i b a, (unif.prod unif) {u | s i u = (b, a)} = ENNReal.ofReal (w b * x.values b a i / total w fun b a => x.values b a i) := by
  have hw := weights_nonneg hlg hq
  refine ⟨fun i u => (choice hb (fun b => w b * ∑ a, x.values b a i) u.1, choice ha (fun a => x.values (choice hb (fun b => w b * ∑ a, x.values b a i) u.1) a i) u.2), fun u => ?_, fun i => ?_, fun i b a => ?_⟩
  · unfold sample
    rw [dif_pos ⟨hb, ha⟩, hq]
    rfl
  · exact draw_measurable hb ha _ fun b a => x.values b a i
  · rw [total_eq]
    refine draw_prob hb ha hw (fun b a => hv b a i) ?_ b a
    obtain ⟨b0, a0, h0⟩ := hT i
    rw [← total_eq]
    unfold total
    refine Finset.sum_pos' (fun b _ => Finset.sum_nonneg fun a _ => mul_nonneg (hw b) (hv b a i)) ⟨b0, Finset.mem_univ _, ?_⟩
    exact Finset.sum_pos' (fun a _ => mul_nonneg (hw b0) (hv b0 a i)) ⟨a0, Finset.mem_univ _, h0⟩

theorem integrate_eq {lg : LegGauss} (x : Signal ι) {y w : Fin x.resBeta → ℝ} (hq : quadratureWeights lg x.quad x.resBeta = .ok (y, w)) {out : IArr (ι → ℝ)} (h : integrate lg x = .ok out) (i : ι) :
    out.array.getD 0 0 i = (total w fun b a => x.values b a i) / x.resAlpha * 4 * Real.pi := by
  unfold integrate at h
  rw [hq] at h
  cases h
  unfold total
  rw [Finset.sum_comm]
  rfl

/-- **C83 (means).** The mean of any function `F` of the sampled direction is the quotient of `integrate()` of the signal times `F` by `integrate()` of the signal. -/
theorem C83_mean {lg : LegGauss} (hlg : GaussLegendre lg) (x : Signal ι) (hb : 0 < x.resBeta) (ha : 0 < x.resAlpha) {y w : Fin x.resBeta → ℝ} (hq : quadratureWeights lg x.quad x.resBeta = .ok (y, w))
    (hv : ∀ b a i, 0 ≤ x.values b a i) (hT : ∀ i, ∃ b a, 0 < w b * x.values b a i) (F : (Fin 3 → ℝ) → ℝ) :
    ∃ s : ι → ℝ × ℝ → Fin x.resBeta × Fin x.resAlpha, ∃ num den, (∀ u, sample lg x u = .ok fun i => s i (u i)) ∧
      integrate lg (replaceValues x fun b a i => x.values b a i * F (gridVector (y b) (gridAlpha x.resAlpha a))) = .ok num ∧ integrate lg x = .ok den ∧
      ∀ i, ∫ u, F (gridVector (y (s i u).1) (gridAlpha x.resAlpha (s i u).2)) ∂(unif.prod unif) = num.array.getD 0 0 i / den.array.getD 0 0 i := by
  obtain ⟨s, s1, s2, s3⟩ := C83_sample hlg x hb ha hq hv hT
  have hw := weights_nonneg hlg hq
  have hn : ∃ num, integrate lg (replaceValues x fun b a i => x.values b a i * F (gridVector (y b) (gridAlpha x.resAlpha a))) = .ok num := by
    unfold integrate
    change ∃ num, (Except.bind (quadratureWeights lg x.quad x.resBeta) _ : Except PyErr _) = .ok num
    rw [hq]
    exact ⟨_, rfl⟩
  have hd : ∃ den, integrate lg x = .ok den := by
    unfold integrate
    rw [hq]
    exact ⟨_, rfl⟩
  obtain ⟨num, hn⟩ := hn
  obtain ⟨den, hd⟩ := hd
  refine ⟨s, num, den, s1, hn, hd, fun i => ?_⟩
  have hTi : 0 < total w fun b a => x.values b a i := by
    obtain ⟨b0, a0, h0⟩ := hT i
    unfold total
    refine Finset.sum_pos' (fun b _ => Finset.sum_nonneg fun a _ => mul_nonneg (hw b) (hv b a i)) ⟨b0, Finset.mem_univ _, ?_⟩
    exact Finset.sum_pos' (fun a _ => mul_nonneg (hw b0) (hv b0 a i)) ⟨a0, Finset.mem_univ _, h0⟩
  have hm := mean_draw (P := unif.prod unif) (s2 i) (q := fun p => w p.1 * x.values p.1 p.2 i / total w fun b a => x.values b a i)
    (fun p => div_nonneg (mul_nonneg (hw _) (hv _ _ _)) hTi.le) (fun p => s3 i p.1 p.2) (fun p => F (gridVector (y p.1) (gridAlpha x.resAlpha p.2)))
  rw [hm, integrate_eq x hq hd, integrate_eq (replaceValues x fun b a i => x.values b a i * F (gridVector (y b) (gridAlpha x.resAlpha a))) hq hn]
  have hra : (x.resAlpha : ℝ) ≠ 0 := by exact_mod_cast ha.ne'
  have hpi := Real.pi_ne_zero
  have e : ∀ u v : ℝ, u / (x.resAlpha : ℝ) * 4 * Real.pi / (v / (x.resAlpha : ℝ) * 4 * Real.pi) = u / v := by
    intro u v
    by_cases hv0 : v = 0
    · simp [hv0]
    · field_simp
  change _ = (total w fun b a => x.values b a i * F (gridVector (y b) (gridAlpha x.resAlpha a))) / (x.resAlpha : ℝ) * 4 * Real.pi / _
  rw [e]
  unfold total
  rw [Fintype.sum_prod_type, Finset.sum_div]
  refine Finset.sum_congr rfl fun b _ => ?_
  rw [Finset.sum_div]
  refine Finset.sum_congr rfl fun a _ => ?_
  ring

/-- **C83 (means on the sphere).** When the signal holds the values of a function `p` of degree at most that of the grid, and `p F` is one too, the mean of `F` at the sampled direction is the
mean of `F` for the density `p` on the sphere. -/
theorem C83_sphere {lg : LegGauss} (hlg : GaussLegendre lg) (x : Signal ι) (hb : 0 < x.resBeta) (ha : 0 < x.resAlpha) {y w : Fin x.resBeta → ℝ} (hq : quadratureWeights lg x.quad x.resBeta = .ok (y, w))
    (hv : ∀ b a i, 0 ≤ x.values b a i) (hT : ∀ i, ∃ b a, 0 < w b * x.values b a i) {c : ℕ → ℝ} {B : (l : ℕ) → (Fin 3 → ℝ) → Fin (2 * l + 1) → ℝ} (hB : IsBasis c B) (p : (Fin 3 → ℝ) → ι → ℝ) (F : (Fin 3 → ℝ) → ℝ)
    (hx : ∀ b a i, x.values b a i = p (gridVector (y b) (gridAlpha x.resAlpha a)) i) (bs bs' : List (Irrep × List (ι → ℝ)))
    (hl : ∀ b ∈ bs ++ bs', b.1.l ≤ gridDegree x.quad x.resBeta ∧ b.1.l < x.resAlpha)
    (hbs : ∀ r, Rot.vnormSq r = 1 → ∀ i, p r i = series B bs r i) (hbs' : ∀ r, Rot.vnormSq r = 1 → ∀ i, p r i * F r = series B bs' r i) :
    ∃ s : ι → ℝ × ℝ → Fin x.resBeta × Fin x.resAlpha, (∀ u, sample lg x u = .ok fun i => s i (u i)) ∧
      ∀ i, ∫ u, F (gridVector (y (s i u).1) (gridAlpha x.resAlpha (s i u).2)) ∂(unif.prod unif) =
        (∫ ω : Metric.sphere (0 : EuclideanSpace ℝ (Fin 3)) 1, p (fun j => (ω : EuclideanSpace ℝ (Fin 3)) j) i * F (fun j => (ω : EuclideanSpace ℝ (Fin 3)) j) ∂((volume : Measure (EuclideanSpace ℝ (Fin 3))).toSphere)) /
        ∫ ω : Metric.sphere (0 : EuclideanSpace ℝ (Fin 3)) 1, p (fun j => (ω : EuclideanSpace ℝ (Fin 3)) j) i ∂((volume : Measure (EuclideanSpace ℝ (Fin 3))).toSphere) := by
  obtain ⟨s, num, den, s1, s2, s3, s4⟩ := C83_mean hlg x hb ha hq hv hT F
  have hgu : ∀ b a, Rot.vnormSq (gridVector (y b) (gridAlpha x.resAlpha a)) = 1 := fun b a => SO3.gridVector_unit ((exact_of_grid hlg hb hq).nodes b) _
  have hun : ∀ ω : Metric.sphere (0 : EuclideanSpace ℝ (Fin 3)) 1, Rot.vnormSq (fun j => (ω : EuclideanSpace ℝ (Fin 3)) j) = 1 := by
    intro ω
    have h1 := mem_sphere_zero_iff_norm.mp ω.2
    have h2 := EuclideanSpace.norm_sq_eq (ω : EuclideanSpace ℝ (Fin 3))
    rw [h1, Fin.sum_univ_three] at h2
    simp only [Real.norm_eq_abs, sq_abs] at h2
    unfold Rot.vnormSq
    linarith
  obtain ⟨o1, t1, -, -, t2⟩ := C75_integrate hlg x hq hB bs (fun b hb => hl b (by simp [hb])) hb (fun b a i => by rw [hx, hbs _ (hgu b a)])
  obtain ⟨o2, r1, -, -, r2⟩ := C75_integrate hlg (replaceValues x fun b a i => x.values b a i * F (gridVector (y b) (gridAlpha x.resAlpha a))) hq hB bs' (fun b hb => hl b (by simp [hb])) hb
    (fun b a i => (congrArg (· * F (gridVector (y b) (gridAlpha x.resAlpha a))) (hx b a i)).trans (hbs' _ (hgu b a) i))
  rw [s3] at t1
  rw [s2] at r1
  cases t1
  cases r1
  refine ⟨s, s1, fun i => ?_⟩
  rw [s4, t2, r2]
  simp only [List.getD_cons_zero]
  congr 1
  · exact integral_congr_ae (Filter.Eventually.of_forall fun ω => (hbs' _ (hun ω) i).symm)
  · exact integral_congr_ae (Filter.Eventually.of_forall fun ω => (hbs _ (hun ω) i).symm)

/-- The hypotheses are met: values `1, 2, 3` along `alpha` on a grid with two rings. -/
example {lg : LegGauss} (hlg : GaussLegendre lg) : ∃ y w, quadratureWeights lg .gauss 2 = .ok (y, w) ∧ ∀ _i : Unit, ∃ (b : Fin 2) (a : Fin 3), 0 < w b * ((a.val : ℝ) + 1) := by
  refine ⟨(lg 2).1, fun i => (lg 2).2 i / 2, rfl, fun _ => ?_⟩
  have hex := exact_of_grid hlg (q := .gauss) (n := 2) (by norm_num) rfl
  have hw1 : ∑ b : Fin 2, (lg 2).2 b / 2 = 1 := by
    have := hex.exact' 1 (by simp)
    simpa using this
  obtain ⟨b, hb⟩ : ∃ b, 0 < (lg 2).2 b / 2 := by
    by_contra h
    push Not at h
    have := Finset.sum_nonpos fun b (_ : b ∈ Finset.univ) => h b
    linarith
  exact ⟨b, 0, mul_pos hb (by norm_num)⟩

end E3nn.S2

namespace E3nn.SO3

open MeasureTheory E3nn.SH E3nn.S2 E3nn.Rot E3nn.Wig

variable {ι : Type}

/-- The value that is used for an angle: zero is replaced by `1e-20`. -/
noncomputable def angleWeight (v : ℝ) : ℝ := if v = 0 then 1e-20 else v

theorem angleWeight_pos {v : ℝ} (h : 0 ≤ v) : 0 < angleWeight v := by
  unfold angleWeight
  split
  · norm_num
  · rename_i h0
    exact lt_of_le_of_ne h (Ne.symm h0)

/-- **C83 (rotations).** `SO3Signal.sample` of a signal without leading axes and with non-negative values: the axis is drawn with probability proportional to its quadrature weight times the sum over the angles of the
value times `1 - cos(theta)`, but then the angle is drawn with probability proportional to the value alone. -/
theorem C83_so3 {lg : LegGauss} (hlg : GaussLegendre lg) (x : SO3Signal Unit) (ht : 0 < x.resTheta) (hb : 0 < x.s2.resBeta) (ha : 0 < x.s2.resAlpha) {y w : Fin x.s2.resBeta → ℝ}
    (hq : quadratureWeights lg x.s2.quad x.s2.resBeta = .ok (y, w)) (hv : ∀ b a i, 0 ≤ x.s2.values b a i)
    (hT : ∃ b a t, 0 < w b * (x.s2.values b a ((), t) * (1 - Real.cos (gridTheta x.resTheta t)))) :
    ∃ s : (ℝ × ℝ) × ℝ → Fin x.resTheta × Fin x.s2.resBeta × Fin x.s2.resAlpha,
      (∀ u, sample lg false x u = .ok fun i => (s (u i), axisAngleToMatrix (gridVector (y (s (u i)).2.1) (gridAlpha x.s2.resAlpha (s (u i)).2.2)) (gridTheta x.resTheta (s (u i)).1))) ∧ Measurable s ∧
      ∀ t b a, ((unif.prod unif).prod unif) {u | s u = (t, b, a)} =
        ENNReal.ofReal (((w b * ∑ t : Fin x.resTheta, x.s2.values b a ((), t) * (1 - Real.cos (gridTheta x.resTheta t))) /
            ∑ b, ∑ a, w b * ∑ t : Fin x.resTheta, x.s2.values b a ((), t) * (1 - Real.cos (gridTheta x.resTheta t))) *
          (angleWeight (x.s2.values b a ((), t)) / ∑ t, angleWeight (x.s2.values b a ((), t)))) := by
  have hw := weights_nonneg hlg hq
  have hcos : ∀ t : Fin x.resTheta, 0 ≤ 1 - Real.cos (gridTheta x.resTheta t) := fun t => by linarith [Real.cos_le_one (gridTheta x.resTheta t)]
  obtain ⟨b0, a0, t0, h0⟩ := hT
  have hn2 : 2 ≤ x.resTheta := by
    by_contra h
    have h1 : x.resTheta = 1 := by omega
    have : t0.val = 0 := by omega
    simp [gridTheta, this] at h0
  have hdelta : 0 < deltaTheta x.resTheta := by
    unfold deltaTheta
    rw [show min 1 (x.resTheta - 1) = 1 by omega]
    unfold gridTheta
    have : (0 : ℝ) < (x.resTheta : ℝ) - 1 := by
      have : (2 : ℝ) ≤ x.resTheta := by exact_mod_cast hn2
      linarith
    simp
    positivity
  have hsum : ∀ b a, 0 ≤ ∑ t : Fin x.resTheta, x.s2.values b a ((), t) * (1 - Real.cos (gridTheta x.resTheta t)) := fun b a => Finset.sum_nonneg fun t _ => mul_nonneg (hv _ _ _) (hcos t)
  obtain ⟨sa', p1', p2', p3'⟩ := C83_sample hlg (integrateOverAngles x) hb ha hq
    (fun b a i => mul_nonneg (hsum b a) hdelta.le) (fun i => ⟨b0, a0, by
      change 0 < w b0 * ((∑ t : Fin x.resTheta, x.s2.values b0 a0 ((), t) * (1 - Real.cos (gridTheta x.resTheta t))) * deltaTheta x.resTheta)
      have hwpos : 0 < w b0 := by
        rcases lt_or_eq_of_le (hw b0) with h | h
        · exact h
        · rw [← h, zero_mul] at h0; exact absurd h0 (lt_irrefl 0)
      have h1 : 0 < x.s2.values b0 a0 ((), t0) * (1 - Real.cos (gridTheta x.resTheta t0)) := (mul_pos_iff_of_pos_left hwpos).mp h0
      have h2 : 0 < ∑ t : Fin x.resTheta, x.s2.values b0 a0 ((), t) * (1 - Real.cos (gridTheta x.resTheta t)) :=
        Finset.sum_pos' (fun t _ => mul_nonneg (hv _ _ _) (hcos t)) ⟨t0, Finset.mem_univ _, h1⟩
      positivity⟩)
  obtain ⟨sa, p1, p2, p3⟩ : ∃ sa : ℝ × ℝ → Fin x.s2.resBeta × Fin x.s2.resAlpha, (∀ u : Unit → ℝ × ℝ, S2.sample lg (integrateOverAngles x) u = .ok fun i => sa (u i)) ∧ Measurable sa ∧
      ∀ b a, (unif.prod unif) {u | sa u = (b, a)} = ENNReal.ofReal (w b * ((∑ t : Fin x.resTheta, x.s2.values b a ((), t) * (1 - Real.cos (gridTheta x.resTheta t))) * deltaTheta x.resTheta) /
        (∑ b, ∑ a, w b * ((∑ t : Fin x.resTheta, x.s2.values b a ((), t) * (1 - Real.cos (gridTheta x.resTheta t))) * deltaTheta x.resTheta))) :=
    ⟨sa' (), p1', p2' (), p3' ()⟩
  clear p1' p2' p3'
  have hexp : ∀ b a, (fun t : Fin x.resTheta => Real.exp (Real.log (if x.s2.values b a ((), t) = 0 then 1e-20 else x.s2.values b a ((), t)))) = fun t => angleWeight (x.s2.values b a ((), t)) := by
    intro b a
    funext t
    exact Real.exp_log (angleWeight_pos (hv b a ((), t)))
  let st : Fin x.s2.resBeta × Fin x.s2.resAlpha → ℝ → Fin x.resTheta := fun p u => choice ht (fun t => angleWeight (x.s2.values p.1 p.2 ((), t))) u
  have hset : ∀ t b a, {u : (ℝ × ℝ) × ℝ | (st (sa u.1) u.2, (sa u.1).1, (sa u.1).2) = (t, b, a)} = {u | sa u = (b, a)} ×ˢ {u | st (b, a) u = t} := by
    intro t b a
    ext u
    simp only [Set.mem_setOf_eq, Set.mem_prod, Prod.mk.injEq]
    constructor
    · rintro ⟨h1, h2, h3⟩
      have h4 : sa u.1 = (b, a) := Prod.ext h2 h3
      rw [h4] at h1
      exact ⟨h4, h1⟩
    · rintro ⟨h1, h2⟩
      rw [h1]
      exact ⟨h2, rfl, rfl⟩
  refine ⟨fun u => (st (sa u.1) u.2, (sa u.1).1, (sa u.1).2), fun u => ?_, ?_, fun t b a => ?_⟩
  · unfold sample
    rw [p1]
    change (Except.bind (quadratureWeights lg x.s2.quad x.s2.resBeta) _ : Except PyErr _) = _
    rw [hq]
    change (if h : 0 < x.resTheta then _ else _ : Except PyErr _) = _
    rw [dif_pos ht]
    congr 1
    funext i
    have hi : st (sa (u i).1) (u i).2 = choice ht (fun t : Fin x.resTheta => Real.exp (Real.log (if x.s2.values (sa (u i).1).1 (sa (u i).1).2 (i, t) = 0 then 1e-20 else x.s2.values (sa (u i).1).1 (sa (u i).1).2 (i, t)))) (u i).2 :=
      congrArg (fun f => choice ht f (u i).2) (hexp _ _).symm
    simp only [hi]
  · refine measurable_to_countable' ?_
    rintro ⟨t, b, a⟩
    change MeasurableSet {u : (ℝ × ℝ) × ℝ | (st (sa u.1) u.2, (sa u.1).1, (sa u.1).2) = (t, b, a)}
    rw [hset]
    exact (p2 (measurableSet_singleton (b, a))).prod (choice_measurable ht _ (measurableSet_singleton t))
  · rw [hset, Measure.prod_prod, p3]
    have hpos : 0 < ∑ t, angleWeight (x.s2.values b a ((), t)) := Finset.sum_pos (fun t _ => angleWeight_pos (hv _ _ _)) ⟨⟨0, ht⟩, Finset.mem_univ _⟩
    rw [choice_prob ht (fun t => (angleWeight_pos (hv _ _ _)).le) hpos t, ← ENNReal.ofReal_mul]
    · congr 2
      simp_rw [← mul_assoc, ← Finset.sum_mul]
      rw [mul_div_mul_right _ _ hdelta.ne']
    · refine div_nonneg (mul_nonneg (hw _) (mul_nonneg (hsum _ _) hdelta.le)) ?_
      exact Finset.sum_nonneg fun b _ => Finset.sum_nonneg fun a _ => mul_nonneg (hw _) (mul_nonneg (hsum _ _) hdelta.le)

/-- **C83 (batches of signals on the rotations).** With leading axes `SO3Signal.sample` never returns. -/
theorem C83_batched (lg : LegGauss) (x : SO3Signal ι) (u : ι → (ℝ × ℝ) × ℝ) : ∃ e, sample lg true x u = .error e := by
  unfold sample
  cases h1 : S2.sample lg (integrateOverAngles x) fun i => (u i).1 with
  | error e => exact ⟨e, rfl⟩
  | ok r =>
    cases h2 : quadratureWeights lg x.s2.quad x.s2.resBeta with
    | error e => exact ⟨e, rfl⟩
    | ok g => exact ⟨_, rfl⟩

theorem axisAngle_trace {n : Fin 3 → ℝ} (hn : vnormSq n = 1) (t : ℝ) : (axisAngleToMatrix n t).trace = 1 + 2 * Real.cos t := by
  have h := trace_axis 1 hn t
  rw [repD_deg_one (axisAngleToMatrix_rot n t)] at h
  refine h.trans ?_
  simp [Finset.sum_range_succ]
  ring_nf
  simp
  ring

theorem sum_cos_theta {n : ℕ} (hn : 3 ≤ n) : ∑ t : Fin n, Real.cos (gridTheta n t) = 1 := by
  obtain ⟨N, rfl⟩ : ∃ N, n = N + 1 := ⟨n - 1, by omega⟩
  have hN : (N : ℝ) ≠ 0 := by
    have : 0 < N := by omega
    exact_mod_cast this.ne'
  have hg : ∀ t : ℕ, gridTheta (N + 1) t = gridAlpha N t := by
    intro t
    unfold gridTheta gridAlpha
    push_cast
    rw [add_sub_cancel_right]
    ring
  rw [← Finset.sum_range (fun t => Real.cos (gridTheta (N + 1) t)), Finset.sum_range_succ]
  simp_rw [hg]
  have h1 := cos_grid (n := N) 1
  have hlast : gridAlpha N N = 2 * Real.pi := by
    unfold gridAlpha
    field_simp
  rw [hlast, Real.cos_two_pi]
  simp only [Int.cast_one, one_mul] at h1
  rw [h1, if_neg, zero_add]
  intro h
  have := Int.le_of_dvd one_pos h
  omega

/-- **C83 (the uniform signal is not sampled uniformly).** For the constant signal the mean of the trace of the sampled rotation is `1 + 2 / res_theta`; over the uniform distribution of rotations it is `0`. -/
theorem C83_uniform_witness {lg : LegGauss} (hlg : GaussLegendre lg) {rb ra rt : ℕ} (hrb : 0 < rb) (hra : 0 < ra) (hrt : 3 ≤ rt) {q : Quad} {y w : Fin rb → ℝ} (hq : quadratureWeights lg q rb = .ok (y, w)) :
    ∃ (x : SO3Signal Unit) (s : (ℝ × ℝ) × ℝ → Mat), fromFunction lg (fun _ (_ : Unit) => 1) rb ra rt q = .ok x ∧ (∀ u : Unit → (ℝ × ℝ) × ℝ, (sample lg false x u).map (fun r => fun i => (r i).2) = .ok fun i => s (u i)) ∧
      ∫ u, (s u).trace ∂((unif.prod unif).prod unif) = 1 + 2 / rt ∧
      ∀ μ, IsHaar μ → ∫ R, (Matrix.of R).trace ∂μ = 0 := by
  have hex := exact_of_grid hlg hrb hq
  have hw := weights_nonneg hlg hq
  have hw1 : ∑ b, w b = 1 := by
    have := hex.exact' 1 (by simp)
    simpa using this
  let x : SO3Signal Unit := ⟨rt, rb, ra, fun _ _ _ => 1, q, .e, .o⟩
  have hx : fromFunction lg (fun _ (_ : Unit) => 1) rb ra rt q = .ok x := by
    unfold fromFunction
    rw [hq]
    rfl
  have hrt0 : (rt : ℝ) ≠ 0 := by
    have : 0 < rt := by omega
    exact_mod_cast this.ne'
  have hra0 : (ra : ℝ) ≠ 0 := by exact_mod_cast hra.ne'
  have hsumc : ∑ t : Fin rt, (1 : ℝ) * (1 - Real.cos (gridTheta rt t)) = rt - 1 := by
    simp_rw [one_mul]
    rw [Finset.sum_sub_distrib, sum_cos_theta hrt]
    simp
  have hrt1 : (0 : ℝ) < rt - 1 := by
    have : (3 : ℝ) ≤ rt := by exact_mod_cast hrt
    linarith
  have hT : ∃ (b : Fin rb) (_ : Fin ra) (t : Fin rt), 0 < w b * ((1 : ℝ) * (1 - Real.cos (gridTheta rt t))) := by
    obtain ⟨b, hb⟩ : ∃ b, 0 < w b := by
      by_contra h
      push Not at h
      have := Finset.sum_nonpos fun b (_ : b ∈ Finset.univ) => h b
      linarith
    obtain ⟨t, ht⟩ : ∃ t : Fin rt, 0 < (1 : ℝ) * (1 - Real.cos (gridTheta rt t)) := by
      by_contra h
      push Not at h
      have := Finset.sum_nonpos fun t (_ : t ∈ Finset.univ) => h t
      linarith
    exact ⟨b, ⟨0, hra⟩, t, mul_pos hb ht⟩
  obtain ⟨s, s1, s2, s3⟩ := C83_so3 hlg x (by change 0 < rt; omega) hrb hra hq (fun _ _ _ => zero_le_one) hT
  refine ⟨x, fun u => axisAngleToMatrix (gridVector (y (s u).2.1) (gridAlpha ra (s u).2.2)) (gridTheta rt (s u).1), hx, fun u => by rw [s1]; rfl, ?_, fun μ hμ => ?_⟩
  · have e : ∀ u, (axisAngleToMatrix (gridVector (y (s u).2.1) (gridAlpha ra (s u).2.2)) (gridTheta rt (s u).1)).trace = 1 + 2 * Real.cos (gridTheta rt (s u).1) :=
      fun u => axisAngle_trace (gridVector_unit (hex.nodes _) _) _
    simp_rw [e]
    have hden : ∑ b : Fin rb, ∑ _a : Fin ra, w b * ∑ t : Fin rt, (1 : ℝ) * (1 - Real.cos (gridTheta rt t)) = ra * (rt - 1) := by
      rw [hsumc]
      simp only [Finset.sum_const, Finset.card_univ, Fintype.card_fin, nsmul_eq_mul]
      rw [← Finset.mul_sum, ← Finset.sum_mul, hw1]
      ring
    have hone : angleWeight 1 = 1 := by simp [angleWeight]
    have hm := mean_draw (P := (unif.prod unif).prod unif) s2 (q := fun p => w p.2.1 / ra * (1 / rt)) (fun p => mul_nonneg (div_nonneg (hw _) (by positivity)) (by positivity)) (fun p => by
      obtain ⟨t, b, a⟩ := p
      rw [s3 t b a]
      congr 1
      change (w b * ∑ t : Fin rt, (1 : ℝ) * (1 - Real.cos (gridTheta rt t))) / (∑ b : Fin rb, ∑ _a : Fin ra, w b * ∑ t : Fin rt, (1 : ℝ) * (1 - Real.cos (gridTheta rt t))) *
        (angleWeight 1 / ∑ _t : Fin rt, angleWeight 1) = w b / ra * (1 / rt)
      rw [hden, hsumc, hone]
      simp only [Finset.sum_const, Finset.card_univ, Fintype.card_fin, nsmul_eq_mul, mul_one]
      rw [mul_div_mul_right _ _ hrt1.ne']) (fun p => 1 + 2 * Real.cos (gridTheta rt p.1))
    refine hm.trans ?_
    change ∑ p : Fin rt × Fin rb × Fin ra, w p.2.1 / ra * (1 / rt) * (1 + 2 * Real.cos (gridTheta rt p.1)) = _
    rw [Fintype.sum_prod_type]
    have e2 : ∀ t : Fin rt, ∑ p : Fin rb × Fin ra, w p.1 / ra * (1 / rt) * (1 + 2 * Real.cos (gridTheta rt t)) = (1 / rt) * (1 + 2 * Real.cos (gridTheta rt t)) := by
      intro t
      rw [Fintype.sum_prod_type]
      simp only [Finset.sum_const, Finset.card_univ, Fintype.card_fin, nsmul_eq_mul]
      have e3 : ∀ b, (ra : ℝ) * (w b / ra * (1 / rt) * (1 + 2 * Real.cos (gridTheta rt t))) = w b * ((1 / rt) * (1 + 2 * Real.cos (gridTheta rt t))) := by
        intro b
        field_simp
      simp_rw [e3]
      rw [← Finset.sum_mul, hw1, one_mul]
    refine (Finset.sum_congr rfl fun t _ => e2 t).trans ?_
    rw [← Finset.mul_sum, Finset.sum_add_distrib, ← Finset.mul_sum, sum_cos_theta hrt]
    simp only [Finset.sum_const, Finset.card_univ, Fintype.card_fin, nsmul_eq_mul, mul_one]
    field_simp
  · have hp : ∀ k : Fin 3, ∫ R, polyAt (MvPolynomial.X (k, k)) R ∂μ = 0 := fun k => by
      have := hμ.entry 1 k k (p := MvPolynomial.X (k, k)) (by
        funext R
        rw [repD_deg_one R.2]
        simp [polyFun, polyAt])
      simpa using this
    have e : ∀ R : Fin 3 → Fin 3 → ℝ, (Matrix.of R).trace = ∑ k : Fin 3, polyAt (MvPolynomial.X (k, k)) R := by
      intro R
      simp [Matrix.trace, polyAt]
    simp_rw [e]
    rw [integral_finsetSum _ fun k _ => hμ.integrable _]
    simp [hp]

end E3nn.SO3
