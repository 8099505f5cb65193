import Verif.Lemmas.SO3Int
import Mathlib.MeasureTheory.Measure.FiniteMeasureExt

/-!
# A distribution of rotations is determined by the means of the Wigner matrices
-/

namespace E3nn.SO3

open E3nn.SU2 E3nn.Rot E3nn.SH E3nn.Wig E3nn.S2 MeasureTheory
open scoped Matrix BoundedContinuousFunction

/-- A probability distribution on rotations. -/
structure OnRot (μ : Measure (Fin 3 → Fin 3 → ℝ)) : Prop where
  prob : μ Set.univ = 1
  rot : ∀ᵐ R ∂μ, IsRotation (Matrix.of R)

theorem IsHaar.onRot {μ : Measure (Fin 3 → Fin 3 → ℝ)} (h : IsHaar μ) : OnRot μ := ⟨h.prob, h.rot⟩

variable {μ ν : Measure (Fin 3 → Fin 3 → ℝ)}

theorem OnRot.integrable (hμ : OnRot μ) (p : MvPolynomial (Fin 3 × Fin 3) ℝ) : Integrable (polyAt p) μ := by
  haveI : IsProbabilityMeasure μ := ⟨hμ.prob⟩
  obtain ⟨C, hC⟩ := (isCompact_closedBall (0 : Fin 3 → Fin 3 → ℝ) 1).exists_bound_of_continuousOn (polyAt_continuous p).continuousOn
  refine Integrable.of_bound (polyAt_continuous p).aestronglyMeasurable C ?_
  filter_upwards [hμ.rot] with R hR
  refine hC R ?_
  rw [mem_closedBall_zero_iff, pi_norm_le_iff_of_nonneg zero_le_one]
  intro i
  rw [pi_norm_le_iff_of_nonneg zero_le_one]
  intro j
  exact rot_entry_le hR i j

theorem OnRot.congr (hμ : OnRot μ) {p q : MvPolynomial (Fin 3 × Fin 3) ℝ} (h : polyFun p = polyFun q) : ∫ R, polyAt p R ∂μ = ∫ R, polyAt q R ∂μ := by
  refine integral_congr_ae ?_
  filter_upwards [hμ.rot] with R hR
  exact congrFun h ⟨Matrix.of R, hR⟩

/-- All polynomials in the entries have the same mean as soon as the entries of the Wigner matrices do. -/
theorem poly_mean (hμ : OnRot μ) (hν : OnRot ν)
    (h : ∀ (l : ℕ) (i j : Fin (2 * l + 1)) (p : MvPolynomial (Fin 3 × Fin 3) ℝ), polyFun p = (fun R => repD l R.1 i j) → ∫ R, polyAt p R ∂μ = ∫ R, polyAt p R ∂ν)
    (p : MvPolynomial (Fin 3 × Fin 3) ℝ) : ∫ R, polyAt p R ∂μ = ∫ R, polyAt p R ∂ν := by
  suffices hs : ∀ f ∈ Band p.totalDegree, ∃ q, polyFun q = f ∧ ∫ R, polyAt q R ∂μ = ∫ R, polyAt q R ∂ν by
    obtain ⟨q, hq, e⟩ := hs _ (poly_band le_rfl)
    rw [hμ.congr hq.symm, hν.congr hq.symm, e]
  intro f hf
  induction hf using Submodule.span_induction with
  | mem f hf =>
    obtain ⟨l, -, i, j, rfl⟩ := hf
    obtain ⟨q, hq⟩ := entry_poly l i j
    exact ⟨q, hq, h l i j q hq⟩
  | zero => exact ⟨0, by funext R; simp [polyFun, polyAt], by simp [polyAt]⟩
  | add f g _ _ hf hg =>
    obtain ⟨q, hq, e⟩ := hf
    obtain ⟨q', hq', e'⟩ := hg
    refine ⟨q + q', by rw [← hq, ← hq']; funext R; simp [polyFun, polyAt], ?_⟩
    have : polyAt (q + q') = fun R => polyAt q R + polyAt q' R := by funext R; simp [polyAt]
    rw [this, integral_add (hμ.integrable q) (hμ.integrable q'), integral_add (hν.integrable q) (hν.integrable q'), e, e']
  | smul c f _ hf =>
    obtain ⟨q, hq, e⟩ := hf
    refine ⟨MvPolynomial.C c * q, by rw [← hq]; funext R; simp [polyFun, polyAt], ?_⟩
    have : polyAt (MvPolynomial.C c * q) = fun R => c * polyAt q R := by funext R; simp [polyAt]
    rw [this, integral_const_mul, integral_const_mul, e]

/-- The closed unit ball of matrices (for the maximum of the entries). -/
abbrev Ball : Set (Fin 3 → Fin 3 → ℝ) := Metric.closedBall 0 1

instance : CompactSpace Ball := isCompact_iff_compactSpace.mp (isCompact_closedBall _ _)

/-- The polynomials, as bounded functions on the ball. -/
noncomputable def polyAlg : StarSubalgebra ℝ (Ball →ᵇ ℝ) where
  carrier := {f | ∃ p, ∀ R : Ball, f R = polyAt p R.1}
  mul_mem' := by
    rintro f g ⟨p, hp⟩ ⟨q, hq⟩
    exact ⟨p * q, fun R => by simp [polyAt, hp, hq]⟩
  add_mem' := by
    rintro f g ⟨p, hp⟩ ⟨q, hq⟩
    exact ⟨p + q, fun R => by simp [polyAt, hp, hq]⟩
  algebraMap_mem' := by
    intro r
    exact ⟨MvPolynomial.C r, fun R => by simp [polyAt]⟩
  star_mem' := by
    rintro f ⟨p, hp⟩
    exact ⟨p, fun R => by simp [hp]⟩

theorem OnRot.ball (hμ : OnRot μ) : ∀ᵐ R ∂μ, R ∈ Ball := by
  filter_upwards [hμ.rot] with R hR
  rw [mem_closedBall_zero_iff, pi_norm_le_iff_of_nonneg zero_le_one]
  intro i
  rw [pi_norm_le_iff_of_nonneg zero_le_one]
  intro j
  exact rot_entry_le hR i j

theorem OnRot.back (hμ : OnRot μ) : (μ.comap (Subtype.val : Ball → _)).map Subtype.val = μ := by
  rw [(MeasurableEmbedding.subtype_coe Metric.isClosed_closedBall.measurableSet).map_comap, Subtype.range_coe]
  exact Measure.restrict_eq_self_of_ae_mem hμ.ball

theorem law_unique (hμ : OnRot μ) (hν : OnRot ν) (h : ∀ p, ∫ R, polyAt p R ∂μ = ∫ R, polyAt p R ∂ν) : μ = ν := by
  haveI : IsProbabilityMeasure μ := ⟨hμ.prob⟩
  haveI : IsProbabilityMeasure ν := ⟨hν.prob⟩
  have hB : IsClosed Ball := Metric.isClosed_closedBall
  haveI : PolishSpace Ball := hB.polishSpace
  have me := MeasurableEmbedding.subtype_coe hB.measurableSet
  have fin : ∀ {m : Measure (Fin 3 → Fin 3 → ℝ)} [IsProbabilityMeasure m], IsFiniteMeasure (m.comap (Subtype.val : Ball → _)) := by
    intro m _
    exact ⟨by rw [me.comap_apply]; exact measure_lt_top _ _⟩
  haveI := @fin μ _
  haveI := @fin ν _
  rw [← hμ.back, ← hν.back]
  congr 1
  refine ext_of_forall_mem_subalgebra_integral_eq_of_polish (𝕜 := ℝ) (A := polyAlg) ?_ ?_
  · intro R S hRS
    have : ∃ i j, R.1 i j ≠ S.1 i j := by
      by_contra hc
      push Not at hc
      exact hRS (Subtype.ext (funext fun i => funext fun j => hc i j))
    obtain ⟨i, j, hij⟩ := this
    let f : Ball →ᵇ ℝ := BoundedContinuousFunction.mkOfCompact ⟨fun R => R.1 i j, (continuous_apply j).comp ((continuous_apply i).comp continuous_subtype_val)⟩
    refine ⟨_, ⟨f.toContinuousMap, ?_, rfl⟩, hij⟩
    refine ⟨f, ⟨MvPolynomial.X (i, j), fun R => ?_⟩, rfl⟩
    simp [f, polyAt]
  · rintro g ⟨p, hp⟩
    simp only [hp]
    rw [← me.integral_map (μ := μ.comap _) (fun R => polyAt p R), ← me.integral_map (μ := ν.comap _) (fun R => polyAt p R), hμ.back, hν.back, h p]

/-- There is only one uniform distribution. -/
theorem law_of_entries (hμ : OnRot μ)
    (h : ∀ (l : ℕ), l ≠ 0 → ∀ (i j : Fin (2 * l + 1)) (p : MvPolynomial (Fin 3 × Fin 3) ℝ), polyFun p = (fun R => repD l R.1 i j) → ∫ R, polyAt p R ∂μ = 0) : μ = haar := by
  refine law_unique hμ haar_isHaar.onRot (poly_mean hμ haar_isHaar.onRot fun l i j p hp => ?_)
  rw [haar_isHaar.entry l i j hp]
  by_cases hl : l = 0
  · subst hl
    rw [if_pos rfl, hμ.congr (q := 1)]
    · simp [polyAt, hμ.prob, measureReal_def]
    · rw [hp]
      funext R
      have hij : i = j := by
        have := i.isLt
        have := j.isLt
        exact Fin.ext (by omega)
      rw [repD_deg_zero R.2, Matrix.one_apply, if_pos hij]
      simp [polyFun, polyAt]
  · rw [if_neg hl, h l hl i j p hp]

theorem IsHaar.unique (hμ : IsHaar μ) : μ = haar := by
  refine law_of_entries hμ.onRot fun l hl i j p hp => ?_
  rw [hμ.entry l i j hp, if_neg hl]

end E3nn.SO3
