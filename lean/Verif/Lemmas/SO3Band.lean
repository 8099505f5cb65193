import Verif.Lemmas.SO3Quad
import Verif.Lemmas.Gaussian
import Verif.Spec.SO3
import Mathlib.Algebra.MvPolynomial.Degrees
import Mathlib.Topology.Algebra.MvPolynomial
import Mathlib.Algebra.Algebra.Operations

/-!
# Polynomials on the rotations, their integral and their series of Wigner matrices
-/

namespace E3nn.SO3

open E3nn.SU2 E3nn.Rot E3nn.SH E3nn.Wig E3nn.S2 MeasureTheory
open scoped Matrix

/-- The rotations. -/
abbrev Rotn : Type := {R : Mat // IsRotation R}

theorem repD_deg_zero {S : Mat} (hS : IsRotation S) : repD 0 S = 1 := by
  have h := repD_orth 0 hS
  have h' : ∀ w, dWord 0 w = 1 := by
    intro w
    induction w with
    | nil => simp [dWord]
    | cons v w ih =>
      have : dWord 0 (v :: w) = wignerLog 0 v * dWord 0 w := by simp [dWord]
      rw [this, ih, wignerLog_zero_deg, Matrix.one_mul]
  unfold repD
  exact h' _

/-- The span of the entries of the Wigner matrices of degree up to `L`. -/
noncomputable def Band (L : ℕ) : Submodule ℝ (Rotn → ℝ) := Submodule.span ℝ {f | ∃ l ≤ L, ∃ i j, f = fun R => repD l R.1 i j}

theorem Band.entry {L l : ℕ} (h : l ≤ L) (i j : Fin (2 * l + 1)) : (fun R : Rotn => repD l R.1 i j) ∈ Band L := Submodule.subset_span ⟨l, h, i, j, rfl⟩

theorem Band.mono {L L' : ℕ} (h : L ≤ L') : Band L ≤ Band L' := by
  refine Submodule.span_mono ?_
  rintro f ⟨l, hl, i, j, rfl⟩
  exact ⟨l, hl.trans h, i, j, rfl⟩

theorem repD_prod (a b : ℕ) {R : Mat} (hR : IsRotation R) (p p' : Fin (2 * a + 1) × Fin (2 * b + 1)) :
    repD a R p'.1 p.1 * repD b R p'.2 p.2 = ∑ k, ∑ c, ∑ c', (cgAll a b ⟨k, c⟩ p' * cgAll a b ⟨k, c'⟩ p) * repD (deg a b k) R c c' := by
  rw [cgAll_expand a b (fun p' => repD a R p'.1 p.1 * repD b R p'.2 p.2) p', Fintype.sum_sigma]
  refine Finset.sum_congr rfl fun k _ => Finset.sum_congr rfl fun c _ => ?_
  rw [cgAll_rep a b hR k c p, Finset.mul_sum]
  exact Finset.sum_congr rfl fun c' _ => by ring

theorem Band.mul {a b : ℕ} {f g : Rotn → ℝ} (hf : f ∈ Band a) (hg : g ∈ Band b) : f * g ∈ Band (a + b) := by
  have h := Submodule.mul_mem_mul hf hg
  unfold Band at h
  rw [Submodule.span_mul_span] at h
  refine (Submodule.span_le.mpr ?_) h
  rintro _ ⟨_, ⟨l, hl, i, j, rfl⟩, _, ⟨l', hl', i', j', rfl⟩, rfl⟩
  have e : ((fun R : Rotn => repD l R.1 i j) * fun R : Rotn => repD l' R.1 i' j') =
      ∑ k, ∑ c, ∑ c', (cgAll l l' ⟨k, c⟩ (i, i') * cgAll l l' ⟨k, c'⟩ (j, j')) • (fun R : Rotn => repD (deg l l' k) R.1 c c') := by
    funext R
    simp only [Pi.mul_apply, Finset.sum_apply, Pi.smul_apply, smul_eq_mul]
    exact repD_prod l l' R.2 (j, j') (i, i')
  beta_reduce
  rw [e]
  refine Submodule.sum_mem _ fun k _ => Submodule.sum_mem _ fun c _ => Submodule.sum_mem _ fun c' _ => Submodule.smul_mem _ _ (Band.entry ?_ c c')
  have hk := k.isLt
  change max l l' - min l l' + k.val ≤ a + b
  omega

theorem Band.one (L : ℕ) : (1 : Rotn → ℝ) ∈ Band L := by
  have e : (1 : Rotn → ℝ) = fun R => repD 0 R.1 0 0 := by
    funext R
    rw [repD_deg_zero R.2]
    rfl
  rw [e]
  exact Band.entry (Nat.zero_le L) 0 0

theorem Band.coord (i j : Fin 3) : (fun R : Rotn => R.1 i j) ∈ Band 1 := by
  have e : (fun R : Rotn => R.1 i j) = fun R => repD 1 R.1 i j := by
    funext R
    rw [repD_deg_one R.2]
  rw [e]
  exact Band.entry (l := 1) le_rfl i j

/-- A polynomial as a function on the rotations. -/
noncomputable def polyFun (p : MvPolynomial (Fin 3 × Fin 3) ℝ) : Rotn → ℝ := fun R => polyAt p R.1

theorem monomial_band (s : Fin 3 × Fin 3 →₀ ℕ) : (fun R : Rotn => s.prod fun ij n => (R.1 ij.1 ij.2) ^ n) ∈ Band (s.sum fun _ n => n) := by
  have hpow : ∀ (ij : Fin 3 × Fin 3) (n : ℕ), (fun R : Rotn => (R.1 ij.1 ij.2) ^ n) ∈ Band n := by
    intro ij n
    induction n with
    | zero =>
      have : (fun R : Rotn => (R.1 ij.1 ij.2) ^ 0) = 1 := by funext R; simp
      rw [this]
      exact Band.one 0
    | succ n ih =>
      have := Band.mul ih (Band.coord ij.1 ij.2)
      have e : (fun R : Rotn => (R.1 ij.1 ij.2) ^ (n + 1)) = (fun R : Rotn => (R.1 ij.1 ij.2) ^ n) * fun R : Rotn => R.1 ij.1 ij.2 := by
        funext R
        simp [pow_succ]
      rw [e]
      exact this
  have gen : ∀ t : Finset (Fin 3 × Fin 3), (fun R : Rotn => ∏ ij ∈ t, (R.1 ij.1 ij.2) ^ s ij) ∈ Band (∑ ij ∈ t, s ij) := by
    intro t
    induction t using Finset.induction_on with
    | empty => exact Band.one 0
    | insert a t ha ih =>
      rw [Finset.sum_insert ha]
      have := Band.mul (hpow a (s a)) ih
      have e : (fun R : Rotn => ∏ ij ∈ insert a t, (R.1 ij.1 ij.2) ^ s ij) = (fun R : Rotn => (R.1 a.1 a.2) ^ s a) * fun R : Rotn => ∏ ij ∈ t, (R.1 ij.1 ij.2) ^ s ij := by
        funext R
        simp [Finset.prod_insert ha]
      rw [e]
      exact this
  exact gen s.support

theorem poly_band {p : MvPolynomial (Fin 3 × Fin 3) ℝ} {L : ℕ} (h : p.totalDegree ≤ L) : polyFun p ∈ Band L := by
  have e : polyFun p = ∑ s ∈ p.support, p.coeff s • fun R : Rotn => s.prod fun ij n => (R.1 ij.1 ij.2) ^ n := by
    funext R
    unfold polyFun polyAt
    rw [MvPolynomial.eval_eq, Finset.sum_apply]
    rfl
  rw [e]
  exact Submodule.sum_mem _ fun s hs => Submodule.smul_mem _ _ (Band.mono ((MvPolynomial.le_totalDegree hs).trans h) (monomial_band s))

/-- The entries of the Wigner matrices are polynomials. -/
theorem entry_poly (l : ℕ) (i j : Fin (2 * l + 1)) : ∃ p, polyFun p = fun R : Rotn => repD l R.1 i j := by
  induction l with
  | zero =>
    refine ⟨1, ?_⟩
    funext R
    have hij : i = j := by
      have := i.isLt
      have := j.isLt
      exact Fin.ext (by omega)
    rw [repD_deg_zero R.2, Matrix.one_apply, if_pos hij]
    simp [polyFun, polyAt]
  | succ l ih =>
    choose P hP using ih
    by_cases hl : l = 0
    · subst hl
      refine ⟨MvPolynomial.X (i, j), ?_⟩
      funext R
      have := repD_deg_one R.2
      change polyAt _ _ = repD 1 R.1 i j
      rw [this]
      simp [polyAt]
    · have hmin : min l 1 = 1 := by omega
      let k : Fin (2 * min l 1 + 1) := ⟨2, by omega⟩
      have hd : deg l 1 k = l + 1 := by
        change max l 1 - min l 1 + 2 = l + 1
        omega
      have key : ∀ (d : ℕ) (hd : deg l 1 k = d) (i j : Fin (2 * d + 1)), ∃ p, polyFun p = fun R : Rotn => repD d R.1 i j := by
        rintro d rfl c c0
        refine ⟨∑ p', ∑ p, MvPolynomial.C (cgAll l 1 ⟨k, c⟩ p' * cgAll l 1 ⟨k, c0⟩ p) * (P p'.1 p.1 * MvPolynomial.X (p'.2, p.2)), ?_⟩
        funext R
        have e : ∀ p p', polyAt (MvPolynomial.C (cgAll l 1 ⟨k, c⟩ p' * cgAll l 1 ⟨k, c0⟩ p) * (P p'.1 p.1 * MvPolynomial.X (p'.2, p.2))) R.1 =
            (cgAll l 1 ⟨k, c⟩ p' * cgAll l 1 ⟨k, c0⟩ p) * (repD l R.1 p'.1 p.1 * repD 1 R.1 p'.2 p.2) := by
          intro p p'
          have hp := congrFun (hP p'.1 p.1) R
          simp only [polyFun, polyAt] at hp
          simp only [polyAt, map_mul, MvPolynomial.eval_C, MvPolynomial.eval_X]
          rw [hp, repD_deg_one R.2]
        have e2 : polyFun (∑ p', ∑ p, MvPolynomial.C (cgAll l 1 ⟨k, c⟩ p' * cgAll l 1 ⟨k, c0⟩ p) * (P p'.1 p.1 * MvPolynomial.X (p'.2, p.2))) R =
            ∑ p', ∑ p, polyAt (MvPolynomial.C (cgAll l 1 ⟨k, c⟩ p' * cgAll l 1 ⟨k, c0⟩ p) * (P p'.1 p.1 * MvPolynomial.X (p'.2, p.2))) R.1 := by
          simp only [polyFun, polyAt, map_sum]
        rw [e2]
        simp_rw [e]
        rw [Finset.sum_comm]
        have e3 : ∀ p, ∑ p', (cgAll l 1 ⟨k, c⟩ p' * cgAll l 1 ⟨k, c0⟩ p) * (repD l R.1 p'.1 p.1 * repD 1 R.1 p'.2 p.2) =
            ∑ c', repD (deg l 1 k) R.1 c c' * (cgAll l 1 ⟨k, c'⟩ p * cgAll l 1 ⟨k, c0⟩ p) := by
          intro p
          have := cgAll_rep l 1 R.2 k c p
          rw [← Finset.sum_congr rfl fun p' _ => by rw [mul_comm (cgAll l 1 ⟨k, c⟩ p'), mul_assoc], ← Finset.mul_sum, this, Finset.mul_sum]
          exact Finset.sum_congr rfl fun c' _ => by ring
        simp_rw [e3]
        rw [Finset.sum_comm]
        simp_rw [← Finset.mul_sum]
        have e4 : ∀ c' : Fin (2 * deg l 1 k + 1), ∑ p, cgAll l 1 ⟨k, c'⟩ p * cgAll l 1 ⟨k, c0⟩ p = if c' = c0 then 1 else 0 := by
          intro c'
          have := congrFun (congrFun (cgAll_mul l 1) ⟨k, c'⟩) ⟨k, c0⟩
          rw [Matrix.mul_apply] at this
          simp only [Matrix.transpose_apply] at this
          rw [this, Matrix.one_apply]
          by_cases h : c' = c0
          · rw [if_pos h, if_pos (by rw [h])]
          · rw [if_neg h, if_neg]
            intro h'
            exact h (eq_of_heq (Sigma.mk.inj h').2)
        refine Eq.trans (Finset.sum_congr rfl fun c' _ => by rw [e4 c']) ?_
        simp
      exact key _ hd i j

end E3nn.SO3
