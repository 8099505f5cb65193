import Mathlib.MeasureTheory.Integral.Bochner.Basic
import Mathlib.MeasureTheory.Integral.Bochner.L1
import Mathlib.MeasureTheory.Constructions.BorelSpace.Basic
import Mathlib.Topology.Algebra.Module.FiniteDimension
import Mathlib.Tactic.Linarith
import Mathlib.Tactic.FieldSimp

/-! # Moments up to order four of rotation invariant distributions -/

namespace E3nn.Stat
open MeasureTheory Finset

variable {d : ℕ}

/-- Invariant under all linear isometries. -/
def RotInv (ν : Measure (Fin d → ℝ)) : Prop :=
  ∀ f : (Fin d → ℝ) →ₗ[ℝ] (Fin d → ℝ), (∀ x, ∑ k, f x k ^ 2 = ∑ k, x k ^ 2) → ν.map f = ν

theorem RotInv.integral {ν : Measure (Fin d → ℝ)} (h : RotInv ν) (f : (Fin d → ℝ) →ₗ[ℝ] (Fin d → ℝ))
    (hf : ∀ x, ∑ k, f x k ^ 2 = ∑ k, x k ^ 2) {φ : (Fin d → ℝ) → ℝ} (hφ : Continuous φ) : ∫ x, φ (f x) ∂ν = ∫ x, φ x ∂ν := by
  have hm : Continuous f := LinearMap.continuous_of_finiteDimensional f
  conv_rhs => rw [← h f hf]
  rw [integral_map hm.aemeasurable hφ.aestronglyMeasurable]

/-- Change the sign of one coordinate. -/
def flip (p : Fin d) : (Fin d → ℝ) →ₗ[ℝ] (Fin d → ℝ) where
  toFun x k := if k = p then -x k else x k
  map_add' x y := by funext k; simp only [Pi.add_apply]; split <;> ring
  map_smul' c x := by funext k; simp only [Pi.smul_apply, smul_eq_mul, RingHom.id_apply]; split <;> ring

theorem flip_iso (p : Fin d) (x : Fin d → ℝ) : ∑ k, flip p x k ^ 2 = ∑ k, x k ^ 2 := by
  apply Finset.sum_congr rfl; intro k _
  show (if k = p then -x k else x k) ^ 2 = _
  split <;> ring

/-- Exchange two coordinates. -/
def exch (p q : Fin d) : (Fin d → ℝ) →ₗ[ℝ] (Fin d → ℝ) where
  toFun x k := x (Equiv.swap p q k)
  map_add' x y := rfl
  map_smul' c x := rfl

theorem exch_iso (p q : Fin d) (x : Fin d → ℝ) : ∑ k, exch p q x k ^ 2 = ∑ k, x k ^ 2 :=
  Equiv.sum_comp (Equiv.swap p q) fun k => x k ^ 2

/-- A reflection by half a right angle in the plane of two coordinates. -/
noncomputable def turn (p q : Fin d) : (Fin d → ℝ) →ₗ[ℝ] (Fin d → ℝ) where
  toFun x k := if k = p then (x p + x q) / Real.sqrt 2 else if k = q then (x p - x q) / Real.sqrt 2 else x k
  map_add' x y := by funext k; simp only [Pi.add_apply]; split_ifs <;> ring
  map_smul' c x := by funext k; simp only [Pi.smul_apply, smul_eq_mul, RingHom.id_apply]; split_ifs <;> ring

theorem turn_iso {p q : Fin d} (h : p ≠ q) (x : Fin d → ℝ) : ∑ k, turn p q x k ^ 2 = ∑ k, x k ^ 2 := by
  have e : ∀ k, turn p q x k = if k = p then (x p + x q) / Real.sqrt 2 else if k = q then (x p - x q) / Real.sqrt 2 else x k :=
    fun _ => rfl
  have s : Real.sqrt 2 ^ 2 = 2 := Real.sq_sqrt (by norm_num)
  have s0 : Real.sqrt 2 ≠ 0 := by positivity
  rw [← Finset.add_sum_erase univ _ (Finset.mem_univ p), ← Finset.add_sum_erase (univ.erase p) _ (Finset.mem_erase.mpr ⟨h.symm, Finset.mem_univ q⟩)]
  conv_rhs => rw [← Finset.add_sum_erase univ _ (Finset.mem_univ p),
    ← Finset.add_sum_erase (univ.erase p) _ (Finset.mem_erase.mpr ⟨h.symm, Finset.mem_univ q⟩)]
  rw [e p, e q, if_pos rfl, if_neg h.symm, if_pos rfl]
  have : ∑ k ∈ (univ.erase p).erase q, turn p q x k ^ 2 = ∑ k ∈ (univ.erase p).erase q, x k ^ 2 := by
    apply Finset.sum_congr rfl; intro k hk
    rw [Finset.mem_erase, Finset.mem_erase] at hk
    rw [e, if_neg hk.2.1, if_neg hk.1]
  rw [this, div_pow, div_pow, s]
  ring

section
variable {ν : Measure (Fin d → ℝ)} (h : RotInv ν)
include h

theorem first_moments (i : Fin d) : ∫ x, x i ∂ν = 0 := by
  have := h.integral (flip i) (flip_iso i) (φ := fun x => x i) (by fun_prop)
  have e : ∀ x : Fin d → ℝ, flip i x i = -x i := by
    intro x
    show (if i = i then -x i else x i) = _
    rw [if_pos rfl]
  simp only [e, integral_neg] at this
  linarith

theorem second_moments : ∃ m : ℝ, ∀ i j, ∫ x, x i * x j ∂ν = if i = j then m else 0 := by
  cases d with
  | zero => exact ⟨0, fun i => i.elim0⟩
  | succ d =>
    refine ⟨∫ x, x 0 * x 0 ∂ν, fun i j => ?_⟩
    by_cases e : i = j
    · subst e
      rw [if_pos rfl, ← h.integral (exch 0 i) (exch_iso 0 i) (φ := fun x => x i * x i) (by fun_prop)]
      show ∫ x, x (Equiv.swap 0 i i) * x (Equiv.swap 0 i i) ∂ν = _
      rw [Equiv.swap_apply_right]
    · rw [if_neg e]
      have := h.integral (flip i) (flip_iso i) (φ := fun x => x i * x j) (by fun_prop)
      have e2 : ∀ x : Fin (d + 1) → ℝ, flip i x i * flip i x j = -(x i * x j) := by
        intro x
        show (if i = i then -x i else x i) * (if j = i then -x j else x j) = _
        rw [if_pos rfl, if_neg (Ne.symm e)]; ring
      simp only [e2, integral_neg] at this
      linarith

theorem fourth_moments (hI : ∀ i j k l : Fin d, Integrable (fun x => x i * x j * (x k * x l)) ν) :
    ∃ m : ℝ, ∀ i j k l, ∫ x, x i * x j * (x k * x l) ∂ν =
      m * ((if i = j ∧ k = l then 1 else 0) + (if i = k ∧ j = l then 1 else 0) + (if i = l ∧ j = k then 1 else 0)) := by
  cases d with
  | zero => exact ⟨0, fun i => i.elim0⟩
  | succ d =>
    -- odd moments vanish
    have odd : ∀ (p i j k l : Fin (d + 1)), (∀ x : Fin (d + 1) → ℝ, flip p x i * flip p x j * (flip p x k * flip p x l) = -(x i * x j * (x k * x l))) →
        ∫ x, x i * x j * (x k * x l) ∂ν = 0 := by
      intro p i j k l e
      have := h.integral (flip p) (flip_iso p) (φ := fun x => x i * x j * (x k * x l)) (by fun_prop)
      simp only [e, integral_neg] at this
      linarith
    have fl : ∀ (p k : Fin (d + 1)) (x : Fin (d + 1) → ℝ), flip p x k = if k = p then -x k else x k := fun _ _ _ => rfl
    have m4 : ∀ i : Fin (d + 1), ∫ x, x i * x i * (x i * x i) ∂ν = ∫ x, x 0 * x 0 * (x 0 * x 0) ∂ν := by
      intro i
      rw [← h.integral (exch 0 i) (exch_iso 0 i) (φ := fun x => x i * x i * (x i * x i)) (by fun_prop)]
      show ∫ x, x (Equiv.swap 0 i i) * x (Equiv.swap 0 i i) * (x (Equiv.swap 0 i i) * x (Equiv.swap 0 i i)) ∂ν = _
      rw [Equiv.swap_apply_right]
    have z1 : ∀ i k l : Fin (d + 1), k ≠ l → ∫ x, x i * x i * (x k * x l) ∂ν = 0 := by
      intro i k l hkl
      apply odd k
      intro x
      rw [fl, fl, fl, if_pos rfl, if_neg hkl.symm]
      split <;> ring
    have m22 : ∀ i k : Fin (d + 1), i ≠ k → ∫ x, x i * x i * (x k * x k) ∂ν = (∫ x, x 0 * x 0 * (x 0 * x 0) ∂ν) / 3 := by
      intro i k hik
      have t := h.integral (turn i k) (turn_iso hik) (φ := fun x => x i * x i * (x i * x i)) (by fun_prop)
      have e : ∀ x : Fin (d + 1) → ℝ, turn i k x i * turn i k x i * (turn i k x i * turn i k x i) =
          (1 / 4) * (x i * x i * (x i * x i)) + ((3 / 2) * (x i * x i * (x k * x k)) + ((1 / 4) * (x k * x k * (x k * x k)) +
            (1 * (x i * x i * (x i * x k)) + 1 * (x k * x k * (x i * x k))))) := by
        intro x
        have s : Real.sqrt 2 ^ 2 = 2 := Real.sq_sqrt (by norm_num)
        have s0 : Real.sqrt 2 ≠ 0 := by positivity
        have : turn i k x i = (x i + x k) / Real.sqrt 2 := by show (if i = i then _ else _) = _; rw [if_pos rfl]
        rw [this]
        have s4 : Real.sqrt 2 ^ 4 = 4 := by rw [show (4 : ℕ) = 2 * 2 from rfl, pow_mul, s]; norm_num
        field_simp
        rw [s4]; ring
      simp only [e] at t
      rw [integral_add, integral_add, integral_add, integral_add, integral_const_mul, integral_const_mul, integral_const_mul,
        integral_const_mul, integral_const_mul, z1 i i k hik, z1 k i k hik, m4 i, m4 k] at t
      · linarith
      all_goals first
        | exact (hI _ _ _ _).const_mul _
        | exact ((hI _ _ _ _).const_mul _).add ((hI _ _ _ _).const_mul _)
        | exact ((hI _ _ _ _).const_mul _).add (((hI _ _ _ _).const_mul _).add ((hI _ _ _ _).const_mul _))
        | exact ((hI _ _ _ _).const_mul _).add (((hI _ _ _ _).const_mul _).add (((hI _ _ _ _).const_mul _).add ((hI _ _ _ _).const_mul _)))
    refine ⟨(∫ x, x 0 * x 0 * (x 0 * x 0) ∂ν) / 3, fun i j k l => ?_⟩
    by_cases hij : i = j
    · subst hij
      by_cases hkl : k = l
      · subst hkl
        by_cases hik : i = k
        · subst hik; rw [m4]; simp; ring
        · rw [m22 i k hik]; simp [hik]
      · rw [z1 i k l hkl]
        have : ¬ (i = k ∧ i = l) := fun e => hkl (e.1.symm.trans e.2)
        have : ¬ (i = l ∧ i = k) := fun e => hkl (e.2.symm.trans e.1)
        simp [*]
    · by_cases hik : i = k
      · subst hik
        have c : ∀ x : Fin (d + 1) → ℝ, x i * x j * (x i * x l) = x i * x i * (x j * x l) := fun x => by ring
        simp only [c]
        by_cases hjl : j = l
        · subst hjl; rw [m22 i j hij]; simp [hij]
        · rw [z1 i j l hjl]
          simp [hij, hjl, Ne.symm hij]
      · by_cases hil : i = l
        · subst hil
          have c : ∀ x : Fin (d + 1) → ℝ, x i * x j * (x k * x i) = x i * x i * (x j * x k) := fun x => by ring
          simp only [c]
          by_cases hjk : j = k
          · subst hjk; rw [m22 i j hij]; simp [hij]
          · rw [z1 i j k hjk]
            simp [hij, hjk, hik]
        · rw [odd i i j k l ?_]
          · simp [hij, hik, hil]
          · intro x
            rw [fl, fl, fl, fl, if_pos rfl, if_neg (Ne.symm hij), if_neg (Ne.symm hik), if_neg (Ne.symm hil)]; ring

end

end E3nn.Stat
