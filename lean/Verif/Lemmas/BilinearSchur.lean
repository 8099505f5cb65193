import Verif.Lemmas.SO3Haar
import Verif.Props.C58
import Verif.Props.C84

/-!
# Equivariant bilinear maps between irreps are multiples of the Clebsch-Gordan product
-/

namespace E3nn.Wig
open E3nn.SU2 Matrix

/-- The Clebsch-Gordan coefficients intertwine, entry by entry. -/
theorem cg_entry (l1 l2 L : ℕ) (p1 p2 : Parity) {R : Matrix (Fin 3) (Fin 3) ℝ} (hR : IsOrth R) (i : Fin (2 * l1 + 1)) (j : Fin (2 * l2 + 1)) (m : Fin (2 * L + 1)) :
    ∑ a, ∑ b, dMatrix ⟨l1, p1⟩ R i a * dMatrix ⟨l2, p2⟩ R j b * clebschGordan l1 l2 L a b m =
      ∑ m', clebschGordan l1 l2 L i j m' * dMatrix ⟨L, p1.mul p2⟩ R m' m := by
  have h := congrFun (C39_clebsch_gordan l1 l2 L p1 p2 hR.transpose (fun a => if i = a then 1 else 0) (fun b => if j = b then 1 else 0)) m
  simp only [(C39_orthogonal _ hR).2, Matrix.mulVec, dotProduct, Matrix.transpose_apply, mul_ite, mul_one, mul_zero, Finset.sum_ite_eq, Finset.mem_univ, if_true,
    ite_mul, zero_mul] at h
  refine Eq.trans ?_ (h.trans ?_)
  · refine Finset.sum_congr rfl fun a _ => Finset.sum_congr rfl fun b _ => ?_
    ring
  · refine Finset.sum_congr rfl fun m' _ => ?_
    rw [mul_comm]

theorem sum4 {A B C D : Type} [Fintype A] [Fintype B] [Fintype C] [Fintype D] (F : A → B → C → D → ℝ) :
    ∑ i, ∑ j, ∑ i', ∑ j', F i j i' j' = ∑ i', ∑ j', ∑ i, ∑ j, F i j i' j' := by
  have h1 : ∀ i, ∑ j, ∑ i', ∑ j', F i j i' j' = ∑ i', ∑ j', ∑ j, F i j i' j' := by
    intro i
    rw [Finset.sum_comm]
    exact Finset.sum_congr rfl fun i' _ => Finset.sum_comm
  simp only [h1]
  rw [Finset.sum_comm]
  exact Finset.sum_congr rfl fun i' _ => Finset.sum_comm

/-- **Schur's lemma for bilinear maps.** -/
theorem bilinear_schur (a b c : Irrep) (T : Fin (2 * a.l + 1) → Fin (2 * b.l + 1) → Fin (2 * c.l + 1) → ℝ)
    (h : ∀ R : Matrix (Fin 3) (Fin 3) ℝ, IsOrth R → ∀ i j k, ∑ i', ∑ j', dMatrix a R i' i * dMatrix b R j' j * T i' j' k = ∑ k', dMatrix c R k k' * T i j k') :
    ∃ t : ℝ, ∀ i j k, T i j k = if c.p = a.p.mul b.p then t * clebschGordan a.l b.l c.l i j k else 0 := by
  have hM : ∀ (L : ℕ) (R : Matrix (Fin 3) (Fin 3) ℝ), IsOrth R →
      (Matrix.of fun (k : Fin (2 * c.l + 1)) (m : Fin (2 * L + 1)) => ∑ i, ∑ j, T i j k * clebschGordan a.l b.l L i j m) * dMatrix ⟨L, a.p.mul b.p⟩ R =
        dMatrix c R * Matrix.of fun (k : Fin (2 * c.l + 1)) (m : Fin (2 * L + 1)) => ∑ i, ∑ j, T i j k * clebschGordan a.l b.l L i j m := by
    intro L R hR
    ext k m
    rw [Matrix.mul_apply, Matrix.mul_apply]
    simp only [Matrix.of_apply]
    have e1 : ∑ k', dMatrix c R k k' * ∑ i, ∑ j, T i j k' * clebschGordan a.l b.l L i j m =
        ∑ i, ∑ j, (∑ k', dMatrix c R k k' * T i j k') * clebschGordan a.l b.l L i j m := by
      simp only [Finset.mul_sum, Finset.sum_mul]
      rw [Finset.sum_comm]
      refine Finset.sum_congr rfl fun i _ => ?_
      rw [Finset.sum_comm]
      refine Finset.sum_congr rfl fun j _ => Finset.sum_congr rfl fun k' _ => ?_
      ring
    rw [e1]
    simp only [← h R hR]
    have e2 : ∑ i, ∑ j, (∑ i', ∑ j', dMatrix a R i' i * dMatrix b R j' j * T i' j' k) * clebschGordan a.l b.l L i j m =
        ∑ i', ∑ j', T i' j' k * ∑ i, ∑ j, dMatrix a R i' i * dMatrix b R j' j * clebschGordan a.l b.l L i j m := by
      simp only [Finset.mul_sum, Finset.sum_mul]
      rw [sum4]
      refine Finset.sum_congr rfl fun i _ => Finset.sum_congr rfl fun j _ => Finset.sum_congr rfl fun i' _ => Finset.sum_congr rfl fun j' _ => ?_
      ring
    rw [e2]
    have e3 : ∀ i' j', ∑ i, ∑ j, dMatrix a R i' i * dMatrix b R j' j * clebschGordan a.l b.l L i j m =
        ∑ m', clebschGordan a.l b.l L i' j' m' * dMatrix ⟨L, a.p.mul b.p⟩ R m' m := fun i' j' => cg_entry a.l b.l L a.p b.p hR i' j' m
    simp only [e3, Finset.mul_sum, Finset.sum_mul]
    rw [Finset.sum_comm]
    refine Finset.sum_congr rfl fun i _ => ?_
    rw [Finset.sum_comm]
    refine Finset.sum_congr rfl fun j _ => Finset.sum_congr rfl fun m' _ => ?_
    ring
  have hexp : ∀ i j k, T i j k = ∑ q : CGIdx a.l b.l, (2 * ((max a.l b.l - min a.l b.l + q.1.val : ℕ) : ℝ) + 1) * clebschGordan a.l b.l _ i j q.2 *
      ∑ i', ∑ j', T i' j' k * clebschGordan a.l b.l _ i' j' q.2 := by
    intro i j k
    refine (SO3.cgAll_expand a.l b.l (fun p => T p.1 p.2 k) (i, j)).trans (Finset.sum_congr rfl fun q _ => ?_)
    have hs : Real.sqrt (2 * ((max a.l b.l - min a.l b.l + q.1.val : ℕ) : ℝ) + 1) * Real.sqrt (2 * ((max a.l b.l - min a.l b.l + q.1.val : ℕ) : ℝ) + 1) =
        2 * ((max a.l b.l - min a.l b.l + q.1.val : ℕ) : ℝ) + 1 := Real.mul_self_sqrt (by positivity)
    simp only [cgAll]
    rw [Fintype.sum_prod_type]
    simp only [Finset.mul_sum]
    refine Finset.sum_congr rfl fun i' _ => Finset.sum_congr rfl fun j' _ => ?_
    linear_combination clebschGordan a.l b.l _ i j q.2 * clebschGordan a.l b.l _ i' j' q.2 * T i' j' k * hs
  have hzero : ∀ L : ℕ, (⟨L, a.p.mul b.p⟩ : Irrep) ≠ c → ∀ k (m : Fin (2 * L + 1)), ∑ i, ∑ j, T i j k * clebschGordan a.l b.l L i j m = 0 := by
    intro L hne k m
    exact congrFun (congrFun (C39_inequivalent ⟨L, a.p.mul b.p⟩ c hne _ (hM L)) k) m
  by_cases hp : c.p = a.p.mul b.p
  · by_cases hq : ∃ q : Fin (2 * min a.l b.l + 1), max a.l b.l - min a.l b.l + q.val = c.l
    · obtain ⟨q0, hq0⟩ := hq
      obtain ⟨l, p⟩ := c
      simp only at hp hq0
      subst hp hq0
      obtain ⟨t, ht⟩ := C39_irreducible ⟨_, a.p.mul b.p⟩ _ fun R hR => hM _ R hR.1
      refine ⟨(2 * ((max a.l b.l - min a.l b.l + q0.val : ℕ) : ℝ) + 1) * t, fun i j k => ?_⟩
      rw [if_pos rfl, hexp, Fintype.sum_sigma, Finset.sum_eq_single q0]
      · rw [Finset.sum_eq_single k]
        · have := congrFun (congrFun ht k) k
          simp only [Matrix.of_apply, Matrix.smul_apply, Matrix.one_apply_eq, smul_eq_mul, mul_one] at this
          rw [this]
          ring
        · intro m _ hm
          have := congrFun (congrFun ht k) m
          simp only [Matrix.of_apply, Matrix.smul_apply, Matrix.one_apply_ne hm.symm, smul_eq_mul, mul_zero] at this
          rw [this, mul_zero]
        · simp
      · intro q _ hne
        refine Finset.sum_eq_zero fun m _ => ?_
        rw [hzero _ _ k m, mul_zero]
        intro e
        have := congrArg Irrep.l e
        simp only at this
        exact hne (Fin.ext (by omega))
      · simp
    · refine ⟨0, fun i j k => ?_⟩
      rw [if_pos hp, zero_mul, hexp]
      refine Finset.sum_eq_zero fun q _ => ?_
      rw [hzero, mul_zero]
      intro e
      exact hq ⟨q.1, congrArg Irrep.l e⟩
  · refine ⟨0, fun i j k => ?_⟩
    rw [if_neg hp, hexp]
    refine Finset.sum_eq_zero fun q _ => ?_
    rw [hzero, mul_zero]
    intro e
    exact hp (congrArg Irrep.p e).symm

end E3nn.Wig
