import Verif.Spec.LinAlg
import Mathlib.Tactic.LinearCombination
import Mathlib.Tactic.Positivity
import Mathlib.Tactic.NormNum
import Mathlib.Tactic.Module
import Mathlib.Algebra.Order.BigOperators.Ring.Finset
import Mathlib.Data.Matrix.Mul
import Mathlib.LinearAlgebra.Matrix.NonsingularInverse
import Mathlib.Tactic.FieldSimp

/-! # Lemmas on `gram_schmidt` and `basis_intersection` -/

namespace E3nn.LinAlg

open Matrix

variable {ι : Type} [Fintype ι]

theorem orthonormal_append {Q : List (ι → ℝ)} (hQ : Orthonormal Q) {v : ι → ℝ} (hv : ∀ w ∈ Q, w ⬝ᵥ v = 0) (h1 : v ⬝ᵥ v = 1) :
    Orthonormal (Q ++ [v]) := by
  intro i hi j hj
  simp only [List.length_append, List.length_cons, List.length_nil] at hi hj
  rw [List.getElem_append, List.getElem_append]
  split <;> split
  · rename_i a b; exact hQ i a j b
  · rename_i a b
    rw [if_neg (by omega)]
    simpa using hv _ (List.getElem_mem a)
  · rename_i a b
    rw [if_neg (by omega), dotProduct_comm]
    simpa using hv _ (List.getElem_mem b)
  · rename_i a b
    rw [if_pos (by omega)]
    simpa using h1

/-- What is left of `v` is orthogonal to the rows, and what was taken away is a combination of them. -/
theorem deflate_spec {Q : List (ι → ℝ)} (hQ : Orthonormal Q) (v : ι → ℝ) :
    (∀ w ∈ Q, w ⬝ᵥ deflate Q v = 0) ∧ v - deflate Q v ∈ rowSpan Q := by
  induction Q using List.reverseRecOn with
  | nil => simp [deflate]
  | append_singleton Q u ih =>
    have hQ' : Orthonormal Q := by
      intro i hi j hj
      have := hQ i (by simp; omega) j (by simp; omega)
      rwa [List.getElem_append_left hi, List.getElem_append_left hj] at this
    have hu : u ⬝ᵥ u = 1 := by
      have := hQ Q.length (by simp) Q.length (by simp)
      simpa using this
    have ho : ∀ w ∈ Q, w ⬝ᵥ u = 0 := by
      intro w hw
      obtain ⟨i, hi, rfl⟩ := List.getElem_of_mem hw
      have := hQ i (by simp; omega) Q.length (by simp)
      rw [List.getElem_append_left hi, if_neg (by omega)] at this
      simpa using this
    obtain ⟨h1, h2⟩ := ih hQ'
    have e : deflate (Q ++ [u]) v = deflate Q v - (u ⬝ᵥ deflate Q v) • u := by simp [deflate]
    rw [e]
    constructor
    · intro w hw
      rw [List.mem_append, List.mem_singleton] at hw
      rw [dotProduct_sub, dotProduct_smul]
      rcases hw with hw | rfl
      · rw [h1 w hw, ho w hw]; simp
      · rw [hu]; simp
    · have : v - (deflate Q v - (u ⬝ᵥ deflate Q v) • u) = (v - deflate Q v) + (u ⬝ᵥ deflate Q v) • u := by abel
      rw [this]
      refine Submodule.add_mem _ (Submodule.span_mono (fun w hw => ?_) h2) (Submodule.smul_mem _ _ (Submodule.subset_span ?_))
      · simp only [Set.mem_setOf_eq] at hw ⊢; exact List.mem_append_left _ hw
      · simp

theorem dot_self_nonneg (v : ι → ℝ) : 0 ≤ v ⬝ᵥ v := Finset.sum_nonneg fun i _ => mul_self_nonneg _

theorem rowSpan_mono {Q Q' : List (ι → ℝ)} (h : ∀ v ∈ Q, v ∈ Q') : rowSpan Q ≤ rowSpan Q' := Submodule.span_mono fun v hv => h v hv

theorem gsStep_spec {eps : ℝ} (he : 0 ≤ eps) {Q : List (ι → ℝ)} (hQ : Orthonormal Q) (a : ι → ℝ) :
    Orthonormal (gsStep eps Q a) ∧ (∀ v ∈ Q, v ∈ gsStep eps Q a) ∧ (∀ v ∈ gsStep eps Q a, v ∈ rowSpan Q ⊔ Submodule.span ℝ {a}) ∧
      ∃ q ∈ rowSpan (gsStep eps Q a), (a - q) ⬝ᵥ (a - q) ≤ eps ^ 2 := by
  obtain ⟨h1, h2⟩ := deflate_spec hQ a
  set v := deflate Q a with hv
  have e : gsStep eps Q a = if Real.sqrt (v ⬝ᵥ v) > eps then Q ++ [(Real.sqrt (v ⬝ᵥ v))⁻¹ • v] else Q := rfl
  by_cases hc : Real.sqrt (v ⬝ᵥ v) > eps
  · rw [e, if_pos hc]
    have hpos : 0 < Real.sqrt (v ⬝ᵥ v) := lt_of_le_of_lt he hc
    refine ⟨orthonormal_append hQ (fun w hw => ?_) ?_, fun w hw => List.mem_append_left _ hw, ?_, a, ?_, ?_⟩
    · rw [dotProduct_smul, h1 w hw, smul_zero]
    · rw [dotProduct_smul, smul_dotProduct, smul_eq_mul, smul_eq_mul]
      have := Real.mul_self_sqrt (dot_self_nonneg v)
      field_simp
      rw [sq]; exact this.symm
    · intro w hw
      rw [List.mem_append, List.mem_singleton] at hw
      rcases hw with hw | rfl
      · exact Submodule.mem_sup_left (Submodule.subset_span hw)
      · refine Submodule.smul_mem _ _ ?_
        have : v = a - (a - v) := by abel
        rw [this]
        exact Submodule.sub_mem _ (Submodule.mem_sup_right (Submodule.mem_span_singleton_self a)) (Submodule.mem_sup_left h2)
    · have : a = (a - v) + Real.sqrt (v ⬝ᵥ v) • ((Real.sqrt (v ⬝ᵥ v))⁻¹ • v) := by
        rw [smul_smul, mul_inv_cancel₀ hpos.ne', one_smul]; abel
      rw [this]
      refine Submodule.add_mem _ (rowSpan_mono (fun w hw => List.mem_append_left _ hw) h2) (Submodule.smul_mem _ _ (Submodule.subset_span ?_))
      simp
    · simp; positivity
  · rw [e, if_neg hc]
    refine ⟨hQ, fun w hw => hw, fun w hw => Submodule.mem_sup_left (Submodule.subset_span hw), a - v, h2, ?_⟩
    have : a - (a - v) = v := by abel
    rw [this]
    rw [gt_iff_lt, not_lt] at hc
    rw [← Real.sq_sqrt (dot_self_nonneg v)]
    exact pow_le_pow_left₀ (Real.sqrt_nonneg _) hc 2

theorem gs_fold {eps : ℝ} (he : 0 ≤ eps) (A : List (ι → ℝ)) : ∀ (Q : List (ι → ℝ)), Orthonormal Q →
    Orthonormal (A.foldl (gsStep eps) Q) ∧ (∀ v ∈ Q, v ∈ A.foldl (gsStep eps) Q) ∧ (∀ v ∈ A.foldl (gsStep eps) Q, v ∈ rowSpan Q ⊔ rowSpan A) ∧
      ∀ a ∈ A, ∃ q ∈ rowSpan (A.foldl (gsStep eps) Q), (a - q) ⬝ᵥ (a - q) ≤ eps ^ 2 := by
  induction A with
  | nil => intro Q hQ; exact ⟨hQ, fun _ h => h, fun v hv => Submodule.mem_sup_left (Submodule.subset_span hv), by simp⟩
  | cons a A ih =>
    intro Q hQ
    obtain ⟨s1, s2, s3, q, hq, s4⟩ := gsStep_spec he hQ a
    obtain ⟨r1, r2, r3, r4⟩ := ih _ s1
    rw [List.foldl_cons]
    refine ⟨r1, fun v hv => r2 _ (s2 v hv), fun v hv => ?_, ?_⟩
    · have hle : rowSpan (gsStep eps Q a) ⊔ rowSpan A ≤ rowSpan Q ⊔ rowSpan (a :: A) := by
        refine sup_le ?_ (le_sup_of_le_right (rowSpan_mono fun v hv => List.mem_cons_of_mem _ hv))
        refine Submodule.span_le.mpr fun w hw => ?_
        have hle' : rowSpan Q ⊔ Submodule.span ℝ {a} ≤ rowSpan Q ⊔ rowSpan (a :: A) :=
          sup_le_sup_left (Submodule.span_mono fun v hv => by rw [Set.mem_singleton_iff] at hv; subst hv; simp) _
        exact hle' (s3 w hw)
      exact hle (r3 v hv)
    · intro b hb
      rw [List.mem_cons] at hb
      rcases hb with rfl | hb
      · exact ⟨q, rowSpan_mono r2 hq, s4⟩
      · exact r4 b hb

/-- The vector closest to `u` in the span of orthonormal rows. -/
theorem orth_decomp {Q : List (ι → ℝ)} (hQ : Orthonormal Q) (u : ι → ℝ) : ∃ q ∈ rowSpan Q, ∀ w ∈ rowSpan Q, w ⬝ᵥ (u - q) = 0 := by
  obtain ⟨h1, h2⟩ := deflate_spec hQ u
  refine ⟨u - deflate Q u, h2, ?_⟩
  have : u - (u - deflate Q u) = deflate Q u := by abel
  rw [this]
  intro w hw
  induction hw using Submodule.span_induction with
  | mem w hw => exact h1 w hw
  | zero => simp
  | add a b _ _ ha hb => rw [add_dotProduct, ha, hb, add_zero]
  | smul c a _ ha => rw [smul_dotProduct, ha, smul_zero]

theorem dot_self_eq_zero {v : ι → ℝ} (h : v ⬝ᵥ v = 0) : v = 0 := by
  unfold dotProduct at h
  rw [Finset.sum_eq_zero_iff_of_nonneg (fun i _ => mul_self_nonneg _)] at h
  funext i
  simpa using h i (Finset.mem_univ i)

theorem cauchy (u v : ι → ℝ) : (u ⬝ᵥ v) ^ 2 ≤ (u ⬝ᵥ u) * (v ⬝ᵥ v) := by
  have := Finset.sum_mul_sq_le_sq_mul_sq Finset.univ u v
  simpa [dotProduct, sq] using this

/-- The rows of a multiple of an orthogonal projection: the tolerance loses nothing. -/
theorem gs_projection {eps : ℝ} (he : 0 ≤ eps) {n : ℕ} {c : ℝ} (hc : 0 < c) {E : Matrix (Fin n) (Fin n) ℝ} (hs : E.IsSymm) (hi : E * E = E)
    (hsmall : n * eps ^ 2 < c ^ 2) : Orthonormal (gramSchmidt eps (List.ofFn (c • E))) ∧
      ∀ u, u ∈ rowSpan (gramSchmidt eps (List.ofFn (c • E))) ↔ E *ᵥ u = u := by
  obtain ⟨h1, -, h3, h4⟩ := gs_fold he (List.ofFn (c • E)) [] (by intro i hi; simp at hi)
  set Q := gramSchmidt eps (List.ofFn (c • E)) with hQdef
  have hQe : List.foldl (gsStep eps) [] (List.ofFn (c • E)) = Q := rfl
  rw [hQe] at h1 h3 h4
  have hrow : ∀ i, E *ᵥ ((c • E) i) = (c • E) i := by
    intro i
    funext j
    have h := congrFun (congrFun hi i) j
    have hE : ∀ a b, E a b = E b a := fun a b => (hs.apply a b).symm
    rw [Matrix.mul_apply] at h
    simp only [mulVec, dotProduct, Matrix.smul_apply, smul_eq_mul, Pi.smul_apply]
    rw [← h, Finset.mul_sum]
    apply Finset.sum_congr rfl
    intro k _
    rw [hE j k]; ring
  have hfix : ∀ u ∈ rowSpan Q, E *ᵥ u = u := by
    intro u hu
    induction hu using Submodule.span_induction with
    | mem u hu =>
      have := h3 u hu
      have e0 : rowSpan ([] : List (Fin n → ℝ)) = ⊥ := by simp [rowSpan]
      rw [e0, bot_sup_eq] at this
      clear hu
      induction this using Submodule.span_induction with
      | mem u hu =>
        have hu' := List.mem_ofFn.mp (Set.mem_setOf_eq ▸ hu : u ∈ List.ofFn (c • E))
        obtain ⟨i, hi'⟩ := hu'
        rw [← hi']
        exact hrow i
      | zero => simp
      | add a b _ _ ha hb => rw [mulVec_add, ha, hb]
      | smul c a _ ha => rw [mulVec_smul, ha]
    | zero => simp
    | add a b _ _ ha hb => rw [mulVec_add, ha, hb]
    | smul c a _ ha => rw [mulVec_smul, ha]
  refine ⟨h1, fun u => ⟨hfix u, fun hu => ?_⟩⟩
  obtain ⟨q, hq, ho⟩ := orth_decomp h1 u
  set r := u - q with hr
  have hEr : E *ᵥ r = r := by rw [hr, mulVec_sub, hu, hfix q hq]
  -- every coordinate of the rest is small
  have hcoord : ∀ i, (c * r i) ^ 2 ≤ eps ^ 2 * (r ⬝ᵥ r) := by
    intro i
    obtain ⟨p, hp, hle⟩ := h4 _ (List.mem_ofFn.mpr ⟨i, rfl⟩)
    have e : c * r i = ((c • E) i - p) ⬝ᵥ r := by
      rw [sub_dotProduct, ho p hp, sub_zero]
      have := congrFun hEr i
      rw [← this]
      simp only [mulVec, dotProduct, Matrix.smul_apply, smul_eq_mul, Finset.mul_sum]
      apply Finset.sum_congr rfl
      intro k _; rw [mul_assoc]
    rw [e]
    exact (cauchy _ _).trans (mul_le_mul_of_nonneg_right hle (dot_self_nonneg r))
  have hsum : c ^ 2 * (r ⬝ᵥ r) ≤ n * eps ^ 2 * (r ⬝ᵥ r) := by
    have : c ^ 2 * (r ⬝ᵥ r) = ∑ i, (c * r i) ^ 2 := by
      simp only [dotProduct, Finset.mul_sum]
      apply Finset.sum_congr rfl; intro i _; ring
    rw [this]
    refine (Finset.sum_le_sum fun i _ => hcoord i).trans ?_
    simp [mul_assoc]
  have h0 : r ⬝ᵥ r = 0 := by
    by_contra hne
    have hpos : 0 < r ⬝ᵥ r := lt_of_le_of_ne (dot_self_nonneg r) (Ne.symm hne)
    have := mul_lt_mul_of_pos_right hsmall hpos
    linarith
  have : u = q := by
    have := dot_self_eq_zero h0
    rw [hr] at this
    exact sub_eq_zero.mp this
  rw [this]; exact hq

theorem mem_rowSpan {B : List (ι → ℝ)} {x : ι → ℝ} : x ∈ rowSpan B ↔ ∃ c : Fin B.length → ℝ, x = ∑ i, c i • B.get i := by
  constructor
  · intro h
    induction h using Submodule.span_induction with
    | mem u hu =>
      obtain ⟨i, hi, rfl⟩ := List.getElem_of_mem hu
      refine ⟨fun k => if k = ⟨i, hi⟩ then 1 else 0, ?_⟩
      simp
    | zero => exact ⟨0, by simp⟩
    | add a b _ _ ha hb =>
      obtain ⟨c, rfl⟩ := ha
      obtain ⟨d, rfl⟩ := hb
      exact ⟨c + d, by simp [add_smul, Finset.sum_add_distrib]⟩
    | smul r a _ ha =>
      obtain ⟨c, rfl⟩ := ha
      exact ⟨r • c, by simp [Finset.smul_sum, smul_smul]⟩
  · rintro ⟨c, rfl⟩
    exact Submodule.sum_mem _ fun i _ => Submodule.smul_mem _ _ (Submodule.subset_span (List.get_mem _ _))

theorem Orthonormal.get {B : List (ι → ℝ)} (h : Orthonormal B) (i j : Fin B.length) : B.get i ⬝ᵥ B.get j = if i = j then 1 else 0 := by
  have := h i i.2 j j.2
  simp only [List.get_eq_getElem, Fin.ext_iff]
  exact this

theorem dot_sum_smul {κ : Type} [Fintype κ] (c : κ → ℝ) (f : κ → ι → ℝ) (y : ι → ℝ) : (∑ i, c i • f i) ⬝ᵥ y = ∑ i, c i * (f i ⬝ᵥ y) := by
  rw [sum_dotProduct]; simp

theorem Orthonormal.coord {B : List (ι → ℝ)} (h : Orthonormal B) (c : Fin B.length → ℝ) (j : Fin B.length) : (∑ i, c i • B.get i) ⬝ᵥ B.get j = c j := by
  rw [dot_sum_smul]
  simp only [h.get]
  simp

theorem Orthonormal.expand {B : List (ι → ℝ)} (h : Orthonormal B) {x : ι → ℝ} (hx : x ∈ rowSpan B) : x = ∑ i, (x ⬝ᵥ B.get i) • B.get i := by
  obtain ⟨c, rfl⟩ := mem_rowSpan.mp hx
  simp only [h.coord]

theorem Orthonormal.dot {B : List (ι → ℝ)} (h : Orthonormal B) (c d : Fin B.length → ℝ) : (∑ i, c i • B.get i) ⬝ᵥ (∑ i, d i • B.get i) = c ⬝ᵥ d := by
  rw [dotProduct_comm, dot_sum_smul, dotProduct]
  apply Finset.sum_congr rfl
  intro i _
  rw [dotProduct_comm, h.coord, mul_comm]

theorem combine_orthonormal {B : List (ι → ℝ)} (h : Orthonormal B) {P : List (Fin B.length → ℝ)} (hP : Orthonormal P) : Orthonormal (combine B P) := by
  intro i hi j hj
  simp only [combine, List.length_map] at hi hj
  simp only [combine, List.getElem_map]
  rw [h.dot]
  exact hP i hi j hj

theorem mem_combine_span {B : List (ι → ℝ)} {P : List (Fin B.length → ℝ)} {x : ι → ℝ} :
    x ∈ rowSpan (combine B P) ↔ ∃ c ∈ rowSpan P, x = ∑ i, c i • B.get i := by
  constructor
  · intro h
    induction h using Submodule.span_induction with
    | mem u hu =>
      simp only [combine, Set.mem_setOf_eq, List.mem_map] at hu
      obtain ⟨c, hc, rfl⟩ := hu
      exact ⟨c, Submodule.subset_span hc, rfl⟩
    | zero => exact ⟨0, Submodule.zero_mem _, by simp⟩
    | add a b _ _ ha hb =>
      obtain ⟨c, hc, rfl⟩ := ha
      obtain ⟨d, hd, rfl⟩ := hb
      exact ⟨c + d, Submodule.add_mem _ hc hd, by simp [add_smul, Finset.sum_add_distrib]⟩
    | smul r a _ ha =>
      obtain ⟨c, hc, rfl⟩ := ha
      exact ⟨r • c, Submodule.smul_mem _ _ hc, by simp [Finset.smul_sum, smul_smul]⟩
  · rintro ⟨c, hc, rfl⟩
    induction hc using Submodule.span_induction with
    | mem c hc => exact Submodule.subset_span (List.mem_map.mpr ⟨c, hc, rfl⟩)
    | zero => simp
    | add a b _ _ ha hb => simpa [add_smul, Finset.sum_add_distrib] using Submodule.add_mem _ ha hb
    | smul r a _ ha =>
      have := Submodule.smul_mem (rowSpan (combine B P)) r ha
      simpa [Finset.smul_sum, smul_smul] using this

/-- The scalar products of the rows. -/
def cross (B1 B2 : List (ι → ℝ)) : Matrix (Fin B1.length) (Fin B2.length) ℝ := rows B1 * (rows B2)ᵀ

theorem cross_apply (B1 B2 : List (ι → ℝ)) (i : Fin B1.length) (j : Fin B2.length) : cross B1 B2 i j = B1.get i ⬝ᵥ B2.get j := rfl

theorem rows_one {B : List (ι → ℝ)} (h : Orthonormal B) : rows B * (rows B)ᵀ = 1 := by
  ext i j
  rw [Matrix.one_apply]
  exact h.get i j

theorem overlap_eq {B1 B2 : List (ι → ℝ)} (h1 : Orthonormal B1) (h2 : Orthonormal B2) :
    overlap B1 B2 = fromBlocks 1 (-cross B1 B2) (-(cross B1 B2)ᵀ) 1 := by
  unfold overlap
  rw [rows_one h1, rows_one h2]
  simp [cross, Matrix.transpose_mul]

/-- The orthogonal projection onto the second space maps the first one into itself. -/
def Commute (B1 B2 : List (ι → ℝ)) : Prop :=
  ∀ u ∈ rowSpan B1, ∀ q ∈ rowSpan B2, (∀ w ∈ rowSpan B2, w ⬝ᵥ (u - q) = 0) → q ∈ rowSpan B1

theorem cross_idem {B1 B2 : List (ι → ℝ)} (h1 : Orthonormal B1) (h2 : Orthonormal B2) (hc : Commute B1 B2) :
    cross B1 B2 * (cross B1 B2)ᵀ * cross B1 B2 = cross B1 B2 := by
  ext i m
  set C := cross B1 B2 with hC
  set q : ι → ℝ := ∑ j, C i j • B2.get j with hq
  have hq2 : q ∈ rowSpan B2 := mem_rowSpan.mpr ⟨C i, rfl⟩
  have hqB : ∀ m, q ⬝ᵥ B2.get m = C i m := fun m => h2.coord _ m
  have hq1 : q ∈ rowSpan B1 := by
    refine hc (B1.get i) (Submodule.subset_span (List.get_mem _ _)) q hq2 ?_
    intro w hw
    obtain ⟨d, rfl⟩ := mem_rowSpan.mp hw
    rw [dot_sum_smul]
    apply Finset.sum_eq_zero
    intro j _
    rw [dotProduct_sub, dotProduct_comm _ q, hqB j, dotProduct_comm, ← cross_apply, ← hC, sub_self, mul_zero]
  have hx := h1.expand hq1
  have e : ∀ k, q ⬝ᵥ B1.get k = (C * Cᵀ) i k := by
    intro k
    rw [hq, dot_sum_smul, Matrix.mul_apply]
    apply Finset.sum_congr rfl; intro j _
    rw [Matrix.transpose_apply, dotProduct_comm]; rfl
  rw [Matrix.mul_apply, ← hqB m, hx, dot_sum_smul]
  apply Finset.sum_congr rfl; intro k _
  rw [e k]; rfl

theorem cross_fixed {B1 B2 : List (ι → ℝ)} (h1 : Orthonormal B1) (h2 : Orthonormal B2) (a : Fin B1.length → ℝ) :
    (cross B1 B2 * (cross B1 B2)ᵀ) *ᵥ a = a ↔ (∑ i, a i • B1.get i) ∈ rowSpan B2 := by
  set C := cross B1 B2 with hC
  set x : ι → ℝ := ∑ i, a i • B1.get i with hx
  have hb : ∀ j, x ⬝ᵥ B2.get j = (Cᵀ *ᵥ a) j := by
    intro j
    rw [hx, dot_sum_smul]
    simp only [mulVec, dotProduct, Matrix.transpose_apply]
    apply Finset.sum_congr rfl; intro i _
    rw [mul_comm]; rfl
  have hn : (C * Cᵀ) *ᵥ a = C *ᵥ (Cᵀ *ᵥ a) := (Matrix.mulVec_mulVec _ _ _).symm
  constructor
  · intro h
    set q : ι → ℝ := ∑ j, (Cᵀ *ᵥ a) j • B2.get j with hq
    have hxq : x ⬝ᵥ q = (Cᵀ *ᵥ a) ⬝ᵥ (Cᵀ *ᵥ a) := by
      rw [dotProduct_comm, hq, dot_sum_smul, dotProduct]
      apply Finset.sum_congr rfl; intro j _
      rw [dotProduct_comm, hb j]
    have hqq : q ⬝ᵥ q = (Cᵀ *ᵥ a) ⬝ᵥ (Cᵀ *ᵥ a) := h2.dot _ _
    have hxx : x ⬝ᵥ x = a ⬝ᵥ a := h1.dot _ _
    have haa : (Cᵀ *ᵥ a) ⬝ᵥ (Cᵀ *ᵥ a) = a ⬝ᵥ a := by
      rw [Matrix.mulVec_transpose, ← Matrix.dotProduct_mulVec, ← Matrix.mulVec_transpose, ← hn, h]
    have : (x - q) ⬝ᵥ (x - q) = 0 := by
      rw [sub_dotProduct, dotProduct_sub, dotProduct_sub, dotProduct_comm q x, hxq, hqq, hxx, haa]; ring
    have := sub_eq_zero.mp (dot_self_eq_zero this)
    rw [this]
    exact mem_rowSpan.mpr ⟨_, rfl⟩
  · intro h
    have he := h2.expand h
    rw [hn]
    funext i
    have : a i = x ⬝ᵥ B1.get i := (h1.coord a i).symm
    rw [this, he, dot_sum_smul]
    show ∑ j, C i j * (Cᵀ *ᵥ a) j = _
    apply Finset.sum_congr rfl; intro j _
    rw [hb j, mul_comm, dotProduct_comm]
    rfl

/-- The selected eigenvectors are the kernel. -/
theorem selected_kernel {m n : ℕ} {C : Matrix (Fin m) (Fin n) ℝ} (hC : C * Cᵀ * C = C) {eps : ℝ} (h0 : 0 < eps) (h1 : eps ≤ 1)
    {w : Fin m ⊕ Fin n → ℝ} {v : Matrix (Fin m ⊕ Fin n) (Fin m ⊕ Fin n) ℝ} (ho : vᵀ * v = 1)
    (he : fromBlocks 1 (-C) (-Cᵀ) 1 * v = v * diagonal w) :
    v * diagonal (fun k => if w k < eps then 1 else 0) * vᵀ = fromBlocks ((1 / 2 : ℝ) • (C * Cᵀ)) ((1 / 2 : ℝ) • C) ((1 / 2 : ℝ) • Cᵀ) ((1 / 2 : ℝ) • (Cᵀ * C)) := by
  set S := fromBlocks ((1 / 2 : ℝ) • (C * Cᵀ)) ((1 / 2 : ℝ) • C) ((1 / 2 : ℝ) • Cᵀ) ((1 / 2 : ℝ) • (Cᵀ * C)) with hS
  set p : Matrix (Fin m ⊕ Fin n) (Fin m ⊕ Fin n) ℝ := fromBlocks 1 (-C) (-Cᵀ) 1 with hp
  have hC' : Cᵀ * C * Cᵀ = Cᵀ := by
    have := congrArg Matrix.transpose hC
    simpa [Matrix.transpose_mul, Matrix.mul_assoc] using this
  have ho' : v * vᵀ = 1 := mul_eq_one_comm.mp ho
  have hSp : S * p = 0 := by
    rw [hS, hp, fromBlocks_multiply]
    simp only [Matrix.mul_one, Matrix.mul_neg, Matrix.smul_mul]
    rw [hC, hC']
    simp [← sub_eq_add_neg]
  -- p (p - 1) (p - 2) = 0
  have key : p * p - (3 : ℝ) • p + (2 : ℝ) • 1 = (2 : ℝ) • S := by
    rw [hp, fromBlocks_multiply, hS, ← fromBlocks_one, fromBlocks_smul, fromBlocks_smul, fromBlocks_smul, sub_eq_add_neg, fromBlocks_neg, fromBlocks_add,
      fromBlocks_add]
    simp only [Matrix.mul_one, Matrix.one_mul, Matrix.mul_neg, Matrix.neg_mul, neg_neg]
    congr 1 <;> module
  have hpv2 : p * p * v = v * diagonal w * diagonal w := by rw [Matrix.mul_assoc, he, ← Matrix.mul_assoc, he]
  have hSv : S * v = v * diagonal (fun k => (w k * w k - 3 * w k + 2) / 2) := by
    have e1 : (2 : ℝ) • (S * v) = (2 : ℝ) • (v * diagonal (fun k => (w k * w k - 3 * w k + 2) / 2)) := by
      rw [← Matrix.smul_mul, ← key, Matrix.add_mul, Matrix.sub_mul, hpv2, Matrix.smul_mul, he, Matrix.smul_mul, Matrix.one_mul]
      ext a b
      simp only [Matrix.add_apply, Matrix.sub_apply, Matrix.smul_apply, Matrix.mul_diagonal, smul_eq_mul]
      ring
    exact smul_right_injective _ (by norm_num : (2 : ℝ) ≠ 0) e1
  have hz : ∀ k, (w k * w k - 3 * w k + 2) / 2 * w k = 0 := by
    intro k
    have e2 : v * (diagonal (fun k => (w k * w k - 3 * w k + 2) / 2) * diagonal w) = 0 := by
      rw [← Matrix.mul_assoc, ← hSv, Matrix.mul_assoc, ← he, ← Matrix.mul_assoc, hSp, Matrix.zero_mul]
    have e3 : diagonal (fun k => (w k * w k - 3 * w k + 2) / 2) * diagonal w = 0 := by
      have := congrArg (vᵀ * ·) e2
      simpa [← Matrix.mul_assoc, ho] using this
    have := congrFun (congrFun e3 k) k
    simpa [Matrix.diagonal_mul] using this
  have hg : (fun k => if w k < eps then (1 : ℝ) else 0) = fun k => (w k * w k - 3 * w k + 2) / 2 := by
    funext k
    have h := hz k
    have h' : w k = 0 ∨ w k = 1 ∨ w k = 2 := by
      have : w k * ((w k - 1) * (w k - 2)) = 0 := by linear_combination 2 * h
      rcases mul_eq_zero.mp this with h | h
      · exact Or.inl h
      · rcases mul_eq_zero.mp h with h | h
        · exact Or.inr (Or.inl (by linarith))
        · exact Or.inr (Or.inr (by linarith))
    rcases h' with h | h | h
    · rw [h, if_pos h0]; norm_num
    · rw [h, if_neg (by linarith)]; norm_num
    · rw [h, if_neg (by linarith)]; norm_num
  rw [hg, ← hSv, Matrix.mul_assoc, ho', Matrix.mul_one]

theorem selected_eq {n : ℕ} {κ : Type} [Fintype κ] [DecidableEq κ] {eps : ℝ} (wv : (κ → ℝ) × Matrix κ κ ℝ) (f : Fin n → κ) :
    selected eps wv f = List.ofFn fun i j => (wv.2 * diagonal (fun k => if wv.1 k < eps then (1 : ℝ) else 0) * wv.2ᵀ) (f i) (f j) := by
  unfold selected
  congr 1
  funext i j
  rw [Matrix.mul_apply, Finset.sum_filter]
  apply Finset.sum_congr rfl; intro k _
  rw [Matrix.mul_diagonal, Matrix.transpose_apply]
  split <;> simp

theorem overlap_symm (B1 B2 : List (ι → ℝ)) : (overlap B1 B2).IsSymm := by
  unfold overlap Matrix.IsSymm
  rw [fromBlocks_transpose]
  simp [Matrix.transpose_mul]

theorem intersection {eigh : Eigh} (hE : EighOk eigh) {eps : ℝ} (h0 : 0 < eps) (he1 : eps ≤ 1) {B1 B2 : List (ι → ℝ)} (h1 : Orthonormal B1) (h2 : Orthonormal B2)
    (hc : Commute B1 B2) : (4 * B1.length * eps ^ 2 < 1 → Orthonormal (basisIntersection eigh eps B1 B2).1 ∧
        ∀ a, a ∈ rowSpan (basisIntersection eigh eps B1 B2).1 ↔ (∑ i, a i • B1.get i) ∈ rowSpan B2) ∧
      (4 * B2.length * eps ^ 2 < 1 → Orthonormal (basisIntersection eigh eps B1 B2).2 ∧
        ∀ a, a ∈ rowSpan (basisIntersection eigh eps B1 B2).2 ↔ (∑ i, a i • B2.get i) ∈ rowSpan B1) := by
  classical
  have hC := cross_idem h1 h2 hc
  set C := cross B1 B2 with hCd
  have hC' : Cᵀ * C * Cᵀ = Cᵀ := by
    have := congrArg Matrix.transpose hC
    simpa [Matrix.transpose_mul, Matrix.mul_assoc] using this
  obtain ⟨ho, hv⟩ := hE _ (overlap B1 B2) (overlap_symm B1 B2)
  unfold basisIntersection
  set wv := eigh _ (overlap B1 B2) with hwv
  rw [overlap_eq h1 h2, ← hCd] at hv
  have hk := selected_kernel hC h0 he1 ho hv
  constructor
  · intro hs
    have e : selected eps wv Sum.inl = List.ofFn ((1 / 2 : ℝ) • (C * Cᵀ)) := by
      rw [selected_eq]
      congr 1
      funext i j
      have := congrFun (congrFun hk (Sum.inl i)) (Sum.inl j)
      rw [fromBlocks_apply₁₁] at this
      simpa using this
    simp only [e]
    have hi : C * Cᵀ * (C * Cᵀ) = C * Cᵀ := by rw [← Matrix.mul_assoc, hC]
    have hsy : (C * Cᵀ).IsSymm := by unfold Matrix.IsSymm; simp [Matrix.transpose_mul]
    obtain ⟨g1, g2⟩ := gs_projection h0.le (by norm_num : (0 : ℝ) < 1 / 2) hsy hi (by nlinarith)
    exact ⟨g1, fun a => (g2 a).trans (cross_fixed h1 h2 a)⟩
  · intro hs
    have e : selected eps wv Sum.inr = List.ofFn ((1 / 2 : ℝ) • (Cᵀ * C)) := by
      rw [selected_eq]
      congr 1
      funext i j
      have := congrFun (congrFun hk (Sum.inr i)) (Sum.inr j)
      rw [fromBlocks_apply₂₂] at this
      simpa using this
    simp only [e]
    have hi : Cᵀ * C * (Cᵀ * C) = Cᵀ * C := by rw [← Matrix.mul_assoc, hC']
    have hsy : (Cᵀ * C).IsSymm := by unfold Matrix.IsSymm; simp [Matrix.transpose_mul]
    obtain ⟨g1, g2⟩ := gs_projection h0.le (by norm_num : (0 : ℝ) < 1 / 2) hsy hi (by nlinarith)
    refine ⟨g1, fun a => (g2 a).trans ?_⟩
    have := cross_fixed h2 h1 a
    have e' : cross B2 B1 = Cᵀ := by simp [hCd, cross, Matrix.transpose_mul]
    rw [e', Matrix.transpose_transpose] at this
    exact this

end E3nn.LinAlg
