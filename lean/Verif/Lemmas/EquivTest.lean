import Verif.Model.EquivTest
import Verif.Lemmas.RandRot
import Verif.Lemmas.RTPEquiv
import Verif.Props.C59
import Verif.Props.C12_C20
import Verif.Props.C36_C38
import Mathlib.Probability.Distributions.Gaussian.Real
import Mathlib.MeasureTheory.Constructions.Pi

/-!
# The equivariance test (for C107)
-/

namespace E3nn.EqTest

open E3nn.IArr E3nn.Rot E3nn.SO3 E3nn.Wig MeasureTheory
open scoped Matrix

/-- The matrix of a sum of irreps. -/
noncomputable def Dm (ir : Irreps) (R : Mat) : Matrix (Fin ir.dim) (Fin ir.dim) ℝ := fun a b => RTP.entry (ir.dMatrix R) a b

theorem matVec_getD (M : List (List ℝ)) (v : List ℝ) (j : ℕ) (hj : j < M.length) :
    (matVec M v).getD j 0 = ∑ k ∈ Finset.range v.length, RTP.entry M j k * v.getD k 0 := by
  unfold matVec
  rw [List.getD_eq_getElem _ _ (by simpa using hj), List.getElem_map]
  unfold RTP.entry
  rw [List.getD_eq_getElem _ [] hj]
  generalize M[j] = row
  induction v generalizing row with
  | nil => simp
  | cons a v ih =>
    cases row with
    | nil => simp
    | cons r row =>
      rw [List.length_cons, Finset.sum_range_succ']
      rw [List.zipWith_cons_cons, List.sum_cons, ih row]
      simp only [List.getD_cons_succ, List.getD_cons_zero, smul_eq_mul]
      ring

theorem trans_array (R : Mat) {x : IArr ℝ} (hx : x.Coherent) {ir : Irreps} (hi : x.irreps = ir) {v : Fin ir.dim → ℝ} (ha : x.array = List.ofFn v) :
    ∃ y, x.transformByMatrix R = .ok y ∧ y.Coherent ∧ y.irreps = ir ∧ y.array = List.ofFn (Dm ir R *ᵥ v) := by
  subst hi
  obtain ⟨y, y1, y2, y3, -, -⟩ := C59_transform R x hx
  refine ⟨y, y1, y2, y3, ?_⟩
  have hl : y.array.length = x.irreps.dim := by rw [y2.inv.length_array, y3]
  refine List.ext_getElem (by simpa using hl) fun j h1 h2 => ?_
  have hj : j < x.irreps.dim := by omega
  obtain ⟨z, z1, z2, z3⟩ := C59_irreps_D R x hx (by rw [← Irreps.dim_eq_dimOf_expand]; omega)
  rw [y1] at z1; cases z1
  rw [← Irreps.dim_eq_dimOf_expand] at z3
  rw [← List.getD_eq_getElem y.array 0 h1, z2, matVec_getD _ _ _ (by omega), List.getElem_ofFn, ha, List.length_ofFn, Finset.sum_range]
  refine Finset.sum_congr rfl fun k _ => ?_
  simp only [Dm]
  congr 1
  exact getD_ofFn _ _ _

theorem of_vec (ir : Irreps) (v : Fin ir.dim → ℝ) : ∃ x, ofArray ir (List.ofFn v) = .ok x ∧ x.Coherent ∧ x.irreps = ir ∧ x.array = List.ofFn v := by
  obtain ⟨x, h1, h2, h3, h4, -⟩ := (C12_from_array ir (List.ofFn v)).1 (by rw [List.length_ofFn, Irreps.dim_eq_dimOf_expand])
  exact ⟨x, h1, h2, h3, h4⟩

theorem Dm_mul (ir : Irreps) {R S : Mat} (hR : IsOrth R) (hS : IsOrth S) (v : Fin ir.dim → ℝ) : Dm ir (R * S) *ᵥ v = Dm ir R *ᵥ (Dm ir S *ᵥ v) := by
  obtain ⟨x, -, h2, h3, h4⟩ := of_vec ir v
  obtain ⟨y, z, z', e1, e2, e3, e4⟩ := C59_compose hR hS x h2
  obtain ⟨y', f1, g1, g2, g3⟩ := trans_array S h2 h3 h4
  rw [e1] at f1; cases f1
  obtain ⟨y', f1, k1, k2, k3⟩ := trans_array R g1 g2 g3
  rw [e2] at f1; cases f1
  obtain ⟨y', f1, l1, l2, l3⟩ := trans_array (R * S) h2 h3 h4
  rw [e3] at f1; cases f1
  have : z.array = z'.array := by first | exact e4.array | exact e4.2 | exact e4.2.1
  rw [k3, l3] at this
  exact (List.ofFn_injective this).symm

theorem orth_neg {R : Mat} (hR : IsRotation R) : IsOrth (-R) := by
  unfold IsOrth
  rw [Matrix.transpose_neg, neg_mul_neg]
  exact hR.1

theorem det_neg_rot {R : Mat} (hR : IsRotation R) : (-R).det = -1 := by
  rw [Matrix.det_neg, hR.2]; simp; norm_num

theorem dMatrix_neg (ir : Irrep) {R : Mat} (hR : IsRotation R) : Wig.dMatrix ir (-R) = (ir.p.toInt : ℝ) • repD ir.l R := by
  rw [dMatrix_eq ir (orth_neg hR), det_neg_rot hR]
  have : (-1 : ℝ) • -R = R := by simp
  rw [this]
  unfold pf
  rw [det_neg_rot hR]
  cases ir.p <;> simp [Parity.toInt]

theorem repD_rand_continuous (l : ℕ) (i j : Fin (2 * l + 1)) : Continuous fun u => repD l (randMatrix u) i j := by
  simp only [repD_rand]
  have ha : Continuous fun u : ℝ × ℝ × ℝ => Real.arccos (2 * u.2.2 - 1) := Real.continuous_arccos.comp (by fun_prop)
  refine continuous_finset_sum _ fun q _ => continuous_finset_sum _ fun r _ => ?_
  exact ((rotY_continuous l i r).comp (by fun_prop)).mul (((rotY_continuous l q j).comp (by fun_prop)).mul ((rotX_continuous l r q).comp ha))

theorem entry_out {m n : ℕ} (A : Matrix (Fin m) (Fin n) ℝ) (a b : ℕ) : RTP.entry (matRows A) a b = if h : a < m ∧ b < n then A ⟨a, h.1⟩ ⟨b, h.2⟩ else 0 := by
  by_cases h : a < m ∧ b < n
  · rw [dif_pos h, ← RTP.entry_matRows A ⟨a, h.1⟩ ⟨b, h.2⟩]
  · rw [dif_neg h]
    unfold RTP.entry matRows
    by_cases ha : a < m
    · have hb : ¬ b < n := fun hb => h ⟨ha, hb⟩
      rw [List.getD_eq_getElem _ [] (by simpa using ha), List.getElem_ofFn, List.getD_eq_default]
      simpa using hb
    · rw [List.getD_eq_default _ [] (by simpa using ha)]
      simp

theorem Dm_continuous (ir : Irreps) (a b : Fin ir.dim) : Continuous fun u => Dm ir (-randMatrix u) a b := by
  simp only [Dm, RTP.dMatrix_blockDiag]
  generalize expand ir = L
  generalize (a : ℕ) = a
  generalize (b : ℕ) = b
  induction L generalizing a b with
  | nil =>
    have : ∀ a b, RTP.entry (Irreps.blockDiag []) a b = 0 := by intro a b; simp [RTP.entry, Irreps.blockDiag]
    simp only [List.map_nil, this]
    exact continuous_const
  | cons i L ih =>
    have hl : ∀ A : Matrix (Fin (2 * i.l + 1)) (Fin (2 * i.l + 1)) ℝ, (matRows A).length = 2 * i.l + 1 := by intro A; simp [matRows]
    have hB : ∀ A : Matrix (Fin (2 * i.l + 1)) (Fin (2 * i.l + 1)) ℝ, ∀ r ∈ matRows A, r.length = (matRows A).length := by
      intro A r hr
      rw [hl]
      simp only [matRows, List.mem_ofFn] at hr
      obtain ⟨k, rfl⟩ := hr
      simp
    have e : ∀ u, RTP.entry (Irreps.blockDiag ((i :: L).map fun ir => matRows (Wig.dMatrix ir (-randMatrix u)))) a b = _ :=
      fun u => by rw [List.map_cons, RTP.entry_blockDiag _ _ (hB _)]
    simp only [e, hl]
    split
    · split
      · simp only [entry_out]
        split
        · have hr : ∀ u, IsRotation (randMatrix u) := fun u => anglesToMatrix_rot _ _ _
          simp only [fun u => dMatrix_neg i (hr u), Matrix.smul_apply, smul_eq_mul]
          exact continuous_const.mul (repD_rand_continuous i.l _ _)
        · exact continuous_const
      · exact continuous_const
    · split
      · exact continuous_const
      · exact ih _ _

/-! ### every rotation can be drawn -/

theorem matrixY_period (t : ℝ) : matrixY (t + 2 * Real.pi) = matrixY t := by
  simp [matrixY]

/-- The cube of the uniform numbers, with its boundary. -/
def cube : Set (ℝ × ℝ × ℝ) := Set.Icc 0 1 ×ˢ Set.Icc 0 1 ×ˢ Set.Icc 0 1

theorem exists_unit {a : ℝ} (h0 : -Real.pi < a) (h1 : a ≤ Real.pi) : ∃ x ∈ Set.Icc (0 : ℝ) 1, matrixY (2 * Real.pi * x) = matrixY a := by
  have hp := Real.pi_pos
  by_cases h : 0 ≤ a
  · refine ⟨a / (2 * Real.pi), ⟨by positivity, ?_⟩, ?_⟩
    · rw [div_le_one (by positivity)]; linarith
    · congr 1; field_simp
  · refine ⟨a / (2 * Real.pi) + 1, ⟨?_, ?_⟩, ?_⟩
    · have : -1 ≤ a / (2 * Real.pi) := by rw [le_div_iff₀ (by positivity)]; linarith
      linarith
    · have : a / (2 * Real.pi) ≤ 0 := div_nonpos_of_nonpos_of_nonneg (by linarith) (by positivity)
      linarith
    · rw [← matrixY_period a]
      congr 1; field_simp

theorem exists_draw {R : Mat} (hR : IsRotation R) : ∃ u ∈ cube, randMatrix u = R := by
  obtain ⟨h1, h2, h3⟩ := C36_ranges R hR
  obtain ⟨x, hx, ex⟩ := exists_unit h1.1 h1.2
  obtain ⟨y, hy, ey⟩ := exists_unit h3.1 h3.2
  refine ⟨(x, y, (1 + Real.cos (matrixToAngles R).2.1) / 2), ⟨hx, hy, ?_, ?_⟩, ?_⟩
  · have := Real.neg_one_le_cos (matrixToAngles R).2.1
    simp only; linarith
  · have := Real.cos_le_one (matrixToAngles R).2.1
    simp only; linarith
  · have e : 2 * ((1 + Real.cos (matrixToAngles R).2.1) / 2) - 1 = Real.cos (matrixToAngles R).2.1 := by ring
    simp only [randMatrix, randAngles]
    rw [e, Real.arccos_cos h2.1 h2.2, anglesToMatrix, ex, ey]
    exact C36_round_trip R hR

/-! ### what holds almost surely holds everywhere -/

section
variable {V : Type} [TopologicalSpace V] [MeasurableSpace V] (γ : Measure V) [γ.IsOpenPosMeasure] [SFinite γ]

theorem everywhere [OpensMeasurableSpace (((ℝ × ℝ × ℝ)) × V)] {C : Set ((ℝ × ℝ × ℝ) × V)} (hC : IsClosed C) (h : ∀ᵐ w ∂(unif3.prod γ), w ∈ C) {u : ℝ × ℝ × ℝ} (hu : u ∈ cube) (v : V) : (u, v) ∈ C := by
  by_contra hc
  let O : Set (ℝ × ℝ × ℝ) := Set.Ioo 0 1 ×ˢ Set.Ioo 0 1 ×ˢ Set.Ioo 0 1
  have hO : IsOpen O := isOpen_Ioo.prod (isOpen_Ioo.prod isOpen_Ioo)
  have hcl : u ∈ closure O := by
    simp only [O, closure_prod_eq, closure_Ioo (zero_ne_one' ℝ)]
    exact hu
  have hcl' : (u, v) ∈ closure (O ×ˢ (Set.univ : Set V)) := by
    rw [closure_prod_eq, closure_univ]; exact ⟨hcl, trivial⟩
  obtain ⟨w, hw1, hw2⟩ := mem_closure_iff.mp hcl' Cᶜ hC.isOpen_compl hc
  let T : Set ((ℝ × ℝ × ℝ) × V) := Cᶜ ∩ O ×ˢ Set.univ
  have hT : IsOpen T := hC.isOpen_compl.inter (hO.prod isOpen_univ)
  have hpos : (volume.prod γ : Measure ((ℝ × ℝ × ℝ) × V)) T ≠ 0 := (hT.measure_pos _ ⟨w, hw1, hw2⟩).ne'
  have hI : unif3 = (volume : Measure (ℝ × ℝ × ℝ)).restrict (Set.Ico 0 1 ×ˢ Set.Ico 0 1 ×ˢ Set.Ico 0 1) := by
    unfold unif3 unif
    rw [Measure.prod_restrict, Measure.prod_restrict]
    rfl
  have e : unif3.prod γ = ((volume : Measure (ℝ × ℝ × ℝ)).prod γ).restrict ((Set.Ico 0 1 ×ˢ Set.Ico 0 1 ×ˢ Set.Ico 0 1) ×ˢ Set.univ) := by
    rw [hI]
    conv_lhs => rw [← Measure.restrict_univ (μ := γ)]
    rw [Measure.prod_restrict]
  have h0 : (unif3.prod γ) T = 0 := by
    refine measure_mono_null ?_ (ae_iff.mp h)
    intro w hw
    exact hw.1
  rw [e, Measure.restrict_apply hT.measurableSet] at h0
  refine hpos ?_
  rw [← h0]
  congr 1
  refine (Set.inter_eq_left.mpr ?_).symm
  rintro ⟨a, b⟩ ⟨-, ⟨ha, -⟩⟩
  exact ⟨⟨Set.Ioo_subset_Ico_self ha.1, Set.Ioo_subset_Ico_self ha.2.1, Set.Ioo_subset_Ico_self ha.2.2⟩, trivial⟩

end

end E3nn.EqTest
