import Verif.Lemmas.RTPFlat

/-! # The constraint step: Schur's lemma and the intersection of the two bases -/

namespace E3nn.RTP

open Finset E3nn.IArr E3nn.Wig E3nn.PermRepr E3nn.Perm E3nn.LinAlg Matrix

variable {irr : List Irreps} {G : Finset SPerm}

/-- A family of arrays that transforms as an irrep. -/
structure Fam (irr : List Irreps) (ir : Irrep) (v : Fin (2 * ir.l + 1) → Ten) : Prop where
  on : ∀ c, On (List.range irr.length) (v c)
  eq : ∀ R, IsOrth R → ∀ c, onAxes (axisDim irr) (mats irr R) (List.range irr.length) (v c) = ∑ c', Wig.dMatrix ir Rᵀ c c' • v c'

/-- The matrix elements of the average between two families. -/
noncomputable def elem (irr : List Irreps) (G : Finset SPerm) {m n : ℕ} (w : Fin m → Ten) (v : Fin n → Ten) : Matrix (Fin m) (Fin n) ℝ :=
  fun a b => axSum (axisDim irr) (List.range irr.length) (w a * avg G (v b)) 0

theorem elem_eq (hG : IsSGroup irr.length G) {m n : ℕ} {w : Fin m → Ten} {v : Fin n → Ten} (hw : ∀ a, On (List.range irr.length) (w a)) (hv : ∀ b, On (List.range irr.length) (v b))
    (a : Fin m) (b : Fin n) (σ : ℕ → ℕ) : axSum (axisDim irr) (List.range irr.length) (w a * avg G (v b)) σ = elem irr G w v a b :=
  axSum_const _ ((hw a).mul (avg_on hG (hv b))) _ _

theorem elem_intertwines (hG : IsSGroup irr.length G) (hI : SameIrreps irr G) {ir ir' : Irrep} {v : Fin (2 * ir.l + 1) → Ten} {w : Fin (2 * ir'.l + 1) → Ten} (hv : Fam irr ir v) (hw : Fam irr ir' w)
    {R : Matrix (Fin 3) (Fin 3) ℝ} (hR : IsOrth R) : elem irr G w v * Wig.dMatrix ir R = Wig.dMatrix ir' R * elem irr G w v := by
  ext a b
  have h := congrFun (axSum_rotate (axisDim irr) hR.transpose irr (f := List.range irr.length) List.nodup_range (w a) (avg G (v b))) 0
  rw [hw.eq _ hR.transpose, avg_rotate hG hI _ (hv.on b), hv.eq _ hR.transpose.transpose, avg_sum, Finset.sum_mul, Finset.mul_sum, axSum_sum, axSum_sum, Finset.sum_apply, Finset.sum_apply] at h
  rw [Matrix.mul_apply, Matrix.mul_apply]
  have e1 : ∀ c, axSum (axisDim irr) (List.range irr.length) (Wig.dMatrix ir' Rᵀᵀ a c • w c * avg G (v b)) 0 = Wig.dMatrix ir' R a c * elem irr G w v c b := by
    intro c
    rw [smul_mul_assoc, axSum_smul, Matrix.transpose_transpose]; rfl
  have e2 : ∀ c, axSum (axisDim irr) (List.range irr.length) (w a * avg G (Wig.dMatrix ir Rᵀᵀᵀ b c • v c)) 0 = elem irr G w v a c * Wig.dMatrix ir R c b := by
    intro c
    rw [avg_smul, mul_smul_comm, axSum_smul, Matrix.transpose_transpose, (C39_orthogonal ir hR).2, Matrix.transpose_apply, Pi.smul_apply, smul_eq_mul, mul_comm]; rfl
  simp only [e1, e2] at h
  exact h.symm

theorem schur_diff (hG : IsSGroup irr.length G) (hI : SameIrreps irr G) {ir ir' : Irrep} (hne : ir ≠ ir') {v : Fin (2 * ir.l + 1) → Ten} {w : Fin (2 * ir'.l + 1) → Ten} (hv : Fam irr ir v)
    (hw : Fam irr ir' w) : elem irr G w v = 0 :=
  C39_inequivalent ir ir' hne _ fun _ hR => elem_intertwines hG hI hv hw hR

theorem schur_same (hG : IsSGroup irr.length G) (hI : SameIrreps irr G) {ir : Irrep} {v w : Fin (2 * ir.l + 1) → Ten} (hv : Fam irr ir v) (hw : Fam irr ir w) :
    elem irr G w v = elem irr G w v 0 0 • 1 := by
  obtain ⟨c, hc⟩ := C39_irreducible ir (elem irr G w v) fun R hR => elem_intertwines hG hI hv hw hR.1
  rw [hc]
  simp

/-! ### dropping rows that do not matter -/

section
variable {N : ℕ} {R Pm : List (Fin N → ℝ)}

theorem permOpt_dropped {w : Fin N → ℝ} (hw : w ∈ Pm) (hd : w ∉ permOpt R Pm) {u : Fin N → ℝ} (hu : u ∈ rowSpan R) : w ⬝ᵥ u = 0 := by
  classical
  have h : ∀ k, (∃ r ∈ R, r k ≠ 0) → w k = 0 := by
    intro k hk
    by_contra hne
    apply hd
    unfold permOpt
    rw [List.mem_filter]
    exact ⟨hw, decide_eq_true ⟨k, hk, hne⟩⟩
  induction hu using Submodule.span_induction with
  | mem r hr =>
    rw [dotProduct]
    refine sum_eq_zero fun k _ => ?_
    by_cases e : r k = 0
    · rw [e, mul_zero]
    · rw [h k ⟨r, hr, e⟩, zero_mul]
  | zero => simp
  | add a b _ _ ha hb => rw [dotProduct_add, ha, hb, add_zero]
  | smul c a _ ha => rw [dotProduct_smul, ha, smul_zero]

theorem orth_of_ne (h : Orthonormal Pm) {a b : Fin N → ℝ} (ha : a ∈ Pm) (hb : b ∈ Pm) (hab : a ≠ b) : a ⬝ᵥ b = 0 := by
  obtain ⟨i, hi, rfl⟩ := List.getElem_of_mem ha
  obtain ⟨j, hj, rfl⟩ := List.getElem_of_mem hb
  rw [h i hi j hj, if_neg]
  intro e
  subst e
  exact hab rfl

theorem orthonormal_iff {B : List (Fin N → ℝ)} : Orthonormal B ↔ (B.Pairwise fun x y => x ⬝ᵥ y = 0) ∧ ∀ x ∈ B, x ⬝ᵥ x = 1 := by
  constructor
  · intro h
    refine ⟨?_, ?_⟩
    · rw [List.pairwise_iff_getElem]
      intro i j hi hj hij
      rw [h i hi j hj, if_neg (by omega)]
    · intro x hx
      obtain ⟨i, hi, rfl⟩ := List.getElem_of_mem hx
      rw [h i hi i hi, if_pos rfl]
  · rintro ⟨h1, h2⟩ i hi j hj
    rw [List.pairwise_iff_getElem] at h1
    by_cases e : i = j
    · subst e; rw [if_pos rfl]; exact h2 _ (List.getElem_mem hi)
    · rw [if_neg e]
      rcases lt_or_gt_of_ne e with h | h
      · exact h1 i j hi hj h
      · rw [dotProduct_comm]; exact h1 j i hj hi h

theorem permOpt_orthonormal (h : Orthonormal Pm) : Orthonormal (permOpt R Pm) := by
  rw [orthonormal_iff] at h ⊢
  exact ⟨h.1.sublist List.filter_sublist, fun x hx => h.2 x (List.mem_filter.mp hx).1⟩

theorem permOpt_le : rowSpan (permOpt R Pm) ≤ rowSpan Pm := Submodule.span_mono fun _ hx => (List.mem_filter.mp hx).1

theorem permOpt_orth (h : Orthonormal Pm) {u q : Fin N → ℝ} (hu : u ∈ rowSpan R) (hq : q ∈ rowSpan (permOpt R Pm)) (ho : ∀ w ∈ rowSpan (permOpt R Pm), w ⬝ᵥ (u - q) = 0) :
    ∀ w ∈ rowSpan Pm, w ⬝ᵥ (u - q) = 0 := by
  intro w hw
  induction hw using Submodule.span_induction with
  | mem w hw =>
    by_cases hk : w ∈ permOpt R Pm
    · exact ho w (Submodule.subset_span hk)
    · rw [dotProduct_sub, permOpt_dropped hw hk hu, zero_sub, neg_eq_zero]
      clear ho
      induction hq using Submodule.span_induction with
      | mem r hr => exact orth_of_ne h hw (List.mem_filter.mp hr).1 fun e => hk (e ▸ hr)
      | zero => simp
      | add a b _ _ ha hb => rw [dotProduct_add, ha, hb, add_zero]
      | smul c a _ ha => rw [dotProduct_smul, ha, smul_zero]
  | zero => simp
  | add a b _ _ ha hb => rw [add_dotProduct, ha, hb, add_zero]
  | smul c a _ ha => rw [smul_dotProduct, ha, smul_zero]

theorem permOpt_mem (h : Orthonormal Pm) {u : Fin N → ℝ} (hu : u ∈ rowSpan R) : u ∈ rowSpan (permOpt R Pm) ↔ u ∈ rowSpan Pm := by
  refine ⟨fun hm => permOpt_le hm, fun hm => ?_⟩
  obtain ⟨q, hq, ho⟩ := orth_decomp (permOpt_orthonormal (R := R) h) u
  have h2 := permOpt_orth h hu hq ho
  have h3 : u - q ∈ rowSpan Pm := Submodule.sub_mem _ hm (permOpt_le hq)
  have h4 := h2 _ h3
  have h5 : u - q = 0 := dotProduct_self_eq_zero.mp h4
  rw [sub_eq_zero.mp h5]; exact hq

end

end E3nn.RTP
