import Verif.Lemmas.LinAlg
import Mathlib.Analysis.Matrix.Spectrum

/-!
# C93: `gram_schmidt` and `basis_intersection`
-/

namespace E3nn.LinAlg

open Matrix

variable {ι : Type} [Fintype ι]

/-- **C93 (Gram-Schmidt).** For every array and every tolerance `ε ≥ 0`, the rows of the result are orthonormal, they are combinations of
the rows of the input, and every row of the input is within `ε` of a combination of them.  With `ε = 0` both span the same space. -/
theorem C93_gram_schmidt (eps : ℝ) (he : 0 ≤ eps) (A : List (ι → ℝ)) :
    Orthonormal (gramSchmidt eps A) ∧ rowSpan (gramSchmidt eps A) ≤ rowSpan A ∧
      (∀ a ∈ A, ∃ q ∈ rowSpan (gramSchmidt eps A), Real.sqrt ((a - q) ⬝ᵥ (a - q)) ≤ eps) ∧
      (eps = 0 → rowSpan (gramSchmidt eps A) = rowSpan A) := by
  obtain ⟨h1, -, h3, h4⟩ := gs_fold he A [] (by intro i hi; simp at hi)
  have e0 : rowSpan ([] : List (ι → ℝ)) = ⊥ := by simp [rowSpan]
  rw [e0, bot_sup_eq] at h3
  have hle : rowSpan (gramSchmidt eps A) ≤ rowSpan A := Submodule.span_le.mpr fun v hv => h3 v hv
  refine ⟨h1, hle, fun a ha => ?_, ?_⟩
  · obtain ⟨q, hq, hn⟩ := h4 a ha
    refine ⟨q, hq, ?_⟩
    rw [← Real.sqrt_sq he]
    exact Real.sqrt_le_sqrt hn
  · rintro rfl
    refine le_antisymm hle (Submodule.span_le.mpr fun a ha => ?_)
    obtain ⟨q, hq, hn⟩ := h4 a ha
    have : a = q := sub_eq_zero.mp (dot_self_eq_zero (le_antisymm (by simpa using hn) (dot_self_nonneg _)))
    rw [SetLike.mem_coe, this]; exact hq

/-- **C93 (intersection).** Given orthonormal rows `basis1` and `basis2` such that the orthogonal projection onto the second space maps
the first one into itself, and a tolerance `0 < ε ≤ 1` with `4 n ε² < 1` (for `ε = 1e-5`: fewer than 2.5 billion rows), the tolerances of
`basis_intersection` are exact: `P1 @ basis1` and `P2 @ basis2` are orthonormal bases of the intersection of the two spaces. -/
theorem C93_intersection {eigh : Eigh} (hE : EighOk eigh) {eps : ℝ} (h0 : 0 < eps) (he1 : eps ≤ 1) {B1 B2 : List (ι → ℝ)}
    (h1 : Orthonormal B1) (h2 : Orthonormal B2)
    (hc : ∀ u ∈ rowSpan B1, ∀ q ∈ rowSpan B2, (∀ w ∈ rowSpan B2, w ⬝ᵥ (u - q) = 0) → q ∈ rowSpan B1) :
    (4 * B1.length * eps ^ 2 < 1 → Orthonormal (combine B1 (basisIntersection eigh eps B1 B2).1) ∧
      rowSpan (combine B1 (basisIntersection eigh eps B1 B2).1) = rowSpan B1 ⊓ rowSpan B2) ∧
    (4 * B2.length * eps ^ 2 < 1 → Orthonormal (combine B2 (basisIntersection eigh eps B1 B2).2) ∧
      rowSpan (combine B2 (basisIntersection eigh eps B1 B2).2) = rowSpan B1 ⊓ rowSpan B2) := by
  obtain ⟨k1, k2⟩ := intersection hE h0 he1 h1 h2 hc
  refine ⟨fun hs => ⟨combine_orthonormal h1 (k1 hs).1, ?_⟩, fun hs => ⟨combine_orthonormal h2 (k2 hs).1, ?_⟩⟩
  · ext x
    rw [mem_combine_span, Submodule.mem_inf]
    constructor
    · rintro ⟨c, hc, rfl⟩
      exact ⟨mem_rowSpan.mpr ⟨c, rfl⟩, ((k1 hs).2 c).mp hc⟩
    · rintro ⟨hx, hy⟩
      obtain ⟨c, rfl⟩ := mem_rowSpan.mp hx
      exact ⟨c, ((k1 hs).2 c).mpr hy, rfl⟩
  · ext x
    rw [mem_combine_span, Submodule.mem_inf]
    constructor
    · rintro ⟨c, hc, rfl⟩
      exact ⟨((k2 hs).2 c).mp hc, mem_rowSpan.mpr ⟨c, rfl⟩⟩
    · rintro ⟨hx, hy⟩
      obtain ⟨c, rfl⟩ := mem_rowSpan.mp hy
      exact ⟨c, ((k2 hs).2 c).mpr hx, rfl⟩

/-- There are functions that keep the promise of `np.linalg.eigh` (the spectral theorem). -/
theorem exists_eigh : ∃ eigh : Eigh, EighOk eigh := by
  classical
  have H : ∀ (κ : Type) [Fintype κ] [DecidableEq κ] (p : Matrix κ κ ℝ), ∃ wv : (κ → ℝ) × Matrix κ κ ℝ,
      p.IsSymm → wv.2ᵀ * wv.2 = 1 ∧ p * wv.2 = wv.2 * diagonal wv.1 := by
    intro κ _ _ p
    by_cases hp : p.IsSymm
    · have hh : p.IsHermitian := by
        unfold Matrix.IsHermitian
        rw [conjTranspose_eq_transpose_of_trivial]; exact hp
      set U := hh.eigenvectorUnitary with hU
      refine ⟨(hh.eigenvalues, (U : Matrix κ κ ℝ)), fun _ => ?_⟩
      have hu : (star (U : Matrix κ κ ℝ)) * (U : Matrix κ κ ℝ) = 1 := Unitary.coe_star_mul_self U
      have hst : star (U : Matrix κ κ ℝ) = (U : Matrix κ κ ℝ)ᵀ := by
        rw [star_eq_conjTranspose, conjTranspose_eq_transpose_of_trivial]
      refine ⟨by rw [← hst]; exact hu, ?_⟩
      have hs := hh.spectral_theorem
      ext i j
      have := congrFun (hh.mulVec_eigenvectorBasis j) i
      simp only [Matrix.mul_diagonal]
      rw [Matrix.mul_apply]
      simp only [hU, Matrix.IsHermitian.eigenvectorUnitary_apply]
      rw [mul_comm]
      simpa [mulVec, dotProduct] using this
    · exact ⟨(0, 0), fun h => absurd h hp⟩
  exact ⟨fun κ _ _ p => (H κ p).choose, fun κ _ _ p hp => (H κ p).choose_spec hp⟩

/-- Two planes of a three dimensional space that meet in a line. -/
example : ∃ eigh : Eigh, rowSpan (combine [![1, 0, 0], ![0, 1, 0]] (basisIntersection eigh (1 / 100000) [![1, 0, 0], ![0, 1, 0]] [![0, 1, 0], ![0, 0, 1]]).1) =
    rowSpan [![(1 : ℝ), 0, 0], ![0, 1, 0]] ⊓ rowSpan [![0, 1, 0], ![0, 0, 1]] := by
  obtain ⟨eigh, hE⟩ := exists_eigh
  refine ⟨eigh, ?_⟩
  have o1 : Orthonormal [![(1 : ℝ), 0, 0], ![0, 1, 0]] := by
    intro i hi j hj
    simp only [List.length_cons, List.length_nil] at hi hj
    interval_cases i <;> interval_cases j <;> simp [dotProduct, Fin.sum_univ_succ]
  have o2 : Orthonormal [![(0 : ℝ), 1, 0], ![0, 0, 1]] := by
    intro i hi j hj
    simp only [List.length_cons, List.length_nil] at hi hj
    interval_cases i <;> interval_cases j <;> simp [dotProduct, Fin.sum_univ_succ]
  refine ((C93_intersection hE (by norm_num) (by norm_num) o1 o2 ?_).1 (by norm_num)).2
  intro u hu q hq h
  obtain ⟨a, rfl⟩ := mem_rowSpan.mp hu
  obtain ⟨b, rfl⟩ := mem_rowSpan.mp hq
  have := h ![0, 0, 1] (Submodule.subset_span (by simp))
  simp [dotProduct, Fin.sum_univ_succ] at this
  refine mem_rowSpan.mpr ⟨![0, b 0], ?_⟩
  funext i
  fin_cases i <;> simp [Fin.sum_univ_succ, this]

end E3nn.LinAlg
