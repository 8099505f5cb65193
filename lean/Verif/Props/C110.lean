import Verif.Model.Generators
import Verif.Lemmas.RTPOptAxes
import Verif.Props.C40_C41
import Verif.Props.C59
import Mathlib.Analysis.Normed.Algebra.MatrixExponential
import Mathlib.Analysis.SpecialFunctions.Exponential

/-!
# C110: the generators of irreps
-/

namespace E3nn.Gen

open E3nn.IArr E3nn.Rot E3nn.Wig E3nn.SU2 E3nn.RTP Matrix

/-- The `n x n` matrix given by its rows. -/
def toM (n : ℕ) (M : List (List ℝ)) : Matrix (Fin n) (Fin n) ℝ := fun a b => (M.getD a []).getD b 0

/-- The block diagonal matrix of a family of square matrices, one for each irrep of the list. -/
noncomputable def bd (n : ℕ) (L : List Irrep) (D : (ir : Irrep) → Matrix (Fin (2 * ir.l + 1)) (Fin (2 * ir.l + 1)) ℝ) : Matrix (Fin n) (Fin n) ℝ :=
  toM n (Irreps.blockDiag (L.map fun ir => matRows (D ir)))

/-- The inclusion of the copy number `κ`. -/
def incl (n : ℕ) (L : List Irrep) (κ : Fin L.length) : Matrix (Fin n) (Fin (2 * (L[κ]).l + 1)) ℝ := fun x a => if x.val = offs L κ + a.val then 1 else 0

theorem offs_succ' (L : List Irrep) (κ : Fin L.length) : offs L (κ + 1) = offs L κ + (2 * (L[κ]).l + 1) := by
  unfold offs
  rw [List.take_add_one, List.map_append, List.sum_append]
  simp [Irrep.dim]

theorem offs_length (L : List Irrep) : offs L L.length = dimOf L := by
  unfold offs dimOf
  rw [List.take_length]; rfl

theorem offs_mono (L : List Irrep) {i j : ℕ} (h : i ≤ j) : offs L i ≤ offs L j := by
  unfold offs
  obtain ⟨d, rfl⟩ := Nat.exists_eq_add_of_le h
  rw [List.take_add, List.map_append, List.sum_append]
  omega

theorem offs_le (L : List Irrep) (κ : Fin L.length) : offs L κ + (2 * (L[κ]).l + 1) ≤ dimOf L := by
  rw [← offs_succ', ← offs_length]
  exact offs_mono L (by have := κ.isLt; omega)

theorem locate : ∀ (L : List Irrep) (j : ℕ), j < dimOf L → ∃ (κ : Fin L.length) (a : Fin (2 * (L[κ]).l + 1)), j = offs L κ + a
  | [], j, h => by simp [dimOf] at h
  | ir :: L, j, h => by
    by_cases hj : j < 2 * ir.l + 1
    · exact ⟨⟨0, by simp⟩, ⟨j, hj⟩, by simp [offs]⟩
    · have hd : dimOf (ir :: L) = (2 * ir.l + 1) + dimOf L := by simp [dimOf]
      obtain ⟨κ, a, h'⟩ := locate L (j - (2 * ir.l + 1)) (by omega)
      refine ⟨⟨κ + 1, by simp⟩, ⟨a, a.isLt⟩, ?_⟩
      have : offs (ir :: L) (κ + 1) = (2 * ir.l + 1) + offs L κ := by simp [offs, Irrep.dim]
      show j = offs (ir :: L) (κ + 1) + a
      rw [this]; omega

variable {L : List Irrep} {n : ℕ}

/-- Matrices are equal if they agree on every copy. -/
theorem ext_incl {m : Type} (hn : n = dimOf L) {A B : Matrix m (Fin n) ℝ} (h : ∀ κ, A * incl n L κ = B * incl n L κ) : A = B := by
  ext x j
  obtain ⟨κ, a, hj⟩ := locate L j (by rw [← hn]; exact j.isLt)
  have e := congrFun (congrFun (h κ) x) a
  have : ∀ C : Matrix m (Fin n) ℝ, (C * incl n L κ) x a = C x j := by
    intro C
    rw [Matrix.mul_apply, Finset.sum_eq_single j]
    · rw [incl, if_pos hj, mul_one]
    · intro b _ hb
      rw [incl, if_neg, mul_zero]
      intro e; exact hb (Fin.ext (by omega))
    · simp
  rwa [this, this] at e

theorem bd_incl (hn : n = dimOf L) (D : (ir : Irrep) → Matrix (Fin (2 * ir.l + 1)) (Fin (2 * ir.l + 1)) ℝ) (κ : Fin L.length) :
    bd n L D * incl n L κ = incl n L κ * D L[κ] := by
  ext x a
  have hle := offs_le L κ
  have ha := a.isLt
  have hs := offs_succ' L κ
  have hB : ∀ ir, (matRows (D ir)).length = ir.dim ∧ ∀ r ∈ matRows (D ir), r.length = ir.dim := fun ir => matRows_shape _
  have key := entry_blockDiag_slice (fun ir => matRows (D ir)) hB L κ κ.isLt x (offs L κ + a) (by omega) (by omega)
  rw [Matrix.mul_apply, Finset.sum_eq_single (⟨offs L κ + a, by omega⟩ : Fin n)]
  · rw [incl, if_pos rfl, mul_one]
    show entry (Irreps.blockDiag (L.map fun ir => matRows (D ir))) x (offs L κ + a) = _
    rw [key, Matrix.mul_apply]
    by_cases hx : offs L κ ≤ x ∧ x < offs L (κ + 1)
    · rw [if_pos hx, Finset.sum_eq_single (⟨x - offs L κ, by omega⟩ : Fin (2 * (L[κ]).l + 1))]
      · rw [incl, if_pos (by simp only; omega), one_mul, Nat.add_sub_cancel_left]
        exact entry_matRows (D L[κ]) ⟨x - offs L κ, by omega⟩ a
      · intro b _ hb
        rw [incl, if_neg, zero_mul]
        intro e; exact hb (Fin.ext (by simp only; omega))
      · simp
    · rw [if_neg hx]
      symm
      apply Finset.sum_eq_zero
      intro b _
      have := b.isLt
      rw [incl, if_neg (by omega), zero_mul]
  · intro b _ hb
    rw [incl, if_neg, mul_zero]
    intro e; exact hb (Fin.ext e)
  · simp

theorem bd_mul (hn : n = dimOf L) (D E : (ir : Irrep) → Matrix (Fin (2 * ir.l + 1)) (Fin (2 * ir.l + 1)) ℝ) : bd n L D * bd n L E = bd n L fun ir => D ir * E ir := by
  apply ext_incl hn
  intro κ
  rw [Matrix.mul_assoc, bd_incl hn, bd_incl hn, ← Matrix.mul_assoc, bd_incl hn, Matrix.mul_assoc]

theorem bd_lin (hn : n = dimOf L) {ι : Type} (s : Finset ι) (c : ι → ℝ) (D : ι → (ir : Irrep) → Matrix (Fin (2 * ir.l + 1)) (Fin (2 * ir.l + 1)) ℝ) :
    bd n L (fun ir => ∑ i ∈ s, c i • D i ir) = ∑ i ∈ s, c i • bd n L (D i) := by
  apply ext_incl hn
  intro κ
  rw [bd_incl hn, Matrix.sum_mul, Matrix.mul_sum]
  refine Finset.sum_congr rfl fun i _ => ?_
  rw [Matrix.mul_smul, Matrix.smul_mul, bd_incl hn]

theorem bd_sub (hn : n = dimOf L) (D E : (ir : Irrep) → Matrix (Fin (2 * ir.l + 1)) (Fin (2 * ir.l + 1)) ℝ) : bd n L D - bd n L E = bd n L fun ir => D ir - E ir := by
  apply ext_incl hn
  intro κ
  rw [Matrix.sub_mul, bd_incl hn, bd_incl hn, bd_incl hn, Matrix.mul_sub]

theorem bd_exp (hn : n = dimOf L) (D : (ir : Irrep) → Matrix (Fin (2 * ir.l + 1)) (Fin (2 * ir.l + 1)) ℝ) :
    NormedSpace.exp (bd n L D) = bd n L fun ir => NormedSpace.exp (D ir) := by
  apply ext_incl hn
  intro κ
  rw [bd_incl hn, ← exp_intertwine (bd_incl hn D κ).symm]

theorem bd_transpose (hn : n = dimOf L) (D : (ir : Irrep) → Matrix (Fin (2 * ir.l + 1)) (Fin (2 * ir.l + 1)) ℝ) : (bd n L D)ᵀ = bd n L fun ir => (D ir)ᵀ := by
  have hB : ∀ D : (ir : Irrep) → Matrix (Fin (2 * ir.l + 1)) (Fin (2 * ir.l + 1)) ℝ, ∀ ir, (matRows (D ir)).length = ir.dim ∧ ∀ r ∈ matRows (D ir), r.length = ir.dim := fun D ir => matRows_shape _
  ext i j
  obtain ⟨κ, a, hj⟩ := locate L j (by rw [← hn]; exact j.isLt)
  obtain ⟨μ, b, hi⟩ := locate L i (by rw [← hn]; exact i.isLt)
  have ha := a.isLt
  have hb := b.isLt
  have hs := offs_succ' L κ
  have ht := offs_succ' L μ
  show entry (Irreps.blockDiag (L.map fun ir => matRows (D ir))) j i = entry (Irreps.blockDiag (L.map fun ir => matRows (D ir)ᵀ)) i j
  rw [entry_blockDiag_slice (fun ir => matRows (D ir)) (hB D) L μ μ.isLt j i (by omega) (by omega),
    entry_blockDiag_slice (fun ir => matRows (D ir)ᵀ) (hB fun ir => (D ir)ᵀ) L κ κ.isLt i j (by omega) (by omega)]
  by_cases hκ : κ = μ
  · subst hκ
    rw [if_pos (by omega), if_pos (by omega)]
    have e1 := entry_matRows (D L[κ]) a b
    have e2 := entry_matRows (D L[κ])ᵀ b a
    rw [show j.val - offs L κ = a by omega, show i.val - offs L κ = b by omega]
    exact e1.trans (e2.trans rfl).symm
  · have hne : κ.val ≠ μ.val := fun e => hκ (Fin.ext e)
    rw [if_neg, if_neg]
    · rcases Nat.lt_or_gt_of_ne hne with h | h
      · have := offs_mono L (Nat.succ_le_of_lt h); simp only [Nat.succ_eq_add_one] at this; omega
      · have := offs_mono L (Nat.succ_le_of_lt h); simp only [Nat.succ_eq_add_one] at this; omega
    · rcases Nat.lt_or_gt_of_ne hne with h | h
      · have := offs_mono L (Nat.succ_le_of_lt h); simp only [Nat.succ_eq_add_one] at this; omega
      · have := offs_mono L (Nat.succ_le_of_lt h); simp only [Nat.succ_eq_add_one] at this; omega

/-! ### the property -/

theorem generators_ok {x : Irreps} {G : Fin 3 → List (List ℝ)} (h : x.generators = .ok G) (i : Fin 3) :
    G i = Irreps.blockDiag ((expand x).map fun ir => matRows (so3Generators ir.l i)) := by
  unfold Irreps.generators at h
  split at h
  · cases h
  · cases h
    simp only [dBlocks_eq]; rfl

theorem generators_bd {x : Irreps} {G : Fin 3 → List (List ℝ)} (h : x.generators = .ok G) (i : Fin 3) :
    toM x.dim (G i) = bd x.dim (expand x) fun ir => so3Generators ir.l i := by
  rw [generators_ok h, bd]

/-- **C110 (result).** `generators` raises if the irreps contain no copy of an irrep, and otherwise returns three square matrices of size `dim`. -/
theorem C110_shape (x : Irreps) :
    (x.dim = 0 → x.generators = .error .valueError) ∧
    (x.dim ≠ 0 → ∃ G, x.generators = .ok G ∧ ∀ i, (G i).length = x.dim ∧ ∀ r ∈ G i, r.length = x.dim) := by
  have hd := Irreps.dim_eq_dimOf_expand x
  unfold Irreps.generators
  rw [dBlocks_eq]
  constructor
  · intro h0
    have : expand x = [] := by
      cases he : expand x with
      | nil => rfl
      | cons ir L => rw [hd, he] at h0; simp [dimOf] at h0
    rw [this]; rfl
  · intro h0
    cases he : expand x with
    | nil => rw [hd, he] at h0; exact absurd rfl h0
    | cons ir L =>
      refine ⟨_, rfl, fun i => ?_⟩
      rw [dBlocks_eq, hd]
      have hrow : ∀ L : List Irrep, ∀ r ∈ Irreps.blockDiag (L.map fun ir => Irrep.generators ir i), r.length = dimOf L := by
        intro L
        induction L with
        | nil => simp [Irreps.blockDiag]
        | cons ir L ih =>
          have hs := matRows_shape (so3Generators ir.l i)
          have hl : (Irreps.blockDiag (L.map fun ir => Irrep.generators ir i)).length = dimOf L := by
            rw [blockDiag_length, List.map_map]; unfold dimOf; congr 1
            exact List.map_congr_left fun ir _ => (matRows_shape (so3Generators ir.l i)).1
          have hd' : dimOf (ir :: L) = (2 * ir.l + 1) + dimOf L := by simp [dimOf]
          intro r hr
          simp only [List.map_cons, Irreps.blockDiag, List.mem_append, List.mem_map] at hr
          rcases hr with ⟨r', h1, rfl⟩ | ⟨r', h1, rfl⟩
          · rw [List.length_append, List.length_replicate, hl, hs.2 r' h1, hd']
          · rw [List.length_append, List.length_replicate, ih r' h1, hd']
            have : (Irrep.generators ir i).length = 2 * ir.l + 1 := hs.1
            rw [this]
      refine ⟨?_, hrow _⟩
      rw [blockDiag_length, List.map_map]; unfold dimOf; congr 1
      exact List.map_congr_left fun ir _ => (matRows_shape (so3Generators ir.l i)).1

/-- **C110 (Lie algebra).** The generators are antisymmetric and satisfy the commutation relations `[X_i, X_{i+1}] = X_{i+2}` of the rotations. -/
theorem C110_algebra (x : Irreps) (G : Fin 3 → List (List ℝ)) (h : x.generators = .ok G) :
    (∀ i, (toM x.dim (G i))ᵀ = -toM x.dim (G i)) ∧
    RotationRelations fun i => toM x.dim (G i) := by
  have hd := Irreps.dim_eq_dimOf_expand x
  constructor
  · intro i
    rw [generators_bd h, bd_transpose hd]
    apply ext_incl hd
    intro κ
    rw [bd_incl hd, Matrix.neg_mul, bd_incl hd, so3_antisymm, Matrix.mul_neg]
  · intro i
    simp only [generators_bd h, bd_mul hd, bd_sub hd]
    congr 1
    funext ir
    exact C41_commutators ir.l i

/-- **C110 (exponential).** `D_from_log_coordinates(v)` is the exponential of `v_x X_x + v_y X_y + v_z X_z`. -/
theorem C110_exp (x : Irreps) (G : Fin 3 → List (List ℝ)) (h : x.generators = .ok G) (v : Vec) :
    toM x.dim (x.dLog v 0) = NormedSpace.exp (∑ i, v i • toM x.dim (G i)) := by
  have hd := Irreps.dim_eq_dimOf_expand x
  simp only [generators_bd h]
  rw [← bd_lin hd, bd_exp hd]
  have e : x.dLog v 0 = Irreps.blockDiag ((expand x).map fun ir => matRows (NormedSpace.exp (∑ i, v i • so3Generators ir.l i))) := by
    unfold Irreps.dLog
    rw [dBlocks_eq]
    have hm : (fun ir : Irrep => matRows (Wig.dLog ir v 0)) = fun ir => matRows (NormedSpace.exp (∑ i, v i • so3Generators ir.l i)) := by
      funext ir
      unfold Wig.dLog parityPow wignerLog
      rw [Real.rpow_zero, one_smul]
    rw [hm]
    cases he : expand x with
    | nil =>
      unfold Irreps.generators at h
      rw [dBlocks_eq, he] at h
      cases h
    | cons ir L => rfl
  rw [e, bd]

/-- **C110 (infinitesimal rotations).** The derivative of the representation matrix in the direction `v` at the identity is `v_x X_x + v_y X_y + v_z X_z`. -/
theorem C110_derivative (x : Irreps) (G : Fin 3 → List (List ℝ)) (h : x.generators = .ok G) (v : Vec) (a b : Fin x.dim) :
    HasDerivAt (fun t : ℝ => toM x.dim (x.dLog (fun i => t * v i) 0) a b) (∑ i, v i * toM x.dim (G i) a b) 0 := by
  have e : ∀ t : ℝ, toM x.dim (x.dLog (fun i => t * v i) 0) = NormedSpace.exp (t • ∑ i, v i • toM x.dim (G i)) := by
    intro t
    rw [C110_exp x G h, Finset.smul_sum]
    simp only [smul_smul]
  simp only [e]
  have hs : ∑ i, v i * toM x.dim (G i) a b = (∑ i, v i • toM x.dim (G i)) a b := by
    rw [Matrix.sum_apply]; rfl
  rw [hs]
  generalize (∑ i, v i • toM x.dim (G i)) = X
  open scoped Matrix.Norms.Operator in
  have h1 := hasDerivAt_exp_smul_const (𝕂 := ℝ) X 0
  rw [zero_smul, NormedSpace.exp_zero, one_mul] at h1
  let L : Matrix (Fin x.dim) (Fin x.dim) ℝ →ₗ[ℝ] ℝ := Matrix.entryLinearMap ℝ ℝ a b
  open scoped Matrix.Norms.Operator in
  exact (L.toContinuousLinearMap.hasFDerivAt.comp_hasDerivAt (0 : ℝ) h1)

/-- **C110 (equivariant maps).** A linear map commutes with all rotations if and only if it commutes with the generators. -/
theorem C110_equivariant (x y : Irreps) (G H : Fin 3 → List (List ℝ)) (hx : x.generators = .ok G) (hy : y.generators = .ok H) (T : Matrix (Fin y.dim) (Fin x.dim) ℝ) :
    (∀ i, T * toM x.dim (G i) = toM y.dim (H i) * T) ↔ ∀ v : Vec, T * toM x.dim (x.dLog v 0) = toM y.dim (y.dLog v 0) * T := by
  constructor
  · intro h v
    rw [C110_exp x G hx, C110_exp y H hy]
    apply exp_intertwine
    rw [Matrix.mul_sum, Matrix.sum_mul]
    refine Finset.sum_congr rfl fun i _ => ?_
    rw [Matrix.mul_smul, Matrix.smul_mul, h]
  · intro h i
    apply commute_gen
    intro t
    have := h (fun j => if j = i then t else 0)
    rw [C110_exp x G hx, C110_exp y H hy] at this
    simpa using this

/-- The hypotheses are met: `2x0e + 1x1o + 3x2e` has generators, of size 20. -/
example : ∃ G, Irreps.generators [⟨2, ⟨0, .e⟩⟩, ⟨1, ⟨1, .o⟩⟩, ⟨3, ⟨2, .e⟩⟩] = .ok G ∧ (G 1).length = 20 := by
  obtain ⟨G, h1, h2⟩ := (C110_shape [⟨2, ⟨0, .e⟩⟩, ⟨1, ⟨1, .o⟩⟩, ⟨3, ⟨2, .e⟩⟩]).2 (by decide)
  exact ⟨G, h1, (h2 1).1⟩

end E3nn.Gen
