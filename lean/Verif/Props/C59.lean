import Verif.Lemmas.TransformO3
import Verif.Props.C12_C20

/-!
# C59: O(3) acts on `IrrepsArray`, and the library functions commute with the action

Everything is concrete: `transform_by_matrix` etc. with the Wigner matrices of the code, tensor
products with its Clebsch-Gordan tensors (`realCtx`).  The components are elements of any real
vector space (for tensor products: any commutative real algebra), so that leading axes are covered.
-/

namespace E3nn
open IArr Matrix E3nn.Rot E3nn.Wig

section action
variable {α : Type} [AddCommMonoid α] [Module ℝ α]

/-- What `transform_by_matrix` does: it returns, keeps irreps and zero flags, and multiplies every
block by the matrix of its irrep. -/
theorem C59_transform (R : Matrix (Fin 3) (Fin 3) ℝ) (x : IArr α) (hx : x.Coherent) :
    ∃ y, x.transformByMatrix R = .ok y ∧ y.Coherent ∧ y.irreps = x.irreps ∧ y.zeroFlags = x.zeroFlags ∧
      y.blocks = x.blocks.map fun b => (b.1, matVec (matRows (Wig.dMatrix b.1 R)) b.2) :=
  C22_transform _ (matRows_family fun ir => Wig.dMatrix ir R) x hx

/-- **C59 (action).** Transforming by `S` and then by `R` is transforming by `R S`. -/
theorem C59_compose {R S : Matrix (Fin 3) (Fin 3) ℝ} (hR : IsOrth R) (hS : IsOrth S) (x : IArr α) (hx : x.Coherent) :
    ∃ y z z', x.transformByMatrix S = .ok y ∧ y.transformByMatrix R = .ok z ∧ x.transformByMatrix (R * S) = .ok z' ∧ z.Equal z' :=
  transform_comp _ _ _ (fun ir => C39_homomorphism ir hR hS) x hx

/-- **C59 (action).** The identity does nothing. -/
theorem C59_identity (x : IArr α) (hx : x.Coherent) : ∃ y, x.transformByMatrix 1 = .ok y ∧ y.Equal x := by
  rw [transformByMatrix_eq]
  simp only [C39_identity]
  exact transform_id x hx

theorem dMatrix_sign (ir : Irrep) {R : Mat} (hR : IsOrth R) (k : ℕ) :
    Wig.dMatrix ir ((-1 : ℝ) ^ k • R) = parityFactor ir.p k • Wig.dMatrix ir R := by
  have h : IsOrth (-1 : Mat) := by unfold IsOrth; simp
  rcases Nat.even_or_odd k with e | e
  · rw [e.neg_one_pow, one_smul]
    cases h : ir.p <;> simp [parityFactor, e.neg_one_pow]
  · rw [e.neg_one_pow, show (-1 : ℝ) • R = -1 * R by simp, C39_homomorphism ir h hR, C39_inversion]
    cases h : ir.p <;> simp [parityFactor, e.neg_one_pow, Parity.toInt]

/-- **C59 (agreement).** `transform_by_angles(alpha, beta, gamma, k)` is `transform_by_matrix` with the
rotation of these Euler angles followed by `k` inversions, whatever mixture of Python numbers and
arrays the angles are; with `inverse=True` it is the transposed (inverse) matrix. -/
theorem C59_angles (a b c : Angle) (k : ℕ) (x : IArr α) :
    x.transformByAngles a b c k false = x.transformByMatrix ((-1 : ℝ) ^ k • anglesToMatrix a.val b.val c.val) ∧
    x.transformByAngles a b c k true = x.transformByMatrix ((-1 : ℝ) ^ k • anglesToMatrix a.val b.val c.val)ᵀ := by
  have hr := (anglesToMatrix_rot a.val b.val c.val).1
  have ho : IsOrth ((-1 : ℝ) ^ k • anglesToMatrix a.val b.val c.val) := by
    unfold IsOrth
    rw [Matrix.transpose_smul, Matrix.smul_mul, Matrix.mul_smul, smul_smul, hr, ← mul_pow]
    simp
  have e : ∀ ir, Wig.dAngles ir a b c k = Wig.dMatrix ir ((-1 : ℝ) ^ k • anglesToMatrix a.val b.val c.val) := by
    intro ir; rw [C39_angles, dMatrix_sign ir hr]
  simp only [transformByMatrix_eq]
  constructor
  · show x.transform _ = x.transform _
    congr 1
    funext ir
    rw [if_neg (by simp), e]
  · show x.transform _ = x.transform _
    congr 1
    funext ir
    rw [if_pos rfl, e, (C39_orthogonal ir ho).2]

/-- **C59 (agreement).** Log coordinates. -/
theorem C59_log (v : Fin 3 → ℝ) (k : ℕ) (x : IArr α) :
    x.transformByLogCoordinates v k = x.transformByMatrix ((-1 : ℝ) ^ k • logCoordinatesToMatrix v) := by
  have hr : IsRotation (logCoordinatesToMatrix v) := by
    rw [logCoordinatesToMatrix_eq]; exact axisAngleToMatrix_rot _ _
  rw [transformByMatrix_eq]
  show x.transform _ = x.transform _
  congr 1
  funext ir
  rw [C39_log, dMatrix_sign ir hr.1]

/-- **C59 (agreement).** Unit quaternions. -/
theorem C59_quaternion {q : Fin 4 → ℝ} (hq : qnormSq q = 1) (k : ℕ) (x : IArr α) :
    x.transformByQuaternion q k = x.transformByMatrix ((-1 : ℝ) ^ k • quaternionToMatrix q) := by
  unfold transformByQuaternion
  rw [C59_log, quaternionToMatrix_eq hq]
  congr 2
  exact axisAngleToLog_mat hq

/-- **C59 (agreement).** An axis of length one and an angle. -/
theorem C59_axis_angle {n : Fin 3 → ℝ} (hn : vnormSq n = 1) (t : ℝ) (k : ℕ) (x : IArr α) :
    x.transformByAxisAngle n t k = x.transformByMatrix ((-1 : ℝ) ^ k • axisAngleToMatrix n t) := by
  unfold transformByAxisAngle axisAngleToLogCoordinates
  rw [C59_log, exp_rodrigues hn, axisAngleToMatrix_rodrigues (unit_ne hn), normalize_of_unit hn]

/-- **C59 (structural operations).** Every operation proved equivariant in C22 commutes with
`transform_by_matrix`, for every matrix. -/
theorem C59_structural {β : Type} [AddCommMonoid β] [Module ℝ β] (op : IArr α → Except PyErr (IArr β)) (hop : Equivariant ℝ op)
    (R : Matrix (Fin 3) (Fin 3) ℝ) (x : IArr α) (hx : x.Coherent) (y : IArr β) (hy : op x = .ok y) :
    ∃ x' y' y'', x.transformByMatrix R = .ok x' ∧ op x' = .ok y' ∧ y.transformByMatrix R = .ok y'' ∧ y'.Equal y'' :=
  hop _ (matRows_family fun ir => Wig.dMatrix ir R) x hx y hy

end action

section products
variable {K : Type} [CommRing K] [Algebra ℝ K]

theorem transform_algebraMap (D : (ir : Irrep) → Matrix (Fin (2 * ir.l + 1)) (Fin (2 * ir.l + 1)) ℝ) (x : IArr K) :
    x.transform (fun ir => (matRows (D ir)).map fun r => r.map (algebraMap ℝ K)) = x.transform fun ir => matRows (D ir) := by
  unfold transform
  congr 1
  funext ir v
  exact matVec_algebraMap (D ir) v

theorem map_family (D : (ir : Irrep) → Matrix (Fin (2 * ir.l + 1)) (Fin (2 * ir.l + 1)) ℝ) :
    MatFamily fun ir => (matRows (D ir)).map fun r => r.map (algebraMap ℝ K) := by
  intro ir
  refine ⟨by rw [List.length_map]; exact (matRows_family D ir).1, ?_⟩
  intro row hr
  obtain ⟨r, h1, rfl⟩ := List.mem_map.mp hr
  rw [List.length_map]
  exact (matRows_family D ir).2 r h1

/-- **C59 (tensor product).** `tensor_product(R x1, R x2) = R tensor_product(x1, x2)` for every `R` in
O(3), with the Clebsch-Gordan tensors of the code. -/
theorem C59_tensor_product {n : IrNorm} (hn : n ≠ .other) (filter : Option (List Irrep)) (rg : Bool)
    {R : Matrix (Fin 3) (Fin 3) ℝ} (hR : IsOrth R) (x1 x2 : IArr K) (h1 : x1.Coherent) (h2 : x2.Coherent) :
    ∃ y x1' x2' y' y'', TP.tensorProduct (realCtx K) n filter rg x1 x2 = .ok y ∧
      x1.transformByMatrix R = .ok x1' ∧ x2.transformByMatrix R = .ok x2' ∧
      TP.tensorProduct (realCtx K) n filter rg x1' x2' = .ok y' ∧ y.transformByMatrix R = .ok y'' ∧ y'.Equal y'' := by
  obtain ⟨y, hy, -, -⟩ := C33_count (realCtx_shape K) hn filter rg x1 x2 h1 h2
  obtain ⟨x1', x2', y', y'', a, b, c, d, e⟩ := C35_tensor_product (realCtx_shape K) hn filter rg _ (map_family fun ir => Wig.dMatrix ir R)
    (realCtx_intertwines hR) x1 x2 y h1 h2 hy
  rw [transform_algebraMap] at a b d
  exact ⟨y, x1', x2', y', y'', hy, a, b, c, d, e⟩

/-- **C59 (elementwise tensor product).** -/
theorem C59_elementwise {n : IrNorm} (hn : n ≠ .other) (filter : Option (List Irrep))
    {R : Matrix (Fin 3) (Fin 3) ℝ} (hR : IsOrth R) (x1 x2 y : IArr K) (h1 : x1.Coherent) (h2 : x2.Coherent)
    (hy : TP.elementwise (realCtx K) n filter x1 x2 = .ok y) :
    ∃ x1' x2' y' y'', x1.transformByMatrix R = .ok x1' ∧ x2.transformByMatrix R = .ok x2' ∧
      TP.elementwise (realCtx K) n filter x1' x2' = .ok y' ∧ y.transformByMatrix R = .ok y'' ∧ y'.Equal y'' := by
  obtain ⟨x1', x2', y', y'', a, b, c, d, e⟩ := C35_elementwise (realCtx_shape K) hn filter _ (map_family fun ir => Wig.dMatrix ir R)
    (realCtx_intertwines hR) x1 x2 y h1 h2 hy
  rw [transform_algebraMap] at a b d
  exact ⟨x1', x2', y', y'', a, b, c, d, e⟩

/-- **C59 (tensor square).** -/
theorem C59_tensor_square {n : IrNorm} (hn : n ≠ .other) (ni rg : Bool)
    {R : Matrix (Fin 3) (Fin 3) ℝ} (hR : IsOrth R) (x : IArr K) (h : x.Coherent) :
    ∃ y x' y' y'', TP.tensorSquare (realCtx K) n ni rg x = .ok y ∧ x.transformByMatrix R = .ok x' ∧
      TP.tensorSquare (realCtx K) n ni rg x' = .ok y' ∧ y.transformByMatrix R = .ok y'' ∧ y'.Equal y'' := by
  obtain ⟨y, hy, -, -⟩ := C34_irreps (realCtx_shape K) hn ni rg x h
  obtain ⟨x', y', y'', a, c, d, e⟩ := C35_tensor_square (realCtx_shape K) hn ni rg _ (map_family fun ir => Wig.dMatrix ir R)
    (realCtx_intertwines hR) x y h hy
  rw [transform_algebraMap] at a d
  exact ⟨y, x', y', y'', hy, a, c, d, e⟩

end products

/-- **C59 (Linear).** `Linear` with default instructions commutes with O(3), for all weights and biases. -/
theorem C59_linear {irrepsIn irrepsOut : Irreps} {b : FLin.BiasArg} {a g : ℝ} {f : FLin ℝ}
    (hf : FLin.init irrepsIn irrepsOut none b a g = .ok f) (ws : List (List ℝ)) (hw : WeightShapes f ws)
    {R : Matrix (Fin 3) (Fin 3) ℝ} (hR : IsOrth R) (x : IArr ℝ) (hx : x.Coherent) (y : IArr ℝ) (hy : f.call ws x = .ok y) :
    ∃ x' y' y'', x.transformByMatrix R = .ok x' ∧ f.call ws x' = .ok y' ∧ y.transformByMatrix R = .ok y'' ∧ y'.Equal y'' := by
  refine C28_equivariant hf ws hw _ (matRows_family fun ir => Wig.dMatrix ir R) ?_ x hx y hy
  rw [(C39_defining hR).2.2.1]
  simp [matRows]

/-! ### `Irreps.D_from_*` -/

section blockDiag
variable {α : Type} [AddCommMonoid α] [Module ℝ α]

theorem blockDiag_length {K : Type} [Zero K] (Bs : List (List (List K))) : (Irreps.blockDiag Bs).length = (Bs.map List.length).sum := by
  induction Bs with
  | nil => rfl
  | cons B Bs ih => simp [Irreps.blockDiag, ih]

theorem dot_append (r s : List ℝ) (v w : List α) (h : r.length = v.length) :
    (List.zipWith (fun a b => a • b) (r ++ s) (v ++ w)).sum =
      (List.zipWith (fun a b => a • b) r v).sum + (List.zipWith (fun a b => a • b) s w).sum := by
  rw [List.zipWith_append h, List.sum_append]

theorem zero_dot (n : ℕ) (v : List α) : (List.zipWith (fun (a : ℝ) b => a • b) (List.replicate n 0) v).sum = 0 := by
  induction n generalizing v with
  | zero => simp
  | succ n ih =>
    cases v with
    | nil => simp
    | cons b v => simp [List.replicate_succ, ih]

theorem blockDiag_mulVec (D : Irrep → List (List ℝ)) (hD : MatFamily D) (s : List Irrep) (a : List α) (ha : a.length = dimOf s) :
    matVec (Irreps.blockDiag (s.map D)) a = (blocksOf s a).flatMap fun b => matVec (D b.1) b.2 := by
  induction s generalizing a with
  | nil => simp [Irreps.blockDiag, blocksOf, matVec]
  | cons ir s ih =>
    rw [dimOf_cons] at ha
    have ha' : a.length = (2 * ir.l + 1) + dimOf s := ha
    simp only [List.map_cons, Irreps.blockDiag, blocksOf, List.flatMap_cons]
    rw [← ih (a.drop (2 * ir.l + 1)) (by rw [List.length_drop]; omega)]
    have hl : (Irreps.blockDiag (s.map D)).length = dimOf s := by
      rw [blockDiag_length, List.map_map]
      unfold dimOf
      congr 1
      apply List.map_congr_left
      intro i _
      exact (hD i).1
    conv_lhs => rw [← List.take_append_drop (2 * ir.l + 1) a]
    unfold matVec
    rw [List.map_append, List.map_map, List.map_map]
    congr 1
    · apply List.map_congr_left
      intro r hr
      simp only [Function.comp_apply]
      rw [dot_append _ _ _ _ (by rw [(hD ir).2 r hr, List.length_take]; omega), zero_dot, add_zero]
    · apply List.map_congr_left
      intro r hr
      simp only [Function.comp_apply]
      rw [dot_append _ _ _ _ (by rw [List.length_replicate, (hD ir).1, List.length_take]; omega), zero_dot, zero_add]

theorem dBlocks_eq (D : Irrep → List (List ℝ)) (x : Irreps) : Irreps.dBlocks D x = (expand x).map D := by
  unfold Irreps.dBlocks
  induction x with
  | nil => rfl
  | cons m x ih => rw [List.flatMap_cons, ih, expand_cons, List.map_append, List.map_replicate]

/-- **C59 (D of irreps).** The matrix `x.irreps.D_from_matrix(R)` times the array is the array of
`transform_by_matrix`, and it has shape `(dim, dim)`, unless the irreps have dimension zero. -/
theorem C59_irreps_D (R : Matrix (Fin 3) (Fin 3) ℝ) (x : IArr α) (hx : x.Coherent) (h0 : dimOf (expand x.irreps) ≠ 0) :
    ∃ y, x.transformByMatrix R = .ok y ∧ y.array = matVec (x.irreps.dMatrix R) x.array ∧
      (x.irreps.dMatrix R).length = dimOf (expand x.irreps) := by
  obtain ⟨y, y1, y2, y3, y4, y5⟩ := C59_transform R x hx
  have hne : expand x.irreps ≠ [] := by intro e; rw [e] at h0; exact h0 rfl
  have e : x.irreps.dMatrix R = Irreps.blockDiag ((expand x.irreps).map fun ir => matRows (Wig.dMatrix ir R)) := by
    show Irreps.blockDiagJax (Irreps.dBlocks (fun ir => matRows (Wig.dMatrix ir R)) x.irreps) = _
    rw [dBlocks_eq]
    cases h : expand x.irreps with
    | nil => exact absurd h hne
    | cons a s => rfl
  refine ⟨y, y1, ?_, ?_⟩
  · rw [e, blockDiag_mulVec _ (matRows_family fun ir => Wig.dMatrix ir R) _ _ hx.array_length,
      ← y2.inv.array_eq_blocks, y5, List.map_map, ← List.flatMap_def]
    rfl
  · rw [e, blockDiag_length, List.map_map]
    unfold dimOf
    congr 1
    apply List.map_congr_left
    intro ir _
    exact (matRows_family (fun ir => Wig.dMatrix ir R) ir).1

/-- For irreps of dimension zero the shape is not `(0, 0)` but `(1, 0)`. -/
theorem C59_irreps_D_empty (R : Matrix (Fin 3) (Fin 3) ℝ) : Irreps.dMatrix [] R = [[]] := rfl

end blockDiag

/-- **C59 (vectors).** A `1x1o` array is a vector and is multiplied by the matrix itself, in the
component order x, y, z of the code. -/
theorem C59_vector {R : Matrix (Fin 3) (Fin 3) ℝ} (hR : IsOrth R) (v : Fin 3 → ℝ) :
    ∃ x y, IArr.ofArray [⟨1, ⟨1, .o⟩⟩] (List.ofFn v) = .ok x ∧ x.transformByMatrix R = .ok y ∧ y.array = List.ofFn (R *ᵥ v) := by
  obtain ⟨x, x1, x2, x3, x4, -, -⟩ := (C12_from_array [⟨1, ⟨1, .o⟩⟩] (List.ofFn v)).1 (by simp [expand, dimOf, Irrep.dim])
  obtain ⟨y, y1, y2, y3, -, y5⟩ := C59_transform R x x2
  refine ⟨x, y, x1, y1, ?_⟩
  have hb : x.blocks = [(⟨1, .o⟩, List.ofFn v)] := by
    simp [IArr.blocks, x3, x4, expand, blocksOf, List.take_of_length_le]
  rw [← y2.inv.array_eq_blocks, y5, hb]
  simp only [List.map_cons, List.map_nil, List.flatten_cons, List.flatten_nil, List.append_nil]
  rw [(C39_defining hR).1]
  exact matVec_ofFn R v

/-- The hypotheses can be met: a reflection, and a coherent array with an odd scalar, a zero flag
and vectors. -/
theorem C59_concrete : IsOrth (!![-1, 0, 0; 0, 1, 0; 0, 0, 1] : Matrix (Fin 3) (Fin 3) ℝ) ∧
    ∃ x : IArr ℝ, IArr.fromChunks [⟨1, ⟨0, .o⟩⟩, ⟨2, ⟨1, .e⟩⟩, ⟨2, ⟨1, .o⟩⟩] [some [[1]], none, some [[1, 2, 3], [4, 5, 6]]] = .ok x ∧
      x.Coherent := by
  constructor
  · unfold IsOrth
    ext i j
    fin_cases i <;> fin_cases j <;> simp [Matrix.mul_apply, Fin.sum_univ_three]
  · obtain ⟨y, h1, h2, -⟩ := (C12_from_chunks (α := ℝ) [⟨1, ⟨0, .o⟩⟩, ⟨2, ⟨1, .e⟩⟩, ⟨2, ⟨1, .o⟩⟩]
      [some [[1]], none, some [[1, 2, 3], [4, 5, 6]]]).1 (by
        refine ⟨rfl, ?_⟩
        intro i m rows hm hr
        match i with
        | 0 => simp at hm hr; subst hm hr; simp
        | 1 => simp at hr
        | 2 => simp at hm hr; subst hm hr; simp
        | i + 3 => simp at hm)
    exact ⟨y, h1, h2⟩

end E3nn
