import Verif.Model.TransformO3
import Verif.Props.C22
import Verif.Props.C33_C35
import Verif.Props.C39

/-! # The concrete action of O(3) on `IrrepsArray` -/

namespace E3nn
open IArr Matrix E3nn.Rot E3nn.Wig E3nn.SU2

section
variable {α : Type} [AddCommMonoid α] [Module ℝ α]

theorem matRows_family (D : (ir : Irrep) → Matrix (Fin (2 * ir.l + 1)) (Fin (2 * ir.l + 1)) ℝ) :
    MatFamily fun ir => matRows (D ir) := by
  intro ir
  refine ⟨by simp [matRows], ?_⟩
  intro row hr
  obtain ⟨i, rfl⟩ := (List.mem_ofFn' _ _).mp hr
  simp

theorem dot_ofFn {R : Type} [Semiring R] [Module R α] {n : ℕ} (r : Fin n → R) (v : Fin n → α) :
    (List.zipWith (fun a b => a • b) (List.ofFn r) (List.ofFn v)).sum = ∑ j, r j • v j := by
  have : List.zipWith (fun a b => a • b) (List.ofFn r) (List.ofFn v) = List.ofFn fun j => r j • v j := by
    apply List.ext_getElem <;> simp
  rw [this, List.sum_ofFn]

theorem matVec_ofFn {R : Type} [Semiring R] [Module R α] {m n : ℕ} (M : Matrix (Fin m) (Fin n) R) (v : Fin n → α) :
    matVec (matRows M) (List.ofFn v) = List.ofFn fun i => ∑ j, M i j • v j := by
  unfold matVec matRows
  rw [List.map_ofFn]
  congr 1
  funext i
  exact dot_ofFn _ _

theorem exists_ofFn {β : Type} {n : ℕ} {l : List β} (h : l.length = n) : ∃ v : Fin n → β, l = List.ofFn v := by
  subst h
  exact ⟨l.get, (List.ofFn_get l).symm⟩

theorem matVec_mul {m n k : ℕ} (A : Matrix (Fin m) (Fin n) ℝ) (B : Matrix (Fin n) (Fin k) ℝ) {x : List α} (hx : x.length = k) :
    matVec (matRows (A * B)) x = matVec (matRows A) (matVec (matRows B) x) := by
  obtain ⟨v, rfl⟩ := exists_ofFn hx
  rw [matVec_ofFn, matVec_ofFn, matVec_ofFn]
  congr 1
  funext i
  simp only [Matrix.mul_apply, Finset.sum_smul, Finset.smul_sum, mul_smul]
  exact Finset.sum_comm

theorem matVec_one {n : ℕ} {x : List α} (hx : x.length = n) : matVec (matRows (1 : Matrix (Fin n) (Fin n) ℝ)) x = x := by
  obtain ⟨v, rfl⟩ := exists_ofFn hx
  rw [matVec_ofFn]
  congr 1
  funext i
  rw [Finset.sum_eq_single i]
  · simp
  · intro j _ hj; simp [Matrix.one_apply_ne hj.symm]
  · simp

/-- `transform_by_matrix` is the transformation by `D_from_matrix`. -/
theorem transformByMatrix_eq (R : Mat) (x : IArr α) : x.transformByMatrix R = x.transform fun ir => matRows (Wig.dMatrix ir R) := rfl

theorem Act_matRows (D : (ir : Irrep) → Matrix (Fin (2 * ir.l + 1)) (Fin (2 * ir.l + 1)) ℝ) :
    Act (fun ir => matVec (α := α) (matRows (D ir))) := matVec_act fun ir => (matRows_family D ir).1

/-- Composition of two transformations. -/
theorem transform_comp (A B C : (ir : Irrep) → Matrix (Fin (2 * ir.l + 1)) (Fin (2 * ir.l + 1)) ℝ) (h : ∀ ir, C ir = A ir * B ir)
    (x : IArr α) (hx : x.Coherent) :
    ∃ y z z', x.transform (fun ir => matRows (B ir)) = .ok y ∧ y.transform (fun ir => matRows (A ir)) = .ok z ∧
      x.transform (fun ir => matRows (C ir)) = .ok z' ∧ z.Equal z' := by
  obtain ⟨y, y1, y2⟩ := transformBy_spec (Act_matRows (α := α) B) hx.inv
  obtain ⟨z, z1, z2⟩ := transformBy_spec (Act_matRows (α := α) A) y2.inv'
  obtain ⟨w, w1, w2⟩ := transformBy_spec (Act_matRows (α := α) C) hx.inv
  refine ⟨y, z, w, y1, z1, w1, ?_⟩
  have hb : z.blocks = w.blocks := by
    rw [z2.blocks (Act_matRows A), y2.blocks (Act_matRows B), w2.blocks (Act_matRows C), List.map_map]
    apply List.map_congr_left
    intro b hb
    have hl := block_len hx hb
    simp only [Function.comp_apply, TB, h, matVec_mul _ _ hl]
  have hi : z.irreps = w.irreps := by rw [z2.irreps, y2.irreps, w2.irreps]
  have hf : z.zeroFlags = w.zeroFlags := by rw [z2.flags, y2.flags, w2.flags]
  obtain ⟨e1, e2⟩ := z2.inv'.ext_blocks w2.inv' hi hf hb
  exact ⟨hi, e1, hf, e2⟩
where
  block_len {x : IArr α} (h : x.Coherent) {b : Irrep × List α} (hb : b ∈ x.blocks) : b.2.length = 2 * b.1.l + 1 :=
    blocksOf_row_length _ _ h.array_length b hb

/-- The identity transformation. -/
theorem transform_id (x : IArr α) (hx : x.Coherent) :
    ∃ y, x.transform (fun ir => matRows (1 : Matrix (Fin (2 * ir.l + 1)) (Fin (2 * ir.l + 1)) ℝ)) = .ok y ∧ y.Equal x := by
  obtain ⟨y, y1, y2⟩ := transformBy_spec (Act_matRows (α := α) fun ir => 1) hx.inv
  refine ⟨y, y1, ?_⟩
  have hb : y.blocks = x.blocks := by
    rw [y2.blocks (Act_matRows fun ir => 1)]
    conv_rhs => rw [← List.map_id x.blocks]
    apply List.map_congr_left
    intro b hb
    have hl := transform_comp.block_len hx hb
    simp only [TB, matVec_one hl, id]
  obtain ⟨e1, e2⟩ := y2.inv'.ext_blocks hx.inv y2.irreps y2.flags hb
  exact ⟨y2.irreps, e1, y2.flags, e2⟩

end

/-! ### Clebsch-Gordan -/

section
variable (K : Type) [CommRing K] [Algebra ℝ K]

theorem realCtx_shape : CgShape (realCtx K) := by
  intro l1 l2 l3
  refine ⟨by simp [realCtx], ?_⟩
  intro m hm
  obtain ⟨a, rfl⟩ := (List.mem_ofFn' _ _).mp hm
  refine ⟨by simp, ?_⟩
  intro r hr
  obtain ⟨b, rfl⟩ := (List.mem_ofFn' _ _).mp hr
  simp

variable {K}

theorem sum_range_fin {M : Type} [AddCommMonoid M] (n : ℕ) (f : ℕ → M) : ((List.range n).map f).sum = ∑ i : Fin n, f i := by
  rw [← Finset.sum_range]
  induction n with
  | zero => simp
  | succ n ih => rw [List.range_succ, List.map_append, List.sum_append, ih, Finset.sum_range_succ]; simp

theorem getD_ofFn {β : Type} {n : ℕ} (f : Fin n → β) (d : β) (i : Fin n) : (List.ofFn f).getD i d = f i := by
  simp [List.getD]

theorem bilinear_ofFn (l1 l2 l3 : ℕ) (x : Fin (2 * l1 + 1) → K) (y : Fin (2 * l2 + 1) → K) :
    bilinear 1 ((realCtx K).cg l1 l2 l3) l1 l2 l3 (List.ofFn x) (List.ofFn y) =
      List.ofFn fun c => ∑ a, ∑ b, clebschGordan l1 l2 l3 a b c • (x a * y b) := by
  unfold bilinear
  apply List.ext_getElem
  · simp
  · intro k h1 h2
    have hk : k < 2 * l3 + 1 := by simpa using h1
    simp only [List.getElem_map, List.getElem_range, sum_range_fin, List.getElem_ofFn]
    apply Finset.sum_congr rfl
    intro a _
    apply Finset.sum_congr rfl
    intro b _
    have e : cgEntry ((realCtx K).cg l1 l2 l3) a b k = algebraMap ℝ K (clebschGordan l1 l2 l3 a b ⟨k, hk⟩) := by
      unfold cgEntry realCtx
      simp only [getD_ofFn]
      exact getD_ofFn _ _ ⟨k, hk⟩
    rw [e, getD_ofFn, getD_ofFn, Algebra.smul_def]
    ring

/-- The tensors of the code intertwine the matrices of O(3), over any real algebra. -/
theorem cg_tensor (l1 l2 l3 : ℕ) (p1 p2 : Parity) {R : Mat} (hR : IsOrth R) (a' : Fin (2 * l1 + 1)) (b' : Fin (2 * l2 + 1)) (c : Fin (2 * l3 + 1)) :
    ∑ a, ∑ b, clebschGordan l1 l2 l3 a b c * (Wig.dMatrix ⟨l1, p1⟩ R a a' * Wig.dMatrix ⟨l2, p2⟩ R b b') =
      ∑ c', Wig.dMatrix ⟨l3, p1.mul p2⟩ R c c' * clebschGordan l1 l2 l3 a' b' c' := by
  have h0 := C39_clebsch_gordan l1 l2 l3 p1 p2 hR (Pi.single a' 1) (Pi.single b' 1)
  generalize Wig.dMatrix ⟨l1, p1⟩ R = D1 at *
  generalize Wig.dMatrix ⟨l2, p2⟩ R = D2 at *
  generalize Wig.dMatrix ⟨l3, p1.mul p2⟩ R = D3 at *
  generalize clebschGordan l1 l2 l3 = C at *
  dsimp only at h0
  have h := congrFun h0 c
  have e1 : ∀ a, (D1 *ᵥ Pi.single a' 1) a = D1 a a' := by
    intro a
    have := congrFun (Matrix.mulVec_single_one D1 a') a
    exact this
  have e2 : ∀ b, (D2 *ᵥ Pi.single b' 1) b = D2 b b' := by
    intro a
    have := congrFun (Matrix.mulVec_single_one D2 b') a
    exact this
  simp only [e1, e2, mul_assoc] at h
  rw [h]
  show ∑ c', D3 c c' * _ = _
  apply Finset.sum_congr rfl
  intro c' _
  congr 1
  rw [Finset.sum_eq_single a']
  · rw [Finset.sum_eq_single b']
    · rw [Pi.single_eq_same, Pi.single_eq_same]; ring
    · intro b _ hb
      rw [Pi.single_eq_of_ne hb]; ring
    · simp
  · intro a _ ha
    apply Finset.sum_eq_zero
    intro b _
    rw [Pi.single_eq_of_ne ha]; ring
  · simp

theorem matVec_algebraMap {n : ℕ} (M : Matrix (Fin n) (Fin n) ℝ) (v : List K) :
    matVec ((matRows M).map fun r => r.map (algebraMap ℝ K)) v = matVec (R := ℝ) (matRows M) v := by
  unfold matVec
  rw [List.map_map]
  apply List.map_congr_left
  intro r _
  simp only [Function.comp_apply]
  rw [List.zipWith_map_left]
  congr 1
  congr 1
  funext s t
  rw [smul_eq_mul, Algebra.smul_def]

theorem realCtx_intertwines {R : Mat} (hR : IsOrth R) :
    CgIntertwines (realCtx K) fun ir => (matRows (Wig.dMatrix ir R)).map fun r => r.map (algebraMap ℝ K) := by
  rintro ⟨l1, p1⟩ ⟨l2, p2⟩ ⟨l3, p3⟩ hir a b ha hb
  have hp : p3 = p1.mul p2 := by
    unfold Irrep.mul at hir
    obtain ⟨l, -, e⟩ := List.mem_map.mp hir
    injection e with e1 e2
    exact e2.symm
  subst hp
  obtain ⟨x, rfl⟩ := exists_ofFn ha
  obtain ⟨y, rfl⟩ := exists_ofFn hb
  simp only [matVec_algebraMap]
  rw [matVec_ofFn, matVec_ofFn, bilinear_ofFn, bilinear_ofFn, matVec_ofFn]
  congr 1
  funext c
  have key := fun a' b' => cg_tensor l1 l2 l3 p1 p2 hR a' b' c
  have e1 : ∀ a b, clebschGordan l1 l2 l3 a b c • ((∑ j, Wig.dMatrix ⟨l1, p1⟩ R a j • x j) * ∑ j, Wig.dMatrix ⟨l2, p2⟩ R b j • y j) =
      ∑ a', ∑ b', (clebschGordan l1 l2 l3 a b c * (Wig.dMatrix ⟨l1, p1⟩ R a a' * Wig.dMatrix ⟨l2, p2⟩ R b b')) • (x a' * y b') := by
    intro a b
    rw [Finset.sum_mul_sum, Finset.smul_sum]
    apply Finset.sum_congr rfl
    intro a' _
    rw [Finset.smul_sum]
    apply Finset.sum_congr rfl
    intro b' _
    rw [smul_mul_smul_comm, smul_smul]
  simp only [e1]
  have e2 : ∀ c', Wig.dMatrix ⟨l3, p1.mul p2⟩ R c c' • ∑ a', ∑ b', clebschGordan l1 l2 l3 a' b' c' • (x a' * y b') =
      ∑ a', ∑ b', (Wig.dMatrix ⟨l3, p1.mul p2⟩ R c c' * clebschGordan l1 l2 l3 a' b' c') • (x a' * y b') := by
    intro c'
    simp only [Finset.smul_sum, smul_smul]
  simp only [e2]
  rw [show (∑ a, ∑ b, ∑ a', ∑ b', (clebschGordan l1 l2 l3 a b c * (Wig.dMatrix ⟨l1, p1⟩ R a a' * Wig.dMatrix ⟨l2, p2⟩ R b b')) • (x a' * y b')) =
      ∑ a', ∑ b', (∑ a, ∑ b, clebschGordan l1 l2 l3 a b c * (Wig.dMatrix ⟨l1, p1⟩ R a a' * Wig.dMatrix ⟨l2, p2⟩ R b b')) • (x a' * y b') from ?_]
  · simp only [key, Finset.sum_smul]
    rw [Finset.sum_comm]
    rw [Finset.sum_comm]
    conv_rhs => rw [Finset.sum_comm]
    apply Finset.sum_congr rfl
    intro a' _
    exact Finset.sum_comm
  · simp only [Finset.sum_smul]
    calc _ = ∑ a, ∑ a', ∑ b, ∑ b', (clebschGordan l1 l2 l3 a b c * (Wig.dMatrix ⟨l1, p1⟩ R a a' * Wig.dMatrix ⟨l2, p2⟩ R b b')) • (x a' * y b') := by
          apply Finset.sum_congr rfl; intro a _; exact Finset.sum_comm
      _ = ∑ a', ∑ a, ∑ b, ∑ b', (clebschGordan l1 l2 l3 a b c * (Wig.dMatrix ⟨l1, p1⟩ R a a' * Wig.dMatrix ⟨l2, p2⟩ R b b')) • (x a' * y b') := Finset.sum_comm
      _ = ∑ a', ∑ a, ∑ b', ∑ b, (clebschGordan l1 l2 l3 a b c * (Wig.dMatrix ⟨l1, p1⟩ R a a' * Wig.dMatrix ⟨l2, p2⟩ R b b')) • (x a' * y b') := by
          apply Finset.sum_congr rfl; intro a' _; apply Finset.sum_congr rfl; intro a _; exact Finset.sum_comm
      _ = _ := by
          apply Finset.sum_congr rfl; intro a' _; exact Finset.sum_comm

end
end E3nn
