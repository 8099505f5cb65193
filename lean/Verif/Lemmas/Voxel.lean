import Verif.Model.Voxel
import Verif.Props.C102
import Verif.Props.C48
import Verif.Props.C28_C32
import Verif.Lemmas.MessagePassing

/-! # Lemmas for C103: the lattice, the matrices and their equivariance -/

namespace E3nn.Voxel
open E3nn.IArr E3nn.Wig E3nn.LTP Finset

/-! ### the lattice -/

theorem mem_axis (c : Conv) (i : Fin 3) (z : ℤ) : z ∈ c.axis i ↔ -c.half i ≤ z ∧ z ≤ c.half i := by
  unfold Conv.axis
  rw [List.mem_map]
  constructor
  · rintro ⟨k, hk, rfl⟩
    rw [List.mem_range] at hk
    omega
  · rintro ⟨h1, h2⟩
    exact ⟨(z + c.half i).toNat, by rw [List.mem_range]; omega, by omega⟩

theorem axis_nodup (c : Conv) (i : Fin 3) : (c.axis i).Nodup := by
  unfold Conv.axis
  refine List.Nodup.map (fun a b h => ?_) List.nodup_range
  have : (a : ℤ) - c.half i = (b : ℤ) - c.half i := h
  omega

theorem mem_lattice (c : Conv) (p : Fin 3 → ℤ) : p ∈ c.lattice ↔ ∀ i, -c.half i ≤ p i ∧ p i ≤ c.half i := by
  unfold Conv.lattice
  simp only [List.mem_flatMap, List.mem_map, mem_axis]
  constructor
  · rintro ⟨x, hx, y, hy, z, hz, rfl⟩ i
    fin_cases i
    · exact hx
    · exact hy
    · exact hz
  · intro h
    refine ⟨p 0, h 0, p 1, h 1, p 2, h 2, ?_⟩
    funext i
    fin_cases i <;> rfl

theorem lattice_nodup (c : Conv) : c.lattice.Nodup := by
  unfold Conv.lattice
  refine List.nodup_flatMap.mpr ⟨fun x _ => List.nodup_flatMap.mpr ⟨fun y _ => (axis_nodup c 2).map fun a b h => ?_, ?_⟩, ?_⟩
  · exact congrFun h 2
  · refine (axis_nodup c 1).imp fun {a b} hab => ?_
    rw [Function.onFun, List.disjoint_left]
    intro q h1 h2
    obtain ⟨z, -, rfl⟩ := List.mem_map.mp h1
    obtain ⟨z', -, h⟩ := List.mem_map.mp h2
    exact hab (congrFun h 1).symm
  · refine (axis_nodup c 0).imp fun {a b} hab => ?_
    rw [Function.onFun, List.disjoint_left]
    intro q h1 h2
    obtain ⟨y, -, h1⟩ := List.mem_flatMap.mp h1
    obtain ⟨z, -, rfl⟩ := List.mem_map.mp h1
    obtain ⟨y', -, h2⟩ := List.mem_flatMap.mp h2
    obtain ⟨z', -, h⟩ := List.mem_map.mp h2
    exact hab (congrFun h 0).symm

/-! ### slices and transformations -/

/-- A linear map of the columns commutes with the transformation. -/
theorem slice_transform {α γ : Type} [AddCommMonoid α] [Module ℝ α] [AddCommMonoid γ] [Module ℝ γ] (φ : α →ₗ[ℝ] γ) {R : Matrix (Fin 3) (Fin 3) ℝ} {x x' : IArr α} {w w' : IArr γ}
    (hx : x.Coherent) (hw : w.Coherent) (hi : w.irreps = x.irreps) (ha : w.array = x.array.map φ)
    (tx : x.transformByMatrix R = .ok x') (tw : w.transformByMatrix R = .ok w') : w'.array = x'.array.map φ := by
  obtain ⟨x'', a1, a2, a3, -, a5⟩ := C59_transform R x hx
  obtain ⟨w'', b1, b2, b3, -, b5⟩ := C59_transform R w hw
  rw [tx] at a1
  cases a1
  rw [tw] at b1
  cases b1
  have hb : w.blocks = x.blocks.map fun b => (b.1, b.2.map φ) := by
    unfold IArr.blocks
    rw [hi, ha]
    generalize x.array = u
    generalize expand x.irreps = s
    induction s generalizing u with
    | nil => rfl
    | cons ir s ih => simp only [blocksOf, ← List.map_take, ← List.map_drop, ih, List.map_cons]
  rw [← b2.inv.array_eq_blocks, ← a2.inv.array_eq_blocks, b5, a5, hb]
  simp only [List.map_map, List.flatMap_map, List.flatMap_def, List.map_flatten]
  congr 1
  refine List.map_congr_left fun b _ => ?_
  simp only [Function.comp]
  exact (matVec_map φ _ _).symm

/-! ### intertwining matrices -/

/-- `x @ M` followed by the action of `R` is the action of `R` followed by `@ M'`. -/
def Intertwine (R : Matrix (Fin 3) (Fin 3) ℝ) (irrepsIn irrepsOut : Irreps) (M M' : List (List ℝ)) : Prop :=
  ∀ x x' y y' : IArr ℝ, x.Coherent → x.irreps = irrepsIn → x.transformByMatrix R = .ok x' →
    y.Coherent → y.irreps = irrepsOut → y.array = vecMat x.array M irrepsOut.dim → y.transformByMatrix R = .ok y' →
    y'.array = vecMat x'.array M' irrepsOut.dim

theorem right_intertwine {irreps1 irreps2 irrepsOut : Irreps} {args : List InsArg} {v1 v2 vo : Option (List ℝ)} {n : IrNorm} {a g : ℝ} {f : FTP}
    (hf : LTP.init irreps1 irreps2 irrepsOut args v1 v2 vo n a g = .ok f) (hp : Proper f)
    (hr : ∀ ins ∈ f.instructions, RightMode ins.mode) {fused : Bool} (hfu : if fused then Fusable f else Populated f) {W : List (List ℝ)} (hW : WeightsFor f W)
    (x2 x2t x2' : IArr ℝ) (h2 : x2.Coherent) (e2 : expand x2.irreps = expand irreps2) (hz : ∀ z, x2.rechunk irreps2 = .ok z → none ∉ z.chunks)
    {R : Matrix (Fin 3) (Fin 3) ℝ} (hR : IsOrth R) (ht : x2.transformByMatrix R = .ok x2t)
    (h2' : x2'.Coherent) (e2' : expand x2'.irreps = expand irreps2) (ha : x2'.array = x2t.array) (hz' : ∀ z, x2'.rechunk irreps2 = .ok z → none ∉ z.chunks) {M M' : List (List ℝ)}
    (hM : f.right (weightList f W) x2 = .ok M) (hM' : f.right (weightList f W) x2' = .ok M') : Intertwine R irreps1 irrepsOut M M' := by
  obtain ⟨z2, q1, q2, q3, -⟩ := C59_transform R x2 h2
  rw [ht] at q1
  cases q1
  obtain ⟨M0, m1, m2⟩ := C102_left_right hf hp hr hfu hW (Or.inl rfl) x2 h2 e2 hz
  obtain ⟨M0', m1', -, -, m4'⟩ := C102_right hf hp hr hW x2' h2' e2' hz'
  rw [hM] at m1
  cases m1
  rw [hM'] at m1'
  cases m1'
  intro x1 x1' y y' c1 e1 t1 cy ey hy ty
  have e1 : expand x1.irreps = expand irreps1 := by rw [e1]
  obtain ⟨w, w1, wc, w2, w3⟩ := m2 x1 c1 e1
  obtain ⟨y0, u1, u2, u3, u4, u5, u6, u7, u8, u9, u10, u11⟩ := C85_equivariant hf hp hfu hW (Or.inl rfl) x1 x2 c1 h2 e1 e2 hR
  rw [w1] at u5
  cases u5
  rw [t1] at u6
  cases u6
  rw [ht] at u7
  cases u7
  obtain ⟨a1, a2, a3, a4, -⟩ := C59_transform R x1 c1
  rw [t1] at a2
  cases a2
  have hP : ∃ y, f.leftRight fused (.list (weightList f W)) x1' x2t = .ok y ∧ IsProduct f W x1' x2t y := by
    cases fused with
    | true => exact C85_fused hf hp hfu hW (Or.inl rfl) x1' x2t a3 q2 (by rw [a4]; exact e1) (by rw [q3]; exact e2)
    | false => exact C85_left_right hf hp hfu hW (Or.inl rfl) x1' x2t a3 q2 (by rw [a4]; exact e1) (by rw [q3]; exact e2)
  obtain ⟨v, b1, b2⟩ := hP
  rw [u8] at b1
  cases b1
  have hP' : IsProduct f W x1' x2' u3 := by
    refine ⟨b2.1, b2.2.1, fun o c hc n hn k => ?_⟩
    rw [ha]
    exact b2.2.2 o c hc n hn k
  rw [← m4' x1' u3 hP', u11]
  exact (tr_array_congr cy wc (by rw [ey, w2]) (by rw [hy, w3]) ty u9).1

theorem linear_vecMat {irrepsIn irrepsOut : Irreps} {a g : ℝ} {f : FLin ℝ}
    (hf : FLin.init irrepsIn irrepsOut none .none a g = .ok f) {ws : List (List ℝ)} (hw : WeightShapes f ws) {M : List (List ℝ)} (hM : f.matrix ws = .ok M)
    {x y : IArr ℝ} (hx : x.Coherent) (hi : x.irreps = irrepsIn) (hy : f.call ws x = .ok y) : y.array = vecMat x.array M irrepsOut.dim := by
  obtain ⟨A, z, z1, z2, z3, z4, z5⟩ := C29_matrix hf ws hw x hx (by rw [hi])
  rw [hM] at z1
  cases z1
  rw [hy] at z2
  cases z2
  rw [z5]
  unfold vecMat
  refine List.map_congr_left fun j _ => ?_
  have hl : x.array.length = M.length := by
    have := hx.array_length
    rw [hi, ← Irreps.dim_eq_dimOf_expand] at this
    rw [this, z3]
  clear z3 z4 z5 hM hy
  generalize x.array = v at hl ⊢
  induction M generalizing v with
  | nil => cases v <;> simp
  | cons r M ih =>
    cases v with
    | nil => simp at hl
    | cons t v =>
      rw [List.length_cons, Finset.sum_range_succ']
      simp only [List.zipWith_cons_cons, List.sum_cons, List.getD_cons_zero, List.getD_cons_succ]
      rw [ih v (by simpa using hl), add_comm]

theorem linear_intertwine {irrepsIn irrepsOut : Irreps} {a g : ℝ} {f : FLin ℝ}
    (hf : FLin.init irrepsIn irrepsOut none .none a g = .ok f) (ws : List (List ℝ)) (hw : WeightShapes f ws) {R : Matrix (Fin 3) (Fin 3) ℝ} (hR : IsOrth R)
    {M : List (List ℝ)} (hM : f.matrix ws = .ok M) : Intertwine R irrepsIn irrepsOut M M := by
  have hv : ∀ x y : IArr ℝ, x.Coherent → x.irreps = irrepsIn → f.call ws x = .ok y → y.array = vecMat x.array M irrepsOut.dim :=
    fun x y hx hi hy => linear_vecMat hf hw hM hx hi hy
  intro x x' y y' cx ex tx cy ey hy ty
  obtain ⟨w, w1, w2, w3⟩ := C28_call_returns hf ws hw x cx (by rw [ex])
  obtain ⟨x'', u', u'', q1, q2, q3, q4⟩ := C59_linear hf ws hw hR x cx w w1
  rw [tx] at q1
  cases q1
  obtain ⟨a1, a2, a3, a4, -⟩ := C59_transform R x cx
  rw [tx] at a2
  cases a2
  rw [← hv x' u' a3 (by rw [a4, ex]) q2, q4.2.1]
  exact (tr_array_congr cy w2 (by rw [ey, w3]) (by rw [hy, hv x w cx ex w1]) ty q3).1

end E3nn.Voxel
