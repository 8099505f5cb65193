import Verif.Lemmas.Transform
import Mathlib.LinearAlgebra.Pi

/-!
# C22: structural operations commute with the transformation of the irreps

`transform M x` is `x.transform_by_angles(...)` etc.: every irrep block is multiplied by the matrix
`M ir`.  Nothing is assumed on the matrices but their size, so the theorems hold for every
rotation, parity, and for the representation of any other group.
-/

namespace E3nn
open IArr

/-- Indistinguishable arrays: same irreps, array, zero flags and chunks. -/
def IArr.Equal {α : Type} (x y : IArr α) : Prop :=
  x.irreps = y.irreps ∧ x.array = y.array ∧ x.zeroFlags = y.zeroFlags ∧ x.chunks = y.chunks

/-- A square matrix of the right size for every irrep. -/
def MatFamily {R : Type} (M : Irrep → List (List R)) : Prop :=
  ∀ ir, (M ir).length = 2 * ir.l + 1 ∧ ∀ row ∈ M ir, row.length = 2 * ir.l + 1

/-- `op (D x) = D (op x)`: whenever `op` returns on `x`, it returns on the transform of `x`, and
the result is the transform of `op x`. -/
def Equivariant {α β : Type} [AddCommMonoid α] [AddCommMonoid β] (R : Type) [Semiring R] [Module R α] [Module R β]
    (op : IArr α → Except PyErr (IArr β)) : Prop :=
  ∀ (M : Irrep → List (List R)), MatFamily M → ∀ (x : IArr α), x.Coherent → ∀ y, op x = .ok y →
    ∃ x' y' y'', transform M x = .ok x' ∧ op x' = .ok y' ∧ transform M y = .ok y'' ∧ y'.Equal y''

section
variable {R α : Type} [Semiring R] [AddCommMonoid α] [Module R α]

/-- What `transform` does: every (irrep, components) block is multiplied by its matrix; the irreps
and the zero flags stay. -/
theorem C22_transform (M : Irrep → List (List R)) (hM : MatFamily M) (x : IArr α) (hx : x.Coherent) :
    ∃ x', transform M x = .ok x' ∧ x'.Coherent ∧ x'.irreps = x.irreps ∧ x'.zeroFlags = x.zeroFlags ∧
      x'.blocks = x.blocks.map fun b => (b.1, matVec (M b.1) b.2) := by
  obtain ⟨x', h1, h2⟩ := transformBy_spec (matVec_act (α := α) fun ir => (hM ir).1) hx.inv
  exact ⟨x', h1, h2.inv'.coherent, h2.irreps, h2.flags, h2.blocks (matVec_act fun ir => (hM ir).1)⟩

theorem equiv_of_tr {op : IArr α → Except PyErr (IArr α)}
    (hop : ∀ (M : Irrep → List (List R)), MatFamily M → ∀ x x' y : IArr α,
      Tr (fun ir => matVec (M ir)) x x' → op x = .ok y →
      ∃ y', op x' = .ok y' ∧ Tr (fun ir => matVec (M ir)) y y') : Equivariant R op := by
  intro M hM x hx y hy
  have hD : Act (fun ir => matVec (α := α) (M ir)) := matVec_act fun ir => (hM ir).1
  obtain ⟨x', h1, h2⟩ := transformBy_spec hD hx.inv
  obtain ⟨y', k1, k2⟩ := hop M hM x x' y h2 hy
  obtain ⟨y'', l1, l2⟩ := transformBy_spec hD k2.inv
  exact ⟨x', y', y'', h1, k1, l1, k2.unique l2⟩

theorem C22_rechunk (new : Irreps) : Equivariant R fun x : IArr α => x.rechunk new :=
  equiv_of_tr fun _ hM _ _ _ h hy => tr_rechunk (matVec_act fun ir => (hM ir).1) h hy

theorem C22_simplify : Equivariant R fun x : IArr α => x.simplify :=
  equiv_of_tr fun _ hM _ _ _ h hy => by
    obtain ⟨y', h1, h2⟩ := tr_rechunk (matVec_act fun ir => (hM ir).1) h hy
    exact ⟨y', by unfold IArr.simplify; rw [h.irreps]; exact h1, h2⟩

theorem C22_unify : Equivariant R fun x : IArr α => x.unify :=
  equiv_of_tr fun _ hM _ _ _ h hy => by
    obtain ⟨y', h1, h2⟩ := tr_rechunk (matVec_act fun ir => (hM ir).1) h hy
    exact ⟨y', by unfold IArr.unify; rw [h.irreps]; exact h1, h2⟩

theorem C22_sort : Equivariant R fun x : IArr α => x.sort :=
  equiv_of_tr fun _ hM _ _ _ h hy => tr_sort (matVec_act fun ir => (hM ir).1) h hy

theorem C22_regroup : Equivariant R fun x : IArr α => x.regroup :=
  equiv_of_tr fun _ hM _ _ _ h hy => tr_regroup (matVec_act fun ir => (hM ir).1) h hy

theorem C22_filter (keep drop : Option Irreps.FilterArg) (L : Option Int) :
    Equivariant R fun x : IArr α => x.filter keep drop L :=
  equiv_of_tr fun _ hM _ _ _ h hy => tr_filter (matVec_act fun ir => (hM ir).1) h hy

theorem C22_remove_zero_chunks : Equivariant R fun x : IArr α => x.removeZeroChunks :=
  equiv_of_tr fun _ hM _ _ _ h hy => tr_removeZeroChunks (matVec_act fun ir => (hM ir).1) h hy

theorem C22_extend_with_zeros (new : Irreps) : Equivariant R fun x : IArr α => x.extendWithZeros new :=
  equiv_of_tr fun _ hM _ _ _ h hy => tr_extendWithZeros (matVec_act fun ir => (hM ir).1) h hy

theorem C22_slice_by_mul (s : PySlice) : Equivariant R fun x : IArr α => x.sliceByMul s :=
  equiv_of_tr fun _ hM _ _ _ h hy => tr_sliceByMul (matVec_act fun ir => (hM ir).1) h hy

theorem C22_slice_by_chunk (s : PySlice) : Equivariant R fun x : IArr α => x.sliceByChunk s :=
  equiv_of_tr fun _ hM _ _ _ h hy => tr_sliceByChunk (matVec_act fun ir => (hM ir).1) h hy

/-- `x[..., "1o + 0e"]` -/
theorem C22_index_irreps (pat : Irreps) : Equivariant R fun x : IArr α => x.getIrreps pat :=
  equiv_of_tr fun _ _ _ _ _ h hy => tr_getIrreps h hy

/-- `x[..., a:b]` -/
theorem C22_slice (s : PySlice) : Equivariant R fun x : IArr α => x.getSlice s :=
  equiv_of_tr fun _ hM _ _ _ h hy => tr_getSlice (matVec_act fun ir => (hM ir).1) h hy

/-- `concatenate`: the transform of a concatenation is the concatenation of the transforms. -/
theorem C22_concatenate (M : Irrep → List (List R)) (hM : MatFamily M) (xs : List (IArr α))
    (hx : ∀ x ∈ xs, x.Coherent) (y : IArr α) (hy : concatenate xs = .ok y) :
    ∃ xs' y' y'', xs.mapM (transform M) = .ok xs' ∧ concatenate xs' = .ok y' ∧
      transform M y = .ok y'' ∧ y'.Equal y'' := by
  have hD : Act (fun ir => matVec (α := α) (M ir)) := matVec_act fun ir => (hM ir).1
  have key : ∃ xs', xs.mapM (transform M) = .ok xs' ∧ TrList (fun ir => matVec (M ir)) xs xs' := by
    clear hy
    induction xs with
    | nil => exact ⟨[], rfl, .nil⟩
    | cons x xs ih =>
      obtain ⟨xs', h1, h2⟩ := ih fun z hz => hx z (by simp [hz])
      obtain ⟨x', k1, k2⟩ := transformBy_spec hD (hx x (by simp)).inv
      refine ⟨x' :: xs', ?_, .cons k2 h2⟩
      have k1' : transform M x = .ok x' := k1
      rw [List.mapM_cons, k1', h1]; rfl
  obtain ⟨xs', h1, h2⟩ := key
  obtain ⟨y', k1, k2⟩ := tr_concatenate h2 hy
  obtain ⟨y'', l1, l2⟩ := transformBy_spec hD k2.inv
  exact ⟨xs', y', y'', h1, k1, l1, k2.unique l2⟩

/-- Multiplication by a number, and every other linear map of the leading axes. -/
theorem C22_linear (g : α →ₗ[R] α) : Equivariant R fun x : IArr α => mapCols g x :=
  equiv_of_tr fun M hM _ _ _ h hy => tr_mapCols (matVec_act fun ir => (hM ir).1) (by simp)
    (fun ir a _ => (matVec_map g (M ir) a).symm) h hy

theorem add_flags {x y z : IArr α} (h : add x y = .ok z) :
    z.zeroFlags = List.zipWith (· && ·) x.zeroFlags y.zeroFlags := by
  unfold add at h
  split at h
  · simp at h
  · obtain ⟨e, -⟩ := make_ok_eq h
    rw [e]; rfl

/-- The sum of transforms is the transform of the sum. -/
theorem C22_add (M : Irrep → List (List R)) (hM : MatFamily M) (x y : IArr α) (hx : x.Coherent)
    (hy : y.Coherent) (z : IArr α) (hz : add x y = .ok z) :
    ∃ x' y' z' z'', transform M x = .ok x' ∧ transform M y = .ok y' ∧ add x' y' = .ok z' ∧
      transform M z = .ok z'' ∧ z'.Equal z'' := by
  have hD : Act (fun ir => matVec (α := α) (M ir)) := matVec_act fun ir => (hM ir).1
  obtain ⟨x', h1, h2⟩ := transformBy_spec hD hx.inv
  obtain ⟨y', k1, k2⟩ := transformBy_spec hD hy.inv
  have hi : x.irreps = y.irreps := by
    by_contra hne
    unfold add at hz; rw [if_pos hne] at hz; simp at hz
  obtain ⟨u, u1, u2, u3, u4⟩ := add_spec hx.inv hy.inv hi
  obtain ⟨w, w1, w2, w3, w4⟩ := add_spec h2.inv' k2.inv' (by rw [h2.irreps, k2.irreps, hi])
  rw [u1] at hz; injection hz with hz; subst hz
  have ht := tr_zip hD (f := fun a b => a + b)
    (fun ir a b ha hb => matVec_add (M ir) a b (by rw [ha, hb])) h2 k2 hi u2 w2 u3 w3 u4 w4
    (by rw [add_flags w1, add_flags u1, h2.flags, k2.flags])
  obtain ⟨z'', l1, l2⟩ := transformBy_spec hD u2
  exact ⟨x', y', w, z'', h1, k1, w1, l1, ht.unique l2⟩

theorem joinRows_matVec {f : Nat} (M : List (List R)) (c : List (List (Fin f → α))) :
    joinRows (c.map (matVec M)) = (joinRows c).map (matVec M) := by
  unfold joinRows
  rw [List.map_flatMap]
  apply List.flatMap_congr
  intro k _
  rw [List.map_map, List.map_map]
  apply List.map_congr_left
  intro r _
  exact matVec_map (LinearMap.proj (R := R) (φ := fun _ : Fin f => α) k) M r

theorem splitRows_matVec (f mul d : Nat) (M : List (List R)) (hM : M.length = d) (c : List (List α))
    (h1 : c.length = f * mul) (h2 : ∀ r ∈ c, r.length = d) :
    splitRows f mul d (c.map (matVec M)) = (splitRows f mul d c).map (matVec M) := by
  have hs := splitRows_shape f mul d c
  have := split_join f mul d ((splitRows f mul d c).map (matVec M)) (by simpa using hs.1)
    (by intro r hr; obtain ⟨r', _, rfl⟩ := List.mem_map.mp hr; rw [matVec_length, hM])
  rw [← this, joinRows_matVec, join_split f mul d c h1 h2]

/-- `axis_to_mul`. -/
theorem C22_axis_to_mul (f : Nat) : Equivariant R fun x : IArr (Fin f → α) => x.axisToMul := by
  intro M hM x hx y hy
  replace hy : x.axisToMul = .ok y := hy
  have hD : Act (fun ir => matVec (α := α) (M ir)) := matVec_act fun ir => (hM ir).1
  have hD' : Act (fun ir => matVec (α := Fin f → α) (M ir)) := matVec_act fun ir => (hM ir).1
  obtain ⟨x', h1, h2⟩ := transformBy_spec hD' hx.inv
  obtain ⟨u, u1, u2, u3, u4⟩ := axisToMul_spec hx.inv
  rw [u1] at hy; injection hy with hy; subst hy
  obtain ⟨w, w1, w2, w3, w4⟩ := axisToMul_spec h2.inv'
  have ht : Tr (fun ir => matVec (M ir)) u w := by
    refine ⟨u2, w2, ?_⟩
    rw [w3, w4, u3, u4, h2.irreps, h2.chunks, List.map_map]
    have e1 := hx.inv.pairs.2.1
    have e2 := hx.inv.pairs.2.2.1
    generalize x.irreps.zip x.chunks = ps at e1 e2 ⊢
    rw [← e1, ← e2, List.map_map, List.map_map, List.zip_map', List.zip_map', List.map_map]
    apply List.map_congr_left
    rintro ⟨m, c⟩ _
    cases c with
    | none => rfl
    | some c => simp [T, actRows, joinRows_matVec]
  obtain ⟨z'', l1, l2⟩ := transformBy_spec hD u2
  exact ⟨x', w, z'', h1, w1, l1, ht.unique l2⟩

/-- `mul_to_axis(f)`. -/
theorem C22_mul_to_axis (f : Nat) (hf : 0 < f) : Equivariant R fun x : IArr α => x.mulToAxis f := by
  intro M hM x hx y hy
  replace hy : x.mulToAxis f = .ok y := hy
  have hD : Act (fun ir => matVec (α := α) (M ir)) := matVec_act fun ir => (hM ir).1
  have hD' : Act (fun ir => matVec (α := Fin f → α) (M ir)) := matVec_act fun ir => (hM ir).1
  obtain ⟨x', h1, h2⟩ := transformBy_spec hD hx.inv
  have hdiv : ∀ m ∈ x.irreps, f ∣ m.mul := by
    unfold mulToAxis at hy
    split_ifs at hy with h0 h00
    intro m hm
    simp only [Bool.not_eq_true', Bool.not_eq_false, List.all_eq_true, beq_iff_eq] at h00
    exact Nat.dvd_of_mod_eq_zero (h00 m hm)
  obtain ⟨u, u1, u2, u3, u4⟩ := mulToAxis_spec hx.inv hf hdiv
  rw [u1] at hy; injection hy with hy; subst hy
  obtain ⟨w, w1, w2, w3, w4⟩ := mulToAxis_spec h2.inv' hf (by rw [h2.irreps]; exact hdiv)
  have ht : Tr (fun ir => matVec (M ir)) u w := by
    refine ⟨u2, w2, ?_⟩
    rw [w3, w4, u3, u4, h2.pairs, h2.irreps, List.map_map]
    have e1 := hx.inv.pairs.2.1
    have e3 := fun p (hp : p ∈ x.irreps.zip x.chunks) => hdiv p.1 (List.of_mem_zip hp).1
    have e4 := hx.inv.pairs.1
    generalize x.irreps.zip x.chunks = ps at e1 e3 e4 ⊢
    rw [← e1, List.map_map, List.zip_map', List.zip_map', List.map_map]
    apply List.map_congr_left
    rintro ⟨m, c⟩ hp
    have hs := e4 _ hp
    cases c with
    | none => rfl
    | some c =>
      simp only [shapeOk, Bool.and_eq_true, beq_iff_eq, List.all_eq_true] at hs
      simp only [T, actRows, Option.map_some, Function.comp_apply, Prod.mk.injEq, Option.some.injEq, true_and]
      apply splitRows_matVec
      · exact (hM m.ir).1
      · rw [Nat.mul_div_cancel' (e3 _ hp)]; exact hs.1
      · exact hs.2
  obtain ⟨z'', l1, l2⟩ := transformBy_spec hD' u2
  exact ⟨x', w, z'', h1, w1, l1, ht.unique l2⟩

end

/-- A non-trivial instance: parity and a permutation of the components of `l = 1`. -/
example : MatFamily (R := Int) (fun ir => if ir.l = 1 then [[0, 1, 0], [0, 0, 1], [-1, 0, 0]] else
    (List.range (2 * ir.l + 1)).map fun i => (List.range (2 * ir.l + 1)).map fun j => if i = j then 1 else 0) := by
  intro ir
  by_cases h : ir.l = 1
  · simp [h]
  · simp only [h, if_false, List.length_map, List.length_range, List.mem_map, true_and]
    rintro row ⟨i, _, rfl⟩
    simp

end E3nn
