import Verif.Model.Grad
import Verif.Spec.Grad
import Verif.Props.C59
import Verif.Props.C46
import Mathlib.Analysis.Calculus.FDeriv.Linear
import Mathlib.Analysis.Calculus.FDeriv.Comp
import Mathlib.Analysis.Calculus.FDeriv.Add
import Mathlib.Analysis.Calculus.FDeriv.Mul

/-! # Lemmas on `grad`: chunk coordinates, their transformation, and the Jacobian -/

namespace E3nn.Grad

open E3nn.IArr E3nn.Rot E3nn.Wig E3nn.SU2 Matrix

variable {α β : Type}

theorem entry_chunksOf {ms : Irreps} (w : Pt ms β) (t : Fin ms.length) (v : Fin (ms.get t).mul) (j : Fin (2 * (ms.get t).ir.l + 1)) :
    entry (chunksOf w) t v j = w t v j := by
  unfold entry chunksOf
  rw [getD_ofFn]
  simp only [Option.getD_some]
  rw [getD_ofFn, getD_ofFn]

/-- The chunks of an array without flags are determined by their entries. -/
theorem chunks_coord {ms : Irreps} {y : IArr (α → ℝ)} (hy : Inv y) (hz : Unflagged y) (hm : y.irreps = ms) :
    y.chunks = chunksOf (ms := ms) fun s u i => entry y.chunks s u i := by
  subst hm
  obtain ⟨p1, p2, p3, -, p5, -⟩ := hy.pairs
  have hlen : y.chunks.length = y.irreps.length := hy.coherent.chunks_length
  apply List.ext_getElem
  · simp [chunksOf, hlen]
  intro s h1 h2
  have hs : s < y.irreps.length := by rw [← hlen]; exact h1
  have hsz : s < (y.irreps.zip y.chunks).length := by simp [hlen, hs]
  have hmem : (y.irreps[s], y.chunks[s]) ∈ y.irreps.zip y.chunks := by
    have := List.getElem_mem hsz
    rwa [List.getElem_zip] at this
  have hsome : (y.chunks[s]).isNone = false := by
    have : (y.chunks[s]).isNone ∈ y.zeroFlags := by
      rw [← p5]
      exact List.mem_map.mpr ⟨_, hmem, rfl⟩
    exact hz _ this
  obtain ⟨c, hc⟩ : ∃ c, y.chunks[s] = some c := by
    cases h : y.chunks[s] with
    | none => rw [h] at hsome; simp at hsome
    | some c => exact ⟨c, rfl⟩
  have hsh := p1 _ hmem
  rw [hc] at hsh
  simp only [shapeOk, Bool.and_eq_true, beq_iff_eq, List.all_eq_true] at hsh
  have hD : y.chunks.getD s none = some c := by rw [List.getD_eq_getElem _ _ h1, hc]
  simp only [chunksOf, List.getElem_ofFn, hc, Option.some.injEq]
  apply List.ext_getElem
  · simp [hsh.1]
  intro u g1 g2
  have hr := hsh.2 _ (List.getElem_mem g1)
  simp only [List.getElem_ofFn]
  apply List.ext_getElem
  · simp [hr, Irrep.dim]
  intro i k1 k2
  simp only [List.getElem_ofFn, entry, hD, Option.getD_some]
  rw [List.getD_eq_getElem _ _ g1, List.getD_eq_getElem _ _ k1]

theorem fromChunks_pt {ms : Irreps} (w : Pt ms β) :
    ∃ x, fromChunks ms (chunksOf w) = .ok x ∧ Inv x ∧ x.irreps = ms ∧ x.chunks = chunksOf w ∧ Unflagged x := by
  have hs : Shaped (List.ofFn fun t => (ms.get t, (some (List.ofFn fun v => List.ofFn fun j => w t v j) : Chunk (β → ℝ)))) := by
    intro p hp
    obtain ⟨t, rfl⟩ := (List.mem_ofFn' _ _).mp hp
    simp [shapeOk, Irrep.dim]
  obtain ⟨y, h1, h2, h3, -, -, h6, h7, -⟩ := fromChunks_pairs _ hs
  have e1 : (List.ofFn fun t => (ms.get t, (some (List.ofFn fun v => List.ofFn fun j => w t v j) : Chunk (β → ℝ)))).map Prod.fst = ms := by
    rw [List.map_ofFn]; exact List.ofFn_get ms
  have e2 : (List.ofFn fun t => (ms.get t, (some (List.ofFn fun v => List.ofFn fun j => w t v j) : Chunk (β → ℝ)))).map Prod.snd = chunksOf w := by
    rw [List.map_ofFn]; rfl
  rw [e1, e2] at h1
  rw [e1] at h3
  rw [e2] at h7
  refine ⟨y, h1, h2, h3, h7, ?_⟩
  intro z hz
  rw [h6, List.map_ofFn] at hz
  obtain ⟨t, rfl⟩ := (List.mem_ofFn' _ _).mp hz
  rfl

/-- The representation on the coordinates. -/
noncomputable def actPt (R : Mat) {ms : Irreps} (w : Pt ms β) : Pt ms β := fun t v j => ∑ j', Wig.dMatrix (ms.get t).ir R j j' • w t v j'

theorem transform_chunks (R : Mat) {ms : Irreps} {x : IArr (β → ℝ)} (hx : Inv x) (hm : x.irreps = ms) {w : Pt ms β} (hw : x.chunks = chunksOf w) :
    ∃ x', x.transformByMatrix R = .ok x' ∧ Inv x' ∧ x'.irreps = ms ∧ x'.chunks = chunksOf (actPt R w) ∧ Unflagged x' := by
  obtain ⟨x', h1, h2, h3, h4, h5⟩ := fromChunks_pt (actPt R w)
  refine ⟨x', ?_, h2, h3, h4, h5⟩
  rw [← h1]
  show x.transform (fun ir => matRows (Wig.dMatrix ir R)) = _
  unfold transform transformBy
  rw [hm, hw]
  congr 1
  apply List.ext_getElem
  · simp [chunksOf]
  intro t g1 g2
  rw [List.getElem_map, List.getElem_zip]
  unfold actRows
  simp only [chunksOf, List.getElem_ofFn, Option.map_some, List.map_ofFn]
  congr 2
  funext v
  simp only [Function.comp_apply]
  exact matVec_ofFn (α := β → ℝ) (Wig.dMatrix _ R) _

theorem chunks_of_same {x u : IArr (α → ℝ)} (hx : Inv x) (hu : Inv u) (h1 : x.irreps = u.irreps) (h2 : x.array = u.array) (zx : Unflagged x) (zu : Unflagged u) :
    x.chunks = u.chunks := by
  have e : ∀ (y : IArr (α → ℝ)), Inv y → Unflagged y → y.zeroFlags = List.replicate y.irreps.length false := by
    intro y hy hz
    rw [← hy.coherent.flags_length]
    exact List.eq_replicate_of_mem hz
  rw [hx.chunks_eq, hu.chunks_eq, h1, h2, e x hx zx, e u hu zu, h1]

/-- `fun` can be traced: on arguments of irreps `ms` it returns arrays of fixed irreps without flagged terms. -/
def Traced (fn : IArr (β → ℝ) → Except PyErr (IArr (α → ℝ))) (ms out : Irreps) : Prop :=
  ∀ x : IArr (β → ℝ), x.Coherent → x.irreps = ms → Unflagged x → ∃ y, fn x = .ok y ∧ y.Coherent ∧ y.irreps = out ∧ Unflagged y

theorem naked_ok {fn : IArr (β → ℝ) → Except PyErr (IArr (α → ℝ))} {ms out : Irreps} (h : Traced fn ms out) (w : Pt ms β) :
    ∃ x y, fromChunks ms (chunksOf w) = .ok x ∧ Inv x ∧ x.irreps = ms ∧ x.chunks = chunksOf w ∧ Unflagged x ∧
      fn x = .ok y ∧ Inv y ∧ y.irreps = out ∧ Unflagged y ∧ y.chunks = chunksOf (ms := out) (fun s u i => naked fn ms w s u i) := by
  obtain ⟨x, h1, h2, h3, h4, h5⟩ := fromChunks_pt w
  obtain ⟨y, g1, g2, g3, g4⟩ := h x h2.coherent h3 h5
  refine ⟨x, y, h1, h2, h3, h4, h5, g1, g2.inv, g3, g4, ?_⟩
  have hn : ∀ s u i, naked fn ms w s u i = entry y.chunks s u i := by
    intro s u i
    funext a
    unfold naked
    simp only [h1, bind, Except.bind, g1]
  simp only [hn]
  exact chunks_coord g2.inv g4 g3

theorem naked_act {R : Mat} {f g : IArr (β → ℝ) → Except PyErr (IArr (α → ℝ))} {ms out : Irreps} (hf : Traced f ms out) (hg : Traced g ms out)
    (hfg : Follows R f g ms) (w : Pt ms β) (s : Fin out.length) (u : Fin (out.get s).mul) (i : Fin (2 * (out.get s).ir.l + 1)) (a : α) :
    naked g ms (actPt R w) s u i a = ∑ i', Wig.dMatrix (out.get s).ir R i i' * naked f ms w s u i' a := by
  obtain ⟨x, y, a1, a2, a3, a4, a5, a6, a7, a8, a9, a10⟩ := naked_ok hf w
  obtain ⟨x', y', b1, b2, b3, b4, b5, b6, b7, b8, b9, b10⟩ := naked_ok hg (actPt R w)
  obtain ⟨x'', c1, c2, c3, c4, c5⟩ := transform_chunks R a2 a3 a4
  obtain ⟨y'', d1, d2, d3, d4, d5⟩ := transform_chunks R a7 a8 a10
  have harr : x'.array = x''.array := by
    rw [← b2.pairs.2.2.2.2.2, ← c2.pairs.2.2.2.2.2, b3, c3, b4, c4]
  obtain ⟨e1, e2⟩ := hfg x x' x'' a2.coherent a3 a5 b2.coherent b3 b5 c1 harr y y' y'' a6 b6 d1
  have e3 := chunks_of_same b7 d2 e1 e2 b9 d5
  rw [b10, d4] at e3
  have h := entry_chunksOf (ms := out) (fun s u i => naked g ms (actPt R w) s u i) s u i
  rw [e3, entry_chunksOf] at h
  rw [← h]
  simp [actPt, Finset.sum_apply]


section jacobian

theorem actPt_add (R : Mat) {ms : Irreps} (w w' : Pt ms β) : actPt R (w + w') = actPt R w + actPt R w' := by
  funext t v j b
  simp only [actPt, Pi.add_apply, smul_add, Finset.sum_add_distrib]

theorem actPt_smul (R : Mat) {ms : Irreps} (c : ℝ) (w : Pt ms β) : actPt R (c • w) = c • actPt R w := by
  funext t v j b
  simp only [actPt, Pi.smul_apply, Finset.sum_apply, smul_eq_mul, Finset.mul_sum]
  apply Finset.sum_congr rfl
  intro _ _
  ring

variable [Fintype β] [DecidableEq β]

/-- The representation as a continuous linear map. -/
noncomputable def actL (R : Mat) (ms : Irreps) (β : Type) [Fintype β] : Pt ms β →L[ℝ] Pt ms β :=
  LinearMap.toContinuousLinearMap { toFun := actPt R, map_add' := actPt_add R, map_smul' := actPt_smul R }

theorem actL_apply (R : Mat) {ms : Irreps} (w : Pt ms β) : actL R ms β w = actPt R w := rfl

theorem actPt_inv {R : Mat} (hR : IsOrth R) {ms : Irreps} (w : Pt ms β) : actPt R (actPt Rᵀ w) = w := by
  funext t v j b
  have h : Wig.dMatrix (ms.get t).ir R * Wig.dMatrix (ms.get t).ir Rᵀ = 1 := by
    have h1 : IsOrth Rᵀ := by
      unfold IsOrth at hR ⊢
      rw [Matrix.transpose_transpose]
      exact mul_eq_one_comm.mp hR
    rw [← C39_homomorphism _ hR h1, hR, C39_identity]
  have h2 : ∀ j', ∑ k, Wig.dMatrix (ms.get t).ir R j k * Wig.dMatrix (ms.get t).ir Rᵀ k j' = if j = j' then 1 else 0 := by
    intro j'
    have := congrFun (congrFun h j) j'
    rwa [Matrix.mul_apply, Matrix.one_apply] at this
  simp only [actPt, Finset.sum_apply, Pi.smul_apply, smul_eq_mul, Finset.mul_sum]
  rw [Finset.sum_comm]
  simp only [← mul_assoc, ← Finset.sum_mul, h2, ite_mul, one_mul, zero_mul, Finset.sum_ite_eq, Finset.mem_univ, if_true]

theorem dMatrix_transpose {R : Mat} (hR : IsOrth R) (ir : Irrep) : Wig.dMatrix ir Rᵀ = (Wig.dMatrix ir R)ᵀ := by
  have h1 : IsOrth Rᵀ := by
    unfold IsOrth at hR ⊢
    rw [Matrix.transpose_transpose]
    exact mul_eq_one_comm.mp hR
  have h : Wig.dMatrix ir Rᵀ * Wig.dMatrix ir R = 1 := by
    rw [← C39_homomorphism _ h1 hR, mul_eq_one_comm.mp hR, C39_identity]
  exact (Matrix.left_inv_eq_left_inv h (mul_eq_one_comm.mp (C39_orthogonal ir hR).1))

theorem actPt_unit {R : Mat} {ms : Irreps} (t : Fin ms.length) (v : Fin (ms.get t).mul) (j : Fin (2 * (ms.get t).ir.l + 1)) (b : β) :
    actPt R (unit t v j b) = ∑ j', Wig.dMatrix (ms.get t).ir R j' j • unit t v j' b := by
  funext t' v' k b'
  simp only [actPt, unit, Finset.sum_apply, Pi.smul_apply, smul_eq_mul]
  by_cases ht : t' = t
  · subst ht
    by_cases hv : v' = v
    · subst hv
      simp only [Pi.single_eq_same]
      rw [Finset.sum_eq_single j (by intro j' _ hj; simp [Pi.single_eq_of_ne hj]) (by simp), Finset.sum_eq_single k (by intro j' _ hj; simp [Pi.single_eq_of_ne hj.symm]) (by simp)]
      simp
    · simp [Pi.single_eq_of_ne hv]
  · simp [Pi.single_eq_of_ne ht]

/-- The Jacobian of the transformed function. -/
theorem jac_act {R : Mat} (hR : IsOrth R) {f g : IArr (β → ℝ) → Except PyErr (IArr (α → ℝ))} {ms out : Irreps} (hf : Traced f ms out) (hg : Traced g ms out)
    (hfg : Follows R f g ms) {w : Pt ms β} (hd : ∀ (s : Fin out.length) (u : Fin (out.get s).mul) (i : Fin (2 * (out.get s).ir.l + 1)) a, DifferentiableAt ℝ (fun w => naked f ms w s u i a) w)
    (s : Fin out.length) (u : Fin (out.get s).mul) (i : Fin (2 * (out.get s).ir.l + 1)) (a : α)
    (t : Fin ms.length) (v : Fin (ms.get t).mul) (j : Fin (2 * (ms.get t).ir.l + 1)) (b : β) :
    jac g ms (actPt R w) s u i a t v j b =
      ∑ i', ∑ j', Wig.dMatrix (out.get s).ir R i i' * Wig.dMatrix (ms.get t).ir R j j' * jac f ms w s u i' a t v j' b := by
  have e : (fun w' => naked g ms w' s u i a) = fun w' => ∑ i', Wig.dMatrix (out.get s).ir R i i' * naked f ms (actL Rᵀ ms β w') s u i' a := by
    funext w'
    conv_lhs => rw [← actPt_inv hR w']
    rw [naked_act hf hg hfg]
    rfl
  have hw : actL Rᵀ ms β (actPt R w) = w := by
    have h1 : IsOrth Rᵀ := by
      unfold IsOrth at hR ⊢
      rw [Matrix.transpose_transpose]
      exact mul_eq_one_comm.mp hR
    have := actPt_inv h1 w
    rwa [Matrix.transpose_transpose] at this
  unfold jac
  rw [e]
  have hD : ∀ i' : Fin (2 * (out.get s).ir.l + 1), HasFDerivAt (fun w' => naked f ms (actL Rᵀ ms β w') s u i' a)
      ((fderiv ℝ (fun w => naked f ms w s u i' a) w).comp (actL Rᵀ ms β)) (actPt R w) := by
    intro i'
    have h1 : HasFDerivAt (fun w => naked f ms w s u i' a) (fderiv ℝ (fun w => naked f ms w s u i' a) w) (actL Rᵀ ms β (actPt R w)) := by
      rw [hw]; exact (hd s u i' a).hasFDerivAt
    exact h1.comp (actPt R w) (actL Rᵀ ms β).hasFDerivAt
  have hS := HasFDerivAt.fun_sum (u := Finset.univ) fun (i' : Fin (2 * (out.get s).ir.l + 1)) _ => (hD i').const_mul (Wig.dMatrix (out.get s).ir R i i')
  rw [hS.fderiv]
  simp only [ContinuousLinearMap.sum_apply, ContinuousLinearMap.smul_apply, ContinuousLinearMap.comp_apply, smul_eq_mul, actL_apply, actPt_unit, map_sum,
    map_smul, dMatrix_transpose hR, Matrix.transpose_apply, Finset.mul_sum, mul_assoc]

/-- One contracted block follows the representation. -/
theorem contract_act {l1 l2 l3 : ℕ} {p1 p2 : Parity} {R : Mat} (hR : IsOrth R) (c : ℝ) (J J' : Fin (2 * l1 + 1) → Fin (2 * l2 + 1) → ℝ)
    (h : ∀ i j, J' i j = ∑ i', ∑ j', Wig.dMatrix ⟨l1, p1⟩ R i i' * Wig.dMatrix ⟨l2, p2⟩ R j j' * J i' j') (k : Fin (2 * l3 + 1)) :
    ∑ i, ∑ j, J' i j * (c * clebschGordan l1 l2 l3 i j k) =
      ∑ k', Wig.dMatrix ⟨l3, p1.mul p2⟩ R k k' * ∑ i, ∑ j, J i j * (c * clebschGordan l1 l2 l3 i j k') := by
  have e1 : ∑ k', Wig.dMatrix ⟨l3, p1.mul p2⟩ R k k' * ∑ i, ∑ j, J i j * (c * clebschGordan l1 l2 l3 i j k') =
      ∑ i, ∑ j, c * J i j * ∑ k', Wig.dMatrix ⟨l3, p1.mul p2⟩ R k k' * clebschGordan l1 l2 l3 i j k' := by
    simp only [Finset.mul_sum]
    rw [Finset.sum_comm]
    apply Finset.sum_congr rfl; intro i _
    rw [Finset.sum_comm]
    apply Finset.sum_congr rfl; intro j _
    apply Finset.sum_congr rfl; intro k' _
    ring
  rw [e1]
  simp only [← cg_tensor l1 l2 l3 p1 p2 hR, h, Finset.sum_mul, Finset.mul_sum]
  have e2 : ∀ F : Fin (2 * l1 + 1) → Fin (2 * l2 + 1) → Fin (2 * l1 + 1) → Fin (2 * l2 + 1) → ℝ,
      ∑ i, ∑ j, ∑ i', ∑ j', F i j i' j' = ∑ i', ∑ j', ∑ i, ∑ j, F i j i' j' := by
    intro F
    simp only [← Fintype.sum_prod_type']
    exact Fintype.sum_equiv ⟨fun q => (q.2.2.1, q.2.2.2, q.1, q.2.1), fun q => (q.2.2.1, q.2.2.2, q.1, q.2.1), fun _ => rfl, fun _ => rfl⟩ _ _ fun _ => rfl
  rw [e2]
  refine Finset.sum_congr rfl fun i' _ => Finset.sum_congr rfl fun j' _ => Finset.sum_congr rfl fun i _ => Finset.sum_congr rfl fun j _ => ?_
  ring

end jacobian

end E3nn.Grad
