import Verif.Lemmas.Grad
import Mathlib.Data.Fintype.Sigma

/-! # Chunk coordinates and array coordinates -/

namespace E3nn.Grad

open E3nn.IArr E3nn.Rot E3nn.Wig E3nn.SU2 Matrix

variable {α β : Type}

/-- A position in the chunks. -/
abbrev Pos (ms : Irreps) := (t : Fin ms.length) × Fin (ms.get t).mul × Fin (2 * (ms.get t).ir.l + 1)

/-- The positions in the order of the array. -/
def idx (ms : Irreps) : List (Pos ms) :=
  (List.finRange ms.length).flatMap fun t => (List.finRange (ms.get t).mul).flatMap fun v =>
    (List.finRange (2 * (ms.get t).ir.l + 1)).map fun j => ⟨t, v, j⟩

theorem mem_idx {ms : Irreps} (p : Pos ms) : p ∈ idx ms := by
  simp only [idx, List.mem_flatMap, List.mem_map, List.mem_finRange, true_and]
  exact ⟨p.1, p.2.1, p.2.2, rfl⟩

theorem nodup_idx (ms : Irreps) : (idx ms).Nodup := by
  unfold idx
  rw [List.nodup_flatMap]
  refine ⟨fun t _ => ?_, ?_⟩
  · rw [List.nodup_flatMap]
    refine ⟨fun v _ => ?_, ?_⟩
    · apply (List.nodup_finRange _).map
      intro a b h
      simpa using h
    · apply (List.nodup_finRange _).imp
      intro a b hab x hx hy
      obtain ⟨i, -, rfl⟩ := List.mem_map.mp hx
      obtain ⟨j, -, e⟩ := List.mem_map.mp hy
      simp at e
      exact hab e.1.symm
  · apply (List.nodup_finRange _).imp
    intro a b hab x hx hy
    simp only [List.mem_flatMap, List.mem_map] at hx hy
    obtain ⟨v, -, i, -, rfl⟩ := hx
    obtain ⟨v', -, i', -, e⟩ := hy
    exact hab (congrArg Sigma.fst e).symm

/-- The array of a list of chunks. -/
theorem array_idx {ms : Irreps} {x : IArr (β → ℝ)} (hx : Inv x) (hm : x.irreps = ms) {w : Pt ms β} (hw : x.chunks = chunksOf w) :
    x.array = (idx ms).map fun p => w p.1 p.2.1 p.2.2 := by
  rw [← hx.pairs.2.2.2.2.2, hm, hw]
  have e : ms.zip (chunksOf w) = (List.finRange ms.length).map fun t => (ms.get t, (some (List.ofFn fun v => List.ofFn fun j => w t v j) : Chunk (β → ℝ))) := by
    calc ms.zip (chunksOf w) = ((List.finRange ms.length).map ms.get).zip (chunksOf w) := by
          rw [← List.ofFn_eq_map, List.ofFn_get]
      _ = _ := by rw [chunksOf, List.ofFn_eq_map, List.zip_map']
  rw [e, List.map_map]
  unfold idx
  rw [List.map_flatMap, List.flatMap_def]
  congr 1
  apply List.map_congr_left
  intro t _
  simp only [Function.comp_apply, flatChunk]
  rw [List.map_flatMap, List.flatMap_def]
  simp only [List.map_map]
  rw [List.ofFn_eq_map]
  congr 1
  apply List.map_congr_left
  intro v _
  rw [List.ofFn_eq_map]
  rfl

theorem length_idx (ms : Irreps) : (idx ms).length = dimOf (expand ms) := by
  obtain ⟨x, -, h2, h3, h4, -⟩ := fromChunks_pt (ms := ms) (β := Unit) 0
  have := array_idx h2 h3 h4
  have h := congrArg List.length this
  rw [h2.coherent.array_length, h3, List.length_map] at h
  exact h.symm

/-- The index in the array of a position. -/
noncomputable def pos {ms : Irreps} (p : Pos ms) : Fin (dimOf (expand ms)) :=
  ⟨List.idxOf p (idx ms), by rw [← length_idx]; exact List.idxOf_lt_length_of_mem (mem_idx p)⟩

/-- Positions and indices in the array. -/
noncomputable def posEquiv (ms : Irreps) : Pos ms ≃ Fin (dimOf (expand ms)) where
  toFun := pos
  invFun k := (idx ms)[k.val]'(by rw [length_idx]; exact k.2)
  left_inv p := by simp [pos]
  right_inv k := by
    apply Fin.ext
    simp only [pos]
    exact (nodup_idx ms).idxOf_getElem _ _

theorem Computes.traced {fn : IArr (β → ℝ) → Except PyErr (IArr (α → ℝ))} {ms out : Irreps}
    {F : (Fin (dimOf (expand ms)) → β → ℝ) → Fin (dimOf (expand out)) → α → ℝ} (h : Computes fn ms out F) : Traced fn ms out := by
  intro x h1 h2 h3
  obtain ⟨y, g1, g2, g3, g4, -⟩ := h x h1 h2 h3
  exact ⟨y, g1, g2, g3, g4⟩

/-- The numbers of the array from those of the chunks. -/
noncomputable def toArray {ms : Irreps} (w : Pt ms β) : Fin (dimOf (expand ms)) → β → ℝ := fun k =>
  w ((posEquiv ms).symm k).1 ((posEquiv ms).symm k).2.1 ((posEquiv ms).symm k).2.2

theorem toArray_pos {ms : Irreps} (w : Pt ms β) (p : Pos ms) : toArray w (posEquiv ms p) = w p.1 p.2.1 p.2.2 := by
  simp only [toArray]
  rw [(posEquiv ms).symm_apply_apply]

theorem map_idx {ms : Irreps} {γ : Type} (h : Pos ms → γ) : (idx ms).map h = List.ofFn fun k => h ((posEquiv ms).symm k) := by
  apply List.ext_getElem
  · simp [length_idx]
  intro k h1 h2
  simp [posEquiv]

theorem array_toArray {ms : Irreps} {x : IArr (β → ℝ)} (hx : Inv x) (hm : x.irreps = ms) {w : Pt ms β} (hw : x.chunks = chunksOf w) :
    x.array = List.ofFn (toArray w) := by
  rw [array_idx hx hm hw, map_idx]
  rfl

theorem naked_eq {fn : IArr (β → ℝ) → Except PyErr (IArr (α → ℝ))} {ms out : Irreps}
    {F : (Fin (dimOf (expand ms)) → β → ℝ) → Fin (dimOf (expand out)) → α → ℝ} (h : Computes fn ms out F) (w : Pt ms β)
    (s : Fin out.length) (u : Fin (out.get s).mul) (i : Fin (2 * (out.get s).ir.l + 1)) (a : α) :
    naked fn ms w s u i a = F (toArray w) (posEquiv out ⟨s, u, i⟩) a := by
  obtain ⟨x, y, a1, a2, a3, a4, a5, a6, a7, a8, a9, a10⟩ := naked_ok h.traced w
  obtain ⟨y', b1, -, -, -, b5⟩ := h x a2.coherent a3 a5
  rw [a6] at b1; cases b1
  have e := array_toArray a7 a8 a10
  rw [b5, array_toArray a2 a3 a4] at e
  have e1 := congrFun (congrFun (List.ofFn_injective e) (posEquiv out ⟨s, u, i⟩)) a
  simp only [getD_ofFn] at e1
  rw [show (fun k => toArray w k) = toArray w from rfl] at e1
  rw [e1]
  simp only [toArray]
  rw [(posEquiv out).symm_apply_apply]

/-- `toArray` as a continuous linear map. -/
noncomputable def toArrayL (ms : Irreps) (β : Type) [Fintype β] : Pt ms β →L[ℝ] (Fin (dimOf (expand ms)) → β → ℝ) :=
  LinearMap.toContinuousLinearMap { toFun := toArray, map_add' := fun _ _ => rfl, map_smul' := fun _ _ => rfl }

variable [Fintype β] [DecidableEq β]

theorem toArray_unit {ms : Irreps} (p : Pos ms) (b : β) : toArray (unit p.1 p.2.1 p.2.2 b) = Pi.single (posEquiv ms p) (Pi.single b 1) := by
  funext k b'
  obtain ⟨q, rfl⟩ := (posEquiv ms).surjective k
  rw [toArray_pos]
  unfold unit
  obtain ⟨t, v, j⟩ := p
  obtain ⟨t', v', j'⟩ := q
  by_cases ht : t' = t
  · subst ht
    by_cases hv : v' = v
    · subst hv
      by_cases hj : j' = j
      · subst hj; simp
      · have : posEquiv ms ⟨t', v', j'⟩ ≠ posEquiv ms ⟨t', v', j⟩ := by
          intro e; have := (posEquiv ms).injective e; simp at this; exact hj this
        simp [Pi.single_eq_of_ne hj, Pi.single_eq_of_ne this]
    · have : posEquiv ms ⟨t', v', j'⟩ ≠ posEquiv ms ⟨t', v, j⟩ := by
        intro e; have := (posEquiv ms).injective e; simp at this; exact hv this.1
      simp [Pi.single_eq_of_ne hv, Pi.single_eq_of_ne this]
  · have : posEquiv ms ⟨t', v', j'⟩ ≠ posEquiv ms ⟨t, v, j⟩ := by
      intro e; have := (posEquiv ms).injective e; exact ht (congrArg Sigma.fst this)
    simp [Pi.single_eq_of_ne ht, Pi.single_eq_of_ne this]

theorem diff_naked {fn : IArr (β → ℝ) → Except PyErr (IArr (α → ℝ))} {ms out : Irreps}
    {F : (Fin (dimOf (expand ms)) → β → ℝ) → Fin (dimOf (expand out)) → α → ℝ} (h : Computes fn ms out F) {w : Pt ms β}
    (hd : ∀ k a, DifferentiableAt ℝ (fun X => F X k a) (toArray w))
    (s : Fin out.length) (u : Fin (out.get s).mul) (i : Fin (2 * (out.get s).ir.l + 1)) (a : α) :
    HasFDerivAt (fun w => naked fn ms w s u i a) ((fderiv ℝ (fun X => F X (posEquiv out ⟨s, u, i⟩) a) (toArray w)).comp (toArrayL ms β)) w := by
  have e : (fun w => naked fn ms w s u i a) = (fun X => F X (posEquiv out ⟨s, u, i⟩) a) ∘ toArrayL ms β := by
    funext w
    exact naked_eq h w s u i a
  rw [e]
  exact HasFDerivAt.comp w (hd _ _).hasFDerivAt (toArrayL ms β).hasFDerivAt

theorem jac_eq {fn : IArr (β → ℝ) → Except PyErr (IArr (α → ℝ))} {ms out : Irreps}
    {F : (Fin (dimOf (expand ms)) → β → ℝ) → Fin (dimOf (expand out)) → α → ℝ} (h : Computes fn ms out F) {w : Pt ms β}
    (hd : ∀ k a, DifferentiableAt ℝ (fun X => F X k a) (toArray w))
    (s : Fin out.length) (u : Fin (out.get s).mul) (i : Fin (2 * (out.get s).ir.l + 1)) (a : α)
    (t : Fin ms.length) (v : Fin (ms.get t).mul) (j : Fin (2 * (ms.get t).ir.l + 1)) (b : β) :
    jac fn ms w s u i a t v j b =
      fderiv ℝ (fun X => F X (posEquiv out ⟨s, u, i⟩) a) (toArray w) (Pi.single (posEquiv ms ⟨t, v, j⟩) (Pi.single b 1)) := by
  unfold jac
  rw [(diff_naked h hd s u i a).fderiv]
  rw [← toArray_unit]
  rfl

end E3nn.Grad
