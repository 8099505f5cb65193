import Verif.Props.C77
import Verif.Lemmas.ActivationTr

/-! # Values of a series at points, and rotations of a series -/

namespace E3nn.S2

open E3nn.IArr E3nn.SH E3nn.Wig E3nn.Rot Matrix

variable {ι κ : Type}

theorem zipWith_ofFn {A B C : Type} {n : ℕ} (f : A → B → C) (u : Fin n → A) (v : Fin n → B) : List.zipWith f (List.ofFn u) (List.ofFn v) = List.ofFn fun k => f (u k) (v k) := by
  apply List.ext_getElem
  · simp
  · intro k h1 h2
    simp

theorem replicate_ofFn {A : Type} (n : ℕ) (a : A) : List.replicate n a = List.ofFn fun _ : Fin n => a := by
  apply List.ext_getElem
  · simp
  · intro k h1 h2
    simp

/-- `einsum` with scaled blocks, block by block. -/
theorem dot_blocks {n1 n2 : ℕ} (bs : List (Irrep × List (Fin n1 → ℝ))) (hb : ∀ b ∈ bs, b.2.length = 2 * b.1.l + 1) (A : (l : ℕ) → Fin (2 * l + 1) → Fin n2 → ℝ) (N : ℕ → ℝ) (s : Fin n2) (t : Fin n1) :
    (List.zipWith (fun (u : Fin n2 → ℝ) (v : Fin n1 → ℝ) => u s * v t)
      (List.zipWith (fun (v : Fin n2 → ℝ) (n : ℝ) => fun k => v k * n) (bs.flatMap fun b => List.ofFn (A b.1.l)) (bs.flatMap fun b => List.replicate (2 * b.1.l + 1) (N b.1.l)))
      (bs.flatMap Prod.snd)).sum = (bs.map fun b => ∑ k : Fin (2 * b.1.l + 1), N b.1.l * A b.1.l k s * b.2.getD k 0 t).sum := by
  induction bs with
  | nil => rfl
  | cons b bs ih =>
    have h1 := hb b List.mem_cons_self
    rw [List.flatMap_cons, List.flatMap_cons, List.flatMap_cons, List.zipWith_append (by simp), List.zipWith_append (by simp [h1]), List.sum_append, ih fun b h => hb b (List.mem_cons_of_mem _ h),
      List.map_cons, List.sum_cons]
    congr 1
    obtain ⟨w, hw⟩ := exists_ofFn h1
    rw [replicate_ofFn, zipWith_ofFn, hw, zipWith_ofFn, List.sum_ofFn]
    refine Finset.sum_congr rfl fun k _ => ?_
    rw [getD_ofFn]
    ring

/-- A series of transformed coefficients at the transformed point. -/
theorem series_rot {c : ℕ → ℝ} {B : (l : ℕ) → (Fin 3 → ℝ) → Fin (2 * l + 1) → ℝ} (hB : IsBasis c B) {R : Matrix (Fin 3) (Fin 3) ℝ} (hR : R * Rᵀ = 1) {v a : Parity}
    (bs : List (Irrep × List (ι → ℝ))) (hp : SphereParity (bs.map Prod.fst) v a) (hb : ∀ b ∈ bs, b.2.length = 2 * b.1.l + 1) (x : Fin 3 → ℝ) (i : ι) :
    series B (bs.map fun b => (b.1, matVec (matRows (dMatrix b.1 R)) b.2)) (dMatrix ⟨1, a⟩ R *ᵥ x) i = Activ.scalarSign R v * series B bs x i := by
  unfold series
  rw [List.map_map, ← List.sum_map_mul_left]
  congr 1
  refine List.map_congr_left fun b hbm => ?_
  obtain ⟨w, hw⟩ := exists_ofFn (hb b hbm)
  have hpb : b.1.p = v.mul (a.pow b.1.l) := hp b.1 (List.mem_map.mpr ⟨b, hbm, rfl⟩)
  simp only [Function.comp]
  rw [(hB b.1.l).equivariant a R hR x, hw, matVec_ofFn]
  have hD : dMatrix b.1 R = Activ.scalarSign R v • dMatrix ⟨b.1.l, a.pow b.1.l⟩ R := by
    rw [dMatrix_eq _ hR, dMatrix_eq _ hR, smul_smul]
    congr 1
    rw [hpb]
    have hs : R.det * R.det = 1 := by rcases (show IsOrth R from hR).det_cases with e | e <;> rw [e] <;> norm_num
    cases v <;> cases a.pow b.1.l <;> simp [pf, Activ.scalarSign, Parity.mul, hs]
  rw [hD]
  set D := dMatrix ⟨b.1.l, a.pow b.1.l⟩ R with hDd
  have ho : Dᵀ * D = 1 := mul_eq_one_comm.mp (C39_orthogonal _ hR).1
  have e1 : ∀ k : Fin (2 * b.1.l + 1), (List.ofFn fun k => ∑ j, (Activ.scalarSign R v • D) k j • w j).getD k 0 i = Activ.scalarSign R v * (D *ᵥ fun j => w j i) k := by
    intro k
    rw [getD_ofFn]
    simp only [Finset.sum_apply, Pi.smul_apply, smul_eq_mul, Matrix.smul_apply, Matrix.mulVec, dotProduct, Finset.mul_sum, mul_assoc]
  have e2 : ∀ k : Fin (2 * b.1.l + 1), (List.ofFn w).getD k 0 i = w k i := fun k => by rw [getD_ofFn]
  simp only [e1, e2]
  have e3 : (D *ᵥ B b.1.l x) ⬝ᵥ (D *ᵥ fun j => w j i) = B b.1.l x ⬝ᵥ fun j => w j i := by
    rw [Matrix.dotProduct_mulVec, Matrix.vecMul_mulVec, ho, Matrix.vecMul_one]
  simp only [dotProduct] at e3
  rw [← e3, Finset.mul_sum]
  refine Finset.sum_congr rfl fun k _ => ?_
  ring

theorem lmax_of {ms : Irreps} {L : ℕ} (hL : IsLmax (expand ms) L) : ms.lmax = .ok L := by
  have h : ms.ls.max? = some L := by
    rw [ls_eq, List.max?_eq_some_iff]
    refine ⟨?_, fun l hl => ?_⟩
    · obtain ⟨ir, hir, rfl⟩ := hL.1
      exact List.mem_map.mpr ⟨ir, hir, rfl⟩
    · obtain ⟨ir, hir, rfl⟩ := List.mem_map.mp hl
      exact hL.2 ir hir
  unfold Irreps.lmax
  rw [if_neg, h]
  intro h0
  rw [List.length_eq_zero_iff] at h0
  subst h0
  cases h

end E3nn.S2
