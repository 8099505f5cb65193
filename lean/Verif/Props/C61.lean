import Verif.Props.C47
import Mathlib.LinearAlgebra.CrossProduct
import Mathlib.LinearAlgebra.Matrix.Adjugate
import Mathlib.Tactic.FinCases

/-! # C61: `cross` -/

namespace E3nn.Basic

open E3nn.IArr E3nn.Wig Matrix

variable {ι : Type}

/-- The vector of a row at the leading index `i`. -/
def vecAt (r : List (ι → ℝ)) (i : ι) : Fin 3 → ℝ := fun k => r.getD k 0 i

theorem crossRow_spec (r s : List (ι → ℝ)) (i : ι) : (crossRow r s).length = 3 ∧ vecAt (crossRow r s) i = vecAt r i ⨯₃ vecAt s i := by
  refine ⟨rfl, ?_⟩
  rw [cross_apply]
  funext k
  fin_cases k <;> simp [vecAt, crossRow]

theorem rows_ext {r s : List (ι → ℝ)} (h1 : r.length = 3) (h2 : s.length = 3) (h : ∀ i, vecAt r i = vecAt s i) : r = s := by
  match r, s, h1, h2 with
  | [a, b, c], [a', b', c'], _, _ =>
    have e : ∀ k : Fin 3, [a, b, c].getD k 0 = [a', b', c'].getD k 0 := fun k => funext fun i => congrFun (h i) k
    have h0 := e 0
    have h1 := e 1
    have h2 := e 2
    simp at h0 h1 h2
    rw [h0, h1, h2]

theorem vecAt_zero (n : ℕ) (i : ι) : vecAt (List.replicate n 0) i = 0 := by
  funext k
  simp only [vecAt, List.getD_eq_getElem?_getD, List.getElem?_replicate]
  split <;> rfl

theorem crossChunk_eq : crossChunk (ι := ι) = ZC crossRow := by
  funext a b
  cases a <;> cases b <;> rfl

theorem align_l {x : IArr (ι → ℝ)} (h : ∀ m ∈ x.irreps, m.ir.l = 1) {u : IArr (ι → ℝ)} (hb : u.blocks = x.blocks) (hm : ∀ m ∈ u.irreps, 0 < m.mul) :
    ∀ m ∈ u.irreps, m.ir.l = 1 := by
  intro m hmem
  have e : expand u.irreps = expand x.irreps := by rw [← blocks_irs, ← blocks_irs, hb]
  have h1 : m.ir ∈ expand u.irreps := List.mem_flatMap.mpr ⟨m, hmem, List.mem_replicate.mpr ⟨by have := hm m hmem; omega, rfl⟩⟩
  rw [e] at h1
  obtain ⟨m', h2, h3⟩ := List.mem_flatMap.mp h1
  rw [(List.mem_replicate.mp h3).2]
  exact h m' h2

/-- One irrep of `cross(x, y)`. -/
def crossBlock (b c : Irrep × List (ι → ℝ)) : Irrep × List (ι → ℝ) := (⟨1, b.1.p.mul c.1.p⟩, crossRow b.2 c.2)

/-- **C61 (values).** For vectors (every irrep of degree one, no zero multiplicity) in the same number, `cross(x, y)` is, irrep by irrep, the cross
product of the two vectors, with the product of the parities. -/
theorem C61_cross (x y : IArr (ι → ℝ)) (hx : x.Coherent) (hy : y.Coherent) (lx : ∀ m ∈ x.irreps, m.ir.l = 1 ∧ 0 < m.mul) (ly : ∀ m ∈ y.irreps, m.ir.l = 1 ∧ 0 < m.mul)
    (he : (expand x.irreps).length = (expand y.irreps).length) :
    ∃ z, cross x y = .ok z ∧ z.Coherent ∧ z.blocks = List.zipWith crossBlock x.blocks y.blocks ∧
      ∀ b c : Irrep × List (ι → ℝ), (crossBlock b c).1 = ⟨1, b.1.p.mul c.1.p⟩ ∧ (crossBlock b c).2.length = 3 ∧
        ∀ i, vecAt (crossBlock b c).2 i = vecAt b.2 i ⨯₃ vecAt c.2 i := by
  have he' : x.irreps.numIrreps = y.irreps.numIrreps := by rw [Irreps.numIrreps_eq_length_expand, Irreps.numIrreps_eq_length_expand]; exact he
  obtain ⟨r, hr⟩ := TP.alignTwo_ok (fun m hm => (lx m hm).2) (fun m hm => (ly m hm).2) he'
  obtain ⟨u, v, e1, -, -, u2, v2, u3, v3, u4, v4⟩ := TP.alignArrays_spec hx.inv hy.inv hr
  obtain ⟨-, -, hmul⟩ := TP.alignTwo_spec hr
  rw [← u3, ← v3] at hmul
  have hz0 : ∀ {s : List (ι → ℝ)} {a b : List (ι → ℝ)}, (∀ i, vecAt a i ⨯₃ vecAt b i = 0) → crossRow a b = List.replicate 3 0 := by
    intro s a b h
    refine rows_ext rfl (by simp) fun i => ?_
    rw [(crossRow_spec a b i).2, h i, vecAt_zero]
  obtain ⟨z, z1, z2, z3, z4⟩ := zipRows_spec (T := fun a b => ⟨1, a.p.mul b.p⟩) (F := crossRow (ι := ι)) u2 v2 hmul
    (by intros; rfl)
    (by intro m _ m' _ _ s _; exact hz0 (s := s) fun i => by rw [vecAt_zero]; simp)
    (by intro m _ m' _ _ s _; exact hz0 (s := s) fun i => by rw [vecAt_zero]; simp)
  refine ⟨z, ?_, z2.coherent, by rw [z4, u4, v4]; rfl, fun b c => ⟨rfl, rfl, fun i => (crossRow_spec _ _ i).2⟩⟩
  unfold cross
  rw [if_neg (by simp only [List.any_eq_true, not_exists, bne_iff_ne, ne_eq, not_and, not_not]; exact fun m hm => (lx m hm).1),
    if_neg (by simp only [List.any_eq_true, not_exists, bne_iff_ne, ne_eq, not_and, not_not]; exact fun m hm => (ly m hm).1), if_neg (by simpa using he'), e1]
  simp only [bind, Except.bind]
  rw [crossChunk_eq]
  exact z1

/-- **C61 (refusal).** Anything else than vectors, or different numbers of vectors, raises `ValueError`. -/
theorem C61_refuses (x y : IArr (ι → ℝ)) (h : (∃ m ∈ x.irreps, m.ir.l ≠ 1) ∨ (∃ m ∈ y.irreps, m.ir.l ≠ 1) ∨ (expand x.irreps).length ≠ (expand y.irreps).length) :
    cross x y = .error .valueError := by
  rw [← Irreps.numIrreps_eq_length_expand, ← Irreps.numIrreps_eq_length_expand] at h
  unfold cross
  by_cases h1 : (x.irreps.any fun m => m.ir.l != 1) = true
  · rw [if_pos h1]
  · rw [if_neg h1]
    by_cases h2 : (y.irreps.any fun m => m.ir.l != 1) = true
    · rw [if_pos h2]
    · rw [if_neg h2]
      simp only [List.any_eq_true, not_exists, bne_iff_ne, ne_eq, not_and, not_not] at h1 h2
      rcases h with ⟨m, a, b⟩ | ⟨m, a, b⟩ | h
      · exact absurd (h1 m a) b
      · exact absurd (h2 m a) b
      · rw [if_pos h]

/-! ### equivariance -/

theorem cross_mulVec (M : Matrix (Fin 3) (Fin 3) ℝ) (v w : Fin 3 → ℝ) : (M *ᵥ v) ⨯₃ (M *ᵥ w) = (M.adjugate)ᵀ *ᵥ (v ⨯₃ w) := by
  rw [cross_apply, cross_apply, Matrix.adjugate_fin_three]
  funext k
  fin_cases k <;> simp [Matrix.mulVec, dotProduct, Fin.sum_univ_three] <;> ring

theorem cross_orth {R : Matrix (Fin 3) (Fin 3) ℝ} (hR : IsOrth R) (v w : Fin 3 → ℝ) : (R *ᵥ v) ⨯₃ (R *ᵥ w) = R.det • (R *ᵥ (v ⨯₃ w)) := by
  rw [cross_mulVec]
  have h1 : R.adjugate = R.det • Rᵀ := by
    have h2 : R.adjugate * (R * Rᵀ) = (R.adjugate * R) * Rᵀ := (Matrix.mul_assoc _ _ _).symm
    rw [show R * Rᵀ = 1 from hR, Matrix.mul_one, Matrix.adjugate_mul, Matrix.smul_mul, Matrix.one_mul] at h2
    exact h2
  rw [h1, Matrix.transpose_smul, Matrix.transpose_transpose, Matrix.smul_mulVec]

/-- The factor of the parity `p`. -/
noncomputable def vsign (R : Matrix (Fin 3) (Fin 3) ℝ) : Parity → ℝ
  | .o => 1
  | .e => R.det

theorem dMatrix_vec {R : Matrix (Fin 3) (Fin 3) ℝ} (hR : IsOrth R) (p : Parity) : dMatrix ⟨1, p⟩ R = vsign R p • R := by
  obtain ⟨h1, h2, -, -⟩ := C39_defining hR
  cases p with
  | e => rw [h2]; rfl
  | o => rw [h1]; simp [vsign]

theorem vecAt_ofFn (v : Fin 3 → ι → ℝ) (i : ι) : vecAt (List.ofFn v) i = fun k => v k i := by
  funext k
  fin_cases k <;> simp [vecAt, List.ofFn_succ] <;> rfl

theorem vecAt_DR {R : Matrix (Fin 3) (Fin 3) ℝ} (hR : IsOrth R) (p : Parity) {r : List (ι → ℝ)} (hr : r.length = 3) (i : ι) :
    vecAt (Activ.DR R ⟨1, p⟩ r) i = vsign R p • (R *ᵥ vecAt r i) := by
  obtain ⟨v, rfl⟩ := exists_ofFn hr
  show vecAt (matVec (matRows (dMatrix ⟨1, p⟩ R)) (List.ofFn v)) i = _
  rw [dMatrix_vec hR]
  have e := matVec_ofFn (α := ι → ℝ) (m := 3) (n := 3) (vsign R p • R) v
  rw [show matVec (matRows (vsign R p • R)) (List.ofFn v) = _ from e, vecAt_ofFn, vecAt_ofFn]
  funext k
  simp only [Matrix.smul_apply, Finset.sum_apply, Pi.smul_apply, smul_eq_mul, Matrix.mulVec, dotProduct, Finset.mul_sum]
  refine Finset.sum_congr rfl fun j _ => by ring

theorem crossBlock_DR {R : Matrix (Fin 3) (Fin 3) ℝ} (hR : IsOrth R) {b c : Irrep × List (ι → ℝ)} (hb : b.1.l = 1) (hc : c.1.l = 1)
    (lb : b.2.length = 3) (lc : c.2.length = 3) :
    crossBlock (TB (Activ.DR R) b) (TB (Activ.DR R) c) = TB (Activ.DR R) (crossBlock b c) := by
  obtain ⟨⟨l, p⟩, r⟩ := b
  obtain ⟨⟨l', q⟩, s⟩ := c
  simp only at hb hc lb lc
  subst hb hc
  unfold crossBlock TB
  simp only
  congr 1
  have hl : (Activ.DR R ⟨1, p.mul q⟩ (crossRow r s)).length = 3 := (Activ.act_DR R).len ⟨1, p.mul q⟩ (crossRow r s) rfl
  refine rows_ext rfl hl fun i => ?_
  rw [(crossRow_spec _ _ i).2, vecAt_DR hR p lb, vecAt_DR hR q lc, vecAt_DR hR (p.mul q) rfl, (crossRow_spec _ _ i).2]
  rw [LinearMap.map_smul₂, LinearMap.map_smul, cross_orth hR, smul_smul, smul_smul]
  congr 1
  have hd : R.det * R.det = 1 := by rcases hR.det_cases with e | e <;> rw [e] <;> norm_num
  cases p <;> cases q <;> simp only [vsign, Parity.mul]
  · linear_combination R.det * hd
  · linear_combination hd
  · linear_combination hd
  · ring

/-- **C61 (equivariance).** `cross(R x, R y) = R cross(x, y)` for every `R` in O(3). -/
theorem C61_equivariant {R : Matrix (Fin 3) (Fin 3) ℝ} (hR : IsOrth R) (x y : IArr (ι → ℝ)) (hx : x.Coherent) (hy : y.Coherent)
    (lx : ∀ m ∈ x.irreps, m.ir.l = 1 ∧ 0 < m.mul) (ly : ∀ m ∈ y.irreps, m.ir.l = 1 ∧ 0 < m.mul)
    (he : (expand x.irreps).length = (expand y.irreps).length) :
    ∃ x' y' z z' w, x.transformByMatrix R = .ok x' ∧ y.transformByMatrix R = .ok y' ∧ cross x y = .ok z ∧ z.transformByMatrix R = .ok z' ∧
      cross x' y' = .ok w ∧ expand w.irreps = expand z'.irreps ∧ w.array = z'.array := by
  obtain ⟨x', x1, x2⟩ := transformBy_spec (Activ.act_DR (ι := ι) R) hx.inv
  obtain ⟨y', y1, y2⟩ := transformBy_spec (Activ.act_DR (ι := ι) R) hy.inv
  obtain ⟨z, z1, z2, z3, -⟩ := C61_cross x y hx hy lx ly he
  obtain ⟨z', w1, w2⟩ := transformBy_spec (Activ.act_DR (ι := ι) R) z2.inv
  obtain ⟨w, v1, v2, v3, -⟩ := C61_cross x' y' x2.inv'.coherent y2.inv'.coherent (by rw [x2.irreps]; exact lx) (by rw [y2.irreps]; exact ly)
    (by rw [x2.irreps, y2.irreps]; exact he)
  have hb : w.blocks = z'.blocks := by
    rw [v3, w2.blocks (Activ.act_DR R), z3, x2.blocks (Activ.act_DR R), y2.blocks (Activ.act_DR R), List.zipWith_map, List.map_zipWith]
    apply List.ext_getElem (by simp)
    intro j a b
    simp only [List.length_zipWith] at a b
    have hl : ∀ {t : IArr (ι → ℝ)}, (∀ m ∈ t.irreps, m.ir.l = 1 ∧ 0 < m.mul) → ∀ b ∈ t.blocks, b.1.l = 1 := by
      intro t ht b hb
      have : b.1 ∈ expand t.irreps := by rw [← blocks_irs]; exact List.mem_map_of_mem hb
      obtain ⟨m, hm, h2⟩ := List.mem_flatMap.mp this
      rw [(List.mem_replicate.mp h2).2]
      exact (ht m hm).1
    simp only [List.getElem_zipWith]
    have m1 := List.getElem_mem (show j < x.blocks.length by omega)
    have m2 := List.getElem_mem (show j < y.blocks.length by omega)
    have a1 := hl lx _ m1
    have a2 := hl ly _ m2
    have b1 := blocks_len hx.inv _ m1
    have b2 := blocks_len hy.inv _ m2
    rw [a1] at b1
    rw [a2] at b2
    exact crossBlock_DR hR a1 a2 b1 b2
  refine ⟨x', y', z, z', w, x1, y1, z1, w1, v1, ?_, ?_⟩
  · rw [← blocks_irs, hb, blocks_irs]
  · rw [← v2.inv.array_eq_blocks, hb, w2.inv'.array_eq_blocks]

/-- As for `elementwise_tensor_product`, a zero multiplicity at the end makes an assertion fail. -/
theorem C61_zero_multiplicity_witness (a b : List (ι → ℝ)) :
    cross ⟨[⟨1, ⟨1, .e⟩⟩, ⟨0, ⟨1, .e⟩⟩], a, none, none⟩ ⟨[⟨1, ⟨1, .e⟩⟩], b, none, none⟩ = .error .assertion := rfl

/-- A concrete case: a vector and a pseudovector, `x × y = z`, an odd result. -/
example : ∃ z, cross (ι := Unit) ⟨[⟨1, ⟨1, .o⟩⟩], [1, 0, 0], none, none⟩ ⟨[⟨1, ⟨1, .e⟩⟩], [0, 1, 0], none, none⟩ = .ok z ∧ z.blocks = [(⟨1, .o⟩, [0, 0, 1])] := by
  obtain ⟨z, h1, -, h3, -⟩ := C61_cross (ι := Unit) _ _ (coherent_plain [⟨1, ⟨1, .o⟩⟩] [1, 0, 0] rfl) (coherent_plain [⟨1, ⟨1, .e⟩⟩] [0, 1, 0] rfl)
    (by simp) (by simp) rfl
  refine ⟨z, h1, ?_⟩
  rw [h3]
  show [crossBlock (⟨1, .o⟩, [1, 0, 0]) (⟨1, .e⟩, [0, 1, 0])] = _
  simp [crossBlock, crossRow, Parity.mul]

end E3nn.Basic
