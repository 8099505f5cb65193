import Verif.Model.Transformer
import Verif.Lemmas.Axis
import Verif.Lemmas.Natural
import Verif.Props.C91

/-! # `mul_to_axis`, multiplication by one number per head, `axis_to_mul` (transformer.py:81-83) -/

namespace E3nn.Transf
open E3nn.IArr E3nn.TP Finset

variable {K : Type} [CommRing K] [Algebra ℝ K]

/-- The product with a scalar on the right. -/
theorem contract_scalar_right {n : IrNorm} (hn : n ≠ .other) (l : ℕ) (p : Parity) (a b : List K) (ha : a.length = 2 * l + 1) (hb : b.length = 1) :
    contract (Irrep.dim ⟨l, p⟩) (normC (realCtx K) n ⟨l, p⟩ ⟨0, .e⟩ ⟨l, p⟩) a b = a.map fun v => gateFactor n l • (v * b.getD 0 0) := by
  rw [normC_contract (realCtx_shape _) n _ _ _ _ _ (by simpa [Irrep.dim] using ha) (by simpa [Irrep.dim] using hb)]
  obtain ⟨x, rfl⟩ := exists_ofFn ha
  obtain ⟨y, rfl⟩ := exists_ofFn (n := 2 * 0 + 1) (by simpa using hb)
  have hc : bilinear (tpCoef (realCtx K) n ⟨l, p⟩ ⟨0, .e⟩ ⟨l, p⟩) ((realCtx K).cg l 0 l) l 0 l (List.ofFn x) (List.ofFn y) =
      (bilinear 1 ((realCtx K).cg l 0 l) l 0 l (List.ofFn x) (List.ofFn y)).map
        fun w => tpCoef (realCtx K) n ⟨l, p⟩ ⟨0, .e⟩ ⟨l, p⟩ * w := by
    unfold bilinear
    rw [List.map_map]
    apply List.map_congr_left
    intro k _
    simp only [Function.comp, ← List.sum_map_mul_left]
    refine congrArg List.sum (List.map_congr_left fun i _ => ?_)
    refine congrArg List.sum (List.map_congr_left fun j _ => ?_)
    ring
  simp only
  rw [hc, bilinear_ofFn, List.map_ofFn, List.map_ofFn]
  congr 1
  funext c
  have h0 : (univ : Finset (Fin (2 * 0 + 1))) = {0} := rfl
  simp only [Function.comp, h0, Finset.sum_singleton, SU2.cg_zero_right]
  rw [Finset.sum_eq_single c (fun b _ hb => by rw [if_neg hb, zero_smul]) (fun h => absurd (Finset.mem_univ _) h), if_pos rfl]
  have e0 : (List.ofFn y).getD 0 0 = y 0 := by simp
  rw [e0]
  have hs : Real.sqrt (2 * (l : ℝ) + 1) ≠ 0 := by positivity
  have hs' : (Real.sqrt (2 * (l : ℝ) + 1))⁻¹ * Real.sqrt (2 * (l : ℝ) + 1) = 1 := inv_mul_cancel₀ hs
  cases n
  · simp [tpCoef, realCtx, gateFactor, ← Algebra.smul_def, smul_smul, hs']
  · simp [tpCoef, realCtx, gateFactor, ← Algebra.smul_def, smul_smul, hs']
  · simp [tpCoef, realCtx, gateFactor]
  · exact absurd rfl hn

/-- A list of irreps with positive multiplicities and one irrep. -/
theorem one_irrep {ms : Irreps} (hp : ∀ m ∈ ms, 0 < m.mul) (h : ms.numIrreps = 1) : ∃ ir, ms = [⟨1, ir⟩] := by
  cases ms with
  | nil => simp [Irreps.numIrreps] at h
  | cons m ms =>
    have h1 := hp m (by simp)
    simp only [Irreps.numIrreps, List.map_cons, List.sum_cons] at h
    cases ms with
    | nil => exact ⟨m.ir, by cases m; simp at h ⊢; omega⟩
    | cons m' ms =>
      have h2 := hp m' (by simp)
      simp at h
      omega

/-- The factor of the product with one column: one, except that one single irrep is multiplied with `elementwise_tensor_product`. -/
noncomputable def colFactor (n : IrNorm) (ms : Irreps) : ℝ := if ms.numIrreps = 1 then (ms.head?.map fun m => gateFactor n m.ir.l).getD 1 else 1

/-- Multiplication of a column, as a linear map. -/
noncomputable def mulBy (g : ℝ) (w : K) : K →ₗ[ℝ] K where
  toFun v := g • (v * w)
  map_add' a b := by rw [add_mul, smul_add]
  map_smul' r a := by simp only [RingHom.id_apply, smul_mul_assoc, smul_comm g r]

theorem mulColumn_spec {n : IrNorm} (hn : n ≠ .other) (w : K) {x : IArr K} (hx : Inv x) (hp : ∀ m ∈ x.irreps, 0 < m.mul) (h0 : x.irreps.numIrreps ≠ 0) :
    ∃ y, mulColumn n w x = .ok y ∧ Mp (mulBy (colFactor n x.irreps) w) x y := by
  unfold mulColumn colFactor
  by_cases h1 : x.irreps.numIrreps = 1
  · rw [if_pos h1, if_pos h1]
    obtain ⟨ir, hi⟩ := one_irrep hp h1
    obtain ⟨s, s1, s2, s3, s4, s5⟩ := (C12_from_array (α := K) [⟨1, ⟨0, .e⟩⟩] [w]).1 (by simp [expand, Irrep.dim, dimOf])
    simp only [s1, bind, Except.bind]
    have hr : alignTwo x.irreps s.irreps = .ok ([⟨1, ir⟩], [⟨1, ⟨0, .e⟩⟩]) := by
      rw [hi, s3]; rfl
    obtain ⟨u, v, y, -, u1, v1, u2, v2, u3, v3, y1, y2, y3, -⟩ := elementwise_spec (realCtx_shape K).ok hn none hx s2.inv (by rw [h1, s3]; rfl) hr
    have hu : u = x := by
      unfold rechunk at u3
      rw [hi, if_neg (by simp), if_pos rfl] at u3
      exact (Except.ok.inj u3).symm
    have hv : v = s := by
      unfold rechunk at v3
      rw [s3, if_neg (by simp), if_pos rfl] at v3
      exact (Except.ok.inj v3).symm
    subst hu hv
    refine ⟨y, y1, ?_⟩
    -- the pairs
    have hsc : v.irreps.zip v.chunks = [(⟨1, ⟨0, .e⟩⟩, some [[w]])] := by
      obtain ⟨p1, p2, p3, p4, p5, p6⟩ := v1.pairs
      have hl : v.chunks.length = 1 := by
        rw [v1.chunks_eq, s3]
        exact (comp_length (by have := v1.flags.lengths.2; rw [s3] at this; exact this)).trans rfl
      obtain ⟨ch, hch⟩ := List.length_eq_one_iff.mp hl
      rw [s3, hch] at p1 p5 p6 ⊢
      have h2 : ch ≠ none := by
        have := s5.2
        rw [hch] at this
        intro hc
        simp [hc] at this
      obtain ⟨rows, rfl⟩ := Option.ne_none_iff_exists'.mp h2
      have hs := p1 (⟨1, ⟨0, .e⟩⟩, some rows) (by simp)
      simp only [shapeOk, Bool.and_eq_true, beq_iff_eq, List.all_eq_true] at hs
      obtain ⟨r, rfl⟩ := List.length_eq_one_iff.mp hs.1
      simp [flatChunk, s4] at p6
      simp [p6]
    obtain ⟨ch, hxc⟩ : ∃ ch, u.irreps.zip u.chunks = [(⟨1, ir⟩, ch)] := by
      have hl : u.chunks.length = 1 := by
        rw [hx.chunks_eq, hi]
        exact (comp_length (by have := hx.flags.lengths.2; rw [hi] at this; exact this)).trans rfl
      obtain ⟨ch, hch⟩ := List.length_eq_one_iff.mp hl
      exact ⟨ch, by rw [hi, hch]; rfl⟩
    have hy : y.irreps.zip y.chunks = (u.irreps.zip u.chunks).map (MP (mulBy (gateFactor n ir.l) w)) := by
      rw [y3, hsc, hxc]
      unfold elEntries
      simp only [List.zip_cons_cons, List.zip_nil_left, List.flatMap_cons, List.flatMap_nil, List.append_nil, MPC.irsOut_scalar, List.map_cons, List.map_nil, pathVal, MP, mapChunk]
      cases ch with
      | none => rfl
      | some rows =>
        have hs := hx.pairs.1 (⟨1, ir⟩, some rows) (by rw [hxc]; simp)
        simp only [shapeOk, Bool.and_eq_true, beq_iff_eq, List.all_eq_true] at hs
        obtain ⟨r, rfl⟩ := List.length_eq_one_iff.mp hs.1
        have hr := hs.2 r (by simp)
        obtain ⟨l, p⟩ := ir
        simp only [rowsOf, List.zip_cons_cons, List.zip_nil_left, List.map_cons, List.map_nil]
        rw [contract_scalar_right hn l p r [w] (by simpa [Irrep.dim] using hr) rfl]
        rfl
    have q1 := y2.pairs
    have q2 := hx.pairs
    rw [hi]
    simp only [List.head?_cons, Option.map_some, Option.getD_some]
    refine ⟨hx, y2, ?_, ?_, ?_⟩
    · rw [← q1.2.1, ← q2.2.1, hy, List.map_map]; rfl
    · rw [← q1.2.2.2.2.1, ← q2.2.2.2.2.1, hy, List.map_map]
      refine List.map_congr_left fun p _ => ?_
      simp [MP, mapChunk]
    · rw [← q1.2.2.2.2.2, ← q2.2.2.2.2.2, hy, List.map_map, List.map_flatten, List.map_map]
      congr 1
      refine List.map_congr_left fun p _ => ?_
      exact flatChunk_MP (map_zero (mulBy (gateFactor n ir.l) w)) p
  · rw [if_neg h1, if_neg h1]
    obtain ⟨y, y1, y2⟩ := mp_mapCols (φ := mulBy (1 : ℝ) w) (map_zero _) hx
    obtain ⟨L, hL⟩ := MPC.lmax_ok h0
    refine ⟨y, ?_, y2⟩
    unfold IArr.scale
    rw [hL]
    simp only
    rw [← y1]
    congr 1
    funext v
    simp [mulBy]

/-- The weight of the head `k`. -/
def headAt {H : ℕ} (w : Fin H → K) (k : ℕ) : K := if h : k < H then w ⟨k, h⟩ else 0

theorem join_scaled (H mul d : ℕ) (g : ℝ) (w : Fin H → K) (c : List (List K)) (h1 : c.length = H * mul) (h2 : ∀ r ∈ c, r.length = d) :
    joinRows ((splitRows H mul d c).map fun r => r.map (mulBy (K := Fin H → K) g w)) =
      List.zipWith (fun r k => r.map (mulBy g (headAt w k))) c ((List.range (H * mul)).map fun t => t / mul) := by
  have hl : (List.zipWith (fun r k => r.map (mulBy g (headAt w k))) c ((List.range (H * mul)).map fun t => t / mul)).length = H * mul := by simp [h1]
  rw [← finRange_chunks H mul _ [] hl]
  unfold joinRows splitRows
  apply List.flatMap_congr
  intro k _
  rw [List.map_map, List.map_map]
  apply List.map_congr_left
  intro j hj
  have hj' := List.mem_range.mp hj
  have hb : k.val * mul + j < H * mul := by
    have hk := k.isLt
    calc k.val * mul + j < k.val * mul + mul := by omega
      _ = (k.val + 1) * mul := by rw [Nat.succ_mul]
      _ ≤ H * mul := Nat.mul_le_mul_right _ hk
  have hq : (k.val * mul + j) / mul = k.val := by
    rw [Nat.mul_comm, Nat.mul_add_div (by omega), Nat.div_eq_of_lt hj', Nat.add_zero]
  rw [List.getElem?_zipWith, List.getElem?_map, List.getElem?_range hb, List.getElem?_eq_getElem (by rw [h1]; exact hb)]
  simp only [Option.map_some, Option.getD_some, Function.comp, List.map_map, hq]
  have hc := range_map_getD (c[k.val * mul + j]'(by rw [h1]; exact hb)) 0 d (h2 _ (List.getElem_mem _))
  conv => rhs; rw [← hc, List.map_map]
  apply List.map_congr_left
  intro i _
  simp only [Function.comp]
  have hg : (c[k.val * mul + j]?.getD []) = c[k.val * mul + j]'(by rw [h1]; exact hb) := by
    rw [List.getElem?_eq_getElem (by rw [h1]; exact hb), Option.getD_some]
  simp [mulBy, headAt, k.isLt, hg]

/-- The head of every copy: the copies of a term are shared between the heads in equal runs. -/
def headsOf (H : ℕ) (ms : Irreps) : List ℕ := ms.flatMap fun m => (List.range m.mul).map fun t => t / (m.mul / H)

/-- The factor of `weightHeads`. -/
noncomputable def headFactor (n : IrNorm) (H : ℕ) (ms : Irreps) : ℝ := colFactor n (ms.map fun m => ⟨m.mul / H, m.ir⟩)

/-- When the heads can be weighted. -/
structure Splits (H : ℕ) (ms : Irreps) : Prop where
  pos : 0 < H
  div : ∀ m ∈ ms, H ∣ m.mul
  mul : ∀ m ∈ ms, 0 < m.mul
  ne : ms.numIrreps ≠ 0

theorem weightHeads_spec {n : IrNorm} (hn : n ≠ .other) {H : ℕ} (w : Fin H → K) {x : IArr K} (hx : Inv x) (hs : Splits H x.irreps) :
    ∃ y, weightHeads n H w x = .ok y ∧ Inv y ∧ y.irreps = x.irreps ∧
      y.blocks = List.zipWith (fun b k => (b.1, b.2.map (mulBy (headFactor n H x.irreps) (headAt w k)))) x.blocks (headsOf H x.irreps) := by
  obtain ⟨u, u1, u2, u3, u4⟩ := mulToAxis_spec hx hs.pos hs.div
  have hup : ∀ m ∈ u.irreps, 0 < m.mul := by
    intro m hm
    rw [u3] at hm
    obtain ⟨m', hm', rfl⟩ := List.mem_map.mp hm
    exact Nat.div_pos (Nat.le_of_dvd (hs.mul m' hm') (hs.div m' hm')) hs.pos
  have hun : u.irreps.numIrreps ≠ 0 := by
    intro h
    have he : x.irreps = [] := by
      by_contra hne
      obtain ⟨m, hm⟩ := List.exists_mem_of_ne_nil _ hne
      have hm' : (⟨m.mul / H, m.ir⟩ : MulIrrep) ∈ u.irreps := by rw [u3]; exact List.mem_map_of_mem hm
      have h3 := hup _ hm'
      have h4 : m.mul / H ≤ u.irreps.numIrreps := List.single_le_sum (by simp) _ (List.mem_map_of_mem (f := MulIrrep.mul) hm')
      simp only at h3
      omega
    exact hs.ne (by rw [he]; rfl)
  obtain ⟨v, v1, v2⟩ := mulColumn_spec (K := Fin H → K) hn w u2 hup hun
  obtain ⟨y, y1, y2, y3, y4⟩ := axisToMul_spec v2.inv'
  have hfac : colFactor n u.irreps = headFactor n H x.irreps := by rw [u3]; rfl
  rw [hfac] at v2
  have hirr : y.irreps = x.irreps := by
    rw [y3, v2.irreps, u3, List.map_map]
    conv => rhs; rw [← List.map_id x.irreps]
    apply List.map_congr_left
    intro m hm
    simp only [Function.comp, id]
    rw [Nat.mul_div_cancel' (hs.div m hm)]
  refine ⟨y, by simp only [weightHeads, u1, v1, y1, bind, Except.bind], y2, hirr, ?_⟩
  have hch : y.irreps.zip y.chunks = (x.irreps.zip x.chunks).map fun mc => (mc.1, mc.2.map fun c => joinRows ((splitRows H (mc.1.mul / H) mc.1.ir.dim c).map fun r => r.map (mulBy (K := Fin H → K) (headFactor n H x.irreps) w))) := by
    have hl : x.chunks.length = x.irreps.length := by rw [hx.chunks_eq]; exact comp_length hx.flags.lengths.2
    rw [hirr, y4, v2.chunks, u4, List.map_map, List.map_map]
    apply List.ext_getElem
    · simp [hl]
    · intro i h1 h2
      simp only [List.getElem_zip, List.getElem_map, Function.comp]
      rw [Prod.mk.injEq]
      refine ⟨rfl, ?_⟩
      cases x.chunks[i]'(by simp at h1; omega) <;> rfl
  rw [y2.blocks_pairs, hx.blocks_pairs, hch]
  have hsh := hx.pairs.1
  have hirr2 : headsOf H x.irreps = (x.irreps.zip x.chunks).flatMap fun q => (List.range q.1.mul).map fun t => t / (q.1.mul / H) := by
    conv => lhs; rw [headsOf, ← hx.pairs.2.1, List.flatMap_map]
  rw [hirr2]
  have hdiv : ∀ q ∈ x.irreps.zip x.chunks, H ∣ q.1.mul := fun q hq => hs.div _ (List.of_mem_zip hq).1
  generalize x.irreps.zip x.chunks = ps at hsh hdiv
  generalize headFactor n H x.irreps = g
  induction ps with
  | nil => rfl
  | cons p ps ih =>
    rw [List.map_cons, List.flatMap_cons, List.flatMap_cons, List.flatMap_cons, ih (fun q hq => hsh q (by simp [hq])) (fun q hq => hdiv q (by simp [hq])),
      List.zipWith_append (by simp [blk_length])]
    congr 1
    obtain ⟨m, c⟩ := p
    have hp := hsh (m, c) (by simp)
    have hd := hdiv (m, c) (by simp)
    cases c with
    | none =>
      have hz : blk ((m, none) : MulIrrep × Chunk K) = List.replicate m.mul (m.ir, List.replicate m.ir.dim 0) := by
        have h1 : blk ((m, none) : MulIrrep × Chunk K) = blk (m, some (List.replicate m.mul (List.replicate m.ir.dim 0))) := by
          unfold blk
          simp [flatChunk, MulIrrep.dim]
        rw [h1, blk_some (by simp [shapeOk])]
        simp
      simp only [Option.map_none]
      rw [hz]
      apply List.ext_getElem
      · simp
      · intro i h1 h2
        simp [mulBy]
    | some c =>
      have hp' := hp
      simp only [shapeOk, Bool.and_eq_true, beq_iff_eq, List.all_eq_true] at hp
      simp only [Option.map_some]
      have hm : H * (m.mul / H) = m.mul := Nat.mul_div_cancel' hd
      rw [join_scaled H (m.mul / H) m.ir.dim g w c (by rw [hp.1, hm]) hp.2, blk_some hp', hm, blk_some]
      · rw [List.map_zipWith, List.zipWith_map_left]
      · simp only [shapeOk, Bool.and_eq_true, beq_iff_eq, List.all_eq_true]
        refine ⟨by simp [hp.1], fun r hr => ?_⟩
        obtain ⟨i, hi, rfl⟩ := List.getElem_of_mem hr
        simp only [List.length_zipWith, lt_min_iff] at hi
        simp [hp.2 _ (List.getElem_mem hi.1)]

/-- If the heads were weighted, the copies could be shared. -/
theorem weightHeads_splits {n : IrNorm} {H : ℕ} {w : Fin H → K} {x y : IArr K} (hp : ∀ m ∈ x.irreps, 0 < m.mul) (hx : Inv x) (hy : weightHeads n H w x = .ok y) : Splits H x.irreps := by
  unfold weightHeads at hy
  cases hu : x.mulToAxis H with
  | error e => rw [hu] at hy; cases hy
  | ok u =>
    simp only [hu, bind, Except.bind] at hy
    cases hv : mulColumn (K := Fin H → K) n w u with
    | error e => rw [hv] at hy; cases hy
    | ok v =>
      have hne : x.irreps ≠ [] := by
        intro he
        have : u.irreps = [] := by
          unfold mulToAxis at hu
          rw [he, if_neg (by simp), if_neg (by simp)] at hu
          simp only [List.map_nil, List.zip_nil_left] at hu
          cases hu; rfl
        unfold mulColumn at hv
        rw [this, if_neg (by simp [Irreps.numIrreps])] at hv
        unfold IArr.scale at hv
        rw [this] at hv
        simp [Irreps.lmax] at hv
      unfold mulToAxis at hu
      split_ifs at hu with h1 h2
      have h0 : H ≠ 0 := fun h => h1 ⟨h, hne⟩
      refine ⟨Nat.pos_of_ne_zero h0, ?_, hp, ?_⟩
      · simp only [Bool.not_eq_true', Bool.not_eq_false, List.all_eq_true, beq_iff_eq] at h2
        exact fun m hm => Nat.dvd_of_mod_eq_zero (h2 m hm)
      · obtain ⟨m, hm⟩ := List.exists_mem_of_ne_nil _ hne
        have h3 := hp m hm
        have h4 : m.mul ≤ x.irreps.numIrreps := List.single_le_sum (by simp) _ (List.mem_map_of_mem (f := MulIrrep.mul) hm)
        omega

end E3nn.Transf
