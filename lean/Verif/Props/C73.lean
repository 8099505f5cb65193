import Verif.Lemmas.BatchNorm
import Verif.Props.C47
import Verif.Props.C59

/-!
# C73: `batch_norm`
-/

namespace E3nn.BN

open E3nn.IArr E3nn.Rot E3nn.Wig Matrix

variable {β σ : Type} [Fintype β] [Fintype σ] [Nonempty σ]

omit [Fintype β] [Fintype σ] [Nonempty σ] in
theorem tagged_irs {x : IArr (Col β σ)} (hx : Inv x) : (tagged x).map Prod.fst = expand x.irreps := by
  rw [← blocks_irs, tagged_eq hx, hx.blocks_pairs]
  simp only [List.map_flatMap, tag, List.map_map]
  rfl

omit [Fintype β] [Fintype σ] [Nonempty σ] in
theorem tagged_scalars {x : IArr (Col β σ)} (hx : Inv x) : ((tagged x).filter Even0).length = ((expand x.irreps).filter (· == ⟨0, .e⟩)).length := by
  rw [← tagged_irs hx, List.filter_map, List.length_map]
  rfl

omit [Fintype β] [Fintype σ] [Nonempty σ] in
theorem tagged_length {x : IArr (Col β σ)} (hx : Inv x) : (tagged x).length = (expand x.irreps).length := by
  rw [← tagged_irs hx, List.length_map]

/-- **C73 (value).** With valid options and parameters of the right lengths `batch_norm` returns; irreps and zero flags are those of the input, and
every irrep that is not flagged as zero is normalised by itself: centred if it is an even scalar, divided by `sqrt((1 - eps) var + eps)`, with the
weight at its position among the irreps and the bias at its position among the even scalars.  The new running statistics (unless `is_instance`) are
the exponential averages of the old ones and those of the batch, and 0 and 1 for the irreps flagged as zero. -/
theorem C73_value {c : Cfg} {P : Params} (mask : Option (β → ℝ)) {x : IArr (Col β σ)} (hx : x.Coherent) (hf : Fits c P x) :
    ∃ y new, batchNorm c P mask x = .ok (y, new) ∧ y.Coherent ∧ y.irreps = x.irreps ∧ y.zeroFlags = x.zeroFlags ∧
      y.blocks = (tagged x).mapIdx (fun n t => (t.1, if t.2.1 then t.2.2 else
        normalised c mask (at' P.raMean (before (tagged x) n)) (at' P.raVar n) (at' P.weight n) (at' P.bias (before (tagged x) n)) t.1 t.2.2)) ∧
      new = if c.inst then none else some
        (((tagged x).filter Even0).mapIdx (fun k t => if t.2.1 then 0 else
            rolled c (at' P.raMean k) (batchAverage mask fun b => sampleAverage fun s => t.2.2.headD 0 (b, s))),
          (tagged x).mapIdx fun n t => if t.2.1 then 1 else
            rolled c (at' P.raVar n) (batchAverage mask (spread c (centred c mask (at' P.raMean (before (tagged x) n)) t.1 t.2.2)))) := by
  have ht := tagged_eq hx.inv
  have hl := tagged_length hx.inv
  have hs := tagged_scalars hx.inv
  obtain ⟨p1, p2, p3, p4, p5, p6⟩ := hx.inv.pairs
  have hen : Enough c P (T ([] ++ x.irreps.zip x.chunks)).length ((T ([] ++ x.irreps.zip x.chunks)).filter Even0).length := by
    have e : T ([] ++ x.irreps.zip x.chunks) = tagged x := by rw [ht]; rfl
    rw [e]
    refine ⟨hf.options, fun h => ?_, fun h => ?_, fun h => ?_, fun h => ?_⟩
    · obtain ⟨l, e⟩ := Option.ne_none_iff_exists'.mp (hf.stats h).1
      exact ⟨l, e, by rw [hs, hf.mean l e]⟩
    · obtain ⟨l, e⟩ := Option.ne_none_iff_exists'.mp (hf.stats h).2
      exact ⟨l, e, by rw [hl, hf.var l e]⟩
    · obtain ⟨l, e⟩ := Option.ne_none_iff_exists'.mp (hf.weights h).1
      exact ⟨l, e, by rw [hl, hf.weight l e]⟩
    · obtain ⟨l, e⟩ := Option.ne_none_iff_exists'.mp (hf.weights h).2
      exact ⟨l, e, by rw [hs, hf.bias l e, h, if_pos rfl]⟩
  obtain ⟨st, h1, h2⟩ := fold_spec (mask := mask) (x.irreps.zip x.chunks) [] ⟨0, 0, 0, [], [], []⟩
    ⟨rfl, rfl, by simp [T], by simp [T], by simp [T], rfl, by intro p hp; simp at hp, rfl, rfl⟩ p1 hen
  rw [List.nil_append] at h2
  have hT : T (x.irreps.zip x.chunks) = tagged x := ht.symm
  obtain ⟨wei, rmu, bia, means, vars, len, shaped, flags, blocks⟩ := h2
  rw [hT] at wei rmu bia means vars blocks
  rw [p2] at shaped blocks
  have hlen : st.chunks.length = x.irreps.length := by rw [len]; conv_rhs => rw [← p2, List.length_map]
  obtain ⟨y, y1, y2, y3, y4, y5, y6, y7, y8⟩ := fromChunks_pairs _ shaped
  have e1 : (x.irreps.zip st.chunks).map Prod.fst = x.irreps := List.map_fst_zip (by omega)
  have e2 : (x.irreps.zip st.chunks).map Prod.snd = st.chunks := List.map_snd_zip (by omega)
  rw [e1, e2] at y1
  rw [e1] at y3
  have hok : (lengthOk P.weight st.iWei && lengthOk P.raVar st.iWei && lengthOk P.bias st.iBia && lengthOk P.raMean st.iRmu) = true := by
    have a1 : lengthOk P.weight st.iWei = true := by
      unfold lengthOk; split
      · rfl
      · rename_i l e; rw [hf.weight l e, wei, hl]; simp
    have a2 : lengthOk P.raVar st.iWei = true := by
      unfold lengthOk; split
      · rfl
      · rename_i l e; rw [hf.var l e, wei, hl]; simp
    have a3 : lengthOk P.bias st.iBia = true := by
      unfold lengthOk; split
      · rfl
      · rename_i l e; rw [hf.bias l e, bia, hs]; simp
    have a4 : lengthOk P.raMean st.iRmu = true := by
      unfold lengthOk; split
      · rfl
      · rename_i l e; rw [hf.mean l e, rmu, hs]; simp
    simp [a1, a2, a3, a4]
  refine ⟨y, if c.inst then none else some (st.means, st.vars), ?_, y2.coherent, y3, ?_, ?_, ?_⟩
  · unfold batchNorm
    rw [h1]
    simp only [bind, Except.bind]
    unfold finish
    rw [hok, y1]
    simp only [bind, Except.bind, Bool.not_true, Bool.false_eq_true, if_false]
    cases hi : c.inst with
    | true => rfl
    | false => simp [hf.nonempty hi]
  · rw [y6, ← p5, ← flags]
    conv_rhs => rw [← e2, List.map_map]
    rfl
  · rw [y2.blocks_pairs, y3, y7, e2, blocks]
    rfl
  · cases hi : c.inst with
    | true => rfl
    | false =>
      simp only [Bool.false_eq_true, if_false, means, vars, hi]
      rfl

/-! ### O(3) -/

/-- The action on one irrep. -/
noncomputable abbrev actRow (R : Mat) (ir : Irrep) (r : List (Col β σ)) : List (Col β σ) := matVec (matRows (Wig.dMatrix ir R)) r

omit [Fintype β] [Fintype σ] [Nonempty σ] in
theorem actRow_scalar {R : Mat} (hR : R * Rᵀ = 1) {r : List (Col β σ)} (hl : r.length = 1) : actRow R ⟨0, .e⟩ r = r := by
  have h1 : Wig.dMatrix ⟨0, .e⟩ R = 1 := by rw [Activ.dMatrix_scalar hR]; simp [Activ.scalarSign]
  unfold actRow
  rw [h1]
  exact matVec_one (n := 1) hl

omit [Fintype β] [Fintype σ] [Nonempty σ] in
theorem size_act (c : Cfg) {R : Mat} (hR : R * Rᵀ = 1) {ir : Irrep} {r : List (Col β σ)} (hl : r.length = 2 * ir.l + 1) : size c (actRow R ir r) = size c r := by
  funext p
  have h : ∀ r : List (Col β σ), (r.map fun v => v p ^ 2).sum = Basic.inner r r p := by
    intro r
    unfold Basic.inner
    rw [List.zipWith_self]
    simp only [sq]
  unfold size
  rw [h, h, actRow, Basic.inner_matVec ((C39_orthogonal ir hR).1) hl hl, matVec_length]
  simp [matRows, hl]

omit [Fintype β] [Nonempty σ] in
theorem spread_act (c : Cfg) {R : Mat} (hR : R * Rᵀ = 1) {ir : Irrep} {r : List (Col β σ)} (hl : r.length = 2 * ir.l + 1) :
    spread c (actRow R ir r) = spread c r := by
  funext b
  unfold spread
  rw [size_act c hR hl]

omit [Nonempty σ] in
theorem centred_act (c : Cfg) (mask : Option (β → ℝ)) (a : ℝ) {R : Mat} (hR : R * Rᵀ = 1) {ir : Irrep} {r : List (Col β σ)} (hl : r.length = 2 * ir.l + 1) :
    centred c mask a ir (actRow R ir r) = actRow R ir (centred c mask a ir r) := by
  by_cases e : ir = ⟨0, .e⟩
  · subst e
    rw [actRow_scalar hR hl, actRow_scalar hR]
    unfold centred
    rw [if_pos rfl, List.length_map]
    exact hl
  · unfold centred
    rw [if_neg e, if_neg e]

omit [Nonempty σ] in
theorem centred_length (c : Cfg) (mask : Option (β → ℝ)) (a : ℝ) (ir : Irrep) (r : List (Col β σ)) : (centred c mask a ir r).length = r.length := by
  unfold centred
  split <;> simp

/-- Multiplication of a column by a function. -/
def mulCol (g : β × σ → ℝ) : Col β σ →ₗ[ℝ] Col β σ where
  toFun v := fun p => v p * g p
  map_add' v w := by funext p; simp [add_mul]
  map_smul' k v := by funext p; simp [mul_assoc]

omit [Nonempty σ] in
theorem normalised_act (c : Cfg) (mask : Option (β → ℝ)) (a v w d : ℝ) {R : Mat} (hR : R * Rᵀ = 1) {ir : Irrep} {r : List (Col β σ)} (hl : r.length = 2 * ir.l + 1) :
    normalised c mask a v w d ir (actRow R ir r) = actRow R ir (normalised c mask a v w d ir r) := by
  by_cases e : ir = ⟨0, .e⟩
  · subst e
    rw [actRow_scalar hR hl, actRow_scalar hR]
    unfold normalised
    rw [List.length_map, centred_length]
    exact hl
  · have hc : ∀ r : List (Col β σ), centred c mask a ir r = r := fun r => by unfold centred; rw [if_neg e]
    have hb : ¬ (ir = ⟨0, .e⟩ ∧ c.affine = true) := fun h => e h.1
    have hv : varUsed c mask v (actRow R ir r) = varUsed c mask v r := by
      funext b
      unfold varUsed
      rw [spread_act c hR hl]
    unfold normalised
    simp only [hc, if_neg hb, add_zero, hv]
    have := matVec_map (R := ℝ) (mulCol fun p : β × σ => (Real.sqrt ((1 - c.epsilon) * varUsed c mask v r p.1 + c.epsilon))⁻¹ * if c.affine then w else 1) (matRows (Wig.dMatrix ir R)) r
    have hm : ∀ l : List (Col β σ), (l.map fun v_1 p => v_1 p / Real.sqrt ((1 - c.epsilon) * varUsed c mask v r p.1 + c.epsilon) * if c.affine then w else 1) =
        l.map (mulCol fun p : β × σ => (Real.sqrt ((1 - c.epsilon) * varUsed c mask v r p.1 + c.epsilon))⁻¹ * if c.affine then w else 1) := by
      intro l
      apply List.map_congr_left
      intro f _
      funext p
      show _ = f p * (_ * _)
      rw [div_eq_mul_inv, mul_assoc]
    rw [hm, hm]
    exact this

omit [Fintype β] [Fintype σ] [Nonempty σ] in
theorem tagged_row {x : IArr (Col β σ)} (hx : Inv x) : ∀ t ∈ tagged x, t.2.2.length = 2 * t.1.l + 1 := by
  intro t ht
  rw [tagged_eq hx] at ht
  obtain ⟨p, hp, ht⟩ := List.mem_flatMap.mp ht
  unfold tag at ht
  obtain ⟨b, hb, rfl⟩ := List.mem_map.mp ht
  have := blk_dim p (hx.pairs.1 p hp) b hb
  simp only [this.2, this.1]
  rfl

omit [Fintype β] [Fintype σ] [Nonempty σ] in
/-- The irreps of two arrays with the same irreps and flags. -/
theorem tagged_of_blocks {β' : Type} {x : IArr (Col β σ)} {x' : IArr (Col β' σ)} (h2 : x'.irreps = x.irreps) (h3 : x'.zeroFlags = x.zeroFlags)
    {f : Irrep → List (Col β σ) → List (Col β' σ)} (h4 : x'.blocks = x.blocks.map fun b => (b.1, f b.1 b.2)) :
    tagged x' = (tagged x).map fun t => (t.1, t.2.1, f t.1 t.2.2) := by
  unfold tagged
  rw [h4, h2, h3, List.zipWith_map_left, List.map_zipWith]

omit [Fintype β] [Fintype σ] [Nonempty σ] in
theorem before_map {γ δ : Type} (ts : List (Irrep × γ)) (f : Irrep × γ → δ) (n : ℕ) : before (ts.map fun t => (t.1, f t)) n = before ts n := by
  unfold before
  rw [← List.map_take, List.filter_map, List.length_map]
  rfl

/-- **C73 (equivariance).** `batch_norm` of the transformed array is the transformed result, with the same new running statistics; for every mode, mask and
choice of weights. -/
theorem C73_equivariant {c : Cfg} {P : Params} (mask : Option (β → ℝ)) {x : IArr (Col β σ)} (hx : x.Coherent) (hf : Fits c P x) {R : Mat} (hR : R * Rᵀ = 1) :
    ∃ x' y y' y'' new, x.transformByMatrix R = .ok x' ∧ batchNorm c P mask x = .ok (y, new) ∧ batchNorm c P mask x' = .ok (y', new) ∧
      y.transformByMatrix R = .ok y'' ∧ y'.irreps = y''.irreps ∧ y'.zeroFlags = y''.zeroFlags ∧ y'.array = y''.array := by
  obtain ⟨x', a1, a2, a3, a4, a5⟩ := C59_transform R x hx
  obtain ⟨y, new, b1, b2, b3, b4, b5, b6⟩ := C73_value mask hx hf
  obtain ⟨y', new', c1, c2, c3, c4, c5, c6⟩ := C73_value (c := c) (P := P) mask a2 ⟨hf.options, by rw [a3]; exact hf.nonempty, hf.stats, hf.weights,
    by rw [a3]; exact hf.mean, by rw [a3]; exact hf.var, by rw [a3]; exact hf.weight, by rw [a3]; exact hf.bias⟩
  obtain ⟨y'', d1, d2, d3, d4, d5⟩ := C59_transform R y b2
  have ht := tagged_of_blocks a3 a4 (f := fun ir r => actRow R ir r) a5
  have hrow := tagged_row hx.inv
  have hfm : ((tagged x).map fun t => (t.1, t.2.1, actRow R t.1 t.2.2)).filter Even0 = ((tagged x).filter Even0).map fun t => (t.1, t.2.1, actRow R t.1 t.2.2) := by
    rw [List.filter_map]; rfl
  have hnew : new' = new := by
    rw [c6, b6, ht, hfm]
    cases c.inst with
    | true => rfl
    | false =>
      simp only [Bool.false_eq_true, if_false, Option.some.injEq, Prod.mk.injEq]
      constructor
      · apply List.ext_getElem
        · simp
        · intro n h1 h2
          simp only [List.length_mapIdx] at h2
          simp only [List.getElem_mapIdx, List.getElem_map]
          have hm := List.getElem_mem h2
          rw [List.mem_filter] at hm
          have hr := hrow _ hm.1
          have he : (((tagged x).filter Even0)[n]).1 = ⟨0, .e⟩ := by simpa [Even0] using hm.2
          rw [he] at hr ⊢
          rw [actRow_scalar hR hr]
      · apply List.ext_getElem
        · simp
        · intro n h1 h2
          simp only [List.length_mapIdx] at h2
          simp only [List.getElem_mapIdx, List.getElem_map]
          have hr := hrow _ (List.getElem_mem h2)
          rw [before_map, centred_act c mask _ hR hr, spread_act c hR (by rw [centred_length]; exact hr)]
  subst hnew
  refine ⟨x', y, y', y'', new', a1, b1, c1, d1, by rw [c3, a3, d3, b3], by rw [c4, a4, d4, b4], ?_⟩
  rw [← c2.inv.array_eq_blocks, ← d2.inv.array_eq_blocks, c5, d5, b5, ht]
  congr 2
  have hmm : ∀ {γ δ ε : Type} (l : List γ) (f : ℕ → γ → δ) (g : δ → ε), (l.mapIdx f).map g = l.mapIdx fun u r => g (f u r) := by
    intro γ δ ε l f g
    apply List.ext_getElem <;> simp
  rw [hmm]
  apply List.ext_getElem
  · simp
  · intro n h1 h2
    simp only [List.length_mapIdx, List.length_map] at h1
    simp only [List.getElem_mapIdx, List.getElem_map, before_map]
    have hr := hrow _ (List.getElem_mem h1)
    rw [normalised_act c mask _ _ _ _ hR hr]
    split <;> rfl

/-! ### what the statistics become -/

omit [Fintype β] [Fintype σ] [Nonempty σ] in
theorem size_scale (c : Cfg) (r : List (Col β σ)) (g : β × σ → ℝ) (p : β × σ) : size c (r.map fun v p => v p * g p) p = size c r p * g p ^ 2 := by
  unfold size
  have : ((r.map fun v p => v p * g p).map fun v => v p ^ 2).sum = (r.map fun v => v p ^ 2).sum * g p ^ 2 := by
    rw [List.map_map]
    induction r with
    | nil => simp
    | cons a r ih => simp only [List.map_cons, List.sum_cons, ih, Function.comp_apply]; ring
  rw [this, List.length_map]
  ring

omit [Fintype β] in
theorem spread_scale (c : Cfg) (r : List (Col β σ)) (g : β → ℝ) (b : β) : spread c (r.map fun v p => v p * g p.1) b = spread c r b * g b ^ 2 := by
  unfold spread sampleAverage
  simp only [size_scale c r fun p => g p.1]
  split
  · rw [← Finset.sum_mul]; ring
  · exact (Real.iSup_mul_of_nonneg (sq_nonneg (g b)) fun s => size c r (b, s)).symm

omit [Fintype σ] [Nonempty σ] in
theorem batchAverage_mul (mask : Option (β → ℝ)) (f : β → ℝ) (k : ℝ) : batchAverage mask (fun b => f b * k) = batchAverage mask f * k := by
  unfold batchAverage
  rw [div_mul_eq_mul_div, Finset.sum_mul]
  congr 1
  exact Finset.sum_congr rfl fun b _ => by ring

/-- **C73 (normalisation).** In training (batch statistics, no affine parameters), if `V` is the batch variance of a centred irrep, that of the corresponding irrep of the
result is `V / ((1 - eps) V + eps)`: 1 for `eps = 0`, and not more than `1 / (1 - eps)`.  The mean of every even scalar becomes 0. -/
theorem C73_normalised {c : Cfg} {P : Params} (mask : Option (β → ℝ)) {x : IArr (Col β σ)} (hx : x.Coherent) (hf : Fits c P x) (hr : c.running = false)
    (hi : c.inst = false) (ha : c.affine = false) (hm : ∑ b, (mask.getD 1) b ≠ 0) :
    ∃ y new, batchNorm c P mask x = .ok (y, new) ∧ ∀ n (h : n < (tagged x).length) (h' : n < y.blocks.length), (tagged x)[n].2.1 = false →
      y.blocks[n].1 = (tagged x)[n].1 ∧
      (∀ V, V = batchAverage mask (spread c (centred c mask 0 (tagged x)[n].1 (tagged x)[n].2.2)) → 0 ≤ (1 - c.epsilon) * V + c.epsilon →
        batchAverage mask (spread c y.blocks[n].2) = V / ((1 - c.epsilon) * V + c.epsilon)) ∧
      (y.blocks[n].1 = ⟨0, .e⟩ → ∀ v ∈ y.blocks[n].2, batchAverage mask (fun b => sampleAverage fun s => v (b, s)) = 0) := by
  obtain ⟨y, new, b1, b2, b3, b4, b5, b6⟩ := C73_value mask hx hf
  refine ⟨y, new, b1, ?_⟩
  intro n h h' hz
  have hcm : ∀ a a' ir (r : List (Col β σ)), centred c mask a ir r = centred c mask a' ir r := by
    intro a a' ir r
    unfold centred meanUsed
    simp only [hr, Bool.false_eq_true, if_false]
  have hy : y.blocks[n] = ((tagged x)[n].1, (centred c mask 0 (tagged x)[n].1 (tagged x)[n].2.2).map fun v p => v p *
      (Real.sqrt ((1 - c.epsilon) * batchAverage mask (spread c (centred c mask 0 (tagged x)[n].1 (tagged x)[n].2.2)) + c.epsilon))⁻¹) := by
    have h0 := List.getElem_of_eq b5 h'
    rw [List.getElem_mapIdx, hz] at h0
    simp only [Bool.false_eq_true, if_false] at h0
    rw [h0]
    congr 1
    unfold normalised
    rw [hcm _ 0]
    simp only [varUsed, hr, hi, ha, Bool.false_eq_true, if_false, and_false, add_zero, mul_one]
    apply List.map_congr_left
    intro v _
    funext p
    rw [div_eq_mul_inv]
  rw [hy]
  refine ⟨rfl, ?_, ?_⟩
  · intro V hV h0
    rw [← hV]
    have := fun b => spread_scale c (centred c mask 0 (tagged x)[n].1 (tagged x)[n].2.2) (fun _ => (Real.sqrt ((1 - c.epsilon) * V + c.epsilon))⁻¹) b
    rw [show spread c ((centred c mask 0 (tagged x)[n].1 (tagged x)[n].2.2).map fun v p => v p * (Real.sqrt ((1 - c.epsilon) * V + c.epsilon))⁻¹) = _ from funext this,
      batchAverage_mul, ← hV, inv_pow, Real.sq_sqrt h0, div_eq_mul_inv]
  · intro he v hv
    simp only at he hv
    obtain ⟨w, hw, rfl⟩ := List.mem_map.mp hv
    unfold centred at hw
    rw [if_pos he] at hw
    obtain ⟨u, hu, rfl⟩ := List.mem_map.mp hw
    generalize (Real.sqrt ((1 - c.epsilon) * batchAverage mask (spread c (centred c mask 0 (tagged x)[n].1 (tagged x)[n].2.2)) + c.epsilon))⁻¹ = k
    have e1 : (fun b => sampleAverage fun s => (u (b, s) - meanUsed c mask 0 u b) * k) = fun b => ((sampleAverage fun s => u (b, s)) - batchAverage mask fun b => sampleAverage fun s => u (b, s)) * k := by
      funext b
      have hc : (Fintype.card σ : ℝ) ≠ 0 := by simp
      simp only [meanUsed, hr, hi, Bool.false_eq_true, if_false]
      generalize (batchAverage mask fun b => sampleAverage fun s => u (b, s)) = m
      unfold sampleAverage
      rw [← Finset.sum_mul, Finset.sum_sub_distrib, Finset.sum_const, Finset.card_univ, nsmul_eq_mul]
      field_simp
    show batchAverage mask (fun b => sampleAverage fun s => (u (b, s) - meanUsed c mask 0 u b) * k) = 0
    rw [e1, batchAverage_mul]
    have e2 : ∀ (f : β → ℝ) (m : ℝ), batchAverage mask (fun b => f b - m) = batchAverage mask f - m := by
      intro f m
      unfold batchAverage
      simp only [sub_mul, Finset.sum_sub_distrib, ← Finset.mul_sum]
      field_simp
    rw [e2, sub_self, zero_mul]

end E3nn.BN
