import Verif.Spec.BatchNorm
import Verif.Lemmas.IArrSlice
import Verif.Lemmas.MapRows
import Mathlib.Order.ConditionallyCompleteLattice.Finset
import Mathlib.Tactic.Ring
import Mathlib.Algebra.BigOperators.Field
import Mathlib.Tactic.FieldSimp

/-!
# The loop of `batch_norm` irrep by irrep
-/

namespace E3nn.BN

open E3nn.IArr

variable {β σ : Type} [Fintype β] [Fintype σ] [Nonempty σ]

theorem zipWith_slice {γ δ : Type} (f : ℝ → γ → δ) (l : List ℝ) (i : ℕ) (rows : List γ) (h : i + rows.length ≤ l.length) :
    List.zipWith f ((l.drop i).take rows.length) rows = rows.mapIdx fun u r => f (l.getD (i + u) 0) r := by
  apply List.ext_getElem
  · simp; omega
  intro n h1 h2
  simp only [List.length_mapIdx] at h2
  have hd : l.getD (i + n) 0 = l[i + n]'(by omega) := by
    rw [List.getD_eq_getElem?_getD, List.getElem?_eq_getElem (by omega), Option.getD_some]
  simp only [List.getElem_zipWith, List.getElem_take, List.getElem_drop, List.getElem_mapIdx, hd]

theorem slice_map {γ δ : Type} (f : ℝ → γ → δ) (l : List ℝ) (i : ℕ) (rows : List γ) (h : i + rows.length ≤ l.length) :
    List.zipWith (fun r a => f a r) rows ((l.drop i).take rows.length) = rows.mapIdx fun u r => f (l.getD (i + u) 0) r := by
  rw [List.zipWith_comm]
  exact zipWith_slice f l i rows h

theorem batchMean_eq (mask : Option (β → ℝ)) (v : Col β σ) : batchMean mask v = batchAverage mask fun b => sampleAverage fun s => v (b, s) := by
  cases mask with
  | none =>
    simp only [batchMean, batchAverage, sampleAverage, Option.getD_none, Pi.one_apply, mul_one, Finset.sum_const, Finset.card_univ, nsmul_eq_mul]
    rw [← Finset.sum_div, div_div, mul_comm (Fintype.card σ : ℝ)]
  | some w => rfl

theorem reduceBatch_eq (mask : Option (β → ℝ)) (f : β → ℝ) : reduceBatch mask f = batchAverage mask f := by
  cases mask with
  | none => simp [reduceBatch, batchAverage]
  | some w => rfl

theorem normSquared_eq (c : Cfg) (r : List (Col β σ)) : normSquared c r = size c r := by
  funext p
  unfold normSquared size
  cases c.normalization <;> simp

theorem spread_eq {c : Cfg} (r : List (Col β σ)) : reduceSamples c (normSquared c r) = spread c r := by
  funext b
  rw [normSquared_eq]
  unfold reduceSamples spread
  cases c.reduce with
  | mean => rfl
  | max => simp [Finset.sup'_univ_eq_ciSup]
  | other => simp [Finset.sup'_univ_eq_ciSup]

/-- The irreps of one term. -/
def tag (p : MulIrrep × Chunk (Col β σ)) : List (Irrep × Bool × List (Col β σ)) := (blk p).map fun b => (b.1, p.2.isNone, b.2)

omit [Fintype β] [Fintype σ] [Nonempty σ] in
theorem tag_some {m : MulIrrep} {rows : List (List (Col β σ))} (h : shapeOk m (some rows) = true) :
    tag (m, some rows) = rows.map fun r => (m.ir, false, r) := by
  unfold tag
  rw [blk_some h, List.map_map]
  rfl

omit [Fintype β] [Fintype σ] [Nonempty σ] in
theorem tag_length (p : MulIrrep × Chunk (Col β σ)) : (tag p).length = p.1.mul := by
  unfold tag
  rw [List.length_map, blk_length]

omit [Fintype β] [Fintype σ] [Nonempty σ] in
theorem tagged_eq {x : IArr (Col β σ)} (hx : Inv x) : tagged x = (x.irreps.zip x.chunks).flatMap tag := by
  obtain ⟨h1, h2, h3, h4, h5, h6⟩ := hx.pairs
  have hz : x.irreps.zip x.zeroFlags = (x.irreps.zip x.chunks).map fun p => (p.1, p.2.isNone) := by
    conv_lhs => rw [← h2, ← h5]
    rw [List.zip_map']
  unfold tagged
  rw [hx.blocks_pairs, hz]
  generalize x.irreps.zip x.chunks = ps
  induction ps with
  | nil => rfl
  | cons p ps ih =>
    simp only [List.map_cons, List.flatMap_cons]
    rw [List.zipWith_append (by simp [blk_length]), ih]
    congr 1
    unfold tag
    apply List.ext_getElem
    · simp [blk_length]
    intro n a b
    simp

/-! ### the expected values -/

/-- The output of one irrep; `n` and `k` are its indices among the irreps and the even scalars. -/
noncomputable def outOf (c : Cfg) (P : Params) (mask : Option (β → ℝ)) (n k : ℕ) (t : Irrep × Bool × List (Col β σ)) : Irrep × List (Col β σ) :=
  (t.1, if t.2.1 then t.2.2 else normalised c mask (at' P.raMean k) (at' P.raVar n) (at' P.weight n) (at' P.bias k) t.1 t.2.2)

/-- The new running variance of one irrep. -/
noncomputable def varOf (c : Cfg) (P : Params) (mask : Option (β → ℝ)) (n k : ℕ) (t : Irrep × Bool × List (Col β σ)) : ℝ :=
  if t.2.1 then 1 else rolled c (at' P.raVar n) (batchAverage mask (spread c (centred c mask (at' P.raMean k) t.1 t.2.2)))

/-- The new running mean of one even scalar. -/
noncomputable def meanOf (c : Cfg) (P : Params) (mask : Option (β → ℝ)) (k : ℕ) (t : Irrep × Bool × List (Col β σ)) : ℝ :=
  if t.2.1 then 0 else rolled c (at' P.raMean k) (batchAverage mask fun b => sampleAverage fun s => t.2.2.headD 0 (b, s))

/-- All parameters that are used are long enough. -/
structure Enough (c : Cfg) (P : Params) (n k : ℕ) : Prop where
  options : c.normalization ≠ .other ∧ c.reduce ≠ .other
  mean : (c.inst = false ∨ c.running = true) → ∃ l, P.raMean = some l ∧ k ≤ l.length
  var : (c.inst = false ∨ c.running = true) → ∃ l, P.raVar = some l ∧ n ≤ l.length
  weight : c.affine = true → ∃ l, P.weight = some l ∧ n ≤ l.length
  bias : c.affine = true → ∃ l, P.bias = some l ∧ k ≤ l.length

theorem center_spec {c : Cfg} {P : Params} (mask : Option (β → ℝ)) {i j n : ℕ} {rows : List (List (Col β σ))} (hn : rows.length = n) (he : Enough c P i (j + n))
    (hd : ∀ r ∈ rows, r.length = 1) :
    centerChunk c P mask j n rows = .ok (if c.inst then [] else rows.mapIdx fun u r => meanOf c P mask (j + u) (⟨0, .e⟩, false, r),
      rows.mapIdx fun u r => centred c mask (at' P.raMean (j + u)) ⟨0, .e⟩ r) := by
  subst hn
  have hhead : ∀ r ∈ rows, r = [r.headD 0] := by
    intro r hr
    have := hd r hr
    match r, this with
    | [v], _ => rfl
  have hcentre : ∀ (ra : ℝ) (r : List (Col β σ)), r ∈ rows → centred c mask ra ⟨0, .e⟩ r = r.map fun v p => v p - meanUsed c mask ra (r.headD 0) p.1 := by
    intro ra r hr
    unfold centred
    rw [if_pos rfl]
    conv_lhs => rw [hhead r hr]
    conv_rhs => rw [hhead r hr]
    rfl
  have hgen : ∀ (g : ℕ → List (Col β σ) → β → ℝ), (∀ u (h : u < rows.length), g u rows[u] = meanUsed c mask (at' P.raMean (j + u)) (rows[u].headD 0)) →
      List.zipWith (fun r m => r.map fun (v : Col β σ) (p : β × σ) => v p - m p.1) rows (rows.mapIdx g) = rows.mapIdx fun u r => centred c mask (at' P.raMean (j + u)) ⟨0, .e⟩ r := by
    intro g hg
    apply List.ext_getElem
    · simp
    intro u h1 h2
    simp only [List.length_mapIdx] at h2
    simp only [List.getElem_zipWith, List.getElem_mapIdx]
    rw [hcentre _ _ (List.getElem_mem h2), hg u h2]
  have hmi : ∀ {δ : Type} (g : List (Col β σ) → δ), rows.map g = rows.mapIdx fun _ r => g r := by
    intro δ g
    apply List.ext_getElem <;> simp
  have hnew : ∀ l : List ℝ, P.raMean = some l → j + rows.length ≤ l.length →
      List.zipWith (roll c) ((l.drop j).take rows.length) (rows.map fun r => batchMean mask (r.headD 0)) =
        rows.mapIdx fun u r => meanOf c P mask (j + u) (⟨0, .e⟩, false, r) := by
    intro l hl hll
    rw [List.zipWith_map_right, zipWith_slice (fun a r => roll c a (batchMean mask (r.headD 0))) l j rows hll]
    simp only [batchMean_eq]
    unfold meanOf at'
    rw [hl]
    rfl
  have hrun : ∀ l : List ℝ, P.raMean = some l → j + rows.length ≤ l.length → c.running = true →
      List.zipWith (fun r m => r.map fun (v : Col β σ) (p : β × σ) => v p - m p.1) rows (((l.drop j).take rows.length).map fun m (_ : β) => m) =
        rows.mapIdx fun u r => centred c mask (at' P.raMean (j + u)) ⟨0, .e⟩ r := by
    intro l hl hll hr
    rw [List.zipWith_map_right, slice_map (fun a r => r.map fun (v : Col β σ) (p : β × σ) => v p - a) l j rows hll]
    apply List.ext_getElem
    · simp
    intro u h1 h2
    simp only [List.length_mapIdx] at h2
    simp only [List.getElem_mapIdx]
    rw [hcentre _ _ (List.getElem_mem h2)]
    simp [meanUsed, hr, at', hl]
  have h1 : newMeans c P mask j rows.length rows = .ok (if c.inst then [] else rows.mapIdx fun u r => meanOf c P mask (j + u) (⟨0, .e⟩, false, r)) := by
    unfold newMeans
    cases hi : c.inst with
    | true => rfl
    | false =>
      obtain ⟨l, hl, hll⟩ := he.mean (Or.inl hi)
      simp only [Bool.false_eq_true, if_false, slice, hl, Except.map]
      rw [hnew l hl hll]
  have h2 : ∃ ms, meansFor c P mask j rows.length rows = .ok ms ∧ List.zipWith (fun r m => r.map fun (v : Col β σ) (p : β × σ) => v p - m p.1) rows ms =
      rows.mapIdx fun u r => centred c mask (at' P.raMean (j + u)) ⟨0, .e⟩ r := by
    unfold meansFor
    cases hr : c.running with
    | true =>
      obtain ⟨l, hl, hll⟩ := he.mean (Or.inr hr)
      refine ⟨_, ?_, hrun l hl hll hr⟩
      simp only [if_true, slice, hl, Except.map]
    | false =>
      simp only [Bool.false_eq_true, if_false]
      refine ⟨_, rfl, ?_⟩
      rw [hmi, hgen]
      intro u h
      cases hi : c.inst with
      | true => funext b; simp only [meanUsed, hr, hi, if_true, Bool.false_eq_true, if_false]; rfl
      | false => funext b; simp only [meanUsed, hr, hi, Bool.false_eq_true, if_false, batchMean_eq]
  obtain ⟨ms, e1, e2⟩ := h2
  unfold centerChunk
  rw [h1, e1]
  simp only [bind, Except.bind]
  rw [e2]

theorem zipWith_mapIdx {γ δ ε : Type} (f : γ → δ → ε) (l : List γ) (g : ℕ → γ → δ) : List.zipWith f l (l.mapIdx g) = l.mapIdx fun u r => f r (g u r) := by
  apply List.ext_getElem <;> simp

theorem map_mapIdx {γ δ : Type} (g : γ → δ) (l : List γ) : l.map g = l.mapIdx fun _ r => g r := by
  apply List.ext_getElem <;> simp

theorem scale_spec {c : Cfg} {P : Params} (mask : Option (β → ℝ)) {i j k : ℕ} {m : MulIrrep} {rows : List (List (Col β σ))} (hn : rows.length = m.mul)
    (he : Enough c P (i + m.mul) k) (hk : m.ir = ⟨0, .e⟩ → j + m.mul ≤ k) :
    scaleChunk c P mask i j m rows = .ok (if c.inst then [] else rows.mapIdx fun u r => rolled c (at' P.raVar (i + u)) (batchAverage mask (spread c r)),
      rows.mapIdx fun u r => r.map fun v p => v p / Real.sqrt ((1 - c.epsilon) * varUsed c mask (at' P.raVar (i + u)) r p.1 + c.epsilon) *
        (if c.affine then at' P.weight (i + u) else 1) + if m.ir = ⟨0, .e⟩ ∧ c.affine then at' P.bias (j + u) else 0) := by
  have hns : (rows.map fun r => reduceSamples c (normSquared c r)) = rows.map (spread c) := by simp only [spread_eq]
  have h1 : newVars c P mask i m.mul (rows.map (spread c)) = .ok (if c.inst then [] else rows.mapIdx fun u r => rolled c (at' P.raVar (i + u)) (batchAverage mask (spread c r))) := by
    unfold newVars
    cases hi : c.inst with
    | true => rfl
    | false =>
      obtain ⟨l, hl, hll⟩ := he.var (Or.inl hi)
      simp only [Bool.false_eq_true, if_false, slice, hl, Except.map]
      rw [List.map_map, List.zipWith_map_right, ← hn, zipWith_slice (fun a r => roll c a ((reduceBatch mask ∘ spread c) r)) l i rows (by omega)]
      simp only [Function.comp_apply, reduceBatch_eq]
      rfl
  have h2 : varsFor c P mask i m.mul (rows.map (spread c)) = .ok (rows.mapIdx fun u r => varUsed c mask (at' P.raVar (i + u)) r) := by
    unfold varsFor
    cases hr : c.running with
    | true =>
      obtain ⟨l, hl, hll⟩ := he.var (Or.inr hr)
      simp only [if_true, slice, hl, Except.map]
      have := zipWith_slice (fun a (_ : List (Col β σ)) (_ : β) => a) l i rows (by omega)
      rw [hn] at this
      congr 1
      have h0 : ((l.drop i).take m.mul).map (fun v (_ : β) => v) = List.zipWith (fun a (_ : List (Col β σ)) (_ : β) => a) ((l.drop i).take m.mul) rows := by
        apply List.ext_getElem
        · simp; omega
        · intro n a b; simp
      rw [h0, this]
      congr 1
      funext u r b
      simp only [varUsed, hr, if_true]
      rfl
    | false =>
      simp only [Bool.false_eq_true, if_false]
      congr 1
      cases hi : c.inst with
      | true =>
        simp only [if_true]
        rw [map_mapIdx]
        congr 1
        funext u r b
        simp only [varUsed, hr, hi, Bool.false_eq_true, if_false, if_true]
      | false =>
        simp only [Bool.false_eq_true, if_false]
        rw [List.map_map, map_mapIdx]
        congr 1
        funext u r b
        simp only [varUsed, hr, hi, Bool.false_eq_true, if_false, Function.comp_apply, reduceBatch_eq]
  have h3 : inverses c P i m.mul (rows.mapIdx fun u r => varUsed c mask (at' P.raVar (i + u)) r) =
      .ok (rows.mapIdx fun u r b => (Real.sqrt ((1 - c.epsilon) * varUsed c mask (at' P.raVar (i + u)) r b + c.epsilon))⁻¹ * if c.affine then at' P.weight (i + u) else 1) := by
    unfold inverses
    have hmm : ∀ {γ δ ε : Type} (l : List γ) (f : ℕ → γ → δ) (g : δ → ε), (l.mapIdx f).map g = l.mapIdx fun u r => g (f u r) := by
      intro γ δ ε l f g
      apply List.ext_getElem <;> simp
    rw [hmm]
    cases ha : c.affine with
    | false => simp
    | true =>
      obtain ⟨l, hl, hll⟩ := he.weight ha
      simp only [if_true, slice, hl, Except.map]
      congr 1
      apply List.ext_getElem
      · simp; omega
      · intro n a b
        simp only [List.length_mapIdx] at b
        have hd : l.getD (i + n) 0 = l[i + n]'(by omega) := by
          rw [List.getD_eq_getElem?_getD, List.getElem?_eq_getElem (by omega), Option.getD_some]
        simp only [List.getElem_zipWith, List.getElem_mapIdx, List.getElem_take, List.getElem_drop, at', Option.getD_some, hd]
  unfold scaleChunk
  rw [if_neg he.options.1, if_neg he.options.2, hns]
  simp only [bind, Except.bind, h1, h2, h3]
  rw [zipWith_mapIdx]
  have h4 : addBias c P j m (rows.mapIdx fun u r => r.map fun (v : Col β σ) p => v p * ((Real.sqrt ((1 - c.epsilon) * varUsed c mask (at' P.raVar (i + u)) r p.1 + c.epsilon))⁻¹ * if c.affine then at' P.weight (i + u) else 1)) =
      .ok (rows.mapIdx fun u r => r.map fun v p => v p / Real.sqrt ((1 - c.epsilon) * varUsed c mask (at' P.raVar (i + u)) r p.1 + c.epsilon) *
        (if c.affine then at' P.weight (i + u) else 1) + if m.ir = ⟨0, .e⟩ ∧ c.affine then at' P.bias (j + u) else 0) := by
    unfold addBias
    by_cases hb : m.ir = ⟨0, .e⟩ ∧ c.affine = true
    · obtain ⟨l, hl, hll⟩ := he.bias hb.2
      have hc : (c.affine && m.ir == ⟨0, .e⟩) = true := by simp [hb.1, hb.2]
      have := hk hb.1
      rw [if_pos hc]
      simp only [slice, hl, Except.map]
      congr 1
      apply List.ext_getElem
      · simp; omega
      · intro n a b
        simp only [List.length_mapIdx] at b
        have hd : l.getD (j + n) 0 = l[j + n]'(by omega) := by
          rw [List.getD_eq_getElem?_getD, List.getElem?_eq_getElem (by omega), Option.getD_some]
        simp only [List.getElem_zipWith, List.getElem_mapIdx, List.getElem_take, List.getElem_drop, at', Option.getD_some, hd, List.map_map]
        apply List.map_congr_left
        intro v _
        funext p
        simp only [Function.comp_apply, if_pos hb]
        ring
    · have hc : (c.affine && m.ir == ⟨0, .e⟩) = false := by
        by_contra h
        simp only [Bool.not_eq_false, Bool.and_eq_true, beq_iff_eq] at h
        exact hb ⟨h.2, h.1⟩
      rw [hc]
      simp only [Bool.false_eq_true, if_false]
      congr 1
      congr 1
      funext u r
      apply List.map_congr_left
      intro v _
      funext p
      rw [if_neg hb]
      ring
  rw [h4]

omit [Fintype β] [Fintype σ] [Nonempty σ] in
theorem mapIdx_before {δ : Type} (F : ℕ → ℕ → Irrep × Bool × List (Col β σ) → δ) (a b : List (Irrep × Bool × List (Col β σ))) :
    (a ++ b).mapIdx (fun n t => F n (before (a ++ b) n) t) = a.mapIdx (fun n t => F n (before a n) t) ++
      b.mapIdx fun u t => F (a.length + u) ((a.filter Even0).length + before b u) t := by
  rw [List.mapIdx_append]
  congr 1
  · apply List.ext_getElem
    · simp
    · intro n h1 h2
      simp only [List.length_mapIdx] at h1
      simp only [List.getElem_mapIdx, before]
      rw [List.take_append_of_le_length (by omega)]
  · apply List.ext_getElem
    · simp
    · intro n h1 h2
      simp only [List.getElem_mapIdx, before]
      rw [Nat.add_comm n a.length, List.take_length_add_append, List.filter_append, List.length_append]

/-- The irreps of a list of terms. -/
def T (ps : List (MulIrrep × Chunk (Col β σ))) : List (Irrep × Bool × List (Col β σ)) := ps.flatMap tag

/-- What holds after the terms `pre`. -/
structure Loop (c : Cfg) (P : Params) (mask : Option (β → ℝ)) (pre : List (MulIrrep × Chunk (Col β σ))) (st : St β σ) : Prop where
  wei : st.iWei = (T pre).length
  rmu : st.iRmu = ((T pre).filter Even0).length
  bia : st.iBia = if c.affine then ((T pre).filter Even0).length else 0
  means : st.means = if c.inst then [] else ((T pre).filter Even0).mapIdx (meanOf c P mask)
  vars : st.vars = if c.inst then [] else (T pre).mapIdx fun n t => varOf c P mask n (before (T pre) n) t
  len : st.chunks.length = pre.length
  shaped : Shaped ((pre.map Prod.fst).zip st.chunks)
  flags : st.chunks.map Option.isNone = pre.map fun p => p.2.isNone
  blocks : ((pre.map Prod.fst).zip st.chunks).flatMap blk = (T pre).mapIdx fun n t => outOf c P mask n (before (T pre) n) t

theorem step_spec {c : Cfg} {P : Params} {mask : Option (β → ℝ)} {pre : List (MulIrrep × Chunk (Col β σ))} {st : St β σ} (h : Loop c P mask pre st)
    (q : MulIrrep × Chunk (Col β σ)) (hq : shapeOk q.1 q.2 = true) (he : Enough c P (T (pre ++ [q])).length ((T (pre ++ [q])).filter Even0).length) :
    ∃ st', step c P mask st q = .ok st' ∧ Loop c P mask (pre ++ [q]) st' := by
  have hT : T (pre ++ [q]) = T pre ++ tag q := by simp [T]
  have hir : ∀ t ∈ tag q, t.1 = q.1.ir := by
    intro t ht
    unfold tag at ht
    obtain ⟨b, hb, rfl⟩ := List.mem_map.mp ht
    exact (blk_dim q hq b hb).1
  have hfs : q.1.ir = ⟨0, .e⟩ → (tag q).filter Even0 = tag q := fun e => by
    rw [List.filter_eq_self]; intro t ht; simp [Even0, hir t ht, e]
  have hfn : q.1.ir ≠ ⟨0, .e⟩ → (tag q).filter Even0 = [] := fun e => by
    rw [List.filter_eq_nil_iff]; intro t ht; simp [Even0, hir t ht, e]
  have hbs : q.1.ir = ⟨0, .e⟩ → ∀ u, u < (tag q).length → before (tag q) u = u := fun e u hu => by
    unfold before
    have : ((tag q).take u).filter Even0 = (tag q).take u := by
      rw [List.filter_eq_self]; intro t ht; simp [Even0, hir t (List.mem_of_mem_take ht), e]
    rw [this, List.length_take]; omega
  have hlen := tag_length q
  rw [hT] at he
  simp only [List.length_append, List.filter_append, hlen] at he
  have hzip : ∀ ch, ((pre ++ [q]).map Prod.fst).zip (st.chunks ++ [ch]) = (pre.map Prod.fst).zip st.chunks ++ [(q.1, ch)] := by
    intro ch
    rw [List.map_append, List.zip_append (by simp [h.len])]
    rfl
  obtain ⟨m, ch⟩ := q
  simp only at *
  cases ch with
  | none =>
    refine ⟨_, rfl, ?_⟩
    have hfl : ∀ t ∈ tag (m, (none : Chunk (Col β σ))), t.2.1 = true := by
      intro t ht
      unfold tag at ht
      obtain ⟨b, hb, rfl⟩ := List.mem_map.mp ht
      rfl
    constructor
    · simp [hT, hlen, h.wei]
    · simp only [hT, List.filter_append, List.length_append]
      by_cases e : m.ir = ⟨0, .e⟩
      · simp [e, hfs e, hlen, h.rmu]
      · simp [e, hfn e, h.rmu]
    · simp only [hT, List.filter_append, List.length_append]
      cases ha : c.affine with
      | false => simp [h.bia, ha]
      | true =>
        by_cases e : m.ir = ⟨0, .e⟩
        · simp [e, hfs e, hlen, h.bia, ha]
        · simp [e, hfn e, h.bia, ha]
    · cases hi : c.inst with
      | true => simp [h.means, hi]
      | false =>
        simp only [hT, List.filter_append, Bool.not_false, Bool.and_true, Bool.false_eq_true, if_false]
        by_cases e : m.ir = ⟨0, .e⟩
        · rw [if_pos (by simp [e]), hfs e, List.mapIdx_append, h.means, hi]
          simp only [Bool.false_eq_true, if_false]
          congr 1
          apply List.ext_getElem
          · simp [hlen]
          · intro n h1 h2
            simp only [List.length_mapIdx] at h2
            simp only [List.getElem_replicate, List.getElem_mapIdx, meanOf, hfl _ (List.getElem_mem h2), if_true]
        · rw [if_neg (by simp [e]), hfn e, List.append_nil, h.means, hi]
          simp
    · cases hi : c.inst with
      | true => simp [h.vars, hi]
      | false =>
        simp only [hT, Bool.false_eq_true, if_false, mapIdx_before, h.vars, hi]
        congr 1
        apply List.ext_getElem
        · simp [hlen]
        · intro n h1 h2
          simp only [List.length_mapIdx] at h2
          simp only [List.getElem_replicate, List.getElem_mapIdx, varOf, hfl _ (List.getElem_mem h2), if_true]
    · simp [h.len]
    · rw [hzip]
      intro p hp
      rcases List.mem_append.mp hp with hp | hp
      · exact h.shaped p hp
      · rw [List.mem_singleton.mp hp]; exact hq
    · simp [h.flags]
    · rw [hzip, List.flatMap_append, h.blocks, hT, mapIdx_before]
      congr 1
      rw [List.flatMap_cons, List.flatMap_nil, List.append_nil]
      apply List.ext_getElem
      · simp [hlen, blk_length]
      · intro n h1 h2
        simp only [List.length_mapIdx] at h2
        simp only [List.getElem_mapIdx, outOf, hfl _ (List.getElem_mem h2), if_true]
        simp [tag]
  | some rows =>
    have ht := tag_some hq
    simp only [shapeOk, Bool.and_eq_true, beq_iff_eq, List.all_eq_true] at hq
    -- the centred rows
    obtain ⟨cm, hc1, hc2⟩ : ∃ cm, (if (m.ir == ⟨0, .e⟩) = true then centerChunk c P mask st.iRmu m.mul rows else .ok ([], rows)) =
        .ok (cm, rows.mapIdx fun u r => centred c mask (at' P.raMean (((T pre).filter Even0).length + before (tag (m, some rows)) u)) m.ir r) ∧
        st.means ++ cm = if c.inst then [] else ((T pre ++ tag (m, some rows)).filter Even0).mapIdx (meanOf c P mask) := by
      by_cases e : m.ir = ⟨0, .e⟩
      · rw [if_pos (by simp [e]), center_spec (i := (T pre).length) mask hq.1 (by
          rw [h.rmu]
          have := hfs e
          rw [this, hlen] at he
          exact ⟨he.options, he.mean, fun hh => by obtain ⟨l, a, b⟩ := he.var hh; exact ⟨l, a, by omega⟩,
            fun hh => by obtain ⟨l, a, b⟩ := he.weight hh; exact ⟨l, a, by omega⟩, he.bias⟩) (fun r hr => by rw [hq.2 r hr, e]; rfl)]
        refine ⟨if c.inst then [] else rows.mapIdx fun u r => meanOf c P mask (st.iRmu + u) (⟨0, .e⟩, false, r), ?_, ?_⟩
        · congr 2
          apply List.ext_getElem
          · simp
          · intro n h1 h2
            simp only [List.length_mapIdx] at h1
            simp only [List.getElem_mapIdx, h.rmu, e]
            rw [hbs e n (by rw [hlen, ← hq.1]; exact h1)]
        · rw [h.means]
          cases hi : c.inst with
          | true => rfl
          | false =>
            simp only [Bool.false_eq_true, if_false]
            rw [List.filter_append, List.mapIdx_append, hfs e]
            congr 1
            rw [ht]
            apply List.ext_getElem
            · simp
            · intro n h1 h2
              simp only [List.getElem_mapIdx, List.getElem_map, h.rmu, meanOf]
              rw [Nat.add_comm n]
      · rw [if_neg (by simp [e])]
        refine ⟨[], ?_, ?_⟩
        · congr 2
          apply List.ext_getElem
          · simp
          · intro n h1 h2
            simp only [List.getElem_mapIdx, centred, if_neg e]
        · rw [h.means, List.filter_append, hfn e, List.append_nil, List.append_nil]
    have hrl : (rows.mapIdx fun u r => centred c mask (at' P.raMean (((T pre).filter Even0).length + before (tag (m, some rows)) u)) m.ir r).length = m.mul := by
      rw [List.length_mapIdx, hq.1]
    have hsc := scale_spec (i := st.iWei) (j := ((T pre).filter Even0).length) mask hrl (k := ((T pre).filter Even0).length + ((tag (m, some rows)).filter Even0).length)
      (by rw [h.wei]; exact he) (fun e => by rw [hfs e, hlen])
    have hj : scaleChunk c P mask st.iWei st.iBia m (rows.mapIdx fun u r => centred c mask (at' P.raMean (((T pre).filter Even0).length + before (tag (m, some rows)) u)) m.ir r) =
        scaleChunk c P mask st.iWei (((T pre).filter Even0).length) m (rows.mapIdx fun u r => centred c mask (at' P.raMean (((T pre).filter Even0).length + before (tag (m, some rows)) u)) m.ir r) := by
      cases ha : c.affine with
      | true => rw [h.bia, ha]; rfl
      | false => unfold scaleChunk addBias; simp [ha]
    rw [← hj] at hsc
    obtain ⟨vr, nr, hs1, hs2, hs3, hs4⟩ : ∃ vr nr, scaleChunk c P mask st.iWei st.iBia m (rows.mapIdx fun u r => centred c mask (at' P.raMean (((T pre).filter Even0).length + before (tag (m, some rows)) u)) m.ir r) = .ok (vr, nr) ∧
        shapeOk m (some nr) = true ∧ (vr = if c.inst then [] else (tag (m, some rows)).mapIdx fun u t => varOf c P mask ((T pre).length + u) (((T pre).filter Even0).length + before (tag (m, some rows)) u) t) ∧
        (nr.map fun r => (m.ir, r)) = (tag (m, some rows)).mapIdx fun u t => outOf c P mask ((T pre).length + u) (((T pre).filter Even0).length + before (tag (m, some rows)) u) t := by
      refine ⟨_, _, hsc, ?_, ?_, ?_⟩
      · simp only [shapeOk, Bool.and_eq_true, beq_iff_eq, List.all_eq_true]
        refine ⟨by simp [hq.1], ?_⟩
        intro r hr
        obtain ⟨n, hn, rfl⟩ := List.mem_iff_getElem.mp hr
        simp only [List.length_mapIdx] at hn
        simp only [List.getElem_mapIdx, List.length_map]
        rw [← hq.2 _ (List.getElem_mem hn)]
        unfold centred
        split <;> simp
      · cases c.inst with
        | true => rfl
        | false =>
          simp only [Bool.false_eq_true, if_false]
          apply List.ext_getElem
          · simp [ht]
          · intro n h1 h2
            simp only [List.getElem_mapIdx, varOf, h.wei, ht, List.getElem_map, Bool.false_eq_true, if_false]
      · apply List.ext_getElem
        · simp [ht]
        · intro n h1 h2
          simp only [List.length_mapIdx, hlen] at h2
          simp only [List.getElem_mapIdx, outOf, h.wei, ht, List.getElem_map, Bool.false_eq_true, if_false, normalised]
          congr 1
          apply List.map_congr_left
          intro v _
          funext p
          by_cases e : m.ir = ⟨0, .e⟩
          · have := hbs e n (by rw [hlen]; exact h2)
            rw [ht] at this
            rw [this]
          · have hne : ¬ (m.ir = ⟨0, .e⟩ ∧ c.affine = true) := fun hh => e hh.1
            rw [if_neg hne, if_neg hne]
    have hstep : step c P mask st (m, some rows) = .ok
        { iWei := st.iWei + m.mul
          iRmu := if m.ir == ⟨0, .e⟩ then st.iRmu + m.mul else st.iRmu
          iBia := if c.affine && m.ir == ⟨0, .e⟩ then st.iBia + m.mul else st.iBia
          means := st.means ++ cm
          vars := st.vars ++ vr
          chunks := st.chunks ++ [some nr] } := by
      unfold step
      simp only [hc1, bind, Except.bind, hs1]
    refine ⟨_, hstep, ?_⟩
    constructor
    · simp [hT, hlen, h.wei]
    · simp only [hT, List.filter_append, List.length_append]
      by_cases e : m.ir = ⟨0, .e⟩
      · simp [e, hfs e, hlen, h.rmu]
      · simp [e, hfn e, h.rmu]
    · simp only [hT, List.filter_append, List.length_append]
      cases ha : c.affine with
      | false => simp [h.bia, ha]
      | true =>
        by_cases e : m.ir = ⟨0, .e⟩
        · simp [e, hfs e, hlen, h.bia, ha]
        · simp [e, hfn e, h.bia, ha]
    · rw [hT]; exact hc2
    · cases hi : c.inst with
      | true => simp [h.vars, hi, hs3]
      | false =>
        simp only [hT, Bool.false_eq_true, if_false, mapIdx_before, h.vars, hi, hs3]
    · simp [h.len]
    · rw [hzip]
      intro p hp
      rcases List.mem_append.mp hp with hp | hp
      · exact h.shaped p hp
      · rw [List.mem_singleton.mp hp]; exact hs2
    · simp [h.flags]
    · rw [hzip, List.flatMap_append, h.blocks, hT, mapIdx_before]
      congr 1
      rw [List.flatMap_cons, List.flatMap_nil, List.append_nil, blk_some hs2, hs4]

theorem fold_spec {c : Cfg} {P : Params} {mask : Option (β → ℝ)} (rest : List (MulIrrep × Chunk (Col β σ))) : ∀ (pre : List (MulIrrep × Chunk (Col β σ))) (st : St β σ),
    Loop c P mask pre st → Shaped rest → Enough c P (T (pre ++ rest)).length ((T (pre ++ rest)).filter Even0).length →
    ∃ st', rest.foldlM (step c P mask) st = .ok st' ∧ Loop c P mask (pre ++ rest) st' := by
  induction rest with
  | nil => intro pre st h _ _; exact ⟨st, rfl, by simpa using h⟩
  | cons q rest ih =>
    intro pre st h hs he
    have hle : (T (pre ++ [q])).length ≤ (T (pre ++ q :: rest)).length ∧ ((T (pre ++ [q])).filter Even0).length ≤ ((T (pre ++ q :: rest)).filter Even0).length := by
      simp [T]
    obtain ⟨st1, h1, h2⟩ := step_spec h q (hs q (by simp)) ⟨he.options,
      fun hh => by obtain ⟨l, a, b⟩ := he.mean hh; exact ⟨l, a, by omega⟩, fun hh => by obtain ⟨l, a, b⟩ := he.var hh; exact ⟨l, a, by omega⟩,
      fun hh => by obtain ⟨l, a, b⟩ := he.weight hh; exact ⟨l, a, by omega⟩, fun hh => by obtain ⟨l, a, b⟩ := he.bias hh; exact ⟨l, a, by omega⟩⟩
    obtain ⟨st2, h3, h4⟩ := ih (pre ++ [q]) st1 h2 (fun p hp => hs p (by simp [hp])) (by simpa using he)
    refine ⟨st2, ?_, by simpa using h4⟩
    rw [List.foldlM_cons]
    simp only [bind, Except.bind, h1]
    exact h3

end E3nn.BN
