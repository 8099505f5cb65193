import Verif.Lemmas.VoxelKernel

/-! # Lemmas for C103: the padding of the output and the convolution -/

namespace E3nn.Voxel
open E3nn.IArr E3nn.Wig E3nn.LTP Finset Matrix

/-! ### `None` chunks for the terms that are not reached -/

section pad
variable {α γ : Type}

/-- `pad`, with the terms. -/
def padPairs : Irreps → List (MulIrrep × Chunk α) → List (MulIrrep × Chunk α)
  | [], _ => []
  | m :: ms, [] => (m, none) :: padPairs ms []
  | m :: ms, q :: qs => if q.1 = m then q :: padPairs ms qs else (m, none) :: padPairs ms (q :: qs)

theorem padPairs_snd (ms : Irreps) (ps : List (MulIrrep × Chunk α)) : (padPairs ms ps).map Prod.snd = pad ms ps := by
  induction ms generalizing ps with
  | nil => rfl
  | cons m ms ih =>
    cases ps with
    | nil => simp [padPairs, pad, ih]
    | cons q qs => unfold padPairs pad; split <;> simp [ih]

theorem padPairs_fst (ms : Irreps) (ps : List (MulIrrep × Chunk α)) : (padPairs ms ps).map Prod.fst = ms := by
  induction ms generalizing ps with
  | nil => rfl
  | cons m ms ih =>
    cases ps with
    | nil => simp [padPairs, ih]
    | cons q qs =>
      unfold padPairs
      split
      · rename_i h; simp [ih, h]
      · simp [ih]

theorem padPairs_shaped (ms : Irreps) {ps : List (MulIrrep × Chunk α)} (h : Shaped ps) : Shaped (padPairs ms ps) := by
  induction ms generalizing ps with
  | nil => intro q hq; simp [padPairs] at hq
  | cons m ms ih =>
    cases ps with
    | nil =>
      intro q hq
      simp only [padPairs, List.mem_cons] at hq
      rcases hq with rfl | hq
      · rfl
      · exact ih h q hq
    | cons q qs =>
      unfold padPairs
      split
      · intro r hr
        rcases List.mem_cons.mp hr with rfl | hr
        · exact h _ (by simp)
        · exact ih (fun x hx => h x (by simp [hx])) r hr
      · intro r hr
        rcases List.mem_cons.mp hr with rfl | hr
        · rfl
        · exact ih h r hr

theorem padPairs_map (F : MulIrrep × Chunk α → MulIrrep × Chunk γ) (hF : ∀ q, (F q).1 = q.1) (hN : ∀ m, F (m, none) = (m, none)) (ms : Irreps)
    (ps : List (MulIrrep × Chunk α)) : padPairs ms (ps.map F) = (padPairs ms ps).map F := by
  induction ms generalizing ps with
  | nil => rfl
  | cons m ms ih =>
    cases ps with
    | nil => have := ih []; simp only [List.map_nil] at this; simp [padPairs, this, hN]
    | cons q qs =>
      have := ih (q :: qs)
      simp only [List.map_cons] at this ⊢
      unfold padPairs
      rw [hF]
      split
      · simp [ih]
      · rw [this]; simp [hN]

theorem padPairs_self {ps : List (MulIrrep × Chunk α)} : padPairs (ps.map Prod.fst) ps = ps := by
  induction ps with
  | nil => rfl
  | cons q qs ih => simp [padPairs, ih]

/-- The terms that are kept, and the others. -/
theorem padPairs_filter (P : MulIrrep → Bool) {ms : Irreps} {ps : List (MulIrrep × Chunk α)} (h : ps.map Prod.fst = ms.filter P) :
    (padPairs ms ps).filter (fun q => P q.1) = ps ∧ ∀ q ∈ padPairs ms ps, P q.1 = false → q.2 = none := by
  induction ms generalizing ps with
  | nil => simp at h; subst h; simp [padPairs]
  | cons m ms ih =>
    cases hP : P m with
    | true =>
      rw [List.filter_cons, if_pos hP] at h
      cases ps with
      | nil => simp at h
      | cons q qs =>
        simp only [List.map_cons, List.cons.injEq] at h
        obtain ⟨i1, i2⟩ := ih h.2
        unfold padPairs
        rw [if_pos h.1, List.filter_cons, h.1, if_pos hP, i1]
        refine ⟨rfl, fun r hr hr' => ?_⟩
        rcases List.mem_cons.mp hr with rfl | hr
        · rw [h.1, hP] at hr'; cases hr'
        · exact i2 r hr hr'
    | false =>
      rw [List.filter_cons, if_neg (by simp [hP])] at h
      obtain ⟨i1, i2⟩ := ih h
      have e : padPairs (m :: ms) ps = (m, none) :: padPairs ms ps := by
        cases ps with
        | nil => rfl
        | cons q qs =>
          have hq : q.1 ≠ m := ?_
          · conv_lhs => rw [padPairs]
            rw [if_neg hq]
          intro hq
          have : q.1 ∈ ms.filter P := by rw [← h]; simp
          rw [hq] at this
          have := (List.mem_filter.mp this).2
          rw [hP] at this
          cases this
      rw [e, List.filter_cons, if_neg (by simp [hP]), i1]
      refine ⟨rfl, fun r hr hr' => ?_⟩
      rcases List.mem_cons.mp hr with rfl | hr
      · rfl
      · exact i2 r hr hr'

variable [Zero α]

/-- The last step of the call. -/
theorem finish_spec {ms irr : Irreps} {y : IArr α} (hy : Inv y) (hi : y.irreps = irr) :
    ∃ out, (if irr = ms then Except.ok y else fromChunks ms (pad ms (y.irreps.zip y.chunks))) = .ok out ∧ Inv out ∧ out.irreps = ms ∧
      out.irreps.zip out.chunks = padPairs ms (y.irreps.zip y.chunks) := by
  by_cases h : irr = ms
  · refine ⟨y, if_pos h, hy, by rw [hi, h], ?_⟩
    have := padPairs_self (ps := y.irreps.zip y.chunks)
    rw [hy.pairs.2.1, hi, h] at this
    rw [hi, h, this]
  · rw [if_neg h]
    obtain ⟨z, h1, h2, h3, h4, h5, h6, h7, h8⟩ := fromChunks_pairs _ (padPairs_shaped ms hy.pairs.1)
    rw [padPairs_fst, padPairs_snd] at h1
    refine ⟨z, h1, h2, by rw [h3, padPairs_fst], ?_⟩
    rw [h3, h7, List.zip_map']
    simp

end pad

/-! ### the convolution at one voxel -/

variable {β : Type} {n : Fin 3 → ℕ}

/-- The value of the padded feature. -/
def extL (b : β) (z : Fin 3 → ℤ) : (β × Grid n → ℝ) →ₗ[ℝ] ℝ where
  toFun f := ext f b z
  map_add' f g := by unfold ext; split <;> simp
  map_smul' r f := by unfold ext; split <;> simp

/-- The value at a voxel. -/
def evL (bq : β × Grid n) : (β × Grid n → ℝ) →ₗ[ℝ] ℝ where
  toFun f := f bq
  map_add' _ _ := rfl
  map_smul' _ _ := rfl

/-- The value at a point of the lattice. -/
def ptL (p : Fin 3 → ℤ) : ((Fin 3 → ℤ) → ℝ) →ₗ[ℝ] ℝ where
  toFun f := f p
  map_add' _ _ := rfl
  map_smul' _ _ := rfl

/-- The sum over the lattice. -/
def sumL (l : List (Fin 3 → ℤ)) : ((Fin 3 → ℤ) → ℝ) →ₗ[ℝ] ℝ where
  toFun f := (l.map f).sum
  map_add' f g := by
    induction l with
    | nil => simp
    | cons a l ih => simp only [List.map_cons, List.sum_cons, ih, Pi.add_apply]; ring
  map_smul' r f := by
    induction l with
    | nil => simp
    | cons a l ih => simp only [List.map_cons, List.sum_cons, ih, Pi.smul_apply, smul_eq_mul, RingHom.id_apply]; ring

theorem conv_length (l : List (Fin 3 → ℤ)) (K : (Fin 3 → ℤ) → List (List ℝ)) (x : List (β × Grid n → ℝ)) (d : ℕ) : (conv l K x d).length = d := by simp [conv]

theorem conv_getD (l : List (Fin 3 → ℤ)) (K : (Fin 3 → ℤ) → List (List ℝ)) (x : List (β × Grid n → ℝ)) {d o : ℕ} (ho : o < d) (bq : β × Grid n) :
    (conv l K x d).getD o 0 bq = (l.map fun p => ∑ c ∈ Finset.range x.length, ext (x.getD c 0) bq.1 (at3 bq.2 + p) * ((K p).getD c []).getD o 0).sum := by
  unfold conv
  rw [List.getD_eq_getElem _ _ (by simpa using ho)]
  simp

theorem arr_length {α : Type} [Zero α] {x : IArr α} (hx : x.Coherent) {ms : Irreps} (h : x.irreps = ms) : x.array.length = ms.dim := by
  have := hx.array_length
  rwa [h, ← Irreps.dim_eq_dimOf_expand] at this

theorem getD_map0 {α γ : Type} [Zero α] [Zero γ] (f : α → γ) (l : List α) {c : ℕ} (hc : c < l.length) : (l.map f).getD c 0 = f (l.getD c 0) := by
  simp [List.getD, hc]

/-- **The convolution at a voxel**, transformed. -/
theorem conv_transform {l : List (Fin 3 → ℤ)} {K K' : (Fin 3 → ℤ) → List (List ℝ)} {irrepsIn irrepsOut : Irreps} {R : Matrix (Fin 3) (Fin 3) ℝ}
    (hK : ∀ p ∈ l, Intertwine R irrepsIn irrepsOut (K p) (K' p)) (hl : ∀ p ∈ l, (K p).length = irrepsIn.dim ∧ (K' p).length = irrepsIn.dim)
    {z z' y y' : IArr (β × Grid n → ℝ)} (hz : z.Coherent) (hzi : z.irreps = irrepsIn) (tz : z.transformByMatrix R = .ok z')
    (hy : y.Coherent) (hyi : y.irreps = irrepsOut) (hya : y.array = conv l K z.array irrepsOut.dim) (ty : y.transformByMatrix R = .ok y') {o : ℕ} (ho : o < irrepsOut.dim) (b : β) (q : Grid n) :
    y'.array.getD o 0 (b, q) = (l.map fun p => ∑ c ∈ Finset.range irrepsIn.dim, ext (z'.array.getD c 0) b (at3 q + p) * ((K' p).getD c []).getD o 0).sum := by
  have hzl := arr_length hz hzi
  have hyl := arr_length hy hyi
  obtain ⟨z'', zt1, zt2, zt3, -⟩ := C59_transform R z hz
  rw [tz] at zt1
  cases zt1
  obtain ⟨y'', yt1, yt2, yt3, -⟩ := C59_transform R y hy
  rw [ty] at yt1
  cases yt1
  have hzl' := arr_length zt2 (zt3.trans hzi)
  have hyl' := arr_length yt2 (yt3.trans hyi)
  -- the slices of the input
  have hX : ∀ p, ∃ X X' : IArr ℝ, X.Coherent ∧ X.irreps = irrepsIn ∧ X.array = z.array.map (extL b (at3 q + p)) ∧ X.transformByMatrix R = .ok X' ∧
      X'.array = z'.array.map (extL b (at3 q + p)) := by
    intro p
    obtain ⟨X, a1, a2, a3, a4, -⟩ := (C12_from_array irrepsIn (z.array.map (extL b (at3 q + p)))).1 (by rw [List.length_map, hzl, Irreps.dim_eq_dimOf_expand])
    obtain ⟨X', b1, -⟩ := C59_transform R X a2
    exact ⟨X, X', a2, a3, a4, b1, slice_transform _ hz a2 (by rw [a3, hzi]) a4 tz b1⟩
  choose X X' hX1 hX2 hX3 hX4 hX5 using hX
  -- the terms of the sum
  obtain ⟨P, p1, p2, p3, p4, -⟩ := (C12_from_array irrepsOut ((List.range irrepsOut.dim).map fun o => fun p => (vecMat (X p).array (K p) irrepsOut.dim).getD o 0)).1
    (by rw [List.length_map, List.length_range, Irreps.dim_eq_dimOf_expand])
  obtain ⟨P', pt1, pt2, pt3, -⟩ := C59_transform R P p2
  -- the sum
  obtain ⟨S, s1, s2, s3, s4, -⟩ := (C12_from_array irrepsOut (y.array.map (evL (b, q)))).1 (by rw [List.length_map, hyl, Irreps.dim_eq_dimOf_expand])
  obtain ⟨S', st1, -⟩ := C59_transform R S s2
  have hvm : ∀ p ∈ l, ∀ o < irrepsOut.dim, (vecMat (X p).array (K p) irrepsOut.dim).getD o 0 =
      ∑ c ∈ Finset.range irrepsIn.dim, ext (z.array.getD c 0) b (at3 q + p) * ((K p).getD c []).getD o 0 := by
    intro p hp o ho
    unfold vecMat
    rw [List.getD_eq_getElem _ _ (by simpa using ho)]
    simp only [List.getElem_map, List.getElem_range]
    rw [(hl p hp).1]
    refine Finset.sum_congr rfl fun c hc => ?_
    rw [hX3, getD_map0 _ _ (by rw [hzl]; exact Finset.mem_range.mp hc)]
    rfl
  have hS : S.array = P.array.map (sumL l) := by
    rw [s4, p4, hya]
    unfold conv
    rw [List.map_map, List.map_map]
    refine List.map_congr_left fun o ho => ?_
    simp only [Function.comp, evL, sumL, LinearMap.coe_mk, AddHom.coe_mk]
    congr 1
    refine List.map_congr_left fun p hp => ?_
    rw [hvm p hp o (List.mem_range.mp ho), hzl]
  have h1 := slice_transform (evL (b, q)) hy s2 (by rw [s3, hyi]) s4 ty st1
  have h2 := slice_transform (sumL l) p2 s2 (by rw [s3, p3]) hS pt1 st1
  have hPl : P'.array.length = irrepsOut.dim := arr_length pt2 (pt3.trans p3)
  have h3 : y'.array.getD o 0 (b, q) = (l.map (P'.array.getD o 0)).sum := by
    have := congrArg (fun v => v.getD o 0) (h1.symm.trans h2)
    rw [getD_map0 _ _ (by rw [hyl']; exact ho), getD_map0 _ _ (by rw [hPl]; exact ho)] at this
    exact this
  rw [h3]
  congr 1
  refine List.map_congr_left fun p hp => ?_
  -- one term
  obtain ⟨Y, y1, y2, y3, y4, -⟩ := (C12_from_array irrepsOut (P.array.map (ptL p))).1 (by rw [List.length_map, p4]; simp [Irreps.dim_eq_dimOf_expand])
  obtain ⟨Y', yy1, -⟩ := C59_transform R Y y2
  have h4 := slice_transform (ptL p) p2 y2 (by rw [y3, p3]) y4 pt1 yy1
  have h5 := hK p hp (X p) (X' p) Y Y' (hX1 p) (hX2 p) (hX4 p) y2 y3 (by
    rw [y4, p4, List.map_map]
    unfold vecMat
    refine List.map_congr_left fun o ho => ?_
    simp only [Function.comp, ptL, LinearMap.coe_mk, AddHom.coe_mk]
    rw [List.getD_eq_getElem _ _ (by simpa using ho)]
    simp) yy1
  have h6 : P'.array.getD o 0 p = (vecMat (X' p).array (K' p) irrepsOut.dim).getD o 0 := by
    rw [← h5, h4, getD_map0 _ _ (by rw [hPl]; exact ho)]
    rfl
  rw [h6]
  unfold vecMat
  rw [List.getD_eq_getElem _ _ (by simpa using ho)]
  simp only [List.getElem_map, List.getElem_range]
  rw [(hl p hp).2]
  refine Finset.sum_congr rfl fun c hc => ?_
  rw [hX5, getD_map0 _ _ (by rw [hzl']; exact Finset.mem_range.mp hc)]
  rfl

end E3nn.Voxel
