import Verif.Lemmas.LegacyRight

/-!
# C102: the matrix returned by `right` of a legacy tensor product

`right(weights, x2)` returns a matrix `M` of `irreps_in1.dim` rows and `irreps_out.dim` columns such that `x1 @ M` is
`left_right(weights, x1, x2)` for every `x1`, for the six modes that it computes; the two modes `u<v` that it does not
compute raise `NameError` when one of them comes first.
-/

namespace E3nn.LTP
open E3nn.IArr E3nn.Wig Finset

/-- `x @ M` for a matrix with `m` columns. -/
noncomputable def vecMat (x : List ℝ) (M : List (List ℝ)) (m : ℕ) : List ℝ :=
  (List.range m).map fun t => ∑ r ∈ range M.length, x.getD r 0 * (M.getD r []).getD t 0

/-- The product is linear in its first input. -/
theorem term_linear {f : FTP} {ins : Ins} {a b c : MulIrrep} (ha : f.irreps1[ins.i1]? = some a) (hb : f.irreps2[ins.i2]? = some b)
    (hfit : Fits ins.mode ins.hasWeight a.mul b.mul c.mul) (X1 X2 w : List ℝ) (n : ℕ) (k : Fin (2 * c.ir.l + 1)) :
    term f X1 X2 ins w c n k = ∑ r ∈ range f.irreps1.dim, X1.getD r 0 * term f (unit f.irreps1.dim r) X2 ins w c n k := by
  have ga : f.irreps1.getD ins.i1 ⟨0, ⟨0, .e⟩⟩ = a := by simp [List.getD, ha]
  have gb : f.irreps2.getD ins.i2 ⟨0, ⟨0, .e⟩⟩ = b := by simp [List.getD, hb]
  unfold term
  simp only [ga, gb]
  have hpp : ∀ u < a.mul, ∀ v, pathProduct f.irreps1 f.irreps2 X1 X2 ins.i1 ins.i2 a.ir.l b.ir.l c.ir.l u v k =
      ∑ r ∈ range f.irreps1.dim, X1.getD r 0 * pathProduct f.irreps1 f.irreps2 (unit f.irreps1.dim r) X2 ins.i1 ins.i2 a.ir.l b.ir.l c.ir.l u v k := by
    intro u hu v
    unfold pathProduct
    simp only [Finset.mul_sum]
    rw [Finset.sum_comm (s := range f.irreps1.dim)]
    refine Finset.sum_congr rfl fun i _ => ?_
    rw [Finset.sum_comm (s := range f.irreps1.dim)]
    refine Finset.sum_congr rfl fun j _ => ?_
    have hlt : pos f.irreps1 ins.i1 a.ir.l u i < f.irreps1.dim := pos_lt ha hu i.isLt
    rw [Finset.sum_eq_single (pos f.irreps1 ins.i1 a.ir.l u i)]
    · rw [unit_getD hlt, if_pos rfl]; ring
    · intro r hr hne
      rw [unit_getD (Finset.mem_range.mp hr), if_neg (fun h => hne h.symm)]
      ring
    · intro h; exact absurd (Finset.mem_range.mpr hlt) h
  have : ∀ L : List Path, (∀ p ∈ L, p.u < a.mul) → (L.map fun p => (if ins.hasWeight = true then w.getD p.q 0 else 1) *
      pathProduct f.irreps1 f.irreps2 X1 X2 ins.i1 ins.i2 a.ir.l b.ir.l c.ir.l p.u p.v k).sum = ∑ r ∈ range f.irreps1.dim, X1.getD r 0 *
      (L.map fun p => (if ins.hasWeight = true then w.getD p.q 0 else 1) *
        pathProduct f.irreps1 f.irreps2 (unit f.irreps1.dim r) X2 ins.i1 ins.i2 a.ir.l b.ir.l c.ir.l p.u p.v k).sum := by
    intro L hL
    induction L with
    | nil => simp
    | cons p L ih =>
      simp only [List.map_cons, List.sum_cons, mul_add, Finset.sum_add_distrib]
      rw [ih fun q hq => hL q (by simp [hq]), hpp p.u (hL p (by simp)) p.v, Finset.mul_sum]
      congr 1
      exact Finset.sum_congr rfl fun r _ => by ring
  rw [this _ fun p hp => (paths_bounds hfit (List.mem_filter.mp hp).1).1, Finset.mul_sum]
  exact Finset.sum_congr rfl fun r _ => by ring

section
variable {irreps1 irreps2 irrepsOut : Irreps} {args : List InsArg} {v1 v2 vo : Option (List ℝ)} {n : IrNorm} {a g : ℝ} {f : FTP}

/-- **C102 (values).** For the modes it computes, and a second input without `None` chunks (once regrouped), `right`
returns a matrix with one row per component of the first input and one column per component of the output, and
for every first input, `x1 @ M` is the documented product. -/
theorem C102_right (hf : init irreps1 irreps2 irrepsOut args v1 v2 vo n a g = .ok f) (hp : Proper f)
    (hr : ∀ ins ∈ f.instructions, RightMode ins.mode) {W : List (List ℝ)} (hW : WeightsFor f W)
    (x2 : IArr ℝ) (h2 : x2.Coherent) (e2 : expand x2.irreps = expand irreps2)
    (hz : ∀ z, x2.rechunk irreps2 = .ok z → none ∉ z.chunks) :
    ∃ M, f.right (weightList f W) x2 = .ok M ∧ M.length = irreps1.dim ∧ (∀ row ∈ M, row.length = irrepsOut.dim) ∧
      ∀ x1 y, IsProduct f W x1 x2 y → y.array = vecMat x1.array M irrepsOut.dim := by
  obtain ⟨k1, k2, k3, -⟩ := init_ok hf
  have hv := init_valid hf
  obtain ⟨z, s1, s2, s3, s4⟩ := rechunk_spec h2.inv (new := f.irreps2) (by rw [k2]; exact e2)
  refine ⟨_, right_spec hv hp hr hW s1 s2 s3 (hz z (by rw [← k2]; exact s1)), by simp [k1], ?_, ?_⟩
  · intro row hrow
    obtain ⟨r, -, rfl⟩ := List.mem_map.mp hrow
    simp [k3]
  · intro x1 y hy
    obtain ⟨y1, y2, y3⟩ := hy
    have hlen : y.array.length = f.irrepsOut.dim := by
      have := y1.array_length
      rw [y2, ← Irreps.dim_eq_dimOf_expand] at this
      exact this
    unfold vecMat
    rw [← k3]
    apply List.ext_getElem
    · rw [hlen]; simp
    · intro t ht ht'
      rw [hlen] at ht
      obtain ⟨o, c, m, k, hc, hm, hk, rfl⟩ := exists_pos ht
      have := y3 o c hc m hm ⟨k, hk⟩
      rw [← List.getD_eq_getElem y.array 0]
      refine this.trans ?_
      simp only [List.getElem_map, List.getElem_range, List.length_map, List.length_range]
      have hent : ∀ r ∈ range f.irreps1.dim, (((List.range f.irreps1.dim).map fun r => (List.range f.irrepsOut.dim).map fun t => entryOf f W z.array r t).getD r []).getD
          (pos f.irrepsOut o c.ir.l m k) 0 = (((f.instructions.zip W).filter fun q => q.1.io = o).map fun q => term f (unit f.irreps1.dim r) z.array q.1 q.2 c m ⟨k, hk⟩).sum := by
        intro r hr'
        rw [← entryOf_pos hv W z.array r hc hm ⟨k, hk⟩]
        have hr' := Finset.mem_range.mp hr'
        simp [List.getD, hr', ht]
      rw [Finset.sum_congr rfl fun r hr' => by rw [hent r hr'], s4]
      have hL : ∀ L : List (Ins × List ℝ), (∀ q ∈ L, q.1 ∈ f.instructions ∧ q.1.io = o) → (L.map fun q => term f x1.array x2.array q.1 q.2 c m ⟨k, hk⟩).sum =
          ∑ r ∈ range f.irreps1.dim, x1.array.getD r 0 * (L.map fun q => term f (unit f.irreps1.dim r) x2.array q.1 q.2 c m ⟨k, hk⟩).sum := by
        intro L hL
        induction L with
        | nil => simp
        | cons q L ih =>
          obtain ⟨hi, ho⟩ := hL q (by simp)
          obtain ⟨a', b', c', ha', hb', hc', -⟩ := hv _ hi
          have hcc : c' = c := by
            rw [ho, hc] at hc'
            exact (Option.some.inj hc').symm
          subst hcc
          simp only [List.map_cons, List.sum_cons, mul_add, Finset.sum_add_distrib]
          rw [ih fun q hq => hL q (by simp [hq]), ← term_linear ha' hb' (hp _ hi a' b' c' ha' hb' hc')]
      refine hL _ fun q hq => ?_
      rw [List.mem_filter] at hq
      exact ⟨(List.of_mem_zip hq.1).1, by simpa using hq.2⟩

/-- **C102 (`right` and `left_right`).** When `left_right` is defined (fused or not) its result is `x1 @ right(weights, x2)`. -/
theorem C102_left_right (hf : init irreps1 irreps2 irrepsOut args v1 v2 vo n a g = .ok f) (hp : Proper f)
    (hr : ∀ ins ∈ f.instructions, RightMode ins.mode) {fused : Bool} (hfu : if fused then Fusable f else Populated f)
    {W : List (List ℝ)} (hW : WeightsFor f W) {w : Weights} (hw : w = .list (weightList f W) ∨ w = .flat W.flatten)
    (x2 : IArr ℝ) (h2 : x2.Coherent) (e2 : expand x2.irreps = expand irreps2) (hz : ∀ z, x2.rechunk irreps2 = .ok z → none ∉ z.chunks) :
    ∃ M, f.right (weightList f W) x2 = .ok M ∧ ∀ x1 : IArr ℝ, x1.Coherent → expand x1.irreps = expand irreps1 →
      ∃ y, f.leftRight fused w x1 x2 = .ok y ∧ y.Coherent ∧ y.irreps = irrepsOut ∧ y.array = vecMat x1.array M irrepsOut.dim := by
  obtain ⟨M, m1, -, -, m4⟩ := C102_right hf hp hr hW x2 h2 e2 hz
  obtain ⟨k1, k2, k3, -⟩ := init_ok hf
  refine ⟨M, m1, fun x1 h1 e1 => ?_⟩
  have : ∃ y, f.leftRight fused w x1 x2 = .ok y ∧ IsProduct f W x1 x2 y := by
    cases fused with
    | true => exact C85_fused hf hp hfu hW hw x1 x2 h1 h2 e1 e2
    | false => exact C85_left_right hf hp hfu hW hw x1 x2 h1 h2 e1 e2
  obtain ⟨y, y1, y2⟩ := this
  exact ⟨y, y1, y2.1, by rw [y2.2.1, k3], m4 x1 y y2⟩

/-- **C102 (equivariance of the matrix).** With the second input transformed by `R`, the matrix intertwines the
actions of `R`: `(D1 x1) @ M(D2 x2) = D3 (x1 @ M(x2))`. -/
theorem C102_equivariant (hf : init irreps1 irreps2 irrepsOut args v1 v2 vo n a g = .ok f) (hp : Proper f)
    (hr : ∀ ins ∈ f.instructions, RightMode ins.mode) (hpos : Populated f) {W : List (List ℝ)} (hW : WeightsFor f W)
    (x2 x2' : IArr ℝ) (h2 : x2.Coherent) (e2 : expand x2.irreps = expand irreps2) (hz : ∀ z, x2.rechunk irreps2 = .ok z → none ∉ z.chunks)
    {R : Matrix (Fin 3) (Fin 3) ℝ} (hR : IsOrth R) (ht : x2.transformByMatrix R = .ok x2') (hz' : ∀ z, x2'.rechunk irreps2 = .ok z → none ∉ z.chunks) :
    ∃ M M', f.right (weightList f W) x2 = .ok M ∧ f.right (weightList f W) x2' = .ok M' ∧
      ∀ x1 x1' y : IArr ℝ, x1.Coherent → expand x1.irreps = expand irreps1 → x1.transformByMatrix R = .ok x1' →
        y.Coherent → y.irreps = irrepsOut → y.array = vecMat x1.array M irrepsOut.dim →
        ∃ y', y.transformByMatrix R = .ok y' ∧ y'.array = vecMat x1'.array M' irrepsOut.dim := by
  obtain ⟨z2, q1, q2, q3, -⟩ := C59_transform R x2 h2
  rw [ht] at q1
  cases q1
  obtain ⟨M, m1, m2⟩ := C102_left_right hf hp hr (fused := false) hpos hW (Or.inl rfl) x2 h2 e2 hz
  obtain ⟨M', m1', m2'⟩ := C102_left_right hf hp hr (fused := false) hpos hW (Or.inl rfl) x2' q2 (by rw [q3]; exact e2) hz'
  refine ⟨M, M', m1, m1', fun x1 x1' y c1 e1 t1 cy ey hy => ?_⟩
  obtain ⟨w, w1, wc, w2, w3⟩ := m2 x1 c1 e1
  obtain ⟨y0, u1, u2, u3, u4, u5, u6, u7, u8, u9, u10, u11⟩ := C85_equivariant hf hp (fused := false) hpos hW (Or.inl rfl) x1 x2 c1 h2 e1 e2 hR
  rw [w1] at u5
  cases u5
  rw [t1] at u6
  cases u6
  rw [ht] at u7
  cases u7
  obtain ⟨a1, a2, a3, a4, -⟩ := C59_transform R x1 c1
  rw [t1] at a2
  cases a2
  obtain ⟨w', b1, -, b2, b3⟩ := m2' x1' a3 (by rw [a4]; exact e1)
  rw [u8] at b1
  cases b1
  obtain ⟨y', d1, d2, d3, -⟩ := C59_transform R y cy
  refine ⟨y', d1, ?_⟩
  rw [← b3, u11]
  exact (tr_array_congr cy wc (by rw [ey, w2]) (by rw [hy, w3]) d1 u9).1

/-- **C102 (the other modes).** If the first instruction has one of the modes `uvu<v` or `u<vw` and its terms are not
empty, `right` raises `NameError` for all weights and all second inputs. -/
theorem C102_unsupported (hf : init irreps1 irreps2 irrepsOut args v1 v2 vo n a g = .ok f) (hpos : Populated f) {ins : Ins} {l : List Ins}
    (hi : f.instructions = ins :: l) (hm : ins.mode = .uvuLtV ∨ ins.mode = .uLtVw) {W : List (List ℝ)} (hW : WeightsFor f W)
    (x2 : IArr ℝ) (h2 : x2.Coherent) (e2 : expand x2.irreps = expand irreps2) :
    f.right (weightList f W) x2 = .error .nameError := by
  obtain ⟨k1, k2, k3, -⟩ := init_ok hf
  have hv := init_valid hf
  obtain ⟨z, s1, s2, s3, s4⟩ := rechunk_spec h2.inv (new := f.irreps2) (by rw [k2]; exact e2)
  obtain ⟨A, B, C, hA, hB, hC, -⟩ := hv ins (by rw [hi]; simp)
  obtain ⟨p1, p2, p3⟩ := hpos ins (by rw [hi]; simp) A B C hA hB hC
  have hd : ∀ {ms : Irreps} {i : ℕ} {m : MulIrrep}, ms[i]? = some m → 0 < m.mul → ms.dim ≠ 0 ∧ m.dim ≠ 0 := by
    intro ms i m h hp
    have := pos_lt h hp (Nat.succ_pos (2 * m.ir.l))
    have h' : 0 < m.mul * (2 * m.ir.l + 1) := Nat.mul_pos hp (Nat.succ_pos _)
    exact ⟨by omega, by rw [dim_eq]; omega⟩
  obtain ⟨c1, -, -⟩ := chunk_getD s2 (i := ins.i2) (m := B) (by rw [s3]; exact hB)
  unfold FTP.right
  rw [s1]
  simp only [bind, Except.bind]
  rw [if_neg (by rw [not_or, not_or]; exact ⟨(hd hA p1).1, (hd hB p2).1, (hd hC p3).1⟩), hi]
  unfold WeightsFor at hW
  rw [hi] at hW
  cases W with
  | nil => simp at hW
  | cons w W =>
    have ht : ∃ q, takeWeight ins (weightList f (w :: W)) = .ok q := by
      unfold weightList
      rw [hi]
      simp only [List.map_cons, List.cons.injEq] at hW
      by_cases hw : ins.hasWeight = true
      · have h0 := hW.1
        simp only [hw, if_true] at h0
        simp [takeWeight, hw, size_eq, h0]
      · simp [takeWeight, hw]
    obtain ⟨q, hq⟩ := ht
    have : rightList f z none (ins :: l) (weightList f (w :: W)) = .error .nameError := by
      rw [rightList]
      simp only [hA, hB, hC, c1, hq, bind, Except.bind]
      rw [if_neg (by rw [not_or, not_or]; exact ⟨(hd hA p1).2, (hd hB p2).2, (hd hC p3).2⟩)]
      cases z.chunks.getD ins.i2 none with
      | none => rcases hm with hm | hm <;> simp [hm]
      | some y => rcases hm with hm | hm <;> simp [contractRight, hm]
    rw [this]

end

/-- The hypotheses of `C102_right` are met by a fully connected product with several terms and a second input given
as an array. -/
example : ∃ f, fullyConnected [⟨2, ⟨0, .e⟩⟩, ⟨1, ⟨1, .o⟩⟩] [⟨1, ⟨1, .o⟩⟩] [⟨3, ⟨0, .e⟩⟩, ⟨1, ⟨1, .o⟩⟩, ⟨2, ⟨1, .e⟩⟩] none none none .component 0 0 = .ok f ∧
    Proper f ∧ Populated f ∧ (∀ ins ∈ f.instructions, RightMode ins.mode) ∧ f.instructions.length = 3 ∧
    ∃ x2, ofArray [⟨1, ⟨1, .o⟩⟩] [(1 : ℝ), 2, 3] = .ok x2 ∧ x2.Coherent ∧ x2.irreps = [⟨1, ⟨1, .o⟩⟩] ∧
      ∀ z, x2.rechunk [⟨1, ⟨1, .o⟩⟩] = .ok z → none ∉ z.chunks := by
  obtain ⟨f, f1, f2, f3, -, -, -, f7⟩ := C85_fully_connected [⟨2, ⟨0, .e⟩⟩, ⟨1, ⟨1, .o⟩⟩] [⟨1, ⟨1, .o⟩⟩] [⟨3, ⟨0, .e⟩⟩, ⟨1, ⟨1, .o⟩⟩, ⟨2, ⟨1, .e⟩⟩]
    (n := .component) (by decide) 0 0 (by decide) (by decide) (by decide)
  refine ⟨f, f1, f2, f3, fun ins hi => by rw [(f7 ins hi).1]; trivial, ?_, ?_⟩
  · have := congrArg List.length (init_keys f1)
    rw [List.length_map, List.length_map] at this
    rw [this]
    decide
  · obtain ⟨x2, y1, y2, y3, -, -, y4⟩ := (C12_from_array (α := ℝ) [⟨1, ⟨1, .o⟩⟩] [1, 2, 3]).1 (by decide)
    refine ⟨x2, y1, y2, y3, fun z hz => ?_⟩
    simp [IArr.rechunk, y3] at hz
    subst hz
    exact fun h => y4 _ h rfl

end E3nn.LTP
