import Verif.Lemmas.LegacyTP
import Verif.Props.C84
import Verif.Props.C58
import Verif.Props.C01_C02
import Mathlib.Tactic.NormNum

/-!
# C85: a legacy `FunctionalTensorProduct` is the sum of the products that its instructions describe

`left_right` returns, in every component of every output term, the sum over the instructions ending there of
`path_weight` times the weighted Clebsch-Gordan products of the copies connected by the mode of the instruction;
with the weights as a list or as one array, with `fused=True` or not; and it commutes with O(3).
-/

namespace E3nn.LTP
open E3nn.IArr E3nn.Wig

/-- The output is the documented sum. -/
def IsProduct (f : FTP) (W : List (List ℝ)) (x1 x2 y : IArr ℝ) : Prop :=
  y.Coherent ∧ y.irreps = f.irrepsOut ∧
  ∀ o c, f.irrepsOut[o]? = some c → ∀ n < c.mul, ∀ k : Fin (2 * c.ir.l + 1),
    y.array.getD (pos f.irrepsOut o c.ir.l n k) 0 =
      (((f.instructions.zip W).filter fun q => q.1.io = o).map fun q => term f x1.array x2.array q.1 q.2 c n k).sum

theorem dim_zero {ms : Irreps} (h : ms.dim = 0) {i : ℕ} {m : MulIrrep} (hm : ms[i]? = some m) : m.mul = 0 := by
  by_contra hne
  have := pos_lt hm (Nat.pos_of_ne_zero hne) (Nat.succ_pos (2 * m.ir.l))
  omega

/-- An instruction with an empty input contributes nothing. -/
theorem term_empty {f : FTP} {ins : Ins} {a b c : MulIrrep} (ha : f.irreps1[ins.i1]? = some a) (hb : f.irreps2[ins.i2]? = some b)
    (hfit : Fits ins.mode ins.hasWeight a.mul b.mul c.mul) (h : a.mul = 0 ∨ b.mul = 0) (X1 X2 : List ℝ) (w : List ℝ) (n : ℕ) (k : Fin (2 * c.ir.l + 1)) :
    term f X1 X2 ins w c n k = 0 := by
  have ga : f.irreps1.getD ins.i1 ⟨0, ⟨0, .e⟩⟩ = a := by simp [List.getD, ha]
  have gb : f.irreps2.getD ins.i2 ⟨0, ⟨0, .e⟩⟩ = b := by simp [List.getD, hb]
  unfold term
  simp only [ga, gb]
  have : paths ins.mode a.mul b.mul c.mul = [] := by
    rw [List.eq_nil_iff_forall_not_mem]
    intro p hp
    obtain ⟨h1, h2, -⟩ := paths_bounds hfit hp
    omega
  rw [this]
  simp

/-- The case of an empty input or output. -/
theorem zeros_product {f : FTP} (hv : Valid f) (hp : Proper f) {W : List (List ℝ)} (h : f.irreps1.dim = 0 ∨ f.irreps2.dim = 0 ∨ f.irrepsOut.dim = 0) (x1 x2 : IArr ℝ) :
    ∃ y, IArr.zeros f.irrepsOut = .ok y ∧ IsProduct f W x1 x2 y := by
  obtain ⟨y, y1, y2, y3, y4, -⟩ := (C12_zeros_ones (α := ℝ) f.irrepsOut).1
  refine ⟨y, y1, y2, y3, fun o c hc n hn k => ?_⟩
  have : y.array.getD (pos f.irrepsOut o c.ir.l n k) 0 = 0 := by
    rw [y4, List.getD, List.getElem?_replicate]
    split <;> rfl
  rw [this]
  symm
  refine List.sum_eq_zero fun t ht => ?_
  obtain ⟨q, hq, rfl⟩ := List.mem_map.mp ht
  rw [List.mem_filter] at hq
  have ho : q.1.io = o := by simpa using hq.2
  have hi := (List.of_mem_zip hq.1).1
  obtain ⟨a, b, c', ha, hb, hc', -⟩ := hv _ hi
  have hcc : c' = c := by
    rw [ho, hc] at hc'
    exact (Option.some.inj hc').symm
  subst hcc
  refine term_empty ha hb (hp _ hi a b c' ha hb hc') ?_ _ _ _ _ _
  rcases h with h | h | h
  · exact Or.inl (dim_zero h ha)
  · exact Or.inr (dim_zero h hb)
  · exact absurd (dim_zero h hc) (by omega)

section
variable {irreps1 irreps2 irrepsOut : Irreps} {args : List InsArg} {v1 v2 vo : Option (List ℝ)} {n : IrNorm} {a g : ℝ} {f : FTP}

/-- **C85 (values).** With the weights as a list or as one array of all their entries, `left_right` returns the
documented sum, on every pair of inputs whose irreps are those of the product up to grouping. -/
theorem C85_left_right (hf : init irreps1 irreps2 irrepsOut args v1 v2 vo n a g = .ok f) (hp : Proper f) (hpos : Populated f)
    {W : List (List ℝ)} (hW : WeightsFor f W) {w : Weights} (hw : w = .list (weightList f W) ∨ w = .flat W.flatten)
    (x1 x2 : IArr ℝ) (h1 : x1.Coherent) (h2 : x2.Coherent) (e1 : expand x1.irreps = expand irreps1) (e2 : expand x2.irreps = expand irreps2) :
    ∃ y, f.leftRight false w x1 x2 = .ok y ∧ IsProduct f W x1 x2 y := by
  obtain ⟨k1, k2, k3, -⟩ := init_ok hf
  have hv := init_valid hf
  obtain ⟨z1, r1, r2, r3, r4⟩ := rechunk_spec h1.inv (new := f.irreps1) (by rw [k1]; exact e1)
  obtain ⟨z2, s1, s2, s3, s4⟩ := rechunk_spec h2.inv (new := f.irreps2) (by rw [k2]; exact e2)
  have hres : f.resolveWeights w = .ok (weightList f W, W.flatten) := by
    rcases hw with rfl | rfl
    · exact resolve_list hW
    · exact resolve_flat hW
  unfold FTP.leftRight
  simp only [r1, s1, bind, Except.bind]
  by_cases hz : f.irreps1.dim = 0 ∨ f.irreps2.dim = 0 ∨ f.irrepsOut.dim = 0
  · rw [if_pos hz]
    exact zeros_product hv hp hz x1 x2
  · rw [if_neg hz, hres]
    obtain ⟨y, y1, y2, y3, y4⟩ := block_spec hv hp hpos r2 s2 r3 s3 hW
    refine ⟨y, y1, y2.coherent, y3, ?_⟩
    intro o c hc n hn k
    rw [y4 o c hc n hn k, r4, s4]
    rfl

/-- **C85 (fused).** `fused=True` returns the same sum, for the modes it accepts, also when some multiplicities are 0. -/
theorem C85_fused (hf : init irreps1 irreps2 irrepsOut args v1 v2 vo n a g = .ok f) (hp : Proper f) (hfus : Fusable f)
    {W : List (List ℝ)} (hW : WeightsFor f W) {w : Weights} (hw : w = .list (weightList f W) ∨ w = .flat W.flatten)
    (x1 x2 : IArr ℝ) (h1 : x1.Coherent) (h2 : x2.Coherent) (e1 : expand x1.irreps = expand irreps1) (e2 : expand x2.irreps = expand irreps2) :
    ∃ y, f.leftRight true w x1 x2 = .ok y ∧ IsProduct f W x1 x2 y := by
  obtain ⟨k1, k2, k3, -⟩ := init_ok hf
  have hv := init_valid hf
  obtain ⟨z1, r1, r2, r3, r4⟩ := rechunk_spec h1.inv (new := f.irreps1) (by rw [k1]; exact e1)
  obtain ⟨z2, s1, s2, s3, s4⟩ := rechunk_spec h2.inv (new := f.irreps2) (by rw [k2]; exact e2)
  have hres : f.resolveWeights w = .ok (weightList f W, W.flatten) := by
    rcases hw with rfl | rfl
    · exact resolve_list hW
    · exact resolve_flat hW
  unfold FTP.leftRight
  simp only [r1, s1, bind, Except.bind]
  by_cases hz : f.irreps1.dim = 0 ∨ f.irreps2.dim = 0 ∨ f.irrepsOut.dim = 0
  · rw [if_pos hz]
    exact zeros_product hv hp hz x1 x2
  · rw [if_neg hz, hres]
    obtain ⟨y, y1, y2, y3, y4⟩ := fused_spec hv hp hfus (x1 := z1) (x2 := z2) hW
    refine ⟨y, y1, y2.coherent, y3, ?_⟩
    intro o c hc n hn k
    rw [y4 o c hc n hn k, r4, s4]
    rfl

end

/-- The documented sum determines the array. -/
theorem IsProduct.unique {f : FTP} {W : List (List ℝ)} {x1 x2 y y' : IArr ℝ} (h : IsProduct f W x1 x2 y) (h' : IsProduct f W x1 x2 y') :
    y'.irreps = y.irreps ∧ y'.array = y.array := by
  obtain ⟨a1, a2, a3⟩ := h
  obtain ⟨b1, b2, b3⟩ := h'
  refine ⟨by rw [a2, b2], ?_⟩
  have l1 : y.array.length = f.irrepsOut.dim := by
    have := a1.array_length
    rw [a2, ← Irreps.dim_eq_dimOf_expand] at this
    exact this
  have l2 : y'.array.length = f.irrepsOut.dim := by
    have := b1.array_length
    rw [b2, ← Irreps.dim_eq_dimOf_expand] at this
    exact this
  refine eq_of_getD l2 l1 fun j hj => ?_
  obtain ⟨o, c, n, k, hc, hn, hk, rfl⟩ := exists_pos hj
  rw [a3 o c hc n hn ⟨k, hk⟩, b3 o c hc n hn ⟨k, hk⟩]

/-! ### Equivariance -/

theorem tr_array_congr {R : Matrix (Fin 3) (Fin 3) ℝ} {x z x' z' : IArr ℝ} (hx : x.Coherent) (hz : z.Coherent)
    (e : expand x.irreps = expand z.irreps) (ea : x.array = z.array) (h : x.transformByMatrix R = .ok x') (h' : z.transformByMatrix R = .ok z') :
    x'.array = z'.array ∧ x'.Coherent ∧ z'.Coherent ∧ x'.irreps = x.irreps ∧ z'.irreps = z.irreps := by
  obtain ⟨x1, a1, a2, a3, -, a5⟩ := C59_transform R x hx
  obtain ⟨z1, b1, b2, b3, -, b5⟩ := C59_transform R z hz
  rw [h] at a1
  rw [h'] at b1
  cases a1
  cases b1
  refine ⟨?_, a2, b2, a3, b3⟩
  rw [← a2.inv.array_eq_blocks, ← b2.inv.array_eq_blocks, a5, b5]
  unfold IArr.blocks
  rw [e, ea]

/-- The product of two transformed inputs. -/
theorem pathProduct_tr {R : Matrix (Fin 3) (Fin 3) ℝ} (hR : IsOrth R) {x1 x2 x1' x2' : IArr ℝ} (h1 : x1.Coherent) (h2 : x2.Coherent)
    (t1 : x1.transformByMatrix R = .ok x1') (t2 : x2.transformByMatrix R = .ok x2') {i1 i2 : ℕ} {a b c : MulIrrep}
    (ha : x1.irreps[i1]? = some a) (hb : x2.irreps[i2]? = some b) (hp : a.ir.p.mul b.ir.p = c.ir.p) {u v : ℕ} (hu : u < a.mul) (hv : v < b.mul)
    (k : Fin (2 * c.ir.l + 1)) :
    pathProduct x1.irreps x2.irreps x1'.array x2'.array i1 i2 a.ir.l b.ir.l c.ir.l u v k =
      ∑ k', dMatrix c.ir R k k' * pathProduct x1.irreps x2.irreps x1.array x2.array i1 i2 a.ir.l b.ir.l c.ir.l u v k' := by
  have hc : c.ir = ⟨c.ir.l, a.ir.p.mul b.ir.p⟩ := by rw [hp]
  have key := C39_clebsch_gordan a.ir.l b.ir.l c.ir.l a.ir.p b.ir.p hR
    (fun i => x1.array.getD (pos x1.irreps i1 a.ir.l u i) 0) (fun j => x2.array.getD (pos x2.irreps i2 b.ir.l v j) 0)
  have := congrFun key k
  simp only at this
  unfold pathProduct
  rw [hp] at this
  simp only [tr_coord h1 t1 ha hu, tr_coord h2 t2 hb hv]
  exact this

theorem IsProduct.transform {f : FTP} (hv : Valid f) (hp : Proper f) {R : Matrix (Fin 3) (Fin 3) ℝ} (hR : IsOrth R) {W : List (List ℝ)}
    {x1 x2 x1' x2' y y' y'' : IArr ℝ} (h1 : x1.Coherent) (h2 : x2.Coherent) (e1 : x1.irreps = f.irreps1) (e2 : x2.irreps = f.irreps2)
    (t1 : x1.transformByMatrix R = .ok x1') (t2 : x2.transformByMatrix R = .ok x2') (t3 : y.transformByMatrix R = .ok y'')
    (hy : IsProduct f W x1 x2 y) (hy' : IsProduct f W x1' x2' y') : y'.irreps = y''.irreps ∧ y'.array = y''.array := by
  obtain ⟨a1, a2, a3⟩ := hy
  obtain ⟨b1, b2, b3⟩ := hy'
  obtain ⟨y0, c1, c2, c3, -⟩ := C59_transform R y a1
  rw [t3] at c1
  cases c1
  refine ⟨by rw [b2, c3, a2], ?_⟩
  have l1 : y''.array.length = f.irrepsOut.dim := by
    have := c2.array_length
    rw [c3, a2, ← Irreps.dim_eq_dimOf_expand] at this
    exact this
  have l2 : y'.array.length = f.irrepsOut.dim := by
    have := b1.array_length
    rw [b2, ← Irreps.dim_eq_dimOf_expand] at this
    exact this
  refine eq_of_getD l2 l1 fun j hj => ?_
  obtain ⟨o, c, n, k, hc, hn, hk, rfl⟩ := exists_pos hj
  rw [b3 o c hc n hn ⟨k, hk⟩]
  have hk' := tr_coord a1 t3 (i := o) (m := c) (by rw [a2]; exact hc) hn ⟨k, hk⟩
  rw [a2] at hk'
  refine Eq.trans ?_ hk'.symm
  simp only [a3 o c hc n hn]
  have hterm : ∀ q ∈ (f.instructions.zip W).filter fun q => decide (q.1.io = o), term f x1'.array x2'.array q.1 q.2 c n ⟨k, hk⟩ =
      ∑ b, dMatrix c.ir R ⟨k, hk⟩ b * term f x1.array x2.array q.1 q.2 c n b := by
    intro q hq
    rw [List.mem_filter] at hq
    have ho : q.1.io = o := by simpa using hq.2
    have hi := (List.of_mem_zip hq.1).1
    obtain ⟨a, b, c', ha, hb, hc', -, -, -, hpar, -⟩ := hv _ hi
    have hcc : c' = c := by
      rw [ho, hc] at hc'
      exact (Option.some.inj hc').symm
    subst hcc
    have ga : f.irreps1.getD q.1.i1 ⟨0, ⟨0, .e⟩⟩ = a := by simp [List.getD, ha]
    have gb : f.irreps2.getD q.1.i2 ⟨0, ⟨0, .e⟩⟩ = b := by simp [List.getD, hb]
    have hfit := hp _ hi a b c' ha hb hc'
    unfold term
    simp only [ga, gb]
    have hps : ∀ p ∈ (paths q.1.mode a.mul b.mul c'.mul).filter fun p => decide (p.w = n),
        pathProduct f.irreps1 f.irreps2 x1'.array x2'.array q.1.i1 q.1.i2 a.ir.l b.ir.l c'.ir.l p.u p.v ⟨k, hk⟩ =
        ∑ k', dMatrix c'.ir R ⟨k, hk⟩ k' * pathProduct f.irreps1 f.irreps2 x1.array x2.array q.1.i1 q.1.i2 a.ir.l b.ir.l c'.ir.l p.u p.v k' := by
      intro p hp'
      obtain ⟨u1, u2, -⟩ := paths_bounds hfit (List.mem_filter.mp hp').1
      have := pathProduct_tr hR h1 h2 t1 t2 (i1 := q.1.i1) (i2 := q.1.i2) (by rw [e1]; exact ha) (by rw [e2]; exact hb) hpar u1 u2 ⟨k, hk⟩
      rw [e1, e2] at this
      exact this
    rw [List.map_congr_left fun p hp' => by rw [hps p hp']]
    generalize ((paths q.1.mode a.mul b.mul c'.mul).filter fun p => decide (p.w = n)) = L
    induction L with
    | nil => simp
    | cons p L ih =>
      simp only [List.map_cons, List.sum_cons, mul_add, Finset.sum_add_distrib] at ih ⊢
      rw [ih]
      congr 1
      rw [Finset.mul_sum, Finset.mul_sum]
      refine Finset.sum_congr rfl fun k' _ => ?_
      ring
  rw [List.map_congr_left hterm]
  generalize ((f.instructions.zip W).filter fun q => decide (q.1.io = o)) = L
  induction L with
  | nil => simp
  | cons q L ih => simp only [List.map_cons, List.sum_cons, mul_add, Finset.sum_add_distrib, ih]

section
variable {irreps1 irreps2 irrepsOut : Irreps} {args : List InsArg} {v1 v2 vo : Option (List ℝ)} {n : IrNorm} {a g : ℝ} {f : FTP}

/-- **C85 (equivariance).** For all weights, `left_right` commutes with every rotation and reflection, fused or
not. -/
theorem C85_equivariant (hf : init irreps1 irreps2 irrepsOut args v1 v2 vo n a g = .ok f) (hp : Proper f)
    {fused : Bool} (hfu : if fused then Fusable f else Populated f)
    {W : List (List ℝ)} (hW : WeightsFor f W) {w : Weights} (hw : w = .list (weightList f W) ∨ w = .flat W.flatten)
    (x1 x2 : IArr ℝ) (h1 : x1.Coherent) (h2 : x2.Coherent) (e1 : expand x1.irreps = expand irreps1) (e2 : expand x2.irreps = expand irreps2)
    {R : Matrix (Fin 3) (Fin 3) ℝ} (hR : IsOrth R) :
    ∃ y x1' x2' y' y'', f.leftRight fused w x1 x2 = .ok y ∧ x1.transformByMatrix R = .ok x1' ∧ x2.transformByMatrix R = .ok x2' ∧
      f.leftRight fused w x1' x2' = .ok y' ∧ y.transformByMatrix R = .ok y'' ∧ y'.irreps = y''.irreps ∧ y'.array = y''.array := by
  have hcall : ∀ x1 x2 : IArr ℝ, x1.Coherent → x2.Coherent → expand x1.irreps = expand irreps1 → expand x2.irreps = expand irreps2 →
      ∃ y, f.leftRight fused w x1 x2 = .ok y ∧ IsProduct f W x1 x2 y := by
    intro x1 x2 h1 h2 e1 e2
    cases fused with
    | true => exact C85_fused hf hp hfu hW hw x1 x2 h1 h2 e1 e2
    | false => exact C85_left_right hf hp hfu hW hw x1 x2 h1 h2 e1 e2
  obtain ⟨k1, k2, k3, -⟩ := init_ok hf
  obtain ⟨y, y1, y2⟩ := hcall x1 x2 h1 h2 e1 e2
  obtain ⟨x1', p1, p2, p3, -⟩ := C59_transform R x1 h1
  obtain ⟨x2', q1, q2, q3, -⟩ := C59_transform R x2 h2
  obtain ⟨y', u1, u2⟩ := hcall x1' x2' p2 q2 (by rw [p3]; exact e1) (by rw [q3]; exact e2)
  obtain ⟨y'', w1, w2, w3, -⟩ := C59_transform R y y2.1
  obtain ⟨z1, r1, r2, r3, r4⟩ := rechunk_spec h1.inv (new := f.irreps1) (by rw [k1]; exact e1)
  obtain ⟨z2, s1, s2, s3, s4⟩ := rechunk_spec h2.inv (new := f.irreps2) (by rw [k2]; exact e2)
  obtain ⟨z1', r5, -⟩ := C59_transform R z1 r2.coherent
  obtain ⟨z2', s5, -⟩ := C59_transform R z2 s2.coherent
  obtain ⟨m1, -⟩ := tr_array_congr h1 r2.coherent (by rw [r3, k1]; exact e1) r4.symm p1 r5
  obtain ⟨m2, -⟩ := tr_array_congr h2 s2.coherent (by rw [s3, k2]; exact e2) s4.symm q1 s5
  refine ⟨y, x1', x2', y', y'', y1, p1, q1, u1, w1, ?_⟩
  refine IsProduct.transform (init_valid hf) hp hR (W := W) r2.coherent s2.coherent r3 s3 r5 s5 w1 ?_ ?_
  · unfold IsProduct at y2 ⊢
    rw [r4, s4]
    exact y2
  · unfold IsProduct at u2 ⊢
    rw [← m1, ← m2]
    exact u2

/-- **C85 (fused or not).** When both evaluations are defined they return the same array. -/
theorem C85_fused_eq (hf : init irreps1 irreps2 irrepsOut args v1 v2 vo n a g = .ok f) (hp : Proper f) (hpos : Populated f) (hfus : Fusable f)
    {W : List (List ℝ)} (hW : WeightsFor f W) {w w' : Weights} (hw : w = .list (weightList f W) ∨ w = .flat W.flatten)
    (hw' : w' = .list (weightList f W) ∨ w' = .flat W.flatten)
    (x1 x2 : IArr ℝ) (h1 : x1.Coherent) (h2 : x2.Coherent) (e1 : expand x1.irreps = expand irreps1) (e2 : expand x2.irreps = expand irreps2) :
    ∃ y y', f.leftRight false w x1 x2 = .ok y ∧ f.leftRight true w' x1 x2 = .ok y' ∧ y'.irreps = y.irreps ∧ y'.array = y.array := by
  obtain ⟨y, y1, y2⟩ := C85_left_right hf hp hpos hW hw x1 x2 h1 h2 e1 e2
  obtain ⟨y', z1, z2⟩ := C85_fused hf hp hfus hW hw' x1 x2 h1 h2 e1 e2
  exact ⟨y, y', y1, z1, y2.unique z2⟩

end


/-- An instruction whose weight has no entry contributes nothing. -/
theorem term_no_entry {f : FTP} {ins : Ins} {a b c : MulIrrep} (ha : f.irreps1[ins.i1]? = some a) (hb : f.irreps2[ins.i2]? = some b)
    (h1 : ins.m1 = a.mul) (h2 : ins.m2 = b.mul) (h3 : ins.mo = c.mul)
    (hfit : Fits ins.mode ins.hasWeight a.mul b.mul c.mul) (h : 0 ∈ ins.pathShape) (X1 X2 : List ℝ) (w : List ℝ) (n : ℕ) (k : Fin (2 * c.ir.l + 1)) :
    term f X1 X2 ins w c n k = 0 := by
  have ga : f.irreps1.getD ins.i1 ⟨0, ⟨0, .e⟩⟩ = a := by simp [List.getD, ha]
  have gb : f.irreps2.getD ins.i2 ⟨0, ⟨0, .e⟩⟩ = b := by simp [List.getD, hb]
  unfold term
  simp only [ga, gb]
  have : paths ins.mode a.mul b.mul c.mul = [] := by
    have hl := pairsLt_length a.mul
    unfold Ins.pathShape at h
    unfold Fits at hfit
    rw [h1, h2, h3] at h
    cases hm : ins.mode <;> rw [hm] at h hfit <;> simp only [List.mem_cons, List.not_mem_nil, or_false] at h <;> simp only [paths]
    · rcases h with h | h | h <;> simp [← h]
    · rcases h with h | h <;> simp [← h]
    · rcases h with h | h <;> simp [← h]
    · rcases h with h | h <;> simp [← h]
    · simp [← h]
    · rcases h with h | h <;> simp [← h]
    · have : (pairsLt a.mul) = [] := List.length_eq_zero_iff.mp (by rw [hl]; rw [← hfit.1] at h; exact h.symm)
      simp [this]
    · rcases h with h | h
      · have : (pairsLt a.mul) = [] := List.length_eq_zero_iff.mp (by rw [hl]; rw [← hfit.1] at h; exact h.symm)
        simp [this]
      · simp [← h]
  rw [this]
  simp

/-- Entry `pos` of a mask with one flag per term. -/
theorem mask_getD (ms : Irreps) (k0 : ℕ) (F : MulIrrep × ℕ → Bool) {o : ℕ} {c : MulIrrep} (hc : ms[o]? = some c) {n k : ℕ} (hn : n < c.mul) (hk : k < 2 * c.ir.l + 1) :
    ((ms.zipIdx k0).map fun mo => List.replicate mo.1.dim (F mo)).flatten.getD (pos ms o c.ir.l n k) true = F (c, k0 + o) := by
  induction ms generalizing o k0 with
  | nil => simp at hc
  | cons m ms ih =>
    rw [List.zipIdx_cons, List.map_cons, List.flatten_cons]
    cases o with
    | zero =>
      simp only [List.getElem?_cons_zero, Option.some.injEq] at hc
      subst hc
      have hlt : pos (m :: ms) 0 m.ir.l n k < m.dim := by
        have := pos_lt (ms := [m]) (i := 0) (m := m) rfl hn hk
        simpa [pos, Irreps.dim, MulIrrep.dim] using this
      rw [List.getD, List.getElem?_append_left (by simpa using hlt), List.getElem?_replicate, if_pos hlt]
      rfl
    | succ o =>
      simp only [List.getElem?_cons_succ] at hc
      have e : pos (m :: ms) (o + 1) c.ir.l n k = m.dim + pos ms o c.ir.l n k := by
        simp only [pos, List.take_succ_cons, Irreps.dim, List.map_cons, List.sum_cons, MulIrrep.dim]
        omega
      rw [e, List.getD, List.getElem?_append_right (by simp), List.length_replicate, Nat.add_sub_cancel_left]
      have := ih (k0 + 1) hc
      rw [List.getD] at this
      rw [this]
      congr 2
      omega

section
variable {irreps1 irreps2 irrepsOut : Irreps} {args : List InsArg} {v1 v2 vo : Option (List ℝ)} {n : IrNorm} {a g : ℝ} {f : FTP}

/-- **C85 (mask).** `output_mask` has one entry per output component, and a component whose entry is `False` is 0 for
all inputs and weights. -/
theorem C85_output_mask (hf : init irreps1 irreps2 irrepsOut args v1 v2 vo n a g = .ok f) (hp : Proper f)
    {fused : Bool} (hfu : if fused then Fusable f else Populated f)
    {W : List (List ℝ)} (hW : WeightsFor f W) {w : Weights} (hw : w = .list (weightList f W) ∨ w = .flat W.flatten)
    (x1 x2 : IArr ℝ) (h1 : x1.Coherent) (h2 : x2.Coherent) (e1 : expand x1.irreps = expand irreps1) (e2 : expand x2.irreps = expand irreps2) :
    f.outputMask.length = irrepsOut.dim ∧ ∃ y, f.leftRight fused w x1 x2 = .ok y ∧
      ∀ j < irrepsOut.dim, f.outputMask[j]? = some false → y.array[j]? = some 0 := by
  obtain ⟨k1, k2, k3, -⟩ := init_ok hf
  have hv := init_valid hf
  have hlen : f.outputMask.length = irrepsOut.dim := by
    unfold FTP.outputMask
    rw [k3, List.length_flatten, List.map_map, Irreps.dim]
    congr 1
    have : ((List.length ∘ fun mo : MulIrrep × ℕ => List.replicate mo.1.dim
        (f.instructions.any fun ins => ins.io == mo.2 && decide (ins.pathWeight ≠ 0) && !(ins.pathShape.contains 0)))) = MulIrrep.dim ∘ Prod.fst := by
      funext mo
      simp
    rw [this, ← List.map_map, List.zipIdx_map_fst]
    rfl
  have hy : ∃ y, f.leftRight fused w x1 x2 = .ok y ∧ IsProduct f W x1 x2 y := by
    cases fused with
    | true => exact C85_fused hf hp hfu hW hw x1 x2 h1 h2 e1 e2
    | false => exact C85_left_right hf hp hfu hW hw x1 x2 h1 h2 e1 e2
  obtain ⟨y, y1, y2, y3, y4⟩ := hy
  refine ⟨hlen, y, y1, fun j hj hm => ?_⟩
  rw [← k3] at hj
  have l1 : y.array.length = f.irrepsOut.dim := by
    have := y2.array_length
    rw [y3, ← Irreps.dim_eq_dimOf_expand] at this
    exact this
  obtain ⟨o, c, m, k, hc, hn, hk, rfl⟩ := exists_pos hj
  have hval := y4 o c hc m hn ⟨k, hk⟩
  have hmask : (f.instructions.any fun ins => ins.io == o && decide (ins.pathWeight ≠ 0) && !(ins.pathShape.contains 0)) = false := by
    have := mask_getD f.irrepsOut 0 (fun mo => f.instructions.any fun ins => ins.io == mo.2 && decide (ins.pathWeight ≠ 0) && !(ins.pathShape.contains 0)) hc hn hk
    rw [zero_add] at this
    rw [← this, List.getD]
    unfold FTP.outputMask at hm
    rw [hm]
    rfl
  have hz : y.array.getD (pos f.irrepsOut o c.ir.l m k) 0 = 0 := by
    refine hval.trans (List.sum_eq_zero fun t ht => ?_)
    obtain ⟨q, hq, rfl⟩ := List.mem_map.mp ht
    rw [List.mem_filter] at hq
    have ho : q.1.io = o := by simpa using hq.2
    have hi := (List.of_mem_zip hq.1).1
    obtain ⟨A, B, C, hA, hB, hC, q1, q2, q3, -⟩ := hv _ hi
    have hcc : C = c := by
      rw [ho, hc] at hC
      exact (Option.some.inj hC).symm
    subst hcc
    have hany := List.any_eq_false.mp hmask q.1 hi
    simp only [ho, beq_self_eq_true, Bool.true_and, Bool.and_eq_true, decide_eq_true_eq, Bool.not_eq_true', not_and, Bool.not_eq_false,
      List.contains_iff_mem] at hany
    by_cases hpw : q.1.pathWeight = 0
    · simp only [term, hpw, zero_mul]
    · exact term_no_entry hA hB q1 q2 q3 (hp _ hi A B C hA hB (by rw [ho]; exact hc)) (hany hpw) _ _ _ _ _
  have hlt := pos_lt hc hn hk
  rw [List.getElem?_eq_getElem (by omega)]
  rw [List.getD, List.getElem?_eq_getElem (by omega)] at hz
  exact congrArg some hz

end

/-- The instructions of a fully connected tensor product. -/
theorem mem_fullyConnectedIns {irreps1 irreps2 irrepsOut : Irreps} {t : InsArg} :
    t ∈ fullyConnectedIns irreps1 irreps2 irrepsOut ↔ ∃ a b c, irreps1[t.i1]? = some a ∧ irreps2[t.i2]? = some b ∧ irrepsOut[t.io]? = some c ∧
      c.ir ∈ Irrep.mul a.ir b.ir ∧ t.mode = .uvw ∧ t.hasWeight = true ∧ t.pathWeight = none := by
  unfold fullyConnectedIns
  simp only [List.mem_flatMap, List.mem_filterMap, Prod.exists, List.mem_zipIdx_iff_getElem?]
  constructor
  · rintro ⟨a, i1, ha, b, i2, hb, c, io, hc, h⟩
    split at h
    · cases h
      exact ⟨a, b, c, ha, hb, hc, ‹_›, rfl, rfl, rfl⟩
    · cases h
  · rintro ⟨a, b, c, ha, hb, hc, h, h1, h2, h3⟩
    refine ⟨a, _, ha, b, _, hb, c, _, hc, ?_⟩
    rw [if_pos h]
    cases t
    simp_all

/-- Lists indexed by a position have no repetition. -/
theorem nodup_flatMap_idx {β γ : Type} (l : List β) (k : ℕ) (h : β × ℕ → List γ) (p : γ → ℕ) (hp : ∀ a, ∀ t ∈ h a, p t = a.2)
    (hn : ∀ a ∈ l.zipIdx k, (h a).Nodup) : ((l.zipIdx k).flatMap h).Nodup := by
  induction l generalizing k with
  | nil => simp
  | cons a l ih =>
    rw [List.zipIdx_cons, List.flatMap_cons, List.nodup_append]
    refine ⟨hn _ (by simp [List.zipIdx_cons]), ih (k + 1) fun q hq => hn q (by rw [List.zipIdx_cons]; exact List.mem_cons_of_mem _ hq), ?_⟩
    intro x hx y hy e
    obtain ⟨q, hq, hy⟩ := List.mem_flatMap.mp hy
    have h1 := hp _ _ hx
    have h2 := hp _ _ hy
    have h3 : k + 1 ≤ q.2 := List.le_snd_of_mem_zipIdx hq
    subst e
    simp only at h1
    omega

theorem fullyConnectedIns_nodup (irreps1 irreps2 irrepsOut : Irreps) : ((fullyConnectedIns irreps1 irreps2 irrepsOut).map InsArg.key).Nodup := by
  unfold fullyConnectedIns
  rw [List.map_flatMap]
  refine nodup_flatMap_idx irreps1 0 _ (fun t => t.1) ?_ fun a _ => ?_
  · intro a t ht
    obtain ⟨s, hs, rfl⟩ := List.mem_map.mp ht
    obtain ⟨b, -, hs⟩ := List.mem_flatMap.mp hs
    obtain ⟨c, -, hs⟩ := List.mem_filterMap.mp hs
    split at hs
    · cases hs; rfl
    · cases hs
  rw [List.map_flatMap]
  refine nodup_flatMap_idx irreps2 0 _ (fun t => t.2.1) ?_ fun b _ => ?_
  · intro b t ht
    obtain ⟨s, hs, rfl⟩ := List.mem_map.mp ht
    obtain ⟨c, -, hs⟩ := List.mem_filterMap.mp hs
    split at hs
    · cases hs; rfl
    · cases hs
  rw [List.map_filterMap, List.filterMap_eq_flatMap_toList]
  refine nodup_flatMap_idx irrepsOut 0 _ (fun t => t.2.2.1) ?_ fun c _ => ?_
  · intro c t ht
    simp only [Option.mem_toList] at ht
    split at ht
    · simp only [Option.map_some] at ht; cases ht; rfl
    · cases ht
  · split <;> simp

/-- **C85 (fully connected).** For irreps without empty terms, `FunctionalFullyConnectedTensorProduct` is defined; it has
exactly one instruction for every triple of terms that the selection rules allow, in mode `uvw` and with a weight of
one entry per triple of copies; the theorems above apply to it, fused or not. -/
theorem C85_fully_connected (irreps1 irreps2 irrepsOut : Irreps) {n : IrNorm} (hn : n ≠ .other) (a g : ℝ)
    (h1 : ∀ m ∈ irreps1, 0 < m.mul) (h2 : ∀ m ∈ irreps2, 0 < m.mul) (h3 : ∀ m ∈ irrepsOut, 0 < m.mul) :
    ∃ f, fullyConnected irreps1 irreps2 irrepsOut none none none n a g = .ok f ∧ Proper f ∧ Populated f ∧ Fusable f ∧
      (f.instructions.map fun ins => (ins.i1, ins.i2, ins.io)).Nodup ∧
      (∀ i1 i2 io, (∃ ins ∈ f.instructions, (ins.i1, ins.i2, ins.io) = (i1, i2, io)) ↔
        ∃ a b c, irreps1[i1]? = some a ∧ irreps2[i2]? = some b ∧ irrepsOut[io]? = some c ∧ c.ir.p = a.ir.p.mul b.ir.p ∧
          ((a.ir.l : ℤ) - b.ir.l).natAbs ≤ c.ir.l ∧ c.ir.l ≤ a.ir.l + b.ir.l) ∧
      ∀ ins ∈ f.instructions, ins.mode = .uvw ∧ ins.hasWeight = true ∧ ∀ a b c, irreps1[ins.i1]? = some a → irreps2[ins.i2]? = some b →
        irrepsOut[ins.io]? = some c → ins.pathShape = [a.mul, b.mul, c.mul] := by
  have hall : ∀ a b c : Irrep, c ∈ Irrep.mul a b ↔ c.p = a.p.mul b.p ∧ ((a.l : ℤ) - b.l).natAbs ≤ c.l ∧ c.l ≤ a.l + b.l := by
    intro a b c
    have hp : c.p.toInt = a.p.toInt * b.p.toInt ↔ c.p = a.p.mul b.p := by
      cases a.p <;> cases b.p <;> cases c.p <;> decide
    rw [C02_mem_mul_iff, hp]
    constructor
    · rintro ⟨h, h'⟩
      exact ⟨h', by omega, by omega⟩
    · rintro ⟨h', h⟩
      exact ⟨by omega, h'⟩
  obtain ⟨f, hf⟩ := init_total (irreps1 := irreps1) (irreps2 := irreps2) (irrepsOut := irrepsOut) (args := fullyConnectedIns irreps1 irreps2 irrepsOut)
    (v1 := none) (v2 := none) (vo := none) a g hn (by
      intro t ht
      obtain ⟨A, B, C, hA, hB, hC, hm, hu, hw, hp⟩ := mem_fullyConnectedIns.mp ht
      rw [hall] at hm
      refine ⟨by rw [hu]; decide, by rw [hp]; exact zero_le_one, A, B, C, hA, hB, hC, hm.1.symm, hm.2.1, hm.2.2⟩) (by simp) (by simp) (by simp)
  have hk := init_keys hf
  obtain ⟨k1, k2, k3, -⟩ := init_ok hf
  have hv := init_valid hf
  have hins : ∀ ins ∈ f.instructions, ins.mode = .uvw ∧ ins.hasWeight = true := by
    intro ins hi
    have : ins.key ∈ (fullyConnectedIns irreps1 irreps2 irrepsOut).map InsArg.key := by rw [← hk]; exact List.mem_map_of_mem hi
    obtain ⟨t, ht, e⟩ := List.mem_map.mp this
    obtain ⟨A, B, C, hA, hB, hC, hm, hu, hw, hp⟩ := mem_fullyConnectedIns.mp ht
    simp only [InsArg.key, Ins.key, Prod.mk.injEq] at e
    exact ⟨e.2.2.2.1.symm.trans hu, e.2.2.2.2.symm.trans hw⟩
  refine ⟨f, hf, ?_, ?_, ?_, ?_, ?_, ?_⟩
  · intro ins hi A B C _ _ _
    rw [(hins ins hi).1]
    exact (hins ins hi).2
  · intro ins hi A B C hA hB hC
    rw [k1] at hA
    rw [k2] at hB
    rw [k3] at hC
    exact ⟨h1 _ (List.mem_of_getElem? hA), h2 _ (List.mem_of_getElem? hB), h3 _ (List.mem_of_getElem? hC)⟩
  · intro ins hi
    rw [(hins ins hi).1]
    exact (hins ins hi).2
  · have hnd := fullyConnectedIns_nodup irreps1 irreps2 irrepsOut
    rw [← hk] at hnd
    refine List.Nodup.of_map (fun t : ℕ × ℕ × ℕ => (t.1, t.2.1, t.2.2, Mode.uvw, true)) ?_
    rw [List.map_map]
    have : f.instructions.map Ins.key = f.instructions.map ((fun t : ℕ × ℕ × ℕ => (t.1, t.2.1, t.2.2, Mode.uvw, true)) ∘ fun ins => (ins.i1, ins.i2, ins.io)) :=
      List.map_congr_left fun ins hi => by
        simp only [Ins.key, (hins ins hi).1, (hins ins hi).2, Function.comp]
    rw [← this]
    exact hnd
  · intro i1 i2 io
    constructor
    · rintro ⟨ins, hi, e⟩
      have : ins.key ∈ (fullyConnectedIns irreps1 irreps2 irrepsOut).map InsArg.key := by rw [← hk]; exact List.mem_map_of_mem hi
      obtain ⟨t, ht, e'⟩ := List.mem_map.mp this
      obtain ⟨A, B, C, hA, hB, hC, hm, -⟩ := mem_fullyConnectedIns.mp ht
      simp only [InsArg.key, Ins.key, Prod.mk.injEq] at e' e
      rw [e'.1, e.1] at hA
      rw [e'.2.1, e.2.1] at hB
      rw [e'.2.2.1, e.2.2] at hC
      rw [hall] at hm
      exact ⟨A, B, C, hA, hB, hC, hm.1, hm.2.1, hm.2.2⟩
    · rintro ⟨A, B, C, hA, hB, hC, hm⟩
      have ht : (⟨i1, i2, io, .uvw, true, none⟩ : InsArg) ∈ fullyConnectedIns irreps1 irreps2 irrepsOut :=
        mem_fullyConnectedIns.mpr ⟨A, B, C, hA, hB, hC, (hall _ _ _).mpr hm, rfl, rfl, rfl⟩
      have := List.mem_map_of_mem (f := InsArg.key) ht
      rw [← hk] at this
      obtain ⟨ins, hi, e⟩ := List.mem_map.mp this
      simp only [InsArg.key, Ins.key, Prod.mk.injEq] at e
      exact ⟨ins, hi, by rw [e.1, e.2.1, e.2.2.1]⟩
  · intro ins hi
    refine ⟨(hins ins hi).1, (hins ins hi).2, fun A B C hA hB hC => ?_⟩
    obtain ⟨a', b', c', ha, hb, hc, m1, m2, m3, -⟩ := hv ins hi
    rw [k1, hA] at ha
    rw [k2, hB] at hb
    rw [k3, hC] at hc
    cases ha
    cases hb
    cases hc
    simp [Ins.pathShape, (hins ins hi).1, m1, m2, m3]

/-- Weights of the right sizes exist. -/
example (f : FTP) : WeightsFor f (f.instructions.map fun ins => List.replicate (if ins.hasWeight then ins.pathShape.prod else 0) 1) := by
  unfold WeightsFor
  rw [List.map_map]
  exact List.map_congr_left fun ins _ => by simp

/-- The hypotheses hold for `2x0e+1x1o` times `1x1o` into `2x1o+1x0e+1x1e`, fully connected. -/
example : ∃ f, fullyConnected [⟨2, ⟨0, .e⟩⟩, ⟨1, ⟨1, .o⟩⟩] [⟨1, ⟨1, .o⟩⟩] [⟨2, ⟨1, .o⟩⟩, ⟨1, ⟨0, .e⟩⟩, ⟨1, ⟨1, .e⟩⟩] none none none .component 0 0 = .ok f ∧
    Proper f ∧ Populated f ∧ Fusable f ∧ ∃ ins ∈ f.instructions, (ins.i1, ins.i2, ins.io) = (1, 0, 2) := by
  obtain ⟨f, h1, h2, h3, h4, -, h6, -⟩ := C85_fully_connected [⟨2, ⟨0, .e⟩⟩, ⟨1, ⟨1, .o⟩⟩] [⟨1, ⟨1, .o⟩⟩] [⟨2, ⟨1, .o⟩⟩, ⟨1, ⟨0, .e⟩⟩, ⟨1, ⟨1, .e⟩⟩]
    (n := .component) (by decide) 0 0 (by decide) (by decide) (by decide)
  exact ⟨f, h1, h2, h3, h4, (h6 1 0 2).mpr ⟨_, _, _, rfl, rfl, rfl, by decide, by decide, by decide⟩⟩

/-- They also hold for a product with the modes `uvu<v` and `uuw`, the second one without weight. -/
example : ∃ f, init [⟨3, ⟨1, .o⟩⟩] [⟨3, ⟨1, .o⟩⟩] [⟨3, ⟨1, .e⟩⟩, ⟨1, ⟨0, .e⟩⟩] [⟨0, 0, 0, .uvuLtV, true, none⟩, ⟨0, 0, 1, .uuw, false, none⟩]
    none none none .component 0 0 = .ok f ∧ Proper f ∧ Populated f := by
  obtain ⟨f, hf⟩ := init_total (irreps1 := [⟨3, ⟨1, .o⟩⟩]) (irreps2 := [⟨3, ⟨1, .o⟩⟩]) (irrepsOut := [⟨3, ⟨1, .e⟩⟩, ⟨1, ⟨0, .e⟩⟩])
    (args := [⟨0, 0, 0, .uvuLtV, true, none⟩, ⟨0, 0, 1, .uuw, false, none⟩]) (v1 := none) (v2 := none) (vo := none) (n := .component) 0 0 (by decide) (by
      intro t ht
      simp only [List.mem_cons, List.not_mem_nil, or_false] at ht
      rcases ht with rfl | rfl
      · exact ⟨by decide, by simp, _, _, _, rfl, rfl, rfl, by decide, by decide, by decide⟩
      · exact ⟨by decide, by simp, _, _, _, rfl, rfl, rfl, by decide, by decide, by decide⟩) (by simp) (by simp) (by simp)
  obtain ⟨k1, k2, k3, -⟩ := init_ok hf
  have hk := init_keys hf
  have hkey : ∀ ins ∈ f.instructions, ins.key = (0, 0, 0, .uvuLtV, true) ∨ ins.key = (0, 0, 1, .uuw, false) := by
    intro ins hi
    have := List.mem_map_of_mem (f := Ins.key) hi
    rw [hk] at this
    simpa [InsArg.key] using this
  have hpos : Populated f := by
    intro ins _ a b c ha hb hc
    rw [k1] at ha
    rw [k2] at hb
    rw [k3] at hc
    have h1 := List.mem_of_getElem? ha
    have h2 := List.mem_of_getElem? hb
    have h3 := List.mem_of_getElem? hc
    simp only [List.mem_cons, List.not_mem_nil, or_false] at h1 h2 h3
    subst h1
    subst h2
    rcases h3 with rfl | rfl <;> exact ⟨by decide, by decide, by decide⟩
  refine ⟨f, hf, ?_, hpos⟩
  intro ins hi a b c ha hb hc
  rw [k1] at ha
  rw [k2] at hb
  rw [k3] at hc
  rcases hkey ins hi with h | h <;> simp only [Ins.key, Prod.mk.injEq] at h <;> obtain ⟨e1, e2, e3, e4, e5⟩ := h <;> rw [e1] at ha <;> rw [e2] at hb <;>
    rw [e3] at hc <;> cases ha <;> cases hb <;> cases hc <;> rw [e4, e5] <;> simp [Fits]

/-! ### Two cases outside of the hypotheses -/

noncomputable def wf1 : FTP := ⟨[⟨0, ⟨0, .e⟩⟩, ⟨1, ⟨0, .o⟩⟩], [⟨1, ⟨0, .e⟩⟩], [⟨1, ⟨0, .e⟩⟩, ⟨1, ⟨0, .o⟩⟩],
  [⟨0, 0, 0, .uvw, true, 1, some 1, 0, 1, 1⟩, ⟨1, 0, 1, .uvw, true, 1, some 1, 1, 1, 1⟩]⟩

theorem wf1_init : fullyConnected [⟨0, ⟨0, .e⟩⟩, ⟨1, ⟨0, .o⟩⟩] [⟨1, ⟨0, .e⟩⟩] [⟨1, ⟨0, .e⟩⟩, ⟨1, ⟨0, .o⟩⟩] none none none .component 0 0 = .ok wf1 := by
  have e : fullyConnectedIns [⟨0, ⟨0, .e⟩⟩, ⟨1, ⟨0, .o⟩⟩] [⟨1, ⟨0, .e⟩⟩] [⟨1, ⟨0, .e⟩⟩, ⟨1, ⟨0, .o⟩⟩] =
    [⟨0, 0, 0, .uvw, true, none⟩, ⟨1, 0, 1, .uvw, true, none⟩] := by
    have d1 : (⟨0, .e⟩ : Irrep) ∈ Irrep.mul ⟨0, .e⟩ ⟨0, .e⟩ := by decide
    have d2 : ¬ (⟨0, .o⟩ : Irrep) ∈ Irrep.mul ⟨0, .e⟩ ⟨0, .e⟩ := by decide
    have d3 : ¬ (⟨0, .e⟩ : Irrep) ∈ Irrep.mul ⟨0, .o⟩ ⟨0, .e⟩ := by decide
    have d4 : (⟨0, .o⟩ : Irrep) ∈ Irrep.mul ⟨0, .o⟩ ⟨0, .e⟩ := by decide
    simp [fullyConnectedIns, List.zipIdx_cons, d1, d2, d3, d4]
  unfold fullyConnected init
  rw [e]
  simp [mkIns, normalize, var, Ins.numElements, update, pathSum, alphaIrrep, Irrep.dim, bind, Except.bind, pure, Except.pure, Parity.mul, wf1, show ¬ ((1 : ℝ) < 0) from not_lt.mpr zero_le_one]


theorem cgAt_zero : cgAt 0 0 0 0 0 0 = 1 := by
  have := (SU2.C58_scalar 0 0 0 0).1
  simpa [cgAt] using this

theorem wf1_block (w x z : ℝ) : wf1.block [[], [w]] ⟨wf1.irreps1, [x], none, none⟩ ⟨wf1.irreps2, [z], none, none⟩ =
    .ok ⟨wf1.irrepsOut, [w * x * z, 0], some [false, true], some [some [[w * x * z]], none]⟩ := by
  have hb : blockList wf1 ⟨wf1.irreps1, [x], none, none⟩ ⟨wf1.irreps2, [z], none, none⟩ wf1.instructions [[], [w]] = .ok [some [w * x * z]] := by
    have c1 : IArr.chunks ⟨wf1.irreps1, [x], none, none⟩ = [some [], some [[x]]] := rfl
    have c2 : IArr.chunks ⟨wf1.irreps2, [z], none, none⟩ = [some [[z]]] := rfl
    simp only [wf1] at c1 c2 ⊢
    simp [blockList, bind, Except.bind, takeWeight, Ins.size, Ins.pathShape, MulIrrep.dim, Irrep.dim, c1, c2, contract, table, at2, cgAt_zero, pure, Except.pure]
  unfold FTP.block
  rw [hb]
  rfl

theorem wf1_fused (w x z : ℝ) : wf1.fused [w] ⟨wf1.irreps1, [x], none, none⟩ ⟨wf1.irreps2, [z], none, none⟩ =
    .ok ⟨wf1.irrepsOut, [0, w * x * z], none, none⟩ := by
  simp [FTP.fused, wf1, bind, Except.bind, fusedStep, fusedTriples, pure, Except.pure, Irreps.dim, Irrep.dim, setW3j, cgAt_zero, List.range_succ,
    IArr.ofArray, IArr.make]

noncomputable def wf2 : FTP := ⟨[⟨2, ⟨0, .e⟩⟩], [⟨1, ⟨0, .e⟩⟩], [⟨1, ⟨0, .e⟩⟩, ⟨1, ⟨0, .o⟩⟩], [⟨0, 0, 0, .uvu, true, 1, some 1, 2, 1, 1⟩]⟩

theorem wf2_init : init [⟨2, ⟨0, .e⟩⟩] [⟨1, ⟨0, .e⟩⟩] [⟨1, ⟨0, .e⟩⟩, ⟨1, ⟨0, .o⟩⟩] [⟨0, 0, 0, .uvu, true, none⟩] none none none .component 0 0 = .ok wf2 := by
  unfold init
  simp [mkIns, normalize, var, Ins.numElements, update, pathSum, alphaIrrep, Irrep.dim, bind, Except.bind, pure, Except.pure, Parity.mul, wf2, show ¬ ((1 : ℝ) < 0) from not_lt.mpr zero_le_one]

theorem wf2_fused (w0 w1 x0 x1 z : ℝ) : wf2.fused [w0, w1] ⟨wf2.irreps1, [x0, x1], none, none⟩ ⟨wf2.irreps2, [z], none, none⟩ =
   .ok ⟨wf2.irrepsOut, [w0 * x0 * z, w1 * x1 * z], none, none⟩ := by
  simp [FTP.fused, wf2, bind, Except.bind, fusedStep, fusedTriples, pure, Except.pure, Irreps.dim, Irrep.dim, setW3j, cgAt_zero, Finset.sum_range_succ, List.range_succ,
    IArr.ofArray, IArr.make]

theorem wf2_block (w0 w1 x0 x1 z : ℝ) : wf2.block [[w0, w1]] ⟨wf2.irreps1, [x0, x1], none, none⟩ ⟨wf2.irreps2, [z], none, none⟩ = .error .assertion := by
  unfold FTP.block
  have c1 : IArr.chunks ⟨wf2.irreps1, [x0, x1], none, none⟩ = [some [[x0], [x1]]] := rfl
  have c2 : IArr.chunks ⟨wf2.irreps2, [z], none, none⟩ = [some [[z]]] := rfl
  simp only [wf2] at c1 c2 ⊢
  simp [blockList, bind, Except.bind, takeWeight, Ins.size, Ins.pathShape, MulIrrep.dim, Irrep.dim, c1, c2, contract]

/-- `left_right` on inputs of the declared irreps. -/
theorem leftRight_same {f : FTP} (d : ¬ (f.irreps1.dim = 0 ∨ f.irreps2.dim = 0 ∨ f.irrepsOut.dim = 0)) (fused : Bool) {w : Weights} {ws : List (List ℝ)} {wf : List ℝ}
    (hr : f.resolveWeights w = .ok (ws, wf)) {x1 x2 : IArr ℝ} (e1 : x1.irreps = f.irreps1) (e2 : x2.irreps = f.irreps2) :
    f.leftRight fused w x1 x2 = if fused then f.fused wf x1 x2 else f.block ws x1 x2 := by
  unfold FTP.leftRight
  simp only [IArr.rechunk, e1, e2, ne_eq, not_true, if_false, if_true, bind, Except.bind, if_neg d, hr]

/-- **C85 (empty terms).** The hypothesis `Populated` of C85_left_right cannot be dropped: with an empty term the results of the
instructions are shifted.  In the fully connected product of `0x0e+1x0o` with `0e` into `0e+0o` the pseudoscalar
ends in the slot of the scalar (so the product is not equivariant), and `fused=True` returns another array. -/
theorem C85_empty_term_witness : ∃ f, fullyConnected [⟨0, ⟨0, .e⟩⟩, ⟨1, ⟨0, .o⟩⟩] [⟨1, ⟨0, .e⟩⟩] [⟨1, ⟨0, .e⟩⟩, ⟨1, ⟨0, .o⟩⟩] none none none .component 0 0 = .ok f ∧
    Proper f ∧ ∀ w x z : ℝ, ∃ x1 x2 y y', IArr.ofArray [⟨0, ⟨0, .e⟩⟩, ⟨1, ⟨0, .o⟩⟩] [x] = .ok x1 ∧ IArr.ofArray [⟨1, ⟨0, .e⟩⟩] [z] = .ok x2 ∧
      f.leftRight false (.list [[], [w]]) x1 x2 = .ok y ∧ y.array = [w * x * z, 0] ∧
      f.leftRight true (.list [[], [w]]) x1 x2 = .ok y' ∧ y'.array = [0, w * x * z] := by
  refine ⟨wf1, wf1_init, ?_, fun w x z => ⟨⟨wf1.irreps1, [x], none, none⟩, ⟨wf1.irreps2, [z], none, none⟩,
    ⟨wf1.irrepsOut, [w * x * z, 0], some [false, true], some [some [[w * x * z]], none]⟩, ⟨wf1.irrepsOut, [0, w * x * z], none, none⟩, rfl, rfl, ?_, rfl, ?_, rfl⟩⟩
  · intro ins hi A B C _ _ _
    simp only [wf1, List.mem_cons, List.not_mem_nil, or_false] at hi
    rcases hi with rfl | rfl <;> rfl
  all_goals
    have d1 : ¬ (wf1.irreps1.dim = 0 ∨ wf1.irreps2.dim = 0 ∨ wf1.irrepsOut.dim = 0) := by
      simp [wf1, Irreps.dim, Irrep.dim]
    have hr : wf1.resolveWeights (.list [[], [w]]) = .ok ([[], [w]], [w]) := by simp [FTP.resolveWeights, wf1]
    rw [leftRight_same d1 _ hr rfl rfl]
  · exact wf1_block w x z
  · exact wf1_fused w x z

/-- **C85 (unchecked multiplicities).** `fused=True` does not check the multiplicities: for mode `uvu` from `2x0e` into the
first term of `0e+0o` the ordinary evaluation raises `AssertionError`, the fused one writes the second copy in the
slot of the pseudoscalar. -/
theorem C85_fused_witness : ∃ f, init [⟨2, ⟨0, .e⟩⟩] [⟨1, ⟨0, .e⟩⟩] [⟨1, ⟨0, .e⟩⟩, ⟨1, ⟨0, .o⟩⟩] [⟨0, 0, 0, .uvu, true, none⟩] none none none .component 0 0 = .ok f ∧
    ∀ w0 w1 s t z : ℝ, ∃ x1 x2 y, IArr.ofArray [⟨2, ⟨0, .e⟩⟩] [s, t] = .ok x1 ∧ IArr.ofArray [⟨1, ⟨0, .e⟩⟩] [z] = .ok x2 ∧
      f.leftRight false (.flat [w0, w1]) x1 x2 = .error .assertion ∧ f.leftRight true (.flat [w0, w1]) x1 x2 = .ok y ∧ y.array = [w0 * s * z, w1 * t * z] := by
  refine ⟨wf2, wf2_init, fun w0 w1 s t z => ⟨⟨wf2.irreps1, [s, t], none, none⟩, ⟨wf2.irreps2, [z], none, none⟩,
    ⟨wf2.irrepsOut, [w0 * s * z, w1 * t * z], none, none⟩, rfl, rfl, ?_, ?_, rfl⟩⟩
  all_goals
    have d1 : ¬ (wf2.irreps1.dim = 0 ∨ wf2.irreps2.dim = 0 ∨ wf2.irrepsOut.dim = 0) := by
      simp [wf2, Irreps.dim, Irrep.dim]
    have hr : wf2.resolveWeights (.flat [w0, w1]) = .ok ([[w0, w1]], [w0, w1]) := by
      simp [FTP.resolveWeights, wf2, splitFlat, Ins.size, Ins.pathShape, bind, Except.bind, pure, Except.pure]
    rw [leftRight_same d1 _ hr rfl rfl]
  · exact wf2_block w0 w1 s t z
  · exact wf2_fused w0 w1 s t z

end E3nn.LTP
