import Verif.Lemmas.GradArray
import Verif.Props.C69

/-!
# C72: `grad`

The derivative of a function between `IrrepsArray`s, reduced into irreps.
-/

namespace E3nn.Grad

open E3nn.IArr E3nn.Rot E3nn.Wig E3nn.SU2 E3nn.TP Matrix

variable {α β : Type} [Fintype β] [DecidableEq β]

/-- One block of the result. -/
noncomputable def rowOf (fn : IArr (β → ℝ) → Except PyErr (IArr (α → ℝ))) (ms : Irreps) (w : Pt ms β) (lo : ℕ) (s : ℕ) (t : Fin ms.length) (ir : Irrep)
    (u : ℕ) (v : Fin (ms.get t).mul) : List (α × β → ℝ) :=
  List.ofFn fun k : Fin (2 * ir.l + 1) => fun ab => ∑ i : Fin (2 * lo + 1), ∑ j : Fin (2 * (ms.get t).ir.l + 1),
    jac fn ms w s u i ab.1 t v j ab.2 * (Real.sqrt ir.dim * clebschGordan lo (ms.get t).ir.l ir.l i j k)

theorem zipIdx_finRange {γ : Type} (l : List γ) : l.zipIdx = (List.finRange l.length).map fun s => (l.get s, s.val) := by
  apply List.ext_getElem
  · simp
  intro i h1 h2
  simp

theorem entries_shaped (fn : IArr (β → ℝ) → Except PyErr (IArr (α → ℝ))) (ms : Irreps) (w : Pt ms β) (out : Irreps) : Shaped (entries fn ms w out) := by
  intro p hp
  simp only [entries, List.mem_flatMap, List.mem_map] at hp
  obtain ⟨mo, -, t, -, ir, -, rfl⟩ := hp
  simp only [contracted, shapeOk, Bool.and_eq_true, beq_iff_eq, List.all_eq_true, List.mem_flatMap]
  refine ⟨?_, ?_⟩
  · simp [List.length_flatMap]
  · rintro r ⟨u, -, hr⟩
    obtain ⟨v, rfl⟩ := (List.mem_ofFn' _ _).mp hr
    simp [Irrep.dim]

/-- The blocks before regrouping. -/
theorem blocks_spec (fn : IArr (β → ℝ) → Except PyErr (IArr (α → ℝ))) (ms : Irreps) (w : Pt ms β) (out : Irreps) :
    ∃ o, fromChunks ((entries fn ms w out).map Prod.fst) ((entries fn ms w out).map Prod.snd) = .ok o ∧ o.Coherent ∧
      o.irreps = ((List.finRange out.length).flatMap fun s => (List.finRange ms.length).flatMap fun t =>
        ((out.get s).ir.mul (ms.get t).ir).map fun ir => ⟨(out.get s).mul * (ms.get t).mul, ir⟩) ∧
      o.blocks = (List.finRange out.length).flatMap fun s => (List.finRange ms.length).flatMap fun t => ((out.get s).ir.mul (ms.get t).ir).flatMap fun ir =>
        (List.finRange (out.get s).mul).flatMap fun u : Fin (out.get s).mul => (List.finRange (ms.get t).mul).map fun v => (ir, rowOf fn ms w (out.get s).ir.l s t ir u v) := by
  have hs := entries_shaped fn ms w out
  obtain ⟨o, h1, h2, h3, -, -, -, h7, -⟩ := fromChunks_pairs _ hs
  have hb : o.blocks = (entries fn ms w out).flatMap blk := by
    rw [h2.blocks_pairs, h3, h7, List.zip_map']; simp
  refine ⟨o, h1, h2.coherent, ?_, ?_⟩
  · rw [h3, entries, zipIdx_finRange, List.flatMap_map]
    simp only [List.map_flatMap, List.map_map]
    rfl
  · have : (entries fn ms w out).flatMap blk = (List.finRange out.length).flatMap fun s => (List.finRange ms.length).flatMap fun t =>
        ((out.get s).ir.mul (ms.get t).ir).flatMap fun ir => blk (contracted fn ms w (out.get s) s t ir) := by
      rw [entries, zipIdx_finRange]
      simp only [List.flatMap_map, List.flatMap_assoc]
    rw [hb, this]
    apply List.flatMap_congr; intro s _
    apply List.flatMap_congr; intro t _
    apply List.flatMap_congr; intro ir hir
    have hc := hs (contracted fn ms w (out.get s) s t ir) (by
      rw [entries, zipIdx_finRange]
      simp only [List.mem_flatMap, List.mem_map, List.mem_finRange, true_and]
      exact ⟨_, ⟨s, rfl⟩, t, ir, hir, rfl⟩)
    unfold contracted at hc ⊢
    rw [blk_some hc, List.map_flatMap]
    have hr : List.range (out.get s).mul = (List.finRange (out.get s).mul).map Fin.val := by simp
    rw [hr, List.flatMap_map]
    apply List.flatMap_congr; intro u _
    rw [List.ofFn_eq_map, List.map_map]
    rfl

/-- The result of `grad` in the coordinates of the chunks. -/
theorem grad_run {fn : IArr (β → ℝ) → Except PyErr (IArr (α → ℝ))} {ms out : Irreps} (hf : Traced fn ms out) (rg : Bool) {x : IArr (β → ℝ)} (hx : x.Coherent)
    (hm : x.irreps = ms) : ∃ (w : Pt ms β) (x0 : IArr (β → ℝ)) (o : IArr (α × β → ℝ)), x.array = List.ofFn (toArray w) ∧ x0.Coherent ∧ x0.irreps = ms ∧ x0.array = x.array ∧
      x0.chunks = chunksOf w ∧
      fromChunks ((entries fn ms w out).map Prod.fst) ((entries fn ms w out).map Prod.snd) = .ok o ∧
      grad fn rg x = if rg then o.regroup else .ok o := by
  obtain ⟨x0, a1, a2, a3, a4, -, a6⟩ := (C12_from_array x.irreps x.array).1 hx.array_length
  have hz : Unflagged x0 := by
    intro z hz
    rw [← a2.inv.pairs.2.2.2.2.1] at hz
    obtain ⟨p, hp, rfl⟩ := List.mem_map.mp hz
    have := a6 p.2 (List.of_mem_zip (a := p.1) (b := p.2) hp).2
    cases h : p.2 with
    | none => exact absurd h this
    | some c => rfl
  rw [hm] at a3
  have hc := chunks_coord a2.inv hz a3
  obtain ⟨x1, y, b1, b2, b3, b4, b5, b6, b7, b8, b9, b10⟩ := naked_ok hf (fun t v j => entry x0.chunks t v j)
  obtain ⟨o, o1, o2, -⟩ := blocks_spec fn ms (fun t v j => entry x0.chunks t v j) out
  refine ⟨_, x0, o, ?_, a2, a3, a4, hc, o1, ?_⟩
  · rw [← a4, array_toArray a2.inv a3 hc]
  · have hn : y.chunks.any Option.isNone = false := by
      rw [b10]
      simp [chunksOf]
    unfold grad
    rw [← hc] at b1
    subst a3
    subst b8
    simp only [a1, b1, bind, Except.bind, b6, hn, Bool.false_eq_true, if_false]
    unfold ptOf
    rw [o1]


/-- **C72 (equivariance).** Let `f` and `g` be computed by functions of the numbers, `f`'s being differentiable at `x`, and let `g(R x) = R f(x)` for
all `x` (`g` is `f` if it has no other arguments, `f` with the other arguments transformed otherwise).  Then `grad` returns for both, and the
gradient of `g` at the transformed point is the transformed gradient of `f`. -/
theorem C72_equivariant {f g : IArr (β → ℝ) → Except PyErr (IArr (α → ℝ))} {ms out : Irreps}
    {F G : (Fin (dimOf (expand ms)) → β → ℝ) → Fin (dimOf (expand out)) → α → ℝ} (hf : Computes f ms out F) (hg : Computes g ms out G)
    {R : Mat} (hR : R * Rᵀ = 1) (hfg : Follows R f g ms) (rg : Bool) {x : IArr (β → ℝ)} (hx : x.Coherent) (hm : x.irreps = ms)
    (hd : ∀ k a, DifferentiableAt ℝ (fun X => F X k a) fun n => x.array.getD n 0) :
    ∃ r x' r' r'', grad f rg x = .ok r ∧ x.transformByMatrix R = .ok x' ∧ grad g rg x' = .ok r' ∧ r.transformByMatrix R = .ok r'' ∧
      r'.irreps = r''.irreps ∧ r'.array = r''.array := by
  obtain ⟨w, x0, o, a1, a2, a3, a4, a5, a6, a7⟩ := grad_run hf.traced rg hx hm
  obtain ⟨x', b1, b2, b3, -, -⟩ := C59_transform R x hx
  obtain ⟨w', x0', o', c1, c2, c3, c4, c5, c6, c7⟩ := grad_run hg.traced rg b2 (b3.trans hm)
  have hX : (fun n : Fin (dimOf (expand ms)) => x.array.getD n 0) = toArray w := by
    rw [a1]; funext n; rw [getD_ofFn]
  rw [hX] at hd
  have hww : w' = actPt R w := by
    obtain ⟨z, d1, d2, d3, d4, d5⟩ := transform_chunks R a2.inv a3 a5
    obtain ⟨z', e1, e2, e3, -, e5⟩ := C59_transform R x0 a2
    rw [d1] at e1; cases e1
    obtain ⟨z'', e1', e2', e3', -, e5'⟩ := C59_transform R x hx
    rw [b1] at e1'; cases e1'
    have hbl : x0.blocks = x.blocks := by unfold IArr.blocks; rw [a4, a3, hm]
    have : z.array = x'.array := by
      rw [← d2.array_eq_blocks, ← b2.inv.array_eq_blocks, e5, e5', hbl]
    rw [array_toArray d2 d3 d4, c1] at this
    have h2 := List.ofFn_injective this
    funext t v j
    have h3 := congrFun h2 (posEquiv ms ⟨t, v, j⟩)
    rw [toArray_pos, toArray_pos] at h3
    exact h3.symm
  subst hww
  obtain ⟨o1, p1, p2, p3, p4⟩ := blocks_spec f ms w out
  obtain ⟨o1', q1, q2, q3, q4⟩ := blocks_spec g ms (actPt R w) out
  rw [a6] at p1; cases p1
  rw [c6] at q1; cases q1
  obtain ⟨o'', s1, s2, s3, -, s5⟩ := C59_transform R o p2
  have hd' : ∀ (s : Fin out.length) (u : Fin (out.get s).mul) (i : Fin (2 * (out.get s).ir.l + 1)) a, DifferentiableAt ℝ (fun w => naked f ms w s u i a) w :=
    fun s u i a => (diff_naked hf hd s u i a).differentiableAt
  have hb : o'.blocks = o''.blocks := by
    rw [s5, p4, q4]
    simp only [List.map_flatMap, List.map_map]
    apply List.flatMap_congr; intro s _
    apply List.flatMap_congr; intro t _
    apply List.flatMap_congr; intro ir hir
    unfold Irrep.mul at hir
    obtain ⟨l3, -, rfl⟩ := List.mem_map.mp hir
    apply List.flatMap_congr; intro u _
    apply List.map_congr_left; intro v _
    simp only [Function.comp_apply, Prod.mk.injEq, true_and]
    unfold rowOf
    rw [matVec_ofFn (α := α × β → ℝ)]
    congr 1
    funext k ab
    have := contract_act (l3 := l3) (p1 := (out.get s).ir.p) (p2 := (ms.get t).ir.p) hR (Real.sqrt (Irrep.dim ⟨l3, (out.get s).ir.p.mul (ms.get t).ir.p⟩))
      (fun i j => jac f ms w s u i ab.1 t v j ab.2) (fun i j => jac g ms (actPt R w) s u i ab.1 t v j ab.2) (fun i j => by
        exact jac_act hR hf.traced hg.traced hfg hd' s u i ab.1 t v j ab.2) k
    rw [this]
    simp only [Finset.sum_apply, Pi.smul_apply, smul_eq_mul]
  have hsame : SameData o' o'' := SameData.of_blocks q2 s2 (by rw [q3, s3, p3]) hb
  cases rg with
  | false =>
    simp only [Bool.false_eq_true, if_false] at a7 c7
    exact ⟨o, x', o', o'', a7, b1, c7, s1, hsame.2.2.1, hsame.2.2.2⟩
  | true =>
    simp only [if_true] at a7 c7
    obtain ⟨r, g1, g2, -⟩ := C17_regroup o p2
    obtain ⟨t1, r1, r2, v1, v2, v3, v4⟩ := C59_structural (fun x : IArr (α × β → ℝ) => x.regroup) C22_regroup R o p2 r g1
    rw [s1] at v1; cases v1
    obtain ⟨r3, m1, m2⟩ := (C46_sort_regroup (α := α × β → ℝ)).2 o'' o' hsame.symm r1 v2
    beta_reduce at m1
    exact ⟨r, x', r3, r2, a7.trans g1, b1, c7.trans m1, v3, by rw [← m2.2.2.1, v4.1], by rw [← m2.2.2.2, v4.2.1]⟩

/-- **C72 (scalar function: the gradient).** If `f` returns one scalar `0e`, `grad(f, regroup_output=False)(x)` has the irreps of `x`, and its entries
are the partial derivatives of `f` with respect to the entries of `x`, in the same order. -/
theorem C72_scalar {f : IArr (β → ℝ) → Except PyErr (IArr (α → ℝ))} {ms : Irreps}
    {F : (Fin (dimOf (expand ms)) → β → ℝ) → Fin (dimOf (expand [⟨1, ⟨0, .e⟩⟩])) → α → ℝ} (hf : Computes f ms [⟨1, ⟨0, .e⟩⟩] F)
    {x : IArr (β → ℝ)} (hx : x.Coherent) (hm : x.irreps = ms)
    (hd : ∀ k a, DifferentiableAt ℝ (fun X => F X k a) fun n => x.array.getD n 0) :
    ∃ r, grad f false x = .ok r ∧ r.Coherent ∧ r.irreps = ms ∧
      r.array = List.ofFn fun n => fun ab => fderiv ℝ (fun X => F X ⟨0, by decide⟩ ab.1) (fun n => x.array.getD n 0) (Pi.single n (Pi.single ab.2 1)) := by
  obtain ⟨w, x0, o, a1, a2, a3, a4, a5, a6, a7⟩ := grad_run hf.traced false hx hm
  have hX : (fun n : Fin (dimOf (expand ms)) => x.array.getD n 0) = toArray w := by
    rw [a1]; funext n; rw [getD_ofFn]
  rw [hX] at hd ⊢
  obtain ⟨o1, p1, p2, p3, p4⟩ := blocks_spec f ms w [⟨1, ⟨0, .e⟩⟩]
  rw [a6] at p1; cases p1
  have hmul : ∀ ir : Irrep, (⟨0, .e⟩ : Irrep).mul ir = [ir] := by
    rintro ⟨l, p⟩
    simp only [Irrep.mul, Nat.zero_add, Nat.max_eq_right (Nat.zero_le l), Nat.min_eq_left (Nat.zero_le l), Nat.sub_zero, Nat.add_sub_cancel_left]
    simp [Parity.mul]
  refine ⟨o, a7, p2, ?_, ?_⟩
  · rw [p3]
    have : List.finRange (List.length [(⟨1, ⟨0, .e⟩⟩ : MulIrrep)]) = [0] := rfl
    rw [this]
    simp only [List.flatMap_cons, List.flatMap_nil, List.append_nil]
    show ((List.finRange ms.length).flatMap fun t => ((⟨0, .e⟩ : Irrep).mul (ms.get t).ir).map fun ir => (⟨1 * (ms.get t).mul, ir⟩ : MulIrrep)) = ms
    simp only [hmul, List.map_cons, List.map_nil, one_mul]
    rw [← List.map_eq_flatMap, ← List.ofFn_eq_map]
    exact List.ofFn_get ms
  · have hmi := map_idx (ms := ms) (fun p => fun ab : α × β => fderiv ℝ (fun X => F X ⟨0, by decide⟩ ab.1) (toArray w) (Pi.single (posEquiv ms p) (Pi.single ab.2 1)))
    simp only [Equiv.apply_symm_apply] at hmi
    rw [← p2.inv.array_eq_blocks, p4, ← hmi]
    have h1 : List.finRange (List.length [(⟨1, ⟨0, .e⟩⟩ : MulIrrep)]) = [0] := rfl
    rw [h1]
    simp only [List.flatMap_cons, List.flatMap_nil, List.append_nil]
    show List.flatten (List.map Prod.snd ((List.finRange ms.length).flatMap fun t => ((⟨0, .e⟩ : Irrep).mul (ms.get t).ir).flatMap fun ir =>
        (List.finRange 1).flatMap fun u : Fin 1 => (List.finRange (ms.get t).mul).map fun v => (ir, rowOf f ms w 0 0 t ir u v))) = _
    have h2 : List.finRange 1 = [0] := rfl
    simp only [hmul, h2, List.flatMap_cons, List.flatMap_nil, List.append_nil]
    unfold idx
    simp only [List.map_flatMap, List.map_map]
    rw [List.flatten_eq_flatMap, List.flatMap_assoc]
    apply List.flatMap_congr; intro t _
    rw [List.flatMap_map]
    apply List.flatMap_congr; intro v _
    simp only [id, Function.comp_apply]
    unfold rowOf
    rw [List.ofFn_eq_map]
    apply List.map_congr_left; intro k _
    funext ab
    have hk : ∀ q : Pos [⟨1, ⟨0, .e⟩⟩], (⟨0, by decide⟩ : Fin (dimOf (expand [⟨1, ⟨0, .e⟩⟩]))) = posEquiv [⟨1, ⟨0, .e⟩⟩] q := by
      intro q
      have hd : dimOf (expand [⟨1, ⟨0, .e⟩⟩]) = 1 := by decide
      apply Fin.ext
      have := (posEquiv [⟨1, ⟨0, .e⟩⟩] q).isLt
      simp only
      omega
    have hj := fun j => jac_eq hf hd (0 : Fin 1) (0 : Fin 1) (0 : Fin 1) ab.1 t v j ab.2
    simp only [Function.comp_apply]
    rw [hk ⟨(0 : Fin 1), (0 : Fin 1), (0 : Fin 1)⟩, ← hj]
    have hdim : Real.sqrt ((ms.get t).ir.dim : ℝ) = Real.sqrt (2 * ((ms.get t).ir.l : ℝ) + 1) := by
      congr 1; simp [Irrep.dim]
    have hpos : Real.sqrt (2 * ((ms.get t).ir.l : ℝ) + 1) ≠ 0 := by positivity
    simp only [(C58_scalar (ms.get t).ir.l _ _ k).1, hdim]
    have hu : (Finset.univ : Finset (Fin (2 * 0 + 1))) = {0} := rfl
    rw [hu, Finset.sum_singleton, Finset.sum_eq_single k (by intro j _ hjk; rw [if_neg hjk]; ring) (by simp)]
    rw [if_pos rfl, mul_one_div_cancel hpos, mul_one]
    rfl

omit [Fintype β] [DecidableEq β] in
/-- One pair of blocks of the Jacobian: all irreps together keep the norm. -/
theorem pair_norm (i1 i2 : Irrep) (J : Fin (2 * i1.l + 1) → Fin (2 * i2.l + 1) → ℝ) :
    ((i1.mul i2).map fun ir => ∑ k : Fin (2 * ir.l + 1), (∑ i, ∑ j, J i j * (Real.sqrt ir.dim * clebschGordan i1.l i2.l ir.l i j k)) ^ 2).sum =
      ∑ i, ∑ j, J i j ^ 2 := by
  obtain ⟨l1, p1⟩ := i1
  obtain ⟨l2, p2⟩ := i2
  simp only at J ⊢
  have hl : l1 + l2 + 1 - (max l1 l2 - min l1 l2) = 2 * min l1 l2 + 1 := by omega
  unfold Irrep.mul
  simp only [hl, List.map_map, Function.comp_def]
  rw [List.range'_eq_map_range, List.map_map]
  have hs := sum_range_fin (2 * min l1 l2 + 1) (fun q => ∑ k : Fin (2 * (max l1 l2 - min l1 l2 + q) + 1),
    (∑ i, ∑ j, J i j * (Real.sqrt (2 * ((max l1 l2 - min l1 l2 + q : ℕ) : ℝ) + 1) * clebschGordan l1 l2 _ i j k)) ^ 2)
  have e0 : ∀ q : ℕ, ((2 * (max l1 l2 - min l1 l2 + q) + 1 : ℕ) : ℝ) = 2 * ((max l1 l2 - min l1 l2 + q : ℕ) : ℝ) + 1 := by intro q; push_cast; ring
  simp only [Irrep.dim, Function.comp_def, e0]
  refine hs.trans ?_
  have e1 : ∀ q : CGIdx l1 l2, ∑ i, ∑ j, J i j * (Real.sqrt (2 * ((max l1 l2 - min l1 l2 + q.1.val : ℕ) : ℝ) + 1) * clebschGordan l1 l2 _ i j q.2) =
      (cgAll l1 l2 *ᵥ fun p => J p.1 p.2) q := by
    intro q
    simp only [Matrix.mulVec, dotProduct, Fintype.sum_prod_type, cgAll]
    refine Finset.sum_congr rfl fun i _ => Finset.sum_congr rfl fun j _ => ?_
    ring
  rw [← Fintype.sum_sigma' (f := fun (q : Fin (2 * min l1 l2 + 1)) (k : Fin (2 * (max l1 l2 - min l1 l2 + q.val) + 1)) => (∑ i, ∑ j, J i j * (Real.sqrt (2 * ((max l1 l2 - min l1 l2 + q.val : ℕ) : ℝ) + 1) * clebschGordan l1 l2 _ i j k)) ^ 2)]
  have e2 : ∑ q : CGIdx l1 l2, ((cgAll l1 l2 *ᵥ fun p => J p.1 p.2) q) ^ 2 = ∑ p : Fin (2 * l1 + 1) × Fin (2 * l2 + 1), J p.1 p.2 ^ 2 := by
    have h : ∀ {n : Type} [Fintype n] (v : n → ℝ), ∑ q, v q ^ 2 = v ⬝ᵥ v := fun v => by simp [dotProduct, sq]
    rw [h, Matrix.dotProduct_mulVec, ← Matrix.mulVec_transpose, Matrix.mulVec_mulVec, cgAll_complete, Matrix.one_mulVec]
    simp [dotProduct, sq]
  rw [Fintype.sum_prod_type] at e2
  rw [← e2]
  exact Finset.sum_congr rfl fun q _ => by rw [e1 q]

omit [Fintype β] [DecidableEq β] in
theorem sum_flatMap {γ δ : Type} (l : List γ) (f : γ → List δ) (g : δ → ℝ) : ((l.flatMap f).map g).sum = (l.map fun a => ((f a).map g).sum).sum := by
  induction l with
  | nil => rfl
  | cons a l ih => simp [ih]

omit [Fintype β] [DecidableEq β] in
theorem sum_swap {γ : Type} {n : ℕ} (l : List γ) (g : γ → Fin n → ℝ) : (l.map fun a => ∑ u, g a u).sum = ∑ u, (l.map fun a => g a u).sum := by
  induction l with
  | nil => simp
  | cons a l ih => simp [ih, Finset.sum_add_distrib]

/-- **C72 (nothing is lost).** The sum of the squares of the entries of `grad(f)(x)` (at the leading indices `a`, `b`) is the sum of the squares of all
partial derivatives of the entries of `f(x)` with respect to the entries of `x`. -/
theorem C72_norm {f : IArr (β → ℝ) → Except PyErr (IArr (α → ℝ))} {ms out : Irreps}
    {F : (Fin (dimOf (expand ms)) → β → ℝ) → Fin (dimOf (expand out)) → α → ℝ} (hf : Computes f ms out F) (rg : Bool)
    {x : IArr (β → ℝ)} (hx : x.Coherent) (hm : x.irreps = ms)
    (hd : ∀ k a, DifferentiableAt ℝ (fun X => F X k a) fun n => x.array.getD n 0) :
    ∃ r, grad f rg x = .ok r ∧ r.Coherent ∧ ∀ a b, (r.array.map fun c => c (a, b) ^ 2).sum =
      ∑ k, ∑ n, (fderiv ℝ (fun X => F X k a) (fun n => x.array.getD n 0) (Pi.single n (Pi.single b 1))) ^ 2 := by
  obtain ⟨w, x0, o, a1, a2, a3, a4, a5, a6, a7⟩ := grad_run hf.traced rg hx hm
  have hX : (fun n : Fin (dimOf (expand ms)) => x.array.getD n 0) = toArray w := by
    rw [a1]; funext n; rw [getD_ofFn]
  rw [hX] at hd ⊢
  obtain ⟨o1, p1, p2, p3, p4⟩ := blocks_spec f ms w out
  rw [a6] at p1; cases p1
  have hsum : ∀ (y : IArr (α × β → ℝ)), y.Coherent → ∀ a b, (y.array.map fun c => c (a, b) ^ 2).sum = (y.blocks.map fun q => (q.2.map fun c => c (a, b) ^ 2).sum).sum := by
    intro y hy a b
    rw [← hy.inv.array_eq_blocks, ← List.flatMap_def, sum_flatMap]
  have key : ∀ a b, (o.array.map fun c => c (a, b) ^ 2).sum = ∑ k, ∑ n, (fderiv ℝ (fun X => F X k a) (toArray w) (Pi.single n (Pi.single b 1))) ^ 2 := by
    intro a b
    rw [hsum o p2, p4]
    simp only [sum_flatMap, List.map_map, Function.comp_def, rowOf, List.map_ofFn, List.sum_ofFn]
    simp only [← Fin.sum_univ_def, sum_swap]
    have hpn : ∀ (s : Fin out.length) (t : Fin ms.length) (u : Fin (out.get s).mul) (v : Fin (ms.get t).mul),
        (((out.get s).ir.mul (ms.get t).ir).map fun ir => ∑ k : Fin (2 * ir.l + 1), (∑ i : Fin (2 * (out.get s).ir.l + 1), ∑ j : Fin (2 * (ms.get t).ir.l + 1), jac f ms w s u i a t v j b *
          (Real.sqrt ir.dim * clebschGordan (out.get s).ir.l (ms.get t).ir.l ir.l i j k)) ^ 2).sum =
        ∑ i : Fin (2 * (out.get s).ir.l + 1), ∑ j : Fin (2 * (ms.get t).ir.l + 1), (jac f ms w s u i a t v j b) ^ 2 := fun s t u v =>
      pair_norm (out.get s).ir (ms.get t).ir fun i j => jac f ms w s u i a t v j b
    simp only [hpn]
    simp only [jac_eq hf hd]
    rw [← Equiv.sum_comp (posEquiv out)]
    simp only [← Equiv.sum_comp (posEquiv ms)]
    simp only [Fintype.sum_sigma, Fintype.sum_prod_type]
    apply Finset.sum_congr rfl; intro s _
    rw [Finset.sum_comm]
    apply Finset.sum_congr rfl; intro u _
    rw [Finset.sum_congr rfl fun t _ => Finset.sum_comm, Finset.sum_comm]
  cases rg with
  | false => exact ⟨o, by simpa using a7, p2, key⟩
  | true =>
    simp only [if_true] at a7
    obtain ⟨r, g1, g2, g3, -⟩ := C17_regroup o p2
    refine ⟨r, a7.trans g1, g2, fun a b => ?_⟩
    rw [← key, hsum o p2, hsum r g2]
    exact (g3.map _).sum_eq

/-- **C72 (zero-flagged outputs).** Where the function returns an array with a term flagged as zero, `grad` raises `TypeError`. -/
theorem C72_flagged {f : IArr (β → ℝ) → Except PyErr (IArr (α → ℝ))} (rg : Bool) {x : IArr (β → ℝ)} (hx : x.Coherent)
    (h : ∀ x0 : IArr (β → ℝ), x0.Coherent → x0.irreps = x.irreps → x0.array = x.array → ∃ y, f x0 = .ok y ∧ y.Coherent ∧ true ∈ y.zeroFlags) :
    grad f rg x = .error .typeError := by
  obtain ⟨x0, a1, a2, a3, a4, -, a6⟩ := (C12_from_array x.irreps x.array).1 hx.array_length
  obtain ⟨x1, b1, b2, b3, b4⟩ : ∃ x1, fromChunks x0.irreps x0.chunks = .ok x1 ∧ x1.Coherent ∧ x1.irreps = x0.irreps ∧ x1.array = x0.array := by
    obtain ⟨p1, p2, p3, -, -, p6⟩ := a2.inv.pairs
    obtain ⟨z, h1, h2, h3, -, h5, -⟩ := fromChunks_pairs _ p1
    rw [p2, p3] at h1
    exact ⟨z, h1, h2.coherent, by rw [h3, p2], by rw [h5, p6]⟩
  obtain ⟨y, c1, c2, c3⟩ := h x1 b2 (b3.trans a3) (b4.trans a4)
  have hn : y.chunks.any Option.isNone = true := by
    rw [← c2.inv.pairs.2.2.2.2.1] at c3
    obtain ⟨p, hp, e⟩ := List.mem_map.mp c3
    rw [List.any_eq_true]
    exact ⟨p.2, (List.of_mem_zip (a := p.1) (b := p.2) hp).2, e⟩
  unfold grad
  simp only [a1, b1, bind, Except.bind, c1, hn, if_true]

omit [Fintype β] [DecidableEq β] in
/-- **C72 (flags of the argument).** The zero flags and cached chunks of the argument do not matter. -/
theorem C72_argument [Fintype β] [DecidableEq β] (f : IArr (β → ℝ) → Except PyErr (IArr (α → ℝ))) (rg : Bool) (x u : IArr (β → ℝ)) (h1 : x.irreps = u.irreps) (h2 : x.array = u.array) :
    grad f rg x = grad f rg u := by
  unfold grad
  rw [h1, h2]

/-! ### the example of the documentation -/

/-- `lambda x: 0.5 * e3nn.norm(x, squared=True, per_irrep=False)`, the example of grad.py:29 (for one irrep the two values of `per_irrep` agree). -/
noncomputable def halfNorm (x : IArr (β → ℝ)) : Except PyErr (IArr (β → ℝ)) := Basic.norm true false x >>= scale fun c => (1 / 2 : ℝ) • c

omit [Fintype β] [DecidableEq β] in
theorem halfNorm_computes (ms : Irreps) : Computes (β := β) halfNorm ms [⟨1, ⟨0, .e⟩⟩] fun X _ a => (1 / 2) * ∑ n, X n a ^ 2 := by
  intro x hx hm _
  obtain ⟨y, h1, h2, h3, h4, -, h6⟩ := (C12_from_array (α := β → ℝ) ([⟨1, ⟨0, .e⟩⟩] : Irreps) [Basic.normOf true x.array]).1 (by rfl)
  have hn : Basic.norm true false x = .ok y := by
    unfold Basic.norm
    rw [if_neg (by simp), Basic.normRow_eq]
    exact h1
  obtain ⟨z, g1, g2, g3, g4, g5⟩ := mapCols_spec (f := fun c : β → ℝ => (1 / 2 : ℝ) • c) (by simp) h2.inv
  refine ⟨z, ?_, g2.coherent, g3.trans h3, ?_, ?_⟩
  · unfold halfNorm
    rw [hn]
    show scale _ y = _
    unfold scale
    rw [h3]
    exact g1
  · rw [Unflagged, g5]
    intro z hz
    rw [← h2.inv.pairs.2.2.2.2.1] at hz
    obtain ⟨p, hp, rfl⟩ := List.mem_map.mp hz
    have := h6 p.2 (List.of_mem_zip (a := p.1) (b := p.2) hp).2
    cases h : p.2 with
    | none => exact absurd h this
    | some c => rfl
  · rw [g4, h4]
    subst hm
    have hl := hx.array_length
    obtain ⟨v, hv⟩ := exists_ofFn hl
    have e : dimOf (expand ([⟨1, ⟨0, .e⟩⟩] : Irreps)) = 1 := by decide
    have : (List.ofFn fun (_ : Fin (dimOf (expand ([⟨1, ⟨0, .e⟩⟩] : Irreps)))) => fun a : β => (1 / 2 : ℝ) * ∑ n : Fin (dimOf (expand x.irreps)), x.array.getD n 0 a ^ 2) =
        [fun a => (1 / 2 : ℝ) * ∑ n : Fin (dimOf (expand x.irreps)), x.array.getD n 0 a ^ 2] := by
      rw [List.ofFn_const, e]; rfl
    rw [this]
    simp only [List.map_cons, List.map_nil, List.cons.injEq, and_true]
    funext a
    simp only [Pi.smul_apply, smul_eq_mul, Basic.normOf, if_true, Basic.inner]
    congr 1
    rw [hv]
    simp only [getD_ofFn]
    rw [List.zipWith_self, List.map_ofFn, List.sum_ofFn]
    exact Finset.sum_congr rfl fun n _ => (sq _).symm

/-- **C72 (the gradient of half the squared norm).** `grad(lambda x: 0.5 * norm(x, squared=True))(x)` is `x`: the entry at the leading indices `a` of the
output and `b` of the argument is that of `x` for `a = b`, and 0 otherwise. -/
theorem C72_half_norm {x : IArr (β → ℝ)} (hx : x.Coherent) :
    ∃ r, grad halfNorm false x = .ok r ∧ r.Coherent ∧ r.irreps = x.irreps ∧ r.array = x.array.map fun c ab => if ab.1 = ab.2 then c ab.2 else 0 := by
  have hd : ∀ (a : β) (X : Fin (dimOf (expand x.irreps)) → β → ℝ), HasFDerivAt (fun X : Fin (dimOf (expand x.irreps)) → β → ℝ => (1 / 2 : ℝ) * ∑ n, X n a ^ 2)
      ((1 / 2 : ℝ) • ∑ n, (2 * X n a) • ((ContinuousLinearMap.proj (R := ℝ) (φ := fun _ : β => ℝ) a).comp
        (ContinuousLinearMap.proj (R := ℝ) (φ := fun _ : Fin (dimOf (expand x.irreps)) => β → ℝ) n))) X := by
    intro a X
    refine HasFDerivAt.const_mul (HasFDerivAt.fun_sum fun n _ => ?_) _
    have h := (((ContinuousLinearMap.proj (R := ℝ) (φ := fun _ : β => ℝ) a).comp
        (ContinuousLinearMap.proj (R := ℝ) (φ := fun _ : Fin (dimOf (expand x.irreps)) => β → ℝ) n)).hasFDerivAt (x := X)).pow 2
    refine h.congr_fderiv ?_
    ext d
    simp
  obtain ⟨r, h1, h2, h3, h4⟩ := C72_scalar (halfNorm_computes x.irreps) hx rfl fun _ a => (hd a _).differentiableAt
  refine ⟨r, h1, h2, h3, ?_⟩
  rw [h4]
  obtain ⟨v, hv⟩ := exists_ofFn hx.array_length
  rw [hv, List.map_ofFn]
  congr 1
  funext n ab
  rw [(hd ab.1 _).fderiv]
  simp only [getD_ofFn, Function.comp_apply]
  simp [_root_.sum_apply, Pi.single_apply]
  rw [Finset.sum_eq_single n (by intro m _ hm; rw [if_neg hm]; simp) (by simp), if_pos rfl, Pi.single_apply]
  split
  · rename_i e; rw [e]; ring
  · ring

omit [Fintype β] [DecidableEq β] in
/-- The hypothesis of `C72_equivariant` holds for this function: its value does not change under O(3). -/
theorem halfNorm_follows {R : Mat} (hR : R * Rᵀ = 1) (ms : Irreps) : Follows (β := β) R halfNorm halfNorm ms := by
  intro x x' x'' hx hm hz hx' hm' hz' hx'' he y y' y'' hy hy' hy''
  obtain ⟨z, a1, a2, a3, -, a5⟩ := halfNorm_computes ms x hx hm hz
  obtain ⟨z', b1, b2, b3, -, b5⟩ := halfNorm_computes ms x' hx' hm' hz'
  rw [hy] at a1; cases a1
  rw [hy'] at b1; cases b1
  obtain ⟨w, c1, c2, c3, -, c5⟩ := C59_transform R y a2
  rw [hy''] at c1; cases c1
  refine ⟨by rw [b3, c3, a3], ?_⟩
  have hy2 : y''.array = y.array := by
    rw [← c2.inv.array_eq_blocks, ← a2.inv.array_eq_blocks, c5]
    congr 1
    rw [List.map_map]
    apply List.map_congr_left
    intro b hb
    have hir : b.1 = ⟨0, .e⟩ := by
      have : b.1 ∈ y.blocks.map Prod.fst := List.mem_map_of_mem hb
      rw [blocks_irs, a3] at this
      simpa [expand] using this
    obtain ⟨v, hv⟩ := exists_ofFn (Basic.blocks_len a2.inv b hb)
    simp only [Function.comp_apply]
    rw [hv, matVec_ofFn (α := β → ℝ)]
    congr 1
    funext k
    obtain ⟨bi, bl⟩ := b
    simp only at hir
    subst hir
    have h1 : Wig.dMatrix ⟨0, .e⟩ R = 1 := by rw [Activ.dMatrix_scalar hR]; simp [Activ.scalarSign]
    simp [h1, Matrix.one_apply]
    intro h0
    exact absurd (Subsingleton.elim (α := Fin 1) k 0) h0
  rw [hy2, b5, a5]
  congr 1
  funext _ a
  show (1 / 2 : ℝ) * _ = (1 / 2 : ℝ) * _
  congr 1
  obtain ⟨x1, x2, d1, -, d3, -⟩ := Basic.C47_invariant _ (Basic.C47_O3 hR) x x hx hx
  have d1' : x.transformByMatrix R = .ok x1 := d1
  rw [hx''] at d1'; cases d1'
  obtain ⟨n, n', e1, e2, e3, e4⟩ := d3 true false
  obtain ⟨⟨m, f1, -, -, f4⟩, -⟩ := Basic.C47_norm_total true x hx
  obtain ⟨⟨m', g1, -, -, g4⟩, -⟩ := Basic.C47_norm_total true x' hx'
  rw [e1] at f1; cases f1
  have hn : Basic.normOf true x'.array = Basic.normOf true x.array := by
    have h2 : Basic.norm true false x' = .ok n' := by
      rw [← e2]; unfold Basic.norm; simp only [Bool.false_eq_true, if_false]; rw [he]
    rw [g1] at h2; cases h2
    rw [g4, f4] at e4
    exact (List.cons.inj e4).1
  have hsum : ∀ u : IArr (β → ℝ), u.Coherent → u.irreps = ms → ∑ n : Fin (dimOf (expand ms)), u.array.getD n 0 a ^ 2 = Basic.normOf true u.array a := by
    intro u hu hum
    subst hum
    obtain ⟨v, hv⟩ := exists_ofFn hu.array_length
    rw [hv]
    simp only [getD_ofFn, Basic.normOf, if_true, Basic.inner]
    rw [List.zipWith_self, List.map_ofFn, List.sum_ofFn]
    exact Finset.sum_congr rfl fun n _ => sq _
  rw [hsum x' hx' hm', hsum x hx hm, hn]

end E3nn.Grad
