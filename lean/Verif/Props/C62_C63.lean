import Verif.Props.C47
import Verif.Lemmas.Axis

/-! # C62: `sum` and `mean`; C63: `stack` and `concatenate` along a leading axis -/

namespace E3nn.Basic

open E3nn.IArr E3nn.Wig Matrix

variable {ι κ : Type}

/-! ## C62 -/

/-- The irreps of one term (specification: the term cut into its irreps). -/
def rowsOfTerm {α : Type} (t : MulIrrep × List α) : List (List α) := (blocksOf (List.replicate t.1.mul t.1.ir) t.2).map Prod.snd

/-- The sum of the irreps of one term times `c`, component by component. -/
noncomputable def termSum (c : ℕ → ℝ) (t : MulIrrep × List (ι → ℝ)) : Irrep × List (ι → ℝ) :=
  (t.1.ir, (List.range (2 * t.1.ir.l + 1)).map fun j => c t.1.mul • ((rowsOfTerm t).map fun r => r.getD j 0).sum)

theorem reduceRows_none (c : ℕ → ℝ) (m : MulIrrep) :
    List.replicate m.ir.dim (0 : ι → ℝ) = (termSum c (tm (m, none))).2 := by
  unfold termSum rowsOfTerm tm
  have hb := blk_none (α := ι → ℝ) m
  unfold blk at hb
  simp only at hb ⊢
  rw [hb]
  symm
  have : ∀ j, (List.map (fun r => r.getD j 0) (List.map Prod.snd (List.replicate m.mul (m.ir, List.replicate m.ir.dim (0 : ι → ℝ))))).sum = 0 := by
    intro j
    apply List.sum_eq_zero
    intro a ha
    simp only [List.map_replicate] at ha
    rw [(List.mem_replicate.mp ha).2]
    simp only [List.getD_eq_getElem?_getD, List.getElem?_replicate]
    split <;> rfl
  simp only [this, smul_zero]
  rw [List.map_const']
  simp [Irrep.dim]

theorem rowsOfTerm_some {m : MulIrrep} {rows : List (List (ι → ℝ))} (h : shapeOk m (some rows) = true) : rowsOfTerm (tm (m, some rows)) = rows := by
  have hb := blk_some (α := ι → ℝ) h
  unfold blk at hb
  unfold rowsOfTerm tm
  simp only at hb ⊢
  rw [hb, List.map_map]
  exact List.map_id _

/-- The reduced term. -/
def RT (op : List (ι → ℝ) → ι → ℝ) (p : MulIrrep × Chunk (ι → ℝ)) : MulIrrep × Chunk (ι → ℝ) := (⟨1, p.1.ir⟩, p.2.map (reduceRows op p.1.ir.dim))

theorem reduceLast_spec (c : ℕ → ℝ) (op : List (ι → ℝ) → ι → ℝ) (hop : ∀ l, op l = c l.length • l.sum) {x : IArr (ι → ℝ)} (hx : Inv x) :
    ∃ y, reduceLast op x = .ok y ∧ Inv y ∧ y.irreps = x.irreps.map (fun m => ⟨1, m.ir⟩) ∧ y.zeroFlags = x.zeroFlags ∧ y.blocks = x.terms.map (termSum c) := by
  have hp := hx.pairs
  have hsh : ∀ p ∈ x.irreps.zip x.chunks, shapeOk (RT op p).1 (RT op p).2 = true ∧ blk (RT op p) = [termSum c (tm p)] := by
    rintro ⟨m, ch⟩ h
    have h1 := hp.1 _ h
    cases ch with
    | none =>
      refine ⟨rfl, ?_⟩
      show blk ((⟨1, m.ir⟩ : MulIrrep), none) = _
      rw [blk_none, reduceRows_none c m]
      rfl
    | some rows =>
      have hs : shapeOk (RT op (m, some rows)).1 (RT op (m, some rows)).2 = true := by
        simp [RT, reduceRows, shapeOk]
      refine ⟨hs, ?_⟩
      change shapeOk (⟨1, m.ir⟩ : MulIrrep) (some (reduceRows op m.ir.dim rows)) = true at hs
      show blk ((⟨1, m.ir⟩ : MulIrrep), some (reduceRows op m.ir.dim rows)) = _
      rw [blk_some hs]
      simp only [reduceRows, List.map_cons, List.map_nil, termSum, rowsOfTerm_some h1, hop]
      simp only [shapeOk, Bool.and_eq_true, beq_iff_eq, List.all_eq_true] at h1
      simp only [List.length_map, h1.1]
      rfl
  obtain ⟨y, e1, e2, e3, e4, e5, e6⟩ := fromChunks_of_pairs ((x.irreps.zip x.chunks).map (RT op))
    (by intro q h; obtain ⟨p, hpm, rfl⟩ := List.mem_map.mp h; exact (hsh p hpm).1)
    (ms := x.irreps.map fun m => ⟨1, m.ir⟩) (cs := (x.irreps.zip x.chunks).map fun p => p.2.map (reduceRows op p.1.ir.dim))
    (by conv_lhs => rw [← hp.2.1]
        rw [List.map_map, List.map_map]; rfl)
    (by rw [List.map_map]; rfl)
  refine ⟨y, e1, e2, e3, ?_, ?_⟩
  · rw [e5, ← hp.2.2.2.2.1, List.map_map]
    apply List.map_congr_left
    rintro ⟨m, ch⟩ _
    cases ch <;> rfl
  · rw [e6, ← hp.2.2.2.1, List.flatMap_map, List.map_map]
    have : ∀ l : List (MulIrrep × Chunk (ι → ℝ)), (∀ p ∈ l, blk (RT op p) = [termSum c (tm p)]) → l.flatMap (fun p => blk (RT op p)) = l.map (termSum c ∘ tm) := by
      intro l hl
      induction l with
      | nil => rfl
      | cons p l ih =>
        rw [List.flatMap_cons, hl p (by simp), ih fun q hq => hl q (by simp [hq])]
        rfl
    exact this _ fun p h => (hsh p h).2

/-- **C62 (sum and mean over the irreps axis).** `sum(x, axis=-1)` has one irrep per term: the sum of the irreps of that term;
`mean` divides it by the multiplicity (for non-empty terms). -/
theorem C62_sum_mean (x : IArr (ι → ℝ)) (hx : x.Coherent) :
    (∃ y, sumLast x = .ok y ∧ y.Coherent ∧ y.irreps = x.irreps.map (fun m => ⟨1, m.ir⟩) ∧ y.blocks = x.terms.map (termSum fun _ => 1)) ∧
    (∃ y, meanLast x = .ok y ∧ y.Coherent ∧ y.irreps = x.irreps.map (fun m => ⟨1, m.ir⟩) ∧ y.blocks = x.terms.map (termSum fun n => 1 / n)) := by
  constructor
  · obtain ⟨y, h1, h2, h3, -, h4⟩ := reduceLast_spec (fun _ => 1) List.sum (by simp) hx.inv
    exact ⟨y, h1, h2.coherent, h3, h4⟩
  · obtain ⟨y, h1, h2, h3, -, h4⟩ := reduceLast_spec (fun n => 1 / n) (fun l (i : ι) => l.sum i / l.length)
      (by intro l; funext i; simp only [Pi.smul_apply, smul_eq_mul]; ring) hx.inv
    exact ⟨y, h1, h2.coherent, h3, h4⟩

/-! ### equivariance -/

theorem getD_matVec {n : ℕ} (M : Matrix (Fin n) (Fin n) ℝ) (v : Fin n → ι → ℝ) (j : ℕ) (hj : j < n) :
    (matVec (matRows M) (List.ofFn v)).getD j 0 = ∑ k, M ⟨j, hj⟩ k • v k := by
  rw [matVec_ofFn, List.getD_eq_getElem?_getD, List.getElem?_ofFn, dif_pos hj]
  rfl

theorem termSum_tr (c : ℕ → ℝ) {n : ℕ} (M : Matrix (Fin n) (Fin n) ℝ) (rows : List (List (ι → ℝ))) (h : ∀ r ∈ rows, r.length = n) (a : ℝ) :
    (List.range n).map (fun j => a • ((rows.map (matVec (matRows M))).map fun r => r.getD j 0).sum) =
      matVec (matRows M) ((List.range n).map fun j => a • (rows.map fun r => r.getD j 0).sum) := by
  have e : (List.range n).map (fun j => a • (rows.map fun r => r.getD j 0).sum) = List.ofFn fun k : Fin n => a • (rows.map fun r => r.getD k 0).sum := by
    apply List.ext_getElem (by simp)
    intro j h1 h2
    simp
  rw [e, matVec_ofFn]
  apply List.ext_getElem (by simp)
  intro j h1 h2
  have hj : j < n := by simpa using h1
  simp only [List.getElem_map, List.getElem_range, List.getElem_ofFn, List.map_map]
  have key : ∀ rows : List (List (ι → ℝ)), (∀ r ∈ rows, r.length = n) →
      (rows.map ((fun r => r.getD j 0) ∘ matVec (matRows M))).sum = ∑ k : Fin n, M ⟨j, hj⟩ k • (rows.map fun r => r.getD k 0).sum := by
    intro rows h
    induction rows with
    | nil => simp
    | cons r rows ih =>
      simp only [List.map_cons, List.sum_cons, smul_add, Finset.sum_add_distrib]
      rw [ih fun q hq => h q (by simp [hq])]
      congr 1
      obtain ⟨v, rfl⟩ := exists_ofFn (h r (by simp))
      rw [Function.comp_apply, getD_matVec M v j hj]
      refine Finset.sum_congr rfl fun k _ => ?_
      rw [List.getD_eq_getElem?_getD, List.getElem?_ofFn, dif_pos k.2]
      rfl
  rw [key rows h, Finset.smul_sum]
  refine Finset.sum_congr rfl fun k _ => ?_
  rw [smul_comm]

theorem reduceLast_equivariant (M : (ir : Irrep) → Matrix (Fin (2 * ir.l + 1)) (Fin (2 * ir.l + 1)) ℝ) (x : IArr (ι → ℝ)) (hx : x.Coherent)
    (c : ℕ → ℝ) (op : List (ι → ℝ) → ι → ℝ) (hop' : ∀ l, op l = c l.length • l.sum) :
    ∃ x' y y' z, x.transform (fun ir => matRows (M ir)) = .ok x' ∧ reduceLast op x = .ok y ∧ y.transform (fun ir => matRows (M ir)) = .ok y' ∧
      reduceLast op x' = .ok z ∧ z.irreps = y'.irreps ∧ z.array = y'.array ∧ z.zeroFlags = y'.zeroFlags := by
  obtain ⟨x', x1, x2⟩ := transformBy_spec (Act_matRows (α := ι → ℝ) M) hx.inv
  obtain ⟨y, y1, y2, y3, y4, y5⟩ := reduceLast_spec c op hop' hx.inv
  obtain ⟨y', w1, w2⟩ := transformBy_spec (Act_matRows (α := ι → ℝ) M) y2
  obtain ⟨z, z1, z2, z3, z4, z5⟩ := reduceLast_spec c op hop' x2.inv'
  have hb : z.blocks = y'.blocks := by
    rw [z5, w2.blocks (Act_matRows M), y5, ← x2.inv'.pairs.2.2.2.1, x2.pairs, ← hx.inv.pairs.2.2.2.1]
    simp only [List.map_map]
    apply List.map_congr_left
    rintro ⟨m, ch⟩ hmem
    have hs := hx.inv.pairs.1 _ hmem
    have hs' := T_shaped (Act_matRows (α := ι → ℝ) M) (ps := [(m, ch)]) (by intro q hq; rw [List.mem_singleton.mp hq]; exact hs) (T (fun ir => matVec (matRows (M ir))) (m, ch)) (by simp)
    cases ch with
    | none =>
      simp only [Function.comp_apply, T, actRows, Option.map_none, TB]
      have e := reduceRows_none (ι := ι) c m
      have hl : (termSum c (tm (m, (none : Chunk (ι → ℝ))))).1 = m.ir := rfl
      rw [hl, ← e, (Act_matRows (α := ι → ℝ) M).zero]
      refine Prod.ext rfl ?_
      exact e.symm
    | some rows =>
      simp only [Function.comp_apply, TB]
      simp only [T, actRows, Option.map_some] at hs' ⊢
      unfold termSum
      rw [rowsOfTerm_some hs', rowsOfTerm_some hs]
      simp only [tm]
      refine Prod.ext rfl ?_
      simp only [shapeOk, Bool.and_eq_true, beq_iff_eq, List.all_eq_true] at hs
      exact termSum_tr c (M m.ir) rows hs.2 (c m.mul)
  refine ⟨x', y, y', z, x1, y1, w1, z1, ?_, ?_, ?_⟩
  · rw [z3, w2.irreps, y3, x2.irreps]
  · rw [← z2.array_eq_blocks, hb, w2.inv'.array_eq_blocks]
  · rw [z4, w2.flags, y4, x2.flags]

/-- **C62 (equivariance).** `sum` and `mean` over the irreps axis commute with every linear action on the irreps. -/
theorem C62_equivariant (M : (ir : Irrep) → Matrix (Fin (2 * ir.l + 1)) (Fin (2 * ir.l + 1)) ℝ) (x : IArr (ι → ℝ)) (hx : x.Coherent) :
    (∃ x' y y' z, x.transform (fun ir => matRows (M ir)) = .ok x' ∧ sumLast x = .ok y ∧ y.transform (fun ir => matRows (M ir)) = .ok y' ∧
      sumLast x' = .ok z ∧ z.irreps = y'.irreps ∧ z.array = y'.array ∧ z.zeroFlags = y'.zeroFlags) ∧
    (∃ x' y y' z, x.transform (fun ir => matRows (M ir)) = .ok x' ∧ meanLast x = .ok y ∧ y.transform (fun ir => matRows (M ir)) = .ok y' ∧
      meanLast x' = .ok z ∧ z.irreps = y'.irreps ∧ z.array = y'.array ∧ z.zeroFlags = y'.zeroFlags) :=
  ⟨reduceLast_equivariant M x hx (fun _ => 1) _ (by simp), reduceLast_equivariant M x hx (fun n => 1 / n) _
    (by intro l; funext i; simp only [Pi.smul_apply, smul_eq_mul]; ring)⟩

/-- **C62 (leading axes).** Reducing leading axes by a linear operation (a sum, a mean) acts on every component of the array, keeps the irreps
and the zero flags, and the result is coherent; it commutes with every action on the irreps. -/
theorem C62_leading (op : (ι → ℝ) →ₗ[ℝ] (κ → ℝ)) (x : IArr (ι → ℝ)) (hx : x.Coherent) :
    (∃ y, reduceLeading op x = .ok y ∧ y.Coherent ∧ y.irreps = x.irreps ∧ y.array = x.array.map op ∧ y.zeroFlags = x.zeroFlags) ∧
    ∀ M : (ir : Irrep) → Matrix (Fin (2 * ir.l + 1)) (Fin (2 * ir.l + 1)) ℝ,
      ∃ x' y y' z, x.transform (fun ir => matRows (M ir)) = .ok x' ∧ reduceLeading op x = .ok y ∧ y.transform (fun ir => matRows (M ir)) = .ok y' ∧
        reduceLeading op x' = .ok z ∧ z.irreps = y'.irreps ∧ z.array = y'.array ∧ z.zeroFlags = y'.zeroFlags := by
  have spec : ∀ {x : IArr (ι → ℝ)}, Inv x → ∃ y, reduceLeading op x = .ok y ∧ Inv y ∧ y.irreps = x.irreps ∧ y.array = x.array.map op ∧ y.zeroFlags = x.zeroFlags := by
    intro x hx
    have hf : Inv x.force := ⟨hx.flags, fun cs h => by
      simp only [force, Option.some.injEq] at h
      rw [← h]; exact hx.chunks_eq⟩
    obtain ⟨y, h1, h2, h3, h4, h5⟩ := mapCols_spec (f := op) (by simp) hf
    exact ⟨y, h1, h2, h3, h4, h5⟩
  obtain ⟨y, y1, y2, y3, y4, y5⟩ := spec hx.inv
  refine ⟨⟨y, y1, y2.coherent, y3, y4, y5⟩, fun M => ?_⟩
  obtain ⟨x', x1, x2⟩ := transformBy_spec (Act_matRows (α := ι → ℝ) M) hx.inv
  obtain ⟨z, z1, z2, z3, z4, z5⟩ := spec x2.inv'
  obtain ⟨y', w1, w2⟩ := transformBy_spec (Act_matRows (α := κ → ℝ) M) y2
  refine ⟨x', y, y', z, x1, y1, w1, z1, by rw [z3, w2.irreps, y3, x2.irreps], ?_, by rw [z5, w2.flags, y5, x2.flags]⟩
  have hb : z.blocks = y'.blocks := by
    rw [w2.blocks (Act_matRows M)]
    have e1 : z.blocks = x'.blocks.map fun b => (b.1, b.2.map op) := by
      unfold blocks; rw [z3, z4, blocksOf_map']
    have e2 : y.blocks = x.blocks.map fun b => (b.1, b.2.map op) := by
      unfold blocks; rw [y3, y4, blocksOf_map']
    rw [e1, e2, x2.blocks (Act_matRows M), List.map_map, List.map_map]
    apply List.map_congr_left
    intro b _
    simp only [Function.comp_apply, TB]
    rw [matVec_map]
  rw [← z2.array_eq_blocks, hb, w2.inv'.array_eq_blocks]
where
  blocksOf_map' {s : List Irrep} {a : List (ι → ℝ)} : blocksOf s (a.map op) = (blocksOf s a).map fun b => (b.1, b.2.map op) := by
    induction s generalizing a with
    | nil => rfl
    | cons ir s ih => simp only [blocksOf, List.map_cons, ← List.map_take, ← List.map_drop, ih]

/-! ## C63 -/

section stack
variable {α : Type} [Zero α]

theorem lists_ext {n : ℕ} (hn : 0 < n) {l l' : List (Fin n → α)} (h : ∀ k, l.map (fun v => v k) = l'.map fun v => v k) : l = l' := by
  have hl : l.length = l'.length := by simpa using congrArg List.length (h ⟨0, hn⟩)
  apply List.ext_getElem hl
  intro j h1 h2
  funext k
  have := congrArg (fun l : List α => l[j]?) (h k)
  simpa [h1, h2] using this

theorem getD_pair {x : IArr α} (hx : Inv x) {i : ℕ} {m : MulIrrep} (hm : x.irreps[i]? = some m) :
    (m, x.chunks.getD i none) ∈ x.irreps.zip x.chunks ∧ (x.zeroFlags.getD i false = true → x.chunks.getD i none = none) ∧
      (x.irreps.zip x.chunks)[i]? = some (m, x.chunks.getD i none) := by
  have hp := hx.pairs
  have hc : i < x.chunks.length := by
    rw [chunks_length hx]
    exact (List.getElem?_eq_some_iff.mp hm).1
  have e : (x.irreps.zip x.chunks)[i]? = some (m, x.chunks.getD i none) := by
    rw [List.getElem?_zip_eq_some]
    exact ⟨hm, by simp [List.getD_eq_getElem?_getD, hc]⟩
  refine ⟨List.mem_of_getElem? e, ?_, e⟩
  intro hz
  rw [← hp.2.2.2.2.1, List.getD_eq_getElem?_getD, List.getElem?_map, e] at hz
  simpa using hz

/-- The chunk of term `i` of the stack. -/
def stackChunk (xs : List (IArr α)) (m : MulIrrep) (z : Bool) (i : ℕ) : Chunk (Fin xs.length → α) :=
  if z then none
  else some ((List.range m.mul).map fun u => (List.range m.ir.dim).map fun j => fun k : Fin xs.length =>
    match (xs.get k).chunks.getD i none with
    | none => 0
    | some rows => ((rows.getD u []).getD j 0))

theorem stackChunk_shape (xs : List (IArr α)) (m : MulIrrep) (z : Bool) (i : ℕ) : shapeOk m (stackChunk xs m z i) = true := by
  unfold stackChunk
  cases z <;> simp [shapeOk]

theorem stackChunk_eval (xs : List (IArr α)) (hx : ∀ x ∈ xs, Inv x) {ms : Irreps} (hms : ∀ x ∈ xs, x.irreps = ms) {m : MulIrrep} {i : ℕ} (hm : ms[i]? = some m)
    (k : Fin xs.length) :
    (flatChunk m (stackChunk xs m (xs.all fun x => x.zeroFlags.getD i false) i)).map (fun v => v k) = flatChunk m ((xs.get k).chunks.getD i none) := by
  have hk := hx _ (List.get_mem xs k)
  obtain ⟨h1, h2, -⟩ := getD_pair hk (i := i) (m := m) (by rw [hms _ (List.get_mem xs k)]; exact hm)
  have hs := hk.pairs.1 _ h1
  by_cases hz : (xs.all fun x => x.zeroFlags.getD i false) = true
  · rw [hz]
    rw [h2 (List.all_eq_true.mp hz _ (List.get_mem xs k))]
    simp [stackChunk, flatChunk]
  · rw [Bool.not_eq_true] at hz
    rw [hz]
    simp only [stackChunk, Bool.false_eq_true, if_false, flatChunk, List.map_flatten, List.map_map, Function.comp_def]
    simp only at hs
    cases hch : (xs.get k).chunks.getD i none with
    | none =>
      simp only [List.map_const', List.length_range, List.flatten_replicate_replicate, MulIrrep.dim]
    | some rows =>
      rw [hch] at hs
      simp only [shapeOk, Bool.and_eq_true, beq_iff_eq, List.all_eq_true] at hs
      simp only
      congr 1
      apply List.ext_getElem (by simp [hs.1])
      intro u h1 h2
      simp only [List.getElem_map, List.getElem_range]
      apply List.ext_getElem (by simp [hs.2 _ (List.getElem_mem h2)])
      intro j h3 h4
      simp [h2, h4]

/-- **C63.** `stack(arrays)` (and `concatenate` along a leading axis) of at least one array, all with the same irreps: entry `k` of the result along the new
axis is array number `k`; the irreps are kept; a term is flagged zero only if it is flagged in every array; and the result is coherent. -/
theorem C63_stack (xs : List (IArr α)) (hne : xs ≠ []) (hx : ∀ x ∈ xs, x.Coherent) (ms : Irreps) (hms : ∀ x ∈ xs, x.irreps = ms) :
    ∃ y, stack xs = .ok y ∧ y.Coherent ∧ y.irreps = ms ∧ (∀ k, y.array.map (fun v => v k) = (xs.get k).array) ∧
      (∀ i, i < ms.length → y.zeroFlags[i]? = some (xs.all fun x => x.zeroFlags[i]? = some true)) := by
  have hI : ∀ x ∈ xs, Inv x := fun x h => (hx x h).inv
  have hn : 0 < xs.length := List.length_pos_iff.mpr hne
  set fl := fun i : ℕ => xs.all fun x => x.zeroFlags.getD i false with hfl
  set ps := ms.zipIdx.map (fun q => (q.1, stackChunk xs q.1 (fl q.2) q.2)) with hps
  have hsh : Shaped ps := by
    intro p hp
    obtain ⟨q, -, rfl⟩ := List.mem_map.mp hp
    exact stackChunk_shape _ _ _ _
  obtain ⟨s1, s2, s3⟩ := pairs_spec ps hsh
  have f1 : ps.map Prod.fst = ms := by
    rw [hps, List.map_map]
    exact List.zipIdx_map_fst 0 ms
  have f2 : ps.map (fun p => p.2.isNone) = (List.range ms.length).map fl := by
    rw [hps, List.map_map]
    have : ∀ q : MulIrrep × ℕ, ((fun p : MulIrrep × Chunk (Fin xs.length → α) => p.2.isNone) ∘ fun q : MulIrrep × ℕ => (q.1, stackChunk xs q.1 (fl q.2) q.2)) q = fl q.2 := by
      intro q
      simp only [Function.comp_apply, stackChunk]
      cases fl q.2 <;> rfl
    rw [funext this, show (fun q : MulIrrep × ℕ => fl q.2) = fl ∘ Prod.snd from rfl, ← List.map_map, List.zipIdx_map_snd, List.range'_eq_map_range]
    simp
  have f3 : ps.map Prod.snd = (ms.zip ((List.range ms.length).map fl)).zipIdx.map fun q => stackChunk xs q.1.1 q.1.2 q.2 := by
    rw [hps, List.map_map]
    apply List.ext_getElem (by simp)
    intro i h1 h2
    simp
  have f4 : (ps.map fun p => flatChunk p.1 p.2).flatten = (List.range ms.dim).map fun j => fun k : Fin xs.length => (xs.get k).array.getD j 0 := by
    apply lists_ext hn
    intro k
    have hk := hI _ (List.get_mem xs k)
    have hki := hms _ (List.get_mem xs k)
    have e1 : ((List.range ms.dim).map fun j => fun k : Fin xs.length => (xs.get k).array.getD j 0).map (fun v => v k) = (xs.get k).array := by
      rw [List.map_map]
      simp only [Function.comp_def, List.getD_eq_getElem?_getD]
      exact range_map_getD _ _ _ (by rw [hk.length_array, hki])
    rw [e1, ← hk.pairs.2.2.2.2.2, List.map_flatten, List.map_map]
    congr 1
    rw [hps, List.map_map]
    apply List.ext_getElem?
    intro i
    rw [List.getElem?_map, List.getElem?_map, List.getElem?_zipIdx]
    cases hm : ms[i]? with
    | none =>
      have : ((xs.get k).irreps.zip (xs.get k).chunks)[i]? = none := by
        rw [List.getElem?_eq_none_iff, List.length_zip]
        rw [List.getElem?_eq_none_iff] at hm
        rw [hki]; omega
      rw [this]; rfl
    | some m =>
      rw [(getD_pair hk (i := i) (m := m) (by rw [hki]; exact hm)).2.2]
      simp only [Option.map_some, Function.comp_apply, Nat.zero_add, Option.some.injEq]
      exact stackChunk_eval xs hI hms hm k
  rw [f1, f2, f3] at s2
  rw [f1, f2] at s1
  have hmk := make_cache s1
  rw [s2, f4] at hmk
  have hinv : Inv (⟨ms, (List.range ms.dim).map fun j => fun k : Fin xs.length => (xs.get k).array.getD j 0, some ((List.range ms.length).map fl),
      some ((ms.zip ((List.range ms.length).map fl)).zipIdx.map fun q => stackChunk xs q.1.1 q.1.2 q.2)⟩ : IArr (Fin xs.length → α)) := by
    rw [f4] at s1 s2
    exact ⟨s1, fun cs h => by
      simp only [Option.some.injEq] at h
      rw [← h]; exact s2.symm⟩
  refine ⟨_, ?_, hinv.coherent, rfl, ?_, ?_⟩
  · obtain ⟨x0, xs', rfl⟩ := List.exists_cons_of_ne_nil hne
    have h0 : x0.irreps = ms := hms x0 (by simp)
    unfold stack
    simp only
    rw [if_neg (by
      simp only [List.any_eq_true, decide_eq_true_eq, not_exists, not_and, not_not]
      intro x hx; rw [hms x hx, h0]), h0]
    exact hmk
  · intro k
    have hk := hI _ (List.get_mem xs k)
    simp only [List.map_map, Function.comp_def, List.getD_eq_getElem?_getD]
    exact range_map_getD _ _ _ (by rw [hk.length_array, hms _ (List.get_mem xs k)])
  · intro i hi
    show ((List.range ms.length).map fl)[i]? = _
    simp only [List.getElem?_map, List.getElem?_range hi, Option.map_some, Option.some.injEq, hfl]
    congr 1
    funext x
    rw [List.getD_eq_getElem?_getD]
    cases hh : (zeroFlags x)[i]? with
    | none => rfl
    | some b => cases b <;> rfl

/-- No array, or arrays with different irreps: `ValueError`. -/
theorem C63_refuses (xs : List (IArr α)) (h : xs = [] ∨ ∃ x ∈ xs, ∃ y ∈ xs, x.irreps ≠ y.irreps) : ∃ e, stack xs = .error e ∧ e = .valueError := by
  refine ⟨_, ?_, rfl⟩
  match xs, h with
  | [], _ => rfl
  | x0 :: xs', h =>
    rcases h with h | ⟨x, hx, y, hy, hne⟩
    · cases h
    · unfold stack
      simp only
      rw [if_pos]
      rw [List.any_eq_true]
      by_cases h1 : x.irreps = x0.irreps
      · exact ⟨y, hy, by simp only [decide_eq_true_eq]; rw [← h1]; exact fun h => hne h.symm⟩
      · exact ⟨x, hx, by simpa using h1⟩

/-- A concrete case of C63: two arrays `1e`, one of them flagged zero. -/
example : ∃ y, stack (α := ℤ) [⟨[⟨1, ⟨1, .e⟩⟩], [1, 2, 3], none, none⟩, ⟨[⟨1, ⟨1, .e⟩⟩], [0, 0, 0], none, none⟩] = .ok y ∧
    y.array.map (fun v => v 0) = [1, 2, 3] := by
  obtain ⟨y, h1, -, -, h4, -⟩ := C63_stack (α := ℤ) [⟨[⟨1, ⟨1, .e⟩⟩], [1, 2, 3], none, none⟩, ⟨[⟨1, ⟨1, .e⟩⟩], [0, 0, 0], none, none⟩] (by simp)
    (by intro x hx
        simp only [List.mem_cons, List.not_mem_nil, or_false] at hx
        rcases hx with rfl | rfl <;> exact coherent_plain _ _ rfl) [⟨1, ⟨1, .e⟩⟩]
    (by intro x hx
        simp only [List.mem_cons, List.not_mem_nil, or_false] at hx
        rcases hx with rfl | rfl <;> rfl)
  exact ⟨y, h1, h4 0⟩

/-- A concrete case of C62: the sum of `2x0e + 1x0e` is `[1 + 2, 3]`. -/
example : ∃ y, sumLast (ι := Unit) ⟨[⟨2, ⟨0, .e⟩⟩, ⟨1, ⟨0, .e⟩⟩], [1, 2, 3], none, none⟩ = .ok y ∧ y.blocks = [(⟨0, .e⟩, [3]), (⟨0, .e⟩, [3])] := by
  obtain ⟨y, h1, -, -, h4⟩ := (C62_sum_mean (ι := Unit) _ (coherent_plain [⟨2, ⟨0, .e⟩⟩, ⟨1, ⟨0, .e⟩⟩] [1, 2, 3] rfl)).1
  refine ⟨y, h1, ?_⟩
  rw [h4]
  have e : ∀ t : ℝ, ((1 : Unit → ℝ) + ((2 : Unit → ℝ) + 0)) = 3 := by intro _; funext i; norm_num
  simp [IArr.terms, termsOf, termSum, rowsOfTerm, blocksOf, MulIrrep.dim, Irrep.dim]
  funext i; norm_num

end stack

end E3nn.Basic
