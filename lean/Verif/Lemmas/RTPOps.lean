import Verif.Model.ReducedTP
import Verif.Props.C59
import Verif.Props.C69
import Verif.Props.C93

/-!
# The steps of `_reduced_tensor_product_basis`, block by block
-/

namespace E3nn.RTP

open E3nn.IArr E3nn.LinAlg E3nn.PermRepr

/-- The blocks of the identity on axis `i`. -/
theorem identityBasis_spec (i : ℕ) (irreps : Irreps) : ∃ y, identityBasis i irreps = .ok y ∧ Inv y ∧ y.irreps = irreps ∧
    y.array = (List.range irreps.dim).map (coord i) := by
  obtain ⟨y, h1, h2, h3, h4, -⟩ := (C12_from_array irreps ((List.range irreps.dim).map (coord i))).1
    (by rw [List.length_map, List.length_range, Irreps.dim_eq_dimOf_expand])
  exact ⟨y, h1, h2.inv, h3, h4⟩

/-- The products of the blocks of two lists. -/
noncomputable def products (filter : Option (List Irrep)) (B1 B2 : List (Irrep × List Ten)) : List (Irrep × List Ten) :=
  B1.flatMap fun b1 => B2.flatMap fun b2 => (TP.irsOut filter b1.1 b2.1).map fun ir =>
    (ir, bilinear (algebraMap ℝ Ten (Real.sqrt (2 * (ir.l : ℝ) + 1))) ((realCtx Ten).cg b1.1.l b2.1.l ir.l) b1.1.l b2.1.l ir.l b1.2 b2.2)

theorem allProducts_eq (filter : Option (List Irrep)) {B1 B2 : List (Irrep × List Ten)} (h1 : ∀ b ∈ B1, b.2.length = b.1.dim)
    (h2 : ∀ b ∈ B2, b.2.length = b.1.dim) : TP.allProducts (realCtx Ten) .component filter B1 B2 = products filter B1 B2 := by
  unfold TP.allProducts products
  apply List.flatMap_congr
  intro b1 hb1
  apply List.flatMap_congr
  intro b2 hb2
  apply List.map_congr_left
  intro ir _
  rw [normC_contract (realCtx_shape Ten) .component _ _ _ _ _ (h1 _ hb1) (h2 _ hb2)]
  congr 2
  simp [tpCoef, realCtx, Irrep.dim]

theorem reduceBasisProduct_spec (filter : Option (List Irrep)) {a b : IArr Ten} (ha : Inv a) (hb : Inv b) :
    ∃ y, reduceBasisProduct a b filter = .ok y ∧ Inv y ∧ y.blocks.Perm (products filter a.blocks b.blocks) := by
  obtain ⟨z1, a1, a2, a3, -, -, a5⟩ := C17_regroup a ha.coherent
  obtain ⟨z2, b1, b2, b3, -, -, b5⟩ := C17_regroup b hb.coherent
  have hc := (realCtx_shape Ten).ok
  have hs := TP.tpEntries_shaped hc .component filter a2.inv.pairs.1 b2.inv.pairs.1
  obtain ⟨w, w1, w2, w3, w4, w5, w6, w7, w8⟩ := fromChunks_pairs _ hs
  obtain ⟨y, y1, y2, y3, -⟩ := C17_regroup w w2.coherent
  refine ⟨y, ?_, y2.inv, ?_⟩
  · unfold reduceBasisProduct
    rw [a1, b1]
    simp only [bind, Except.bind]
    rw [FLin.mapM_ok _ (fun t _ => TP.path_eq (realCtx Ten) (n := .component) (by simp) TP.outer (t.1.1.mul * t.2.1.1.mul) t.1 t.2.1 t.2.2)]
    simp only
    have w1' := w1
    unfold TP.tpEntries at w1'
    rw [w1']
    exact y1
  · refine y3.trans ?_
    have hw : w.blocks = (TP.tpEntries (realCtx Ten) .component filter (z1.irreps.zip z1.chunks) (z2.irreps.zip z2.chunks)).flatMap blk := by
      rw [w2.blocks_pairs, w3, w7, List.zip_map']; simp
    rw [hw]
    refine (TP.tpEntries_perm hc .component filter a2.inv.pairs.1 b2.inv.pairs.1).trans ?_
    rw [← a2.inv.blocks_pairs, ← b2.inv.blocks_pairs]
    refine (TP.allProducts_perm _ .component filter a3 b3).trans (List.Perm.of_eq ?_)
    exact allProducts_eq filter (fun _ h => block_length ha.coherent h) fun _ h => block_length hb.coherent h

theorem rotBasis_blocks {x : IArr Ten} (hx : Inv x) (ir : Irrep) :
    rotBasis x ir = (x.blocks.filter fun b => decide (b.1 = ir)).map Prod.snd := by
  rw [hx.blocks_pairs]
  unfold rotBasis
  have hs := hx.pairs.1
  generalize x.irreps.zip x.chunks = ps at hs
  induction ps with
  | nil => rfl
  | cons p ps ih =>
    have hb : ∀ b ∈ blk p, b.1 = p.1.ir := fun b h => TP.blk_fst _ _ h
    have hp := hs p (by simp)
    rw [List.flatMap_cons, List.filter_append, List.map_append, ← ih (fun q hq => hs q (List.mem_cons_of_mem _ hq)), List.filter_cons]
    by_cases h : p.1.ir = ir
    · have e : (blk p).filter (fun b => decide (b.1 = ir)) = blk p := by
        rw [List.filter_eq_self]; intro b hbm; simp [hb b hbm, h]
      have e2 : (blk p).map Prod.snd = chunkRows p := by
        obtain ⟨m, c⟩ := p
        cases c with
        | some r => rw [blk_some hp, List.map_map]; simp [chunkRows, Function.comp_def]
        | none =>
          unfold chunkRows blk
          simp only [flatChunk, blocksOf_replicate]
          have key : ∀ n k : ℕ, k = n * m.ir.dim → (blocksOf (List.replicate n m.ir) (List.replicate k (0 : Ten))).map Prod.snd = List.replicate n (List.replicate m.ir.dim 0) := by
            intro n
            induction n with
            | zero => intro k _; rfl
            | succ n ihn =>
              intro k hk
              have hd : m.ir.dim = 2 * m.ir.l + 1 := rfl
              rw [Nat.succ_mul] at hk
              rw [List.replicate_succ, blocksOf, List.map_cons, List.drop_replicate, ihn _ (by omega), List.replicate_succ, List.take_replicate,
                hd, Nat.min_eq_left (by omega)]
          have := key m.mul _ (by rfl : m.dim = m.mul * m.ir.dim)
          rw [blocksOf_replicate] at this
          exact this
      rw [if_pos (by simpa using h), List.flatMap_cons, e, e2]
    · have e : (blk p).filter (fun b => decide (b.1 = ir)) = [] := by
        rw [List.filter_eq_nil_iff]; intro b hbm; simp [hb b hbm, h]
      rw [if_neg (by simpa using h), e]; rfl

/-- The coefficients that `basis_intersection` finds for one irrep. -/
noncomputable def coefs (eigh : Eigh) (eps : ℝ) (dims : List ℕ) (x : IArr Ten) (perm : List (List ℝ)) (ir : Irrep) :
    List (Fin (firstComponents dims (rotBasis x ir)).length → ℝ) :=
  (basisIntersection eigh eps (firstComponents dims (rotBasis x ir)) (permOpt (firstComponents dims (rotBasis x ir)) (perm.map (ofRow dims)))).1

theorem constrain_spec (eigh : Eigh) (eps : ℝ) (dims : List ℕ) {x : IArr Ten} (perm : List (List ℝ)) :
    ∃ y, constrain eigh eps dims x perm = .ok y ∧ Inv y ∧
      y.blocks = (distinctIrreps x.irreps).flatMap fun ir => (mix ir.dim (coefs eigh eps dims x perm ir) (rotBasis x ir)).map fun r => (ir, r) := by
  have hs : Shaped ((distinctIrreps x.irreps).map (constrainIr eigh eps dims x perm)) := by
    intro p hp
    obtain ⟨ir, -, rfl⟩ := List.mem_map.mp hp
    simp [constrainIr, shapeOk, mix]
  obtain ⟨w, w1, w2, w3, w4, w5, w6, w7, w8⟩ := fromChunks_pairs _ hs
  refine ⟨w, w1, w2, ?_⟩
  rw [w2.blocks_pairs, w3, w7, List.zip_map']
  simp only [List.map_id', Prod.mk.eta, List.flatMap_map]
  apply List.flatMap_congr
  intro ir hir
  have := hs (constrainIr eigh eps dims x perm ir) (List.mem_map_of_mem hir)
  simp only [constrainIr] at this ⊢
  rw [blk_some this]
  rfl

theorem mapCols_blocks {φ : Ten → Ten} (hφ : φ 0 = 0) {x : IArr Ten} (hx : Inv x) :
    ∃ y, x.mapCols φ = .ok y ∧ Inv y ∧ y.irreps = x.irreps ∧ y.blocks = x.blocks.map fun b => (b.1, b.2.map φ) := by
  obtain ⟨y, h1, h2, h3, h4, -⟩ := mapCols_spec hφ hx
  refine ⟨y, h1, h2, h3, ?_⟩
  unfold IArr.blocks
  rw [h3, h4, blocksOf_map]

theorem filter_blocks {x : IArr Ten} (hx : Inv x) (l : List Irrep) :
    ∃ y, x.filter (some (.irs l)) none none = .ok y ∧ Inv y ∧ y.blocks = x.blocks.filter fun b => decide (b.1 ∈ l) := by
  obtain ⟨y, h1, h2, h3, h4⟩ := C18_filter x hx.coherent (.keep l)
  refine ⟨y, h1, h2.inv, ?_⟩
  rw [blocks_eq, blocks_eq, h3]
  generalize x.terms = ts
  induction ts with
  | nil => rfl
  | cons t ts ih =>
    rw [List.flatMap_cons, List.filter_append, ← ih, List.filter_cons]
    have hb : ∀ b ∈ blocksOf (List.replicate t.1.mul t.1.ir) t.2, b.1 = t.1.ir := by
      intro b hb
      have : b.1 ∈ (blocksOf (List.replicate t.1.mul t.1.ir) t.2).map Prod.fst := List.mem_map_of_mem hb
      rw [blocksOf_fst] at this
      exact List.eq_of_mem_replicate this
    by_cases h : t.1.ir ∈ l
    · rw [if_pos (decide_eq_true (show IrCrit.sat (.keep l) t.1.ir from h)), List.flatMap_cons]
      congr 1
      symm
      rw [List.filter_eq_self]; intro b hbm; simp [hb b hbm, h]
    · rw [if_neg (by rw [decide_eq_true_iff]; exact h)]
      symm
      have : (blocksOf (List.replicate t.1.mul t.1.ir) t.2).filter (fun b => decide (b.1 ∈ l)) = [] := by
        rw [List.filter_eq_nil_iff]; intro b hbm; simp [hb b hbm, h]
      rw [this]; rfl

end E3nn.RTP
