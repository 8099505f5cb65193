import Verif.Lemmas.TensorSquare
import Verif.Props.C28_C32

/-!
# C33-C35: tensor products

`ctx.cg` are the Clebsch-Gordan tensors and `ctx.sqrt` the square root; only the shape of the
tensors is assumed, except in C35 where they are assumed to intertwine the action.
-/

namespace E3nn
open IArr TP

/-- `irrep c` is allowed in the product of `a` and `b`: triangle rule, parity, and the filter. -/
def Allowed (filter : Option (List Irrep)) (a b c : Irrep) : Prop :=
  (a.l ≤ b.l + c.l ∧ b.l ≤ a.l + c.l ∧ c.l ≤ a.l + b.l) ∧ c.p.toInt = a.p.toInt * b.p.toInt ∧
    (filter = none ∨ ∃ l, filter = some l ∧ c ∈ l)

/-- The Clebsch-Gordan tensors have shape `(2l1+1, 2l2+1, 2l3+1)`. -/
def CgShape {K : Type} (ctx : TPCtx K) : Prop :=
  ∀ l1 l2 l3, (ctx.cg l1 l2 l3).length = 2 * l1 + 1 ∧ ∀ m ∈ ctx.cg l1 l2 l3, m.length = 2 * l2 + 1 ∧
    ∀ r ∈ m, r.length = 2 * l3 + 1

section
variable {K : Type} [CommRing K]

theorem CgShape.ok {ctx : TPCtx K} (h : CgShape ctx) : CgOk ctx := h

theorem mem_irsOut {filter : Option (List Irrep)} {a b c : Irrep} : c ∈ irsOut filter a b ↔ Allowed filter a b c := by
  unfold irsOut Allowed
  rw [List.mem_filter, C02_mem_mul_iff]
  cases filter with
  | none => simp
  | some l => simp [and_assoc]

theorem irsOut_nodup (filter : Option (List Irrep)) (a b : Irrep) : (irsOut filter a b).Nodup := by
  unfold irsOut
  refine List.Nodup.filter _ ?_
  have := C02_mul_increasing a b
  refine this.imp ?_
  rintro c d h rfl
  exact Nat.lt_irrefl _ h

theorem irsOut_count (filter : Option (List Irrep)) (a b c : Irrep) [Decidable (Allowed filter a b c)] :
    (irsOut filter a b).count c = if Allowed filter a b c then 1 else 0 := by
  split
  · rename_i h; exact List.count_eq_one_of_mem (irsOut_nodup _ _ _) (mem_irsOut.mpr h)
  · rename_i h; exact List.count_eq_zero_of_not_mem (fun h' => h (mem_irsOut.mp h'))

theorem count_flatMap_expand (x : Irreps) (f : Irrep → List Irrep) (ir : Irrep) :
    ((expand x).flatMap f).count ir = (x.map fun m => m.mul * (f m.ir).count ir).sum := by
  induction x with
  | nil => simp
  | cons m x ih =>
    rw [expand_cons, List.flatMap_append, List.count_append, ih, List.map_cons, List.sum_cons]
    congr 1
    rw [List.flatMap_replicate]
    induction m.mul with
    | zero => simp
    | succ k ihk => rw [List.replicate_succ, List.flatten_cons, List.count_append, ihk]; ring

theorem allProducts_fst (ctx : TPCtx K) (n : IrNorm) (filter : Option (List Irrep)) (B1 B2 : List (Irrep × List K)) :
    (allProducts ctx n filter B1 B2).map Prod.fst =
      (B1.map Prod.fst).flatMap fun a => (B2.map Prod.fst).flatMap fun b => irsOut filter a b := by
  unfold allProducts
  simp only [List.map_flatMap, List.flatMap_map, List.map_map]
  congr 1; funext b1; congr 1; funext b2
  rw [show (Prod.fst ∘ fun ir => (ir, contract ir.dim (normC ctx n b1.1 b2.1 ir) b1.2 b2.2)) = id from rfl, List.map_id]

open Classical in
/-- **C33**, multiplicities.  For every pair of arrays, every filter, every supported normalisation
and both values of `regroup_output`, `tensor_product` returns, and the number of copies of `ir` in
the result is the sum over the pairs of terms of `mul1 * mul2` for those pairs in whose product
`ir` is allowed. -/
theorem C33_count {ctx : TPCtx K} (hc : CgShape ctx) {n : IrNorm} (hn : n ≠ .other) (filter : Option (List Irrep))
    (rg : Bool) (x1 x2 : IArr K) (h1 : x1.Coherent) (h2 : x2.Coherent) :
    ∃ y, tensorProduct ctx n filter rg x1 x2 = .ok y ∧ y.Coherent ∧
      ∀ ir, y.irreps.count ir = (x1.irreps.map fun m1 => (x2.irreps.map fun m2 =>
        if Allowed filter m1.ir m2.ir ir then m1.mul * m2.mul else 0).sum).sum := by
  obtain ⟨z1, z2, y, -, -, -, -, -, y1, y2, y3, -⟩ := tensorProduct_spec hc.ok hn filter rg h1.inv h2.inv
  refine ⟨y, y1, y2.coherent, fun ir => ?_⟩
  have hp := y3.map Prod.fst
  rw [allProducts_fst, blocks_irs, blocks_irs, blocks_irs] at hp
  rw [Irreps.count_eq_count_expand, hp.count_eq, count_flatMap_expand]
  congr 1
  apply List.map_congr_left
  intro m1 _
  rw [count_flatMap_expand, ← List.sum_map_mul_left]
  congr 1
  apply List.map_congr_left
  intro m2 _
  rw [irsOut_count]
  split <;> simp

theorem dimOf_flatMap {β : Type} (s : List β) (f : β → List Irrep) : dimOf (s.flatMap f) = (s.map fun a => dimOf (f a)).sum := by
  induction s with
  | nil => rfl
  | cons a s ih => simp [ih]

/-- **C33**, dimension.  Without a filter the dimensions multiply. -/
theorem C33_dim {ctx : TPCtx K} (hc : CgShape ctx) {n : IrNorm} (hn : n ≠ .other) (rg : Bool) (x1 x2 : IArr K)
    (h1 : x1.Coherent) (h2 : x2.Coherent) :
    ∃ y, tensorProduct ctx n none rg x1 x2 = .ok y ∧
      dimOf (expand y.irreps) = dimOf (expand x1.irreps) * dimOf (expand x2.irreps) ∧
      y.array.length = x1.array.length * x2.array.length := by
  obtain ⟨z1, z2, y, -, -, -, -, -, y1, y2, y3, -⟩ := tensorProduct_spec hc.ok hn none rg h1.inv h2.inv
  have key : dimOf (expand y.irreps) = dimOf (expand x1.irreps) * dimOf (expand x2.irreps) := by
    have hp := y3.map Prod.fst
    rw [allProducts_fst, blocks_irs, blocks_irs, blocks_irs] at hp
    have e : dimOf (expand y.irreps) = dimOf ((expand x1.irreps).flatMap fun a => (expand x2.irreps).flatMap fun b => irsOut none a b) := by
      unfold dimOf; exact (hp.map _).sum_eq
    have e1 : ∀ a b, irsOut none a b = a.mul b := by intro a b; simp [irsOut]
    rw [e, dimOf_flatMap]
    simp only [dimOf_flatMap, e1, C02_mul_dim]
    generalize expand x1.irreps = s
    generalize expand x2.irreps = t
    induction s with
    | nil => simp
    | cons a s ih =>
      rw [List.map_cons, List.sum_cons, ih, dimOf_cons, Nat.add_mul, List.sum_map_mul_left]
      rfl
  refine ⟨y, y1, key, ?_⟩
  rw [h1.array_length, h2.array_length, y2.coherent.array_length, key]

/-- **C33**, form of the result: the blocks come in the order of their irreps, and with
`regroup_output` every irrep occurs in exactly one term, with a positive multiplicity. -/
theorem C33_sorted {ctx : TPCtx K} (hc : CgShape ctx) {n : IrNorm} (hn : n ≠ .other) (filter : Option (List Irrep))
    (rg : Bool) (x1 x2 y : IArr K) (h1 : x1.Coherent) (h2 : x2.Coherent)
    (hy : tensorProduct ctx n filter rg x1 x2 = .ok y) :
    (y.irreps.Pairwise fun a b => b.ir.lt a.ir = false) ∧
    (rg = true → (y.irreps.Pairwise fun a b => a.ir.lt b.ir = true) ∧ ∀ m ∈ y.irreps, 0 < m.mul) := by
  obtain ⟨z1, z2, w, -, -, p1, p2, w1, w2, -⟩ := tensorProduct_spec hc.ok hn filter rg h1.inv h2.inv
  rw [hy] at w2; cases w2
  obtain ⟨u, u1, u2, u3, u4, u5, u6⟩ := finish_spec rg (tpEntries_shaped hc.ok n filter p1.pairs.1 p2.pairs.1)
  rw [w1] at u1; cases u1
  cases rg with
  | false =>
    rw [if_neg (by simp)] at u6
    rw [u6]
    exact ⟨Irreps.sortIrreps_sorted _, by simp⟩
  | true =>
    rw [if_pos rfl, Irreps.regroup_eq] at u6
    injection u6 with u6
    have hs := Irreps.simplify_sorted (Irreps.sortIrreps_sorted (Irreps.sortIrreps ((tpEntries ctx n filter (z1.irreps.zip z1.chunks)
      (z2.irreps.zip z2.chunks)).map Prod.fst)))
    rw [u6] at hs
    refine ⟨hs.imp fun {a b} h => ?_, fun _ => ⟨hs, ?_⟩⟩
    · rcases C01_lt_strict_total_order with ⟨i, t, -⟩
      by_contra hne
      have := t _ _ _ h (by simpa using hne)
      rw [i] at this; cases this
    · rw [← u6]; exact Irreps.simplify_pos _

/-- **C33**, symmetry: with `regroup_output` (the default) the irreps of the result do not depend on
the order of the arguments, nor on how the irreps of the arguments are grouped or ordered. -/
theorem C33_irreps_determined {ctx : TPCtx K} (hc : CgShape ctx) {n : IrNorm} (hn : n ≠ .other)
    (filter : Option (List Irrep)) (x1 x2 u1 u2 y v : IArr K) (h1 : x1.Coherent) (h2 : x2.Coherent)
    (k1 : u1.Coherent) (k2 : u2.Coherent)
    (hy : tensorProduct ctx n filter true x1 x2 = .ok y) (hv : tensorProduct ctx n filter true u1 u2 = .ok v)
    (he : ((∀ ir, x1.irreps.count ir = u1.irreps.count ir) ∧ ∀ ir, x2.irreps.count ir = u2.irreps.count ir) ∨
      ((∀ ir, x1.irreps.count ir = u2.irreps.count ir) ∧ ∀ ir, x2.irreps.count ir = u1.irreps.count ir)) :
    y.irreps = v.irreps := by
  have perm : ∀ a b : Irreps, (∀ ir, a.count ir = b.count ir) → (expand a).Perm (expand b) := by
    intro a b h
    rw [List.perm_iff_count]
    intro ir
    rw [← Irreps.count_eq_count_expand, ← Irreps.count_eq_count_expand, h]
  obtain ⟨s1, s2⟩ := (C33_sorted hc hn filter true x1 x2 y h1 h2 hy).2 rfl
  obtain ⟨s3, s4⟩ := (C33_sorted hc hn filter true u1 u2 v k1 k2 hv).2 rfl
  obtain ⟨-, -, w, -, -, -, -, -, w1, w2, w3, -⟩ := tensorProduct_spec hc.ok hn filter true h1.inv h2.inv
  obtain ⟨-, -, w', -, -, -, -, -, w1', w2', w3', -⟩ := tensorProduct_spec hc.ok hn filter true k1.inv k2.inv
  rw [hy] at w1; cases w1
  rw [hv] at w1'; cases w1'
  have hp := w3.map Prod.fst
  rw [allProducts_fst, blocks_irs, blocks_irs, blocks_irs] at hp
  have hq := w3'.map Prod.fst
  rw [allProducts_fst, blocks_irs, blocks_irs, blocks_irs] at hq
  refine Irreps.eq_of_count s1 s3 s2 s4 fun ir => ?_
  rw [Irreps.count_eq_count_expand, Irreps.count_eq_count_expand]
  refine List.Perm.count_eq (hp.trans (List.Perm.trans ?_ hq.symm)) ir
  rcases he with ⟨e1, e2⟩ | ⟨e1, e2⟩
  · exact ((perm _ _ e1).flatMap_right _).trans (flatMap_perm_congr _ fun a _ => (perm _ _ e2).flatMap_right _)
  · refine (((perm _ _ e1).flatMap_right _).trans (flatMap_perm_congr _ fun a _ => (perm _ _ e2).flatMap_right _)).trans ?_
    refine (flatMap_comm_perm _ _ _).trans (flatMap_perm_congr _ fun a _ => flatMap_perm_congr _ fun b _ => ?_)
    unfold irsOut
    rw [C02_mul_comm]

/-! ### values -/

/-- The scalar in front of the Clebsch-Gordan tensor. -/
def tpCoef (ctx : TPCtx K) (n : IrNorm) (ir1 ir2 ir : Irrep) : K :=
  match n with
  | .component => ctx.sqrt (2 * ir.l + 1)
  | .norm => ctx.sqrt ((2 * ir1.l + 1) * (2 * ir2.l + 1))
  | _ => 1

/-- `cg[i, j, k]`. -/
def cgEntry (C : List (List (List K))) (i j k : Nat) : K := ((C.getD i []).getD j []).getD k 0

/-- The bilinear product of two blocks: `out[k] = Σ_i Σ_j c * cg[i, j, k] * a[i] * b[j]`. -/
def bilinear (c : K) (C : List (List (List K))) (l1 l2 l3 : Nat) (a b : List K) : List K :=
  (List.range (2 * l3 + 1)).map fun k => ((List.range (2 * l1 + 1)).map fun i => ((List.range (2 * l2 + 1)).map fun j =>
    c * cgEntry C i j k * a.getD i 0 * b.getD j 0).sum).sum

theorem zipWith_range (x : List K) (A : List (List K)) (k : Nat) (d : Nat) (hx : x.length = d) (hA : A.length = d) :
    (List.zipWith (fun a row => a * row.getD k 0) x A).sum =
      ((List.range d).map fun i => x.getD i 0 * (A.getD i []).getD k 0).sum := by
  subst hx
  induction x generalizing A with
  | nil => simp
  | cons a x ih =>
    cases A with
    | nil => simp at hA
    | cons r A =>
      rw [List.zipWith_cons_cons, List.sum_cons, ih A (by simpa using hA), List.length_cons, List.range_succ_eq_map]
      simp only [List.map_cons, List.sum_cons, List.map_map, List.getD_cons_zero]
      rfl

theorem contract_formula {l1 l2 l3 : Nat} {C : List (List (List K))} (hC : Shape3 (2 * l1 + 1) (2 * l2 + 1) (2 * l3 + 1) C)
    (c : K) (a b : List K) (ha : a.length = 2 * l1 + 1) (hb : b.length = 2 * l2 + 1) :
    (contract (2 * l3 + 1) C a b).map (c * ·) = bilinear c C l1 l2 l3 a b := by
  unfold contract bilinear
  rw [FLin.linComb_get _ _ _ (inner_length hC b), List.map_map]
  apply List.map_congr_left
  intro k hk
  have hk := List.mem_range.mp hk
  simp only [Function.comp_apply]
  rw [zipWith_range a _ k (2 * l1 + 1) ha (by rw [List.length_map, hC.1]), ← List.sum_map_mul_left]
  congr 1
  apply List.map_congr_left
  intro i hi
  have hi := List.mem_range.mp hi
  have hiC : i < C.length := by rw [hC.1]; exact hi
  have e : (C.map fun ci => FLin.linComb (2 * l3 + 1) b ci).getD i [] = FLin.linComb (2 * l3 + 1) b C[i] := by
    simp [List.getD, hiC]
  have hm := hC.2 C[i] (List.getElem_mem _)
  rw [e, FLin.linComb_get _ _ _ hm.2]
  have e2 : ((List.range (2 * l3 + 1)).map fun j => (List.zipWith (fun a row => a * row.getD j 0) b C[i]).sum).getD k 0 =
      (List.zipWith (fun a row => a * row.getD k 0) b C[i]).sum := by
    simp [List.getD, hk]
  rw [e2, zipWith_range b _ k (2 * l2 + 1) hb hm.1, ← List.sum_map_mul_left, ← List.sum_map_mul_left]
  congr 1
  apply List.map_congr_left
  intro j _
  have e3 : C.getD i [] = C[i] := by simp [List.getD, hiC]
  unfold cgEntry
  rw [e3]; ring

theorem normC_contract {ctx : TPCtx K} (hc : CgShape ctx) (n : IrNorm) (ir1 ir2 ir : Irrep) (a b : List K)
    (ha : a.length = ir1.dim) (hb : b.length = ir2.dim) :
    contract ir.dim (normC ctx n ir1 ir2 ir) a b =
      bilinear (tpCoef ctx n ir1 ir2 ir) (ctx.cg ir1.l ir2.l ir.l) ir1.l ir2.l ir.l a b := by
  have key := fun c => contract_formula (hc ir1.l ir2.l ir.l) c a b ha hb
  have hd : ∀ i : Irrep, ((i.dim : ℕ) : ℚ) = 2 * i.l + 1 := by intro i; unfold Irrep.dim; push_cast; rfl
  cases n
  · unfold normC tpCoef
    simp only
    rw [contract_scale, ← hd]; exact key _
  · unfold normC tpCoef
    simp only
    rw [contract_scale, ← hd, ← hd]; exact key _
  · rw [← key]
    simp [tpCoef, normC, Irrep.dim]
  · rw [← key]
    simp [tpCoef, normC, Irrep.dim]

theorem block_length {x : IArr K} (h : x.Coherent) {b : Irrep × List K} (hb : b ∈ x.blocks) : b.2.length = b.1.dim :=
  blocksOf_row_length _ _ h.array_length b hb

/-- **C33**, values.  The blocks of the result are, up to the order, the products
`coef * Σ_ij cg[i,j,k] a[i] b[j]` of every block of `x1` with every block of `x2`, one for each
allowed irrep; `C33_sorted` and `C33_order` fix the order. -/
theorem C33_values {ctx : TPCtx K} (hc : CgShape ctx) {n : IrNorm} (hn : n ≠ .other) (filter : Option (List Irrep))
    (rg : Bool) (x1 x2 : IArr K) (h1 : x1.Coherent) (h2 : x2.Coherent) :
    ∃ y, tensorProduct ctx n filter rg x1 x2 = .ok y ∧
      y.blocks.Perm (x1.blocks.flatMap fun b1 => x2.blocks.flatMap fun b2 => (irsOut filter b1.1 b2.1).map fun ir =>
        (ir, bilinear (tpCoef ctx n b1.1 b2.1 ir) (ctx.cg b1.1.l b2.1.l ir.l) b1.1.l b2.1.l ir.l b1.2 b2.2)) ∧
      ∀ (a b ir : Irrep), ir ∈ irsOut filter a b ↔ Allowed filter a b ir := by
  obtain ⟨-, -, y, -, -, -, -, -, y1, y2, y3, -⟩ := tensorProduct_spec hc.ok hn filter rg h1.inv h2.inv
  refine ⟨y, y1, ?_, fun a b ir => mem_irsOut⟩
  refine y3.trans (List.Perm.of_eq ?_)
  unfold allProducts
  apply List.flatMap_congr
  intro b1 hb1
  apply List.flatMap_congr
  intro b2 hb2
  apply List.map_congr_left
  intro ir _
  rw [normC_contract hc n _ _ _ _ _ (block_length h1 hb1) (block_length h2 hb2)]

/-- **C33**, order: the copies of one irrep come in the order of the loops: terms of the first
argument, terms of the second, copies of the first, copies of the second.  (Without
`regroup_output`; with it the same holds for the regrouped arguments.) -/
theorem C33_order {ctx : TPCtx K} (hc : CgShape ctx) {n : IrNorm} (hn : n ≠ .other) (filter : Option (List Irrep))
    (x1 x2 : IArr K) (h1 : x1.Coherent) (h2 : x2.Coherent) :
    ∃ y, tensorProduct ctx n filter false x1 x2 = .ok y ∧
      ∀ ir, (y.blocks.filter fun b => decide (b.1 = ir)) =
        (x1.terms.flatMap fun t1 => x2.terms.flatMap fun t2 => (irsOut filter t1.1.ir t2.1.ir).flatMap fun ir =>
          (blocksOf (List.replicate t1.1.mul t1.1.ir) t1.2).flatMap fun b1 =>
            (blocksOf (List.replicate t2.1.mul t2.1.ir) t2.2).map fun b2 =>
              (ir, bilinear (tpCoef ctx n t1.1.ir t2.1.ir ir) (ctx.cg t1.1.ir.l t2.1.ir.l ir.l) t1.1.ir.l t2.1.ir.l ir.l
                b1.2 b2.2)).filter fun b => decide (b.1 = ir) := by
  obtain ⟨z1, z2, y, p1, p2, q1, q2, y0, y1, y2, y3, -⟩ := tensorProduct_spec hc.ok hn filter false h1.inv h2.inv
  cases p1; cases p2
  refine ⟨y, y1, fun ir => ?_⟩
  obtain ⟨u, u1, u2, u3, u4, u5, u6⟩ := finish_spec false (tpEntries_shaped hc.ok n filter q1.pairs.1 q2.pairs.1)
  rw [y0] at u1; cases u1
  rw [u5, tpEntries_blk hc.ok n filter q1.pairs.1 q2.pairs.1]
  congr 1
  rw [← q1.pairs.2.2.2.1, ← q2.pairs.2.2.2.1]
  simp only [List.flatMap_map]
  apply List.flatMap_congr
  intro t1 ht1
  apply List.flatMap_congr
  intro t2 ht2
  apply List.flatMap_congr
  intro ir _
  show (blk t1).flatMap _ = (blk t1).flatMap _
  apply List.flatMap_congr
  intro b1 hb1
  show (blk t2).map _ = (blk t2).map _
  apply List.map_congr_left
  intro b2 hb2
  have e1 := blk_fst _ _ hb1
  have e2 := blk_fst _ _ hb2
  have l1 : b1.2.length = t1.1.ir.dim := by
    rw [← e1]
    exact block_length h1 (b := b1) (by rw [q1.blocks_pairs]; exact List.mem_flatMap.mpr ⟨t1, ht1, hb1⟩)
  have l2 : b2.2.length = t2.1.ir.dim := by
    rw [← e2]
    exact block_length h2 (b := b2) (by rw [q2.blocks_pairs]; exact List.mem_flatMap.mpr ⟨t2, ht2, hb2⟩)
  show (ir, _) = (ir, _)
  rw [normC_contract hc n _ _ _ _ _ l1 l2]
  rfl

/-- An unsupported normalisation raises as soon as a product of two non-zero chunks is formed. -/
theorem C33_bad_norm (ctx : TPCtx K) (a b : List (List K)) (m1 m2 : MulIrrep) (x1 x2 : IArr K) (r1 : x1.irreps = [m1])
    (r2 : x2.irreps = [m2]) (c1 : x1.chunks = [some a]) (c2 : x2.chunks = [some b]) :
    tensorProduct ctx .other none false x1 x2 = .error .valueError := by
  unfold tensorProduct
  simp only [prepare, Bool.false_eq_true, if_false, bind, Except.bind, r1, r2, c1, c2, triples, List.zip_cons_cons,
    List.zip_nil_right, List.flatMap_cons, List.flatMap_nil, List.append_nil, irsOut]
  have : ∃ ir rest, (m1.ir.mul m2.ir).filter (fun _ => true) = ir :: rest := by
    rw [List.filter_eq_self.mpr (by simp)]
    unfold Irrep.mul
    simp only
    obtain ⟨k, hk⟩ : ∃ k, m1.ir.l + m2.ir.l + 1 - (max m1.ir.l m2.ir.l - min m1.ir.l m2.ir.l) = k + 1 :=
      ⟨m1.ir.l + m2.ir.l - (max m1.ir.l m2.ir.l - min m1.ir.l m2.ir.l), by omega⟩
    rw [hk, List.range'_succ]
    exact ⟨_, _, rfl⟩
  obtain ⟨ir, rest, e⟩ := this
  rw [e]
  rfl

/-! ### elementwise -/

/-- `elementwise_tensor_product` of two arrays with the same number of irreps (and no term of
multiplicity zero) returns the products of the corresponding blocks. -/
theorem C33_elementwise {ctx : TPCtx K} (hc : CgShape ctx) {n : IrNorm} (hn : n ≠ .other) (filter : Option (List Irrep))
    (x1 x2 : IArr K) (h1 : x1.Coherent) (h2 : x2.Coherent) (z1 : ∀ m ∈ x1.irreps, 0 < m.mul) (z2 : ∀ m ∈ x2.irreps, 0 < m.mul)
    (he : (expand x1.irreps).length = (expand x2.irreps).length) :
    ∃ y, elementwise ctx n filter x1 x2 = .ok y ∧ y.Coherent ∧
      y.blocks.Perm ((x1.blocks.zip x2.blocks).flatMap fun b => (irsOut filter b.1.1 b.2.1).map fun ir =>
        (ir, bilinear (tpCoef ctx n b.1.1 b.2.1 ir) (ctx.cg b.1.1.l b.2.1.l ir.l) b.1.1.l b.2.1.l ir.l b.1.2 b.2.2)) := by
  rw [← Irreps.numIrreps_eq_length_expand, ← Irreps.numIrreps_eq_length_expand] at he
  obtain ⟨r, hr⟩ := alignTwo_ok z1 z2 he
  obtain ⟨-, -, y, -, -, -, -, -, -, -, y1, y2, -, y3⟩ := elementwise_spec hc.ok hn filter h1.inv h2.inv he hr
  refine ⟨y, y1, y2.coherent, y3.trans (List.Perm.of_eq ?_)⟩
  unfold zipProducts
  apply List.flatMap_congr
  intro b hb
  apply List.map_congr_left
  intro ir _
  rw [normC_contract hc n _ _ _ _ _ (block_length h1 (List.of_mem_zip hb).1) (block_length h2 (List.of_mem_zip hb).2)]

/-- Different numbers of irreps are refused. -/
theorem C33_elementwise_refuses (ctx : TPCtx K) (n : IrNorm) (filter : Option (List Irrep)) (x1 x2 : IArr K)
    (he : (expand x1.irreps).length ≠ (expand x2.irreps).length) :
    elementwise ctx n filter x1 x2 = .error .valueError := by
  rw [← Irreps.numIrreps_eq_length_expand, ← Irreps.numIrreps_eq_length_expand] at he
  unfold elementwise
  rw [if_pos he]

/-- The condition on multiplicities is needed: `1x0e + 0x1e` and `1x0e` have the same number of
irreps but an `AssertionError` is raised. -/
theorem C33_elementwise_zero_multiplicity_witness (ctx : TPCtx K) (n : IrNorm) (a b : K) :
    elementwise ctx n none ⟨[⟨1, ⟨0, .e⟩⟩, ⟨0, ⟨1, .e⟩⟩], [a], none, none⟩ ⟨[⟨1, ⟨0, .e⟩⟩], [b], none, none⟩ =
      .error .assertion := rfl

/-! ### C34 -/

theorem squareProducts_fst (ctx : TPCtx K) (n : IrNorm) (ni : Bool) (B : List (Irrep × List K)) :
    (squareProducts ctx n ni B).map Prod.fst =
      ((pairsOf (B.map Prod.fst)).flatMap fun q => q.1.mul q.2) ++
        (B.map Prod.fst).flatMap fun a => (a.mul a).filter fun ir => ir.l % 2 = 0 := by
  unfold squareProducts
  rw [List.map_append, pairsOf_map]
  simp only [List.map_flatMap, List.flatMap_map, List.map_map]
  congr 1
  · congr 1; funext b
    exact List.map_id _
  · congr 1; funext b
    exact List.map_id _

/-- **C34**, irreps: `tensor_square` contains, for every two different irreps of the input (counted
with multiplicity), all irreps of their product, and for every irrep the even-degree irreps of its
product with itself. -/
theorem C34_irreps {ctx : TPCtx K} (hc : CgShape ctx) {n : IrNorm} (hn : n ≠ .other) (ni rg : Bool) (x : IArr K)
    (h : x.Coherent) :
    ∃ y, tensorSquare ctx n ni rg x = .ok y ∧ y.Coherent ∧
      (expand y.irreps).Perm (((pairsOf (expand x.irreps)).flatMap fun q => q.1.mul q.2) ++
        (expand x.irreps).flatMap fun a => (a.mul a).filter fun ir => ir.l % 2 = 0) := by
  obtain ⟨z, y, p, q, -, y1, y2, y3⟩ := tensorSquare_spec hc.ok hn ni rg h.inv
  refine ⟨y, y1, y2.coherent, ?_⟩
  have hp := (y3.trans (squareEntries_perm hc.ok n ni q.pairs.1)).map Prod.fst
  rw [squareProducts_fst, ← q.blocks_pairs, blocks_irs, blocks_irs] at hp
  refine hp.trans ?_
  obtain ⟨z', p', -, r⟩ := prepare_spec rg h.inv
  rw [p] at p'; cases p'
  have r' := r.map Prod.fst
  rw [blocks_irs, blocks_irs] at r'
  exact List.Perm.append (pairsOf_perm r' _ C02_mul_comm) (r'.flatMap_right _)

theorem dim_even_part (a : Irrep) : 2 * dimOf ((a.mul a).filter fun ir => ir.l % 2 = 0) = a.dim * (a.dim + 1) := by
  obtain ⟨l, p⟩ := a
  unfold Irrep.mul
  simp only [max_self, min_self, Nat.sub_self, Nat.sub_zero, Irrep.dim]
  rw [← List.range_eq_range']
  have key : ∀ n, 2 * dimOf (((List.range (2 * n + 1)).map fun l => (⟨l, p.mul p⟩ : Irrep)).filter fun ir => ir.l % 2 = 0) =
      (2 * n + 1) * (2 * n + 2) := by
    intro n
    induction n with
    | zero => simp [dimOf]
    | succ n ih =>
      rw [show 2 * (n + 1) + 1 = 2 * n + 1 + 1 + 1 by ring, List.range_succ, List.range_succ]
      simp only [List.map_append, List.filter_append, dimOf_append, Nat.mul_add] at *
      have e1 : (List.filter (fun ir : Irrep => decide (ir.l % 2 = 0)) (List.map (fun l => (⟨l, p.mul p⟩ : Irrep)) [2 * n + 1])) = [] := by
        rw [List.map_singleton, List.filter_eq_nil_iff]; intro b hb; rw [List.mem_singleton.mp hb]; simp
      have e2 : (List.filter (fun ir : Irrep => decide (ir.l % 2 = 0)) (List.map (fun l => (⟨l, p.mul p⟩ : Irrep)) [2 * n + 1 + 1])) =
          [⟨2 * n + 1 + 1, p.mul p⟩] := by
        rw [List.map_singleton, List.filter_eq_self]; intro b hb; rw [List.mem_singleton.mp hb]; simp; omega
      rw [e1, e2, ih]
      simp only [dimOf, List.map_nil, List.map_cons, List.sum_nil, List.sum_cons]
      ring
  have := key l
  rw [show l + l + 1 = 2 * l + 1 by ring]
  exact this

/-- **C34**: the dimension of `tensor_square` of an input of dimension `d` is `d(d+1)/2`. -/
theorem C34_dim {ctx : TPCtx K} (hc : CgShape ctx) {n : IrNorm} (hn : n ≠ .other) (ni rg : Bool) (x : IArr K)
    (h : x.Coherent) :
    ∃ y, tensorSquare ctx n ni rg x = .ok y ∧
      2 * dimOf (expand y.irreps) = dimOf (expand x.irreps) * (dimOf (expand x.irreps) + 1) ∧
      2 * y.array.length = x.array.length * (x.array.length + 1) := by
  obtain ⟨y, y1, y2, y3⟩ := C34_irreps hc hn ni rg x h
  have key : 2 * dimOf (expand y.irreps) = dimOf (expand x.irreps) * (dimOf (expand x.irreps) + 1) := by
    have e : dimOf (expand y.irreps) = dimOf (((pairsOf (expand x.irreps)).flatMap fun q => q.1.mul q.2) ++
        (expand x.irreps).flatMap fun a => (a.mul a).filter fun ir => ir.l % 2 = 0) := by
      unfold dimOf; exact (y3.map _).sum_eq
    rw [e, dimOf_append]
    generalize expand x.irreps = s
    clear e
    induction s with
    | nil => simp [pairsOf]
    | cons a s ih =>
      simp only [pairsOf, List.flatMap_append, List.flatMap_map, List.flatMap_cons, dimOf_append, dimOf_cons]
      have e1 : dimOf (s.flatMap fun b => a.mul b) = a.dim * dimOf s := by
        rw [dimOf_flatMap]
        simp only [C02_mul_dim, List.sum_map_mul_left]
        rfl
      have e2 := dim_even_part a
      rw [e1]
      have : 2 * (a.dim * dimOf s + dimOf ((pairsOf s).flatMap fun q => q.1.mul q.2) +
          (dimOf ((a.mul a).filter fun ir => decide (ir.l % 2 = 0)) + dimOf (s.flatMap fun a => (a.mul a).filter fun ir => decide (ir.l % 2 = 0)))) =
          2 * (a.dim * dimOf s) + 2 * dimOf ((a.mul a).filter fun ir => decide (ir.l % 2 = 0)) +
          2 * (dimOf ((pairsOf s).flatMap fun q => q.1.mul q.2) + dimOf (s.flatMap fun a => (a.mul a).filter fun ir => decide (ir.l % 2 = 0))) := by ring
      rw [this, ih, e2]
      ring
  refine ⟨y, y1, key, ?_⟩
  rw [h.array_length, y2.array_length, key]

/-- **C34**, values (without `regroup_output`; with it the same holds for the regrouped input):
for two different blocks `sqrt(alpha) * Σ_ij cg[i,j,k] a[i] b[j]`, for one block with itself the
even degrees of the same with another constant. -/
theorem C34_values {ctx : TPCtx K} (hc : CgShape ctx) {n : IrNorm} (hn : n ≠ .other) (ni : Bool) (x : IArr K)
    (h : x.Coherent) :
    ∃ y, tensorSquare ctx n ni false x = .ok y ∧
      y.blocks.Perm (((pairsOf x.blocks).flatMap fun b => (b.1.1.mul b.2.1).map fun ir =>
        (ir, bilinear (ctx.sqrt (alphaOff n ni b.1.1 b.2.1 ir)) (ctx.cg b.1.1.l b.2.1.l ir.l) b.1.1.l b.2.1.l ir.l b.1.2 b.2.2)) ++
        x.blocks.flatMap fun b => ((b.1.mul b.1).filter fun ir => ir.l % 2 = 0).map fun ir =>
          (ir, bilinear (ctx.sqrt (alphaDiag n ni b.1 b.1 ir)) (ctx.cg b.1.l b.1.l ir.l) b.1.l b.1.l ir.l b.2 b.2)) := by
  obtain ⟨z, y, p, q, -, y1, y2, y3⟩ := tensorSquare_spec hc.ok hn ni false h.inv
  cases p
  refine ⟨y, y1, y3.trans ((squareEntries_perm hc.ok n ni q.pairs.1).trans (List.Perm.of_eq ?_))⟩
  rw [← q.blocks_pairs]
  unfold squareProducts
  congr 1
  · apply List.flatMap_congr
    intro b hb
    apply List.map_congr_left
    intro ir _
    unfold offC
    rw [contract_scale]
    congr 1
    exact contract_formula (hc _ _ _) _ _ _ (block_length h (mem_pairsOf hb).1) (block_length h (mem_pairsOf hb).2)
  · apply List.flatMap_congr
    intro b hb
    apply List.map_congr_left
    intro ir _
    unfold diagC
    rw [contract_scale]
    congr 1
    exact contract_formula (hc _ _ _) _ _ _ (block_length h hb) (block_length h hb)

end

/-! ### C35 -/

/-- The Clebsch-Gordan tensors intertwine the matrices `M ir1`, `M ir2` and `M ir`:
`Σ_ij cg[i,j,k] (M1 a)[i] (M2 b)[j] = Σ_k' M3[k,k'] Σ_ij cg[i,j,k'] a[i] b[j]` for all vectors. -/
def CgIntertwines {K : Type} [CommRing K] (ctx : TPCtx K) (M : Irrep → List (List K)) : Prop :=
  ∀ ir1 ir2 ir : Irrep, ir ∈ ir1.mul ir2 → ∀ a b : List K, a.length = 2 * ir1.l + 1 → b.length = 2 * ir2.l + 1 →
    bilinear 1 (ctx.cg ir1.l ir2.l ir.l) ir1.l ir2.l ir.l (matVec (M ir1) a) (matVec (M ir2) b) =
      matVec (M ir) (bilinear 1 (ctx.cg ir1.l ir2.l ir.l) ir1.l ir2.l ir.l a b)

section
variable {K : Type} [CommRing K]

theorem linAct_ring {M : Irrep → List (List K)} (hM : MatFamily M) :
    FLin.LinAct (fun ir => matVec (α := K) (M ir)) where
  toAct := matVec_act fun ir => (hM ir).1
  add := fun ir x y hx hy => matVec_add (M ir) x y (by rw [hx, hy])
  smul := fun ir c x _ => (matVec_map (R := K) (LinearMap.mulLeft K c) (M ir) x).symm

theorem CgIntertwines.inter {ctx : TPCtx K} (hc : CgShape ctx) {M : Irrep → List (List K)} (hM : MatFamily M)
    (h : CgIntertwines ctx M) : Intertwine ctx fun ir => matVec (M ir) := by
  intro ir1 ir2 ir hir a b ha hb
  have l1 : (matVec (M ir1) a).length = 2 * ir1.l + 1 := by rw [matVec_length, (hM ir1).1]
  have l2 : (matVec (M ir2) b).length = 2 * ir2.l + 1 := by rw [matVec_length, (hM ir2).1]
  have e := h ir1 ir2 ir hir a b ha hb
  rw [← contract_formula (hc _ _ _) 1 _ _ l1 l2, ← contract_formula (hc _ _ _) 1 a b ha hb] at e
  simp only [one_mul, List.map_id'] at e
  exact e

/-- **C35**, `tensor_product`: `tp(D x1, D x2) = D tp(x1, x2)`. -/
theorem C35_tensor_product {ctx : TPCtx K} (hc : CgShape ctx) {n : IrNorm} (hn : n ≠ .other) (filter : Option (List Irrep))
    (rg : Bool) (M : Irrep → List (List K)) (hM : MatFamily M) (hI : CgIntertwines ctx M)
    (x1 x2 y : IArr K) (h1 : x1.Coherent) (h2 : x2.Coherent) (hy : tensorProduct ctx n filter rg x1 x2 = .ok y) :
    ∃ x1' x2' y' y'', transform M x1 = .ok x1' ∧ transform M x2 = .ok x2' ∧
      tensorProduct ctx n filter rg x1' x2' = .ok y' ∧ transform M y = .ok y'' ∧ y'.Equal y'' := by
  have hD := linAct_ring hM
  obtain ⟨x1', a1, a2⟩ := transformBy_spec hD.toAct h1.inv
  obtain ⟨x2', b1, b2⟩ := transformBy_spec hD.toAct h2.inv
  obtain ⟨y', k1, k2⟩ := tr_tensorProduct hc.ok hD (hI.inter hc hM) hn filter rg a2 b2 hy
  obtain ⟨y'', l1, l2⟩ := transformBy_spec hD.toAct k2.inv
  exact ⟨x1', x2', y', y'', a1, b1, k1, l1, k2.unique l2⟩

/-- **C35**, `elementwise_tensor_product`. -/
theorem C35_elementwise {ctx : TPCtx K} (hc : CgShape ctx) {n : IrNorm} (hn : n ≠ .other) (filter : Option (List Irrep))
    (M : Irrep → List (List K)) (hM : MatFamily M) (hI : CgIntertwines ctx M)
    (x1 x2 y : IArr K) (h1 : x1.Coherent) (h2 : x2.Coherent) (hy : elementwise ctx n filter x1 x2 = .ok y) :
    ∃ x1' x2' y' y'', transform M x1 = .ok x1' ∧ transform M x2 = .ok x2' ∧
      elementwise ctx n filter x1' x2' = .ok y' ∧ transform M y = .ok y'' ∧ y'.Equal y'' := by
  have hD := linAct_ring hM
  obtain ⟨x1', a1, a2⟩ := transformBy_spec hD.toAct h1.inv
  obtain ⟨x2', b1, b2⟩ := transformBy_spec hD.toAct h2.inv
  obtain ⟨y', k1, k2⟩ := tr_elementwise hc.ok hD (hI.inter hc hM) hn filter a2 b2 hy
  obtain ⟨y'', l1, l2⟩ := transformBy_spec hD.toAct k2.inv
  exact ⟨x1', x2', y', y'', a1, b1, k1, l1, k2.unique l2⟩

/-- **C35**, `tensor_square`. -/
theorem C35_tensor_square {ctx : TPCtx K} (hc : CgShape ctx) {n : IrNorm} (hn : n ≠ .other) (ni rg : Bool)
    (M : Irrep → List (List K)) (hM : MatFamily M) (hI : CgIntertwines ctx M)
    (x y : IArr K) (h : x.Coherent) (hy : tensorSquare ctx n ni rg x = .ok y) :
    ∃ x' y' y'', transform M x = .ok x' ∧ tensorSquare ctx n ni rg x' = .ok y' ∧ transform M y = .ok y'' ∧ y'.Equal y'' := by
  have hD := linAct_ring hM
  obtain ⟨x', a1, a2⟩ := transformBy_spec hD.toAct h.inv
  obtain ⟨y', k1, k2⟩ := tr_tensorSquare hc.ok hD (hI.inter hc hM) hn ni rg a2 hy
  obtain ⟨y'', l1, l2⟩ := transformBy_spec hD.toAct k2.inv
  exact ⟨x', y', y'', a1, k1, l1, k2.unique l2⟩

/-! ### a concrete instance of the hypotheses -/

/-- Tensors that multiply a vector by a scalar (`cg(0, l, l) = δ`) and are zero otherwise. -/
def scalarCtx (K : Type) [CommRing K] : TPCtx K where
  cg := fun l1 l2 l3 => (List.range (2 * l1 + 1)).map fun _ => (List.range (2 * l2 + 1)).map fun j =>
    (List.range (2 * l3 + 1)).map fun k => if l1 = 0 ∧ l2 = l3 ∧ j = k then 1 else 0
  sqrt := fun _ => 1

theorem scalarCtx_shape : CgShape (scalarCtx K) := by
  intro l1 l2 l3
  refine ⟨by simp [scalarCtx], ?_⟩
  intro m hm
  obtain ⟨i, -, rfl⟩ := List.mem_map.mp hm
  refine ⟨by simp, ?_⟩
  intro r hr
  obtain ⟨j, -, rfl⟩ := List.mem_map.mp hr
  simp

theorem scalarCtx_entry (l1 l2 l3 i j k : Nat) (hi : i < 2 * l1 + 1) (hj : j < 2 * l2 + 1) (hk : k < 2 * l3 + 1) :
    cgEntry ((scalarCtx K).cg l1 l2 l3) i j k = if l1 = 0 ∧ l2 = l3 ∧ j = k then 1 else 0 := by
  simp [cgEntry, scalarCtx, List.getD, hi, hj, hk]

theorem sum_range_single (n k : Nat) (hk : k < n) (f : Nat → K) :
    ((List.range n).map fun j => if j = k then f j else 0).sum = f k := by
  induction n with
  | zero => omega
  | succ n ih =>
    rw [List.range_succ, List.map_append, List.sum_append]
    by_cases h : k = n
    · subst h
      have : ((List.range k).map fun j => if j = k then f j else 0) = (List.range k).map fun _ => (0 : K) := by
        apply List.map_congr_left
        intro j hj
        rw [if_neg (by have := List.mem_range.mp hj; omega)]
      rw [this]; simp
    · rw [ih (by omega)]
      simp [show ¬ n = k by omega]

theorem scalarCtx_bilinear (l1 l2 l3 : Nat) (a b : List K) (hb : b.length = 2 * l2 + 1) :
    bilinear 1 ((scalarCtx K).cg l1 l2 l3) l1 l2 l3 a b =
      if l1 = 0 ∧ l2 = l3 then b.map (a.getD 0 0 * ·) else List.replicate (2 * l3 + 1) 0 := by
  unfold bilinear
  split
  · rename_i h
    obtain ⟨rfl, rfl⟩ := h
    apply List.ext_getElem
    · simp [hb]
    · intro k h1 h2
      have hk : k < 2 * l2 + 1 := by simpa using h1
      simp only [List.getElem_map, List.getElem_range]
      simp only [Nat.mul_zero, Nat.zero_add, List.range_one, List.map_cons, List.map_nil, List.sum_cons, List.sum_nil, add_zero]
      have : ((List.range (2 * l2 + 1)).map fun j => 1 * cgEntry ((scalarCtx K).cg 0 l2 l2) 0 j k * a.getD 0 0 * b.getD j 0) =
          (List.range (2 * l2 + 1)).map fun j => if j = k then a.getD 0 0 * b.getD j 0 else 0 := by
        apply List.map_congr_left
        intro j hj
        rw [scalarCtx_entry _ _ _ _ _ _ (by omega) (List.mem_range.mp hj) hk]
        by_cases h : j = k <;> simp [h]
      rw [this, sum_range_single _ _ hk]
      simp [List.getD, hb, hk]
  · rename_i h
    rw [List.eq_replicate_iff]
    refine ⟨by simp, ?_⟩
    intro v hv
    obtain ⟨k, hk, rfl⟩ := List.mem_map.mp hv
    apply List.sum_eq_zero
    intro v hv
    obtain ⟨i, hi, rfl⟩ := List.mem_map.mp hv
    apply List.sum_eq_zero
    intro v hv
    obtain ⟨j, hj, rfl⟩ := List.mem_map.mp hv
    rw [scalarCtx_entry _ _ _ _ _ _ (List.mem_range.mp hi) (List.mem_range.mp hj) (List.mem_range.mp hk),
      if_neg (fun h' => h ⟨h'.1, h'.2.1⟩)]
    simp

/-- The hypotheses of C33-C35 can be met: `scalarCtx` has the right shape and intertwines every
family of matrices that is trivial on scalars and does not depend on the parity (rotations). -/
theorem C35_concrete : CgShape (scalarCtx K) ∧
    ∀ M : Irrep → List (List K), MatFamily M → (∀ p, M ⟨0, p⟩ = [[1]]) → (∀ l, M ⟨l, .e⟩ = M ⟨l, .o⟩) →
      CgIntertwines (scalarCtx K) M := by
  refine ⟨scalarCtx_shape, fun M hM h0 hp => ?_⟩
  rintro ⟨l1, p1⟩ ⟨l2, p2⟩ ⟨l3, p3⟩ hir a b ha hb
  rw [scalarCtx_bilinear _ _ _ _ _ (by rw [matVec_length, (hM _).1]), scalarCtx_bilinear _ _ _ _ _ hb]
  have hpar : M ⟨l2, p2⟩ = M ⟨l2, p3⟩ := by cases p2 <;> cases p3 <;> simp [hp]
  split
  · rename_i h
    obtain ⟨h1, h2⟩ := h
    simp only at h1 h2 ha hb
    subst h1 h2
    rw [h0, hpar]
    have e : (matVec (R := K) (α := K) [[(1 : K)]] a).getD 0 0 = a.getD 0 0 := by
      match a, ha with
      | [v], _ => simp [matVec]
    rw [e]
    exact (matVec_map (R := K) (LinearMap.mulLeft K (a.getD 0 0)) _ b)
  · exact (linAct_ring hM).zero ⟨l3, p3⟩ |>.symm

/-- ... and so are the hypotheses on the arrays: `2x0e + 1x1o` times `1x1o`. -/
theorem C33_concrete : ∃ y, tensorProduct (scalarCtx ℤ) .none none true
    ⟨[⟨2, ⟨0, .e⟩⟩, ⟨1, ⟨1, .o⟩⟩], [2, 3, 4, 5, 6], none, none⟩ ⟨[⟨1, ⟨1, .o⟩⟩], [7, 8, 9], none, none⟩ = .ok y ∧
    y.irreps = [⟨1, ⟨0, .e⟩⟩, ⟨2, ⟨1, .o⟩⟩, ⟨1, ⟨1, .e⟩⟩, ⟨1, ⟨2, .e⟩⟩] ∧
    y.array = [0, 14, 16, 18, 21, 24, 27, 0, 0, 0, 0, 0, 0, 0, 0] := ⟨_, rfl, rfl, rfl⟩

end
end E3nn
