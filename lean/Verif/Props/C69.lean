import Verif.Lemmas.CGOrth
import Verif.Lemmas.TransformO3
import Verif.Props.C58
import Verif.Props.C47

/-!
# C69: nothing is lost in a tensor product, and exchanging the arguments changes signs only
-/

namespace E3nn
open IArr Matrix E3nn.SU2 E3nn.TP Finset

section
variable {K : Type} [CommRing K] [Algebra ℝ K]

theorem bilinear_coefK (k : ℝ) (l1 l2 l3 : ℕ) (x : Fin (2 * l1 + 1) → K) (y : Fin (2 * l2 + 1) → K) :
    bilinear (algebraMap ℝ K k) ((realCtx K).cg l1 l2 l3) l1 l2 l3 (List.ofFn x) (List.ofFn y) =
      List.ofFn fun c => ∑ a, ∑ b, (k * clebschGordan l1 l2 l3 a b c) • (x a * y b) := by
  have h := bilinear_ofFn l1 l2 l3 x y
  have e : bilinear (algebraMap ℝ K k) ((realCtx K).cg l1 l2 l3) l1 l2 l3 (List.ofFn x) (List.ofFn y) =
      (bilinear 1 ((realCtx K).cg l1 l2 l3) l1 l2 l3 (List.ofFn x) (List.ofFn y)).map (algebraMap ℝ K k * ·) := by
    unfold bilinear
    rw [List.map_map]
    apply List.map_congr_left
    intro c _
    simp only [Function.comp_apply, ← List.sum_map_mul_left, one_mul, mul_assoc]
  rw [e, h, List.map_ofFn]
  congr 1
  funext c
  simp only [Function.comp_apply, Finset.mul_sum, Algebra.smul_def, map_mul, mul_assoc]

/-- The sum of the squares of the entries. -/
def sumSq (l : List K) : K := (l.map fun a => a * a).sum

omit [Algebra ℝ K] in
theorem sumSq_ofFn {n : ℕ} (f : Fin n → K) : sumSq (List.ofFn f) = ∑ i, f i * f i := by
  unfold sumSq; rw [List.map_ofFn, List.sum_ofFn]; rfl

omit [Algebra ℝ K] in
theorem sumSq_flatten (L : List (List K)) : sumSq L.flatten = (L.map sumSq).sum := by
  induction L with
  | nil => rfl
  | cons a L ih => rw [List.flatten_cons, List.map_cons, List.sum_cons, ← ih]; simp [sumSq]

omit [Algebra ℝ K] in
theorem sumSq_blocks {x : IArr K} (h : x.Coherent) : sumSq x.array = (x.blocks.map fun b => sumSq b.2).sum := by
  rw [← h.inv.array_eq_blocks, sumSq_flatten, List.map_map]; rfl

/-- One pair of blocks: all paths together keep the norm. -/
theorem pair_isometry (i1 i2 : Irrep) (x : Fin (2 * i1.l + 1) → K) (y : Fin (2 * i2.l + 1) → K) :
    ((i1.mul i2).map fun ir => sumSq (bilinear (algebraMap ℝ K (Real.sqrt (2 * (ir.l : ℝ) + 1))) ((realCtx K).cg i1.l i2.l ir.l) i1.l i2.l ir.l
      (List.ofFn x) (List.ofFn y))).sum = (∑ a, x a * x a) * ∑ b, y b * y b := by
  obtain ⟨l1, p1⟩ := i1
  obtain ⟨l2, p2⟩ := i2
  simp only at x y ⊢
  have hl : l1 + l2 + 1 - (max l1 l2 - min l1 l2) = 2 * min l1 l2 + 1 := by omega
  unfold Irrep.mul
  simp only [hl, List.map_map, Function.comp_def, bilinear_coefK, sumSq_ofFn]
  rw [List.range'_eq_map_range, List.map_map]
  have hs := sum_range_fin (2 * min l1 l2 + 1) (fun k => ∑ i : Fin (2 * (max l1 l2 - min l1 l2 + k) + 1),
    (∑ a, ∑ b, (Real.sqrt (2 * ((max l1 l2 - min l1 l2 + k : ℕ) : ℝ) + 1) * clebschGordan l1 l2 _ a b i) • (x a * y b)) *
    (∑ a, ∑ b, (Real.sqrt (2 * ((max l1 l2 - min l1 l2 + k : ℕ) : ℝ) + 1) * clebschGordan l1 l2 _ a b i) • (x a * y b)))
  refine Eq.trans hs ?_
  -- as a sum over all indices
  have e1 : ∀ q : CGIdx l1 l2, (∑ a, ∑ b, (Real.sqrt (2 * ((max l1 l2 - min l1 l2 + q.1.val : ℕ) : ℝ) + 1) * clebschGordan l1 l2 _ a b q.2) • (x a * y b)) =
      ∑ p : Fin (2 * l1 + 1) × Fin (2 * l2 + 1), cgAll l1 l2 q p • (x p.1 * y p.2) := by
    intro q
    rw [Fintype.sum_prod_type]
    rfl
  have e2 : ∑ q : CGIdx l1 l2, (∑ p : Fin (2 * l1 + 1) × Fin (2 * l2 + 1), cgAll l1 l2 q p • (x p.1 * y p.2)) * (∑ p : Fin (2 * l1 + 1) × Fin (2 * l2 + 1), cgAll l1 l2 q p • (x p.1 * y p.2)) =
      ∑ p : Fin (2 * l1 + 1) × Fin (2 * l2 + 1), (x p.1 * y p.2) * (x p.1 * y p.2) := by
    simp only [Finset.sum_mul_sum]
    rw [Finset.sum_comm]
    apply Finset.sum_congr rfl; intro p _
    rw [Finset.sum_comm]
    have : ∀ p' : Fin (2 * l1 + 1) × Fin (2 * l2 + 1), ∑ q : CGIdx l1 l2, cgAll l1 l2 q p • (x p.1 * y p.2) * cgAll l1 l2 q p' • (x p'.1 * y p'.2) =
        (if p = p' then (1 : ℝ) else 0) • ((x p.1 * y p.2) * (x p'.1 * y p'.2)) := by
      intro p'
      have h := congrFun (congrFun (cgAll_complete l1 l2) p) p'
      rw [Matrix.mul_apply, Matrix.one_apply] at h
      simp only [Matrix.transpose_apply] at h
      rw [← h, Finset.sum_smul]
      apply Finset.sum_congr rfl; intro q _
      rw [smul_mul_smul_comm]
    simp only [this]
    rw [Finset.sum_eq_single p]
    · simp
    · intro p' _ hp; rw [if_neg (Ne.symm hp), zero_smul]
    · simp
  rw [Finset.sum_mul_sum]
  have e3 : ∑ p : Fin (2 * l1 + 1) × Fin (2 * l2 + 1), (x p.1 * y p.2) * (x p.1 * y p.2) = ∑ i, ∑ j, x i * x i * (y j * y j) := by
    rw [Fintype.sum_prod_type]
    apply Finset.sum_congr rfl; intro a _
    apply Finset.sum_congr rfl; intro b _
    ring
  rw [← e3, ← e2, Fintype.sum_sigma]
  apply Finset.sum_congr rfl; intro k _
  apply Finset.sum_congr rfl; intro c _
  have := e1 ⟨k, c⟩
  simp only at this
  rw [this]

/-- **C69 (isometry).** Without filter and with `irrep_normalization="component"`, the squared norm of
`tensor_product(x1, x2)` is the product of the squared norms of `x1` and `x2`: the result is the outer
product in another orthonormal basis.  (`K` is any commutative real algebra, so the statement holds at every
leading index.) -/
theorem C69_isometry (rg : Bool) (x1 x2 : IArr K) (h1 : x1.Coherent) (h2 : x2.Coherent) :
    ∃ y, tensorProduct (realCtx K) .component none rg x1 x2 = .ok y ∧ sumSq y.array = sumSq x1.array * sumSq x2.array := by
  obtain ⟨y, hy, hc, -⟩ := C33_count (realCtx_shape K) (n := .component) (by simp) none rg x1 x2 h1 h2
  obtain ⟨y', hy', hp, -⟩ := C33_values (realCtx_shape K) (n := .component) (by simp) none rg x1 x2 h1 h2
  rw [hy] at hy'; cases hy'
  refine ⟨y, hy, ?_⟩
  rw [sumSq_blocks hc, sumSq_blocks h1, sumSq_blocks h2, (hp.map _).sum_eq, List.map_flatMap]
  have fm : ∀ {α : Type} (l : List α) (f : α → List K), (l.flatMap f).sum = (l.map fun a => (f a).sum).sum := by
    intro α l f; induction l with
    | nil => rfl
    | cons a l ih => simp [List.flatMap_cons, ih]
  rw [fm, ← List.sum_map_mul_right]
  congr 1
  apply List.map_congr_left
  intro b1 m1
  rw [List.map_flatMap, fm, ← List.sum_map_mul_left]
  congr 1
  apply List.map_congr_left
  intro b2 m2
  have l1 := block_length h1 m1
  have l2 := block_length h2 m2
  obtain ⟨i1, v1⟩ := b1
  obtain ⟨i2, v2⟩ := b2
  obtain ⟨x, rfl⟩ := exists_ofFn (n := 2 * i1.l + 1) l1
  obtain ⟨z, rfl⟩ := exists_ofFn (n := 2 * i2.l + 1) l2
  simp only at l1 l2 ⊢
  rw [sumSq_ofFn, sumSq_ofFn, ← pair_isometry i1 i2 x z]
  simp only [List.map_map, Function.comp_def]
  have e : irsOut none i1 i2 = i1.mul i2 := by unfold irsOut; simp
  rw [e]
  congr 1
  apply List.map_congr_left
  intro ir _
  simp [tpCoef, realCtx]

/-- The sign `(-1)^(l1 + l2 + l3)` of a path. -/
def pathSign (i1 i2 ir : Irrep) : K := (-1) ^ (i1.l + i2.l + ir.l)

theorem bilinear_swap (k : ℝ) (l1 l2 l3 : ℕ) (x y : List K) (hx : x.length = 2 * l1 + 1) (hy : y.length = 2 * l2 + 1) :
    bilinear (algebraMap ℝ K k) ((realCtx K).cg l2 l1 l3) l2 l1 l3 y x =
      (bilinear (algebraMap ℝ K k) ((realCtx K).cg l1 l2 l3) l1 l2 l3 x y).map ((-1 : K) ^ (l1 + l2 + l3) * ·) := by
  obtain ⟨x, rfl⟩ := exists_ofFn hx
  obtain ⟨y, rfl⟩ := exists_ofFn hy
  rw [bilinear_coefK, bilinear_coefK, List.map_ofFn]
  congr 1
  funext c
  simp only [Function.comp_apply, Finset.mul_sum]
  rw [Finset.sum_comm]
  apply Finset.sum_congr rfl; intro a _
  apply Finset.sum_congr rfl; intro b _
  rw [cg_swap l1 l2 l3 a b c, mul_comm (y b), Algebra.smul_def, Algebra.smul_def]
  simp only [map_mul, map_pow, map_neg, map_one]
  ring

theorem tpCoef_swap (n : IrNorm) (i1 i2 ir : Irrep) :
    ∃ k : ℝ, tpCoef (realCtx K) n i1 i2 ir = algebraMap ℝ K k ∧ tpCoef (realCtx K) n i2 i1 ir = algebraMap ℝ K k := by
  cases n
  · exact ⟨_, rfl, rfl⟩
  · refine ⟨_, rfl, ?_⟩
    simp only [tpCoef, realCtx]
    rw [mul_comm]
  · exact ⟨1, by simp [tpCoef], by simp [tpCoef]⟩
  · exact ⟨1, by simp [tpCoef], by simp [tpCoef]⟩

theorem flatMap_comm_perm' {α β γ : Type} (l : List α) (m : List β) (f : α → β → List γ) :
    (l.flatMap fun a => m.flatMap fun b => f a b).Perm (m.flatMap fun b => l.flatMap fun a => f a b) := by
  induction l with
  | nil => simp
  | cons a l ih =>
    simp only [List.flatMap_cons]
    exact (List.Perm.append (List.Perm.refl _) ih).trans (List.flatMap_append_perm _ _ _)

/-- **C69 (exchange).** `tensor_product(x2, x1)` has the blocks of `tensor_product(x1, x2)`, the block of
degree `l` coming from blocks of degrees `l1` and `l2` being multiplied by `(-1)^(l1 + l2 + l)`.  The list `P`
enumerates the paths. -/
theorem C69_exchange {n : IrNorm} (hn : n ≠ .other) (filter : Option (List Irrep)) (rg : Bool) (x1 x2 : IArr K)
    (h1 : x1.Coherent) (h2 : x2.Coherent) :
    ∃ y z, tensorProduct (realCtx K) n filter rg x1 x2 = .ok y ∧ tensorProduct (realCtx K) n filter rg x2 x1 = .ok z ∧
      ∃ P : List ((Irrep × Irrep) × (Irrep × List K)), y.blocks.Perm (P.map Prod.snd) ∧
        z.blocks.Perm (P.map fun p => (p.2.1, p.2.2.map (pathSign p.1.1 p.1.2 p.2.1 * ·))) ∧
        (∀ p ∈ P, p.1.1 ∈ expand x1.irreps ∧ p.1.2 ∈ expand x2.irreps ∧ Allowed filter p.1.1 p.1.2 p.2.1) := by
  obtain ⟨y, hy, py, -⟩ := C33_values (realCtx_shape K) hn filter rg x1 x2 h1 h2
  obtain ⟨z, hz, pz, -⟩ := C33_values (realCtx_shape K) hn filter rg x2 x1 h2 h1
  refine ⟨y, z, hy, hz, x1.blocks.flatMap fun b1 => x2.blocks.flatMap fun b2 => (irsOut filter b1.1 b2.1).map fun ir =>
    ((b1.1, b2.1), (ir, bilinear (tpCoef (realCtx K) n b1.1 b2.1 ir) ((realCtx K).cg b1.1.l b2.1.l ir.l) b1.1.l b2.1.l ir.l b1.2 b2.2)), ?_, ?_, ?_⟩
  · refine py.trans (List.Perm.of_eq ?_)
    simp only [List.map_flatMap, List.map_map, Function.comp_def]
  · refine pz.trans ?_
    refine (flatMap_comm_perm' _ _ _).trans (List.Perm.of_eq ?_)
    simp only [List.map_flatMap, List.map_map, Function.comp_def]
    apply List.flatMap_congr
    intro b1 m1
    apply List.flatMap_congr
    intro b2 m2
    have e : irsOut filter b2.1 b1.1 = irsOut filter b1.1 b2.1 := by unfold irsOut; rw [C02_mul_comm]
    rw [e]
    apply List.map_congr_left
    intro ir _
    obtain ⟨k, k1, k2⟩ := tpCoef_swap (K := K) n b1.1 b2.1 ir
    rw [k1, k2, bilinear_swap k b1.1.l b2.1.l ir.l b1.2 b2.2 (block_length h1 m1) (block_length h2 m2)]
    rfl
  · intro p hp
    simp only [List.mem_flatMap, List.mem_map] at hp
    obtain ⟨b1, m1, b2, m2, ir, hir, rfl⟩ := hp
    refine ⟨?_, ?_, mem_irsOut.mp hir⟩
    · rw [← blocks_irs]; exact List.mem_map.mpr ⟨b1, m1, rfl⟩
    · rw [← blocks_irs]; exact List.mem_map.mpr ⟨b2, m2, rfl⟩

/-- **C69 (`tensor_square` loses nothing).** The product of a block with itself has no component of odd degree:
the paths that `tensor_square` leaves out are identically zero. -/
theorem C69_odd_vanish (k : ℝ) (ir : Irrep) (v : List K) (hv : v.length = ir.dim) (L : ℕ) (hL : L % 2 = 1) :
    ∀ c ∈ bilinear (algebraMap ℝ K k) ((realCtx K).cg ir.l ir.l L) ir.l ir.l L v v, c = 0 := by
  have h := bilinear_swap (K := K) k ir.l ir.l L v v hv hv
  have ho : Odd (ir.l + ir.l + L) := by rw [Nat.odd_iff]; omega
  rw [ho.neg_one_pow] at h
  intro c hc
  obtain ⟨i, hi, rfl⟩ := List.getElem_of_mem hc
  have h2 := congrArg (fun l => l[i]?) h
  simp only [List.getElem?_map, List.getElem?_eq_getElem hi, Option.map_some, Option.some.injEq] at h2
  have h3 : (2 : K) * (bilinear (algebraMap ℝ K k) ((realCtx K).cg ir.l ir.l L) ir.l ir.l L v v)[i] = 0 := by linear_combination h2
  have h4 : algebraMap ℝ K (1 / 2) * 2 = 1 := by
    rw [← map_ofNat (algebraMap ℝ K) 2, ← map_mul]; norm_num
  calc _ = (algebraMap ℝ K (1 / 2) * 2) * (bilinear (algebraMap ℝ K k) ((realCtx K).cg ir.l ir.l L) ir.l ir.l L v v)[i] := by rw [h4, one_mul]
    _ = 0 := by rw [mul_assoc, h3, mul_zero]

/-- **C69 (scalar part).** The component `0e` (or `0o`) of the product of two blocks of the same degree `l` is
their dot product divided by `sqrt(2l+1)`, times the coefficient of the normalisation. -/
theorem C69_scalar (k : ℝ) (l : ℕ) (x y : List K) (hx : x.length = 2 * l + 1) (hy : y.length = 2 * l + 1) :
    bilinear (algebraMap ℝ K k) ((realCtx K).cg l l 0) l l 0 x y =
      [algebraMap ℝ K (k / Real.sqrt (2 * l + 1)) * (List.zipWith (· * ·) x y).sum] := by
  obtain ⟨x, rfl⟩ := exists_ofFn hx
  obtain ⟨y, rfl⟩ := exists_ofFn hy
  rw [bilinear_coefK]
  have hz : (List.zipWith (· * ·) (List.ofFn x) (List.ofFn y)).sum = ∑ a, x a * y a := by
    have : List.zipWith (· * ·) (List.ofFn x) (List.ofFn y) = List.ofFn fun a => x a * y a := by
      apply List.ext_getElem
      · simp
      · intro i h1 h2; simp only [List.getElem_zipWith, List.getElem_ofFn]
    rw [this, List.sum_ofFn]
  rw [hz, Finset.mul_sum]
  show List.ofFn (fun c : Fin 1 => _) = _
  rw [List.ofFn_succ, List.ofFn_zero]
  congr 1
  apply Finset.sum_congr rfl; intro a _
  rw [Finset.sum_eq_single a]
  · rw [show clebschGordan l l 0 a a (0 : Fin (2 * 0 + 1)) = _ from (C58_scalar l 0 a a).2.2, if_pos rfl, Algebra.smul_def]
    congr 2
    ring
  · intro b _ hb
    rw [show clebschGordan l l 0 a b (0 : Fin (2 * 0 + 1)) = _ from (C58_scalar l 0 a b).2.2, if_neg (Ne.symm hb), mul_zero, zero_smul]
  · simp

example : ∃ y, tensorProduct (realCtx ℝ) .component none true ⟨[⟨1, ⟨0, .e⟩⟩, ⟨1, ⟨1, .o⟩⟩], [1, 2, 3, 4], none, none⟩
    ⟨[⟨1, ⟨1, .o⟩⟩], [1, 0, 2], none, none⟩ = .ok y ∧ sumSq y.array = 30 * 5 := by
  obtain ⟨y, h1, h2⟩ := C69_isometry (K := ℝ) true _ _ (Basic.coherent_plain [⟨1, ⟨0, .e⟩⟩, ⟨1, ⟨1, .o⟩⟩] [1, 2, 3, 4] rfl)
    (Basic.coherent_plain [⟨1, ⟨1, .o⟩⟩] [1, 0, 2] rfl)
  refine ⟨y, h1, ?_⟩
  rw [h2]
  norm_num [sumSq]

end
end E3nn
