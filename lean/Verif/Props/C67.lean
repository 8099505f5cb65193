import Verif.Spec.Normalisation
import Verif.Lemmas.CGOrth
import Verif.Lemmas.TransformO3
import Verif.Props.C58
import Mathlib.Probability.Independence.Integration

/-!
# C67: tensor products preserve the normalisation they promise

`irrep_normalization="component"`: if the components of the inputs have second moment one, so have
those of the output; `"norm"`: the same for the norms of the blocks.
-/

namespace E3nn
open IArr Matrix E3nn.SU2 E3nn.TP E3nn.Stat MeasureTheory ProbabilityTheory Finset

section
variable {Ω : Type} [MeasurableSpace Ω] {μ : Measure Ω}

theorem bilinear_coef (k : ℝ) (l1 l2 l3 : ℕ) (x : Fin (2 * l1 + 1) → Ω → ℝ) (y : Fin (2 * l2 + 1) → Ω → ℝ) :
    bilinear (algebraMap ℝ (Ω → ℝ) k) ((realCtx (Ω → ℝ)).cg l1 l2 l3) l1 l2 l3 (List.ofFn x) (List.ofFn y) =
      List.ofFn fun c => ∑ a, ∑ b, (k * clebschGordan l1 l2 l3 a b c) • (x a * y b) := by
  have h := bilinear_ofFn l1 l2 l3 x y
  have e : bilinear (algebraMap ℝ (Ω → ℝ) k) ((realCtx (Ω → ℝ)).cg l1 l2 l3) l1 l2 l3 (List.ofFn x) (List.ofFn y) =
      (bilinear 1 ((realCtx (Ω → ℝ)).cg l1 l2 l3) l1 l2 l3 (List.ofFn x) (List.ofFn y)).map (algebraMap ℝ (Ω → ℝ) k * ·) := by
    unfold bilinear
    rw [List.map_map]
    apply List.map_congr_left
    intro c _
    simp only [Function.comp_apply, ← List.sum_map_mul_left, one_mul, mul_assoc]
  rw [e, h, List.map_ofFn]
  congr 1
  funext c
  simp only [Function.comp_apply, Finset.mul_sum, Algebra.smul_def, map_mul, mul_assoc]

/-- The expectation of a product of two bilinear expressions. -/
theorem corr_bilinear {n1 n2 n1' n2' : ℕ} {x : Fin n1 → Ω → ℝ} {x' : Fin n1' → Ω → ℝ} {y : Fin n2 → Ω → ℝ} {y' : Fin n2' → Ω → ℝ}
    (E : Fin n1 → Fin n2 → Fin n1' → Fin n2' → ℝ)
    (h : ∀ a b a' b', Corr μ (x a * y b) (x' a' * y' b') (E a b a' b'))
    (C : Fin n1 → Fin n2 → ℝ) (C' : Fin n1' → Fin n2' → ℝ) :
    Corr μ (∑ a, ∑ b, C a b • (x a * y b)) (∑ a, ∑ b, C' a b • (x' a * y' b))
      (∑ a, ∑ b, ∑ a', ∑ b', C a b * C' a' b' * E a b a' b') := by
  have hI : ∀ a b a' b', Integrable (fun ω => C a b * C' a' b' * ((x a * y b) ω * (x' a' * y' b') ω)) μ :=
    fun a b a' b' => (h a b a' b').1.const_mul _
  have e : (fun ω : Ω => (∑ a, ∑ b, C a b • (x a * y b) : Ω → ℝ) ω * (∑ a, ∑ b, C' a b • (x' a * y' b) : Ω → ℝ) ω) =
      fun ω : Ω => ∑ a : Fin n1, ∑ b : Fin n2, ∑ a' : Fin n1', ∑ b' : Fin n2', C a b * C' a' b' * ((x a * y b) ω * (x' a' * y' b') ω) := by
    funext ω
    simp only [Finset.sum_apply, Pi.smul_apply, smul_eq_mul]
    rw [Finset.sum_mul]
    apply Finset.sum_congr rfl; intro a _
    rw [Finset.sum_mul]
    apply Finset.sum_congr rfl; intro b _
    rw [Finset.mul_sum]
    apply Finset.sum_congr rfl; intro a' _
    rw [Finset.mul_sum]
    apply Finset.sum_congr rfl; intro b' _
    ring
  unfold Corr
  rw [e]
  refine ⟨integrable_finsetSum _ fun a _ => integrable_finsetSum _ fun b _ => integrable_finsetSum _ fun a' _ =>
    integrable_finsetSum _ fun b' _ => hI a b a' b', ?_⟩
  rw [integral_finsetSum _ fun a _ => integrable_finsetSum _ fun b _ => integrable_finsetSum _ fun a' _ =>
    integrable_finsetSum _ fun b' _ => hI a b a' b']
  refine Finset.sum_congr rfl fun a _ => ?_
  rw [integral_finsetSum _ fun b _ => integrable_finsetSum _ fun a' _ =>
    integrable_finsetSum _ fun b' _ => hI a b a' b']
  refine Finset.sum_congr rfl fun b _ => ?_
  rw [integral_finsetSum _ fun a' _ => integrable_finsetSum _ fun b' _ => hI a b a' b']
  refine Finset.sum_congr rfl fun a' _ => ?_
  rw [integral_finsetSum _ fun b' _ => hI a b a' b']
  refine Finset.sum_congr rfl fun b' _ => ?_
  rw [integral_const_mul, (h a b a' b').2]

/-- Independence splits the fourth moments. -/
theorem corr_indep {x x' y y' : Ω → ℝ} {s t : ℝ} (hx : Corr μ x x' s) (hy : Corr μ y y' t)
    (h : IndepFun (fun ω => x ω * x' ω) (fun ω => y ω * y' ω) μ) : Corr μ (x * y) (x' * y') (s * t) := by
  have e : (fun ω => (x * y) ω * (x' * y') ω) = (fun ω => x ω * x' ω) * (fun ω => y ω * y' ω) := by
    funext ω; simp only [Pi.mul_apply]; ring
  unfold Corr
  rw [e]
  refine ⟨h.integrable_mul hx.1 hy.1, ?_⟩
  rw [h.integral_mul_eq_mul_integral hx.1.aestronglyMeasurable hy.1.aestronglyMeasurable, hx.2, hy.2]

/-- The random variables that one allowed path of a product puts into its block. -/
theorem corr_path {b1 b2 b1' b2' : Irrep × List (Ω → ℝ)} (h1 : b1.2.length = b1.1.dim) (h2 : b2.2.length = b2.1.dim)
    (h1' : b1'.2.length = b1'.1.dim) (h2' : b2'.2.length = b2'.1.dim) (k k' : ℝ) (l l' : ℕ) {E : ℕ → ℕ → ℕ → ℕ → ℝ}
    (h : ∀ a b a' b', a < 2 * b1.1.l + 1 → b < 2 * b2.1.l + 1 → a' < 2 * b1'.1.l + 1 → b' < 2 * b2'.1.l + 1 →
      Corr μ (b1.2.getD a 0 * b2.2.getD b 0) (b1'.2.getD a' 0 * b2'.2.getD b' 0) (E a b a' b'))
    (c : Fin (2 * l + 1)) (c' : Fin (2 * l' + 1)) :
    Corr μ ((bilinear (algebraMap ℝ (Ω → ℝ) k) ((realCtx (Ω → ℝ)).cg b1.1.l b2.1.l l) b1.1.l b2.1.l l b1.2 b2.2).getD c 0)
      ((bilinear (algebraMap ℝ (Ω → ℝ) k') ((realCtx (Ω → ℝ)).cg b1'.1.l b2'.1.l l') b1'.1.l b2'.1.l l' b1'.2 b2'.2).getD c' 0)
      (k * k' * ∑ a, ∑ b, ∑ a', ∑ b', clebschGordan b1.1.l b2.1.l l a b c * clebschGordan b1'.1.l b2'.1.l l' a' b' c' * E a b a' b') := by
  obtain ⟨i1, v1⟩ := b1
  obtain ⟨i2, v2⟩ := b2
  obtain ⟨i1', v1'⟩ := b1'
  obtain ⟨i2', v2'⟩ := b2'
  obtain ⟨x1, rfl⟩ := exists_ofFn (n := 2 * i1.l + 1) h1
  obtain ⟨x2, rfl⟩ := exists_ofFn (n := 2 * i2.l + 1) h2
  obtain ⟨x1', rfl⟩ := exists_ofFn (n := 2 * i1'.l + 1) h1'
  obtain ⟨x2', rfl⟩ := exists_ofFn (n := 2 * i2'.l + 1) h2'
  simp only at h ⊢
  rw [bilinear_coef, bilinear_coef, getD_ofFn, getD_ofFn]
  have key := corr_bilinear (μ := μ) (x := x1) (y := x2) (x' := x1') (y' := x2') (fun a b a' b' => E a b a' b')
    (fun a b a' b' => by simpa only [getD_ofFn] using h a b a' b' a.2 b.2 a'.2 b'.2)
    (fun a b => k * clebschGordan i1.l i2.l l a b c) (fun a b => k' * clebschGordan i1'.l i2'.l l' a b c')
  refine ⟨key.1, key.2.trans ?_⟩
  simp only [Finset.mul_sum]
  refine Finset.sum_congr rfl fun a _ => Finset.sum_congr rfl fun b _ => Finset.sum_congr rfl fun a' _ =>
    Finset.sum_congr rfl fun b' _ => ?_
  ring

theorem indep_products {A B : List (Ω → ℝ)} (h : Indep μ A B) {x x' y y' : Ω → ℝ} (hx : x ∈ A) (hx' : x' ∈ A) (hy : y ∈ B)
    (hy' : y' ∈ B) : IndepFun (fun ω => x ω * x' ω) (fun ω => y ω * y' ω) μ := by
  obtain ⟨i, hi, rfl⟩ := List.getElem_of_mem hx
  obtain ⟨i', hi', rfl⟩ := List.getElem_of_mem hx'
  obtain ⟨j, hj, rfl⟩ := List.getElem_of_mem hy
  obtain ⟨j', hj', rfl⟩ := List.getElem_of_mem hy'
  have := IndepFun.comp (φ := fun f : ℕ → ℝ => f i * f i') (ψ := fun f : ℕ → ℝ => f j * f j') h
    (by fun_prop) (by fun_prop)
  have e1 : (fun f : ℕ → ℝ => f i * f i') ∘ (fun ω (i : ℕ) => A.getD i 0 ω) = fun ω => A[i] ω * A[i'] ω := by
    funext ω; simp [List.getD, hi, hi']
  have e2 : (fun f : ℕ → ℝ => f j * f j') ∘ (fun ω (i : ℕ) => B.getD i 0 ω) = fun ω => B[j] ω * B[j'] ω := by
    funext ω; simp [List.getD, hj, hj']
  rw [e1, e2] at this
  exact this

theorem getD_mem {v : List (Ω → ℝ)} {n i : ℕ} (h : v.length = n) (hi : i < n) : v.getD i 0 ∈ v := by
  have hl : i < v.length := by omega
  have : v.getD i 0 = v[i] := by simp [List.getD, hl]
  rw [this]; exact List.getElem_mem _

theorem pairsOf_pairwise {α : Type} {R : α → α → Prop} {l : List α} (h : l.Pairwise R) {a b : α} (hm : (a, b) ∈ pairsOf l) : R a b := by
  induction l with
  | nil => simp [pairsOf] at hm
  | cons c l ih =>
    rw [List.pairwise_cons] at h
    simp only [pairsOf, List.mem_append, List.mem_map] at hm
    rcases hm with ⟨d, hd, e⟩ | hm
    · cases e; exact h.1 _ hd
    · exact ih h.2 hm

theorem getD_mem_of_block {x : IArr (Ω → ℝ)} (h : x.Coherent) {b : Irrep × List (Ω → ℝ)} (hb : b ∈ x.blocks) {i : ℕ}
    (hi : i < 2 * b.1.l + 1) : b.2.getD i 0 ∈ x.array := by
  rw [← h.inv.array_eq_blocks]
  have hl : i < b.2.length := by rw [block_length h hb]; exact hi
  refine List.mem_flatten.mpr ⟨b.2, List.mem_map.mpr ⟨b, hb, rfl⟩, ?_⟩
  have : b.2.getD i 0 = b.2[i] := by simp [List.getD, hl]
  rw [this]; exact List.getElem_mem _

theorem gram_ite {l1 l2 l3 l3' : ℕ} (h : l1 ≤ l2 + l3 ∧ l2 ≤ l1 + l3 ∧ l3 ≤ l1 + l2) (v1 v2 : ℝ) (c : Fin (2 * l3 + 1)) (c' : Fin (2 * l3' + 1)) :
    ∑ a, ∑ b, ∑ a', ∑ b', clebschGordan l1 l2 l3 a b c * clebschGordan l1 l2 l3' a' b' c' *
      ((if a.val = a'.val then v1 else 0) * (if b.val = b'.val then v2 else 0)) =
      v1 * v2 * if l3 = l3' ∧ c.val = c'.val then 1 / (2 * (l3 : ℝ) + 1) else 0 := by
  have e : ∑ a, ∑ b, ∑ a', ∑ b', clebschGordan l1 l2 l3 a b c * clebschGordan l1 l2 l3' a' b' c' *
      ((if a.val = a'.val then v1 else 0) * (if b.val = b'.val then v2 else 0)) =
      v1 * v2 * ∑ a, ∑ b, clebschGordan l1 l2 l3 a b c * clebschGordan l1 l2 l3' a b c' := by
    simp only [Finset.mul_sum]
    refine Finset.sum_congr rfl fun a _ => Finset.sum_congr rfl fun b _ => ?_
    rw [Finset.sum_eq_single a, Finset.sum_eq_single b]
    · simp; ring
    · intro b' _ hb
      rw [if_neg (fun e => hb (Fin.ext e.symm)) (c := b.val = b'.val)]; ring
    · simp
    · intro a' _ ha
      apply Finset.sum_eq_zero
      intro b' _
      rw [if_neg (fun e => ha (Fin.ext e.symm))]; ring
    · simp
  rw [e]
  congr 1
  by_cases hl : l3 = l3'
  · subst hl
    rw [C58_orthogonal ⟨by rw [abs_le]; omega, h.2.2⟩ c c']
    simp [Fin.ext_iff]
  · rw [if_neg (fun e => hl e.1)]
    have := congrFun (congrFun (cg_cross l1 l2 hl) c) c'
    rw [Matrix.mul_apply, Fintype.sum_prod_type] at this
    exact this

/-- The coefficient of a path, as a real number. -/
noncomputable def kappa (n : IrNorm) (i1 i2 ir : Irrep) : ℝ :=
  match n with
  | .component => Real.sqrt (2 * ir.l + 1)
  | .norm => Real.sqrt ((2 * i1.l + 1) * (2 * i2.l + 1))
  | _ => 1

theorem tpCoef_kappa (n : IrNorm) (i1 i2 ir : Irrep) :
    tpCoef (realCtx (Ω → ℝ)) n i1 i2 ir = algebraMap ℝ (Ω → ℝ) (kappa n i1 i2 ir) := by
  cases n <;> simp [tpCoef, kappa, realCtx]

theorem kappa_target {n : IrNorm} (hn : n = .component ∨ n = .norm) (i1 i2 ir : Irrep) :
    kappa n i1 i2 ir * kappa n i1 i2 ir * (target n i1 * target n i2 * (1 / (2 * (ir.l : ℝ) + 1))) = target n ir := by
  rcases hn with rfl | rfl
  · simp only [kappa, target]
    rw [Real.mul_self_sqrt (by positivity)]
    field_simp
  · simp only [kappa, target]
    rw [Real.mul_self_sqrt (by positivity)]
    field_simp

/-- The block of one path of the product of two blocks. -/
noncomputable def pathBlock (n : IrNorm) (b1 b2 : Irrep × List (Ω → ℝ)) (ir : Irrep) : Irrep × List (Ω → ℝ) :=
  (ir, bilinear (tpCoef (realCtx (Ω → ℝ)) n b1.1 b2.1 ir) ((realCtx (Ω → ℝ)).cg b1.1.l b2.1.l ir.l) b1.1.l b2.1.l ir.l b1.2 b2.2)

/-- The hypotheses on the two arguments. -/
structure Inputs (n : IrNorm) (μ : Measure Ω) (x1 x2 : IArr (Ω → ℝ)) : Prop where
  h1 : x1.Coherent
  h2 : x2.Coherent
  w1 : White n μ x1.blocks
  w2 : White n μ x2.blocks
  ind : Indep μ x1.array x2.array

/-- Any two components of a white array have a correlation. -/
theorem white_corr {n : IrNorm} {bs : List (Irrep × List (Ω → ℝ))} (w : White n μ bs) {b b' : Irrep × List (Ω → ℝ)} (hb : b ∈ bs)
    (hb' : b' ∈ bs) : ∃ E : ℕ → ℕ → ℝ, ∀ i j, i < 2 * b.1.l + 1 → j < 2 * b'.1.l + 1 → Corr μ (b.2.getD i 0) (b'.2.getD j 0) (E i j) := by
  let R : Irrep × List (Ω → ℝ) → Irrep × List (Ω → ℝ) → Prop := fun b b' => ∃ E : ℕ → ℕ → ℝ, ∀ i j, i < 2 * b.1.l + 1 →
    j < 2 * b'.1.l + 1 → Corr μ (b.2.getD i 0) (b'.2.getD j 0) (E i j)
  haveI hs : Std.Symm R := by
    constructor
    rintro b b' ⟨E, h⟩
    refine ⟨fun i j => E j i, fun i j hi hj => ?_⟩
    have := h j i hj hi
    unfold Corr at this ⊢
    simpa only [mul_comm] using this
  refine List.Pairwise.forall_of_forall (R := R) (fun b hb => ⟨_, w.1 b hb⟩) (w.2.imp fun {a b} h => ⟨fun _ _ => 0, h⟩) hb hb'

theorem path_corr {n : IrNorm} {x1 x2 : IArr (Ω → ℝ)} (H : Inputs n μ x1 x2) {b1 b1' b2 b2' : Irrep × List (Ω → ℝ)}
    (m1 : b1 ∈ x1.blocks) (m1' : b1' ∈ x1.blocks) (m2 : b2 ∈ x2.blocks) (m2' : b2' ∈ x2.blocks) {X Y : ℕ → ℕ → ℝ}
    (hX : ∀ i j, i < 2 * b1.1.l + 1 → j < 2 * b1'.1.l + 1 → Corr μ (b1.2.getD i 0) (b1'.2.getD j 0) (X i j))
    (hY : ∀ i j, i < 2 * b2.1.l + 1 → j < 2 * b2'.1.l + 1 → Corr μ (b2.2.getD i 0) (b2'.2.getD j 0) (Y i j))
    (ir ir' : Irrep) (c : Fin (2 * ir.l + 1)) (c' : Fin (2 * ir'.l + 1)) :
    Corr μ ((pathBlock n b1 b2 ir).2.getD c 0) ((pathBlock n b1' b2' ir').2.getD c' 0)
      (kappa n b1.1 b2.1 ir * kappa n b1'.1 b2'.1 ir' * ∑ a, ∑ b, ∑ a', ∑ b', clebschGordan b1.1.l b2.1.l ir.l a b c *
        clebschGordan b1'.1.l b2'.1.l ir'.l a' b' c' * (X a a' * Y b b')) := by
  unfold pathBlock
  simp only [tpCoef_kappa]
  refine corr_path (block_length H.h1 m1) (block_length H.h2 m2) (block_length H.h1 m1') (block_length H.h2 m2') _ _ ir.l ir'.l
    (E := fun a b a' b' => X a a' * Y b b') ?_ c c'
  intro a b a' b' ha hb ha' hb'
  exact corr_indep (hX a a' ha ha') (hY b b' hb hb') (indep_products H.ind (getD_mem_of_block H.h1 m1 ha) (getD_mem_of_block H.h1 m1' ha')
    (getD_mem_of_block H.h2 m2 hb) (getD_mem_of_block H.h2 m2' hb'))

/-- Paths that come from different blocks of one argument are uncorrelated. -/
theorem path_uncorr {n : IrNorm} {x1 x2 : IArr (Ω → ℝ)} (H : Inputs n μ x1 x2) {b1 b1' b2 b2' : Irrep × List (Ω → ℝ)}
    (m1 : b1 ∈ x1.blocks) (m1' : b1' ∈ x1.blocks) (m2 : b2 ∈ x2.blocks) (m2' : b2' ∈ x2.blocks)
    (h : Uncorr μ b1 b1' ∨ Uncorr μ b2 b2') (ir ir' : Irrep) : Uncorr μ (pathBlock n b1 b2 ir) (pathBlock n b1' b2' ir') := by
  intro i j hi hj
  obtain ⟨X, hX⟩ := white_corr H.w1 m1 m1'
  obtain ⟨Y, hY⟩ := white_corr H.w2 m2 m2'
  rcases h with h | h
  · have := path_corr H m1 m1' m2 m2' h hY ir ir' ⟨i, hi⟩ ⟨j, hj⟩
    simpa using this
  · have := path_corr H m1 m1' m2 m2' hX h ir ir' ⟨i, hi⟩ ⟨j, hj⟩
    simpa using this

theorem path_same {n : IrNorm} (hn : n = .component ∨ n = .norm) {x1 x2 : IArr (Ω → ℝ)} (H : Inputs n μ x1 x2) {b1 b2 : Irrep × List (Ω → ℝ)}
    (m1 : b1 ∈ x1.blocks) (m2 : b2 ∈ x2.blocks) {ir ir' : Irrep} (hi : ir ∈ b1.1.mul b2.1) (hi' : ir' ∈ b1.1.mul b2.1) :
    Moments2 μ (pathBlock n b1 b2 ir) (target n ir) ∧ (ir ≠ ir' → Uncorr μ (pathBlock n b1 b2 ir) (pathBlock n b1 b2 ir')) := by
  have t : ∀ ir ∈ b1.1.mul b2.1, (b1.1.l ≤ b2.1.l + ir.l ∧ b2.1.l ≤ b1.1.l + ir.l ∧ ir.l ≤ b1.1.l + b2.1.l) ∧
      ir.p = b1.1.p.mul b2.1.p := by
    intro ir h
    have h2 := (mem_irsOut (filter := none) (a := b1.1) (b := b2.1) (c := ir)).mp (by unfold irsOut; simpa using h)
    refine ⟨h2.1, ?_⟩
    unfold Irrep.mul at h
    obtain ⟨l, -, e⟩ := List.mem_map.mp h
    exact (congrArg Irrep.p e).symm
  refine ⟨fun i j hi1 hj1 => ?_, fun hne i j hi1 hj1 => ?_⟩
  · have := path_corr H m1 m1 m2 m2 (H.w1.1 _ m1) (H.w2.1 _ m2) ir ir ⟨i, hi1⟩ ⟨j, hj1⟩
    rw [gram_ite (t ir hi).1] at this
    simp only [true_and] at this
    by_cases e : i = j
    · subst e
      rw [if_pos rfl] at this ⊢
      rw [kappa_target hn] at this
      exact this
    · rw [if_neg e] at this ⊢
      simpa using this
  · have := path_corr H m1 m1 m2 m2 (H.w1.1 _ m1) (H.w2.1 _ m2) ir ir' ⟨i, hi1⟩ ⟨j, hj1⟩
    have hl : ir.l ≠ ir'.l := by
      intro e
      apply hne
      have e2 := (t ir hi).2.trans (t ir' hi').2.symm
      cases ir; cases ir'; simp_all
    rw [gram_ite (t ir hi).1, if_neg (fun e => hl e.1)] at this
    simpa using this

theorem uncorr_symm : Symmetric (Uncorr μ : Irrep × List (Ω → ℝ) → Irrep × List (Ω → ℝ) → Prop) := by
  intro b b' h i j hi hj
  have := h j i hj hi
  unfold Corr at this ⊢
  simpa only [mul_comm] using this

theorem white_perm {n : IrNorm} {bs bs' : List (Irrep × List (Ω → ℝ))} (h : bs.Perm bs') (w : White n μ bs') : White n μ bs :=
  ⟨fun b hb => w.1 b (h.mem_iff.mp hb), (h.pairwise_iff (fun {a b} => uncorr_symm (x := a) (y := b))).mpr w.2⟩

/-- **C67 (`tensor_product`).** If all components of `x1` and all components of `x2` are uncorrelated
and normalised (`component`: second moment one; `norm`: second moment `1/(2l+1)`, so that the squared
norm of every block has expectation one), and `x1` and `x2` are independent, then the same is true of
the result of `tensor_product` with the same `irrep_normalization`: its components are uncorrelated
and normalised. -/
theorem C67_tensor_product {n : IrNorm} (hn : n = .component ∨ n = .norm) (filter : Option (List Irrep)) (rg : Bool)
    (x1 x2 : IArr (Ω → ℝ)) (h1 : x1.Coherent) (h2 : x2.Coherent) (w1 : White n μ x1.blocks) (w2 : White n μ x2.blocks)
    (ind : Indep μ x1.array x2.array) :
    ∃ y, tensorProduct (realCtx (Ω → ℝ)) n filter rg x1 x2 = .ok y ∧ White n μ y.blocks := by
  have H : Inputs n μ x1 x2 := ⟨h1, h2, w1, w2, ind⟩
  have hn' : n ≠ .other := by rcases hn with rfl | rfl <;> simp
  obtain ⟨y, hy, hp, -⟩ := C33_values (realCtx_shape (Ω → ℝ)) hn' filter rg x1 x2 h1 h2
  refine ⟨y, hy, white_perm hp ⟨?_, ?_⟩⟩
  · intro b hb
    simp only [List.mem_flatMap, List.mem_map] at hb
    obtain ⟨b1, m1, b2, m2, ir, hir, rfl⟩ := hb
    have hir' : ir ∈ b1.1.mul b2.1 := List.mem_of_mem_filter hir
    exact (path_same hn H m1 m2 hir' hir').1
  · rw [List.pairwise_flatMap]
    refine ⟨fun b1 m1 => ?_, ?_⟩
    · rw [List.pairwise_flatMap]
      refine ⟨fun b2 m2 => ?_, ?_⟩
      · rw [List.pairwise_map]
        refine List.Pairwise.imp_of_mem (R := (· ≠ ·)) ?_ (irsOut_nodup filter b1.1 b2.1)
        intro ir ir' hir hir' hne
        exact (path_same hn H m1 m2 (List.mem_of_mem_filter hir) (List.mem_of_mem_filter hir')).2 hne
      · refine List.Pairwise.imp_of_mem ?_ w2.2
        intro b2 b2' m2 m2' hu p hp q hq
        obtain ⟨ir, -, rfl⟩ := List.mem_map.mp hp
        obtain ⟨ir', -, rfl⟩ := List.mem_map.mp hq
        exact path_uncorr H m1 m1 m2 m2' (.inr hu) ir ir'
    · refine List.Pairwise.imp_of_mem ?_ w1.2
      intro b1 b1' m1 m1' hu p hp q hq
      simp only [List.mem_flatMap, List.mem_map] at hp hq
      obtain ⟨b2, m2, ir, -, rfl⟩ := hp
      obtain ⟨b2', m2', ir', -, rfl⟩ := hq
      exact path_uncorr H m1 m1' m2 m2' (.inl hu) ir ir'

/-- **C67 (`elementwise_tensor_product`).** -/
theorem C67_elementwise {n : IrNorm} (hn : n = .component ∨ n = .norm) (filter : Option (List Irrep))
    (x1 x2 : IArr (Ω → ℝ)) (h1 : x1.Coherent) (h2 : x2.Coherent) (z1 : ∀ m ∈ x1.irreps, 0 < m.mul) (z2 : ∀ m ∈ x2.irreps, 0 < m.mul)
    (he : (expand x1.irreps).length = (expand x2.irreps).length) (w1 : White n μ x1.blocks) (w2 : White n μ x2.blocks)
    (ind : Indep μ x1.array x2.array) :
    ∃ y, elementwise (realCtx (Ω → ℝ)) n filter x1 x2 = .ok y ∧ White n μ y.blocks := by
  have H : Inputs n μ x1 x2 := ⟨h1, h2, w1, w2, ind⟩
  have hn' : n ≠ .other := by rcases hn with rfl | rfl <;> simp
  obtain ⟨y, hy, -, hp⟩ := C33_elementwise (realCtx_shape (Ω → ℝ)) hn' filter x1 x2 h1 h2 z1 z2 he
  refine ⟨y, hy, white_perm hp ⟨?_, ?_⟩⟩
  · intro b hb
    simp only [List.mem_flatMap, List.mem_map] at hb
    obtain ⟨⟨b1, b2⟩, m, ir, hir, rfl⟩ := hb
    have hir' : ir ∈ b1.1.mul b2.1 := List.mem_of_mem_filter hir
    exact (path_same hn H (List.of_mem_zip m).1 (List.of_mem_zip m).2 hir' hir').1
  · have hl : x1.blocks.length = x2.blocks.length := by
      have e1 := congrArg List.length (blocks_irs x1)
      have e2 := congrArg List.length (blocks_irs x2)
      simp only [List.length_map] at e1 e2
      rw [e1, e2, he]
    have hz : (x1.blocks.zip x2.blocks).Pairwise fun p q => Uncorr μ p.1 q.1 := by
      have := w1.2
      rw [← List.map_fst_zip (l₁ := x1.blocks) (l₂ := x2.blocks) hl.le, List.pairwise_map] at this
      exact this
    rw [List.pairwise_flatMap]
    refine ⟨fun b m => ?_, ?_⟩
    · rw [List.pairwise_map]
      refine List.Pairwise.imp_of_mem (R := (· ≠ ·)) ?_ (irsOut_nodup filter b.1.1 b.2.1)
      intro ir ir' hir hir' hne
      exact (path_same hn H (List.of_mem_zip m).1 (List.of_mem_zip m).2 (List.mem_of_mem_filter hir) (List.mem_of_mem_filter hir')).2 hne
    · refine List.Pairwise.imp_of_mem ?_ hz
      intro b b' m m' hu p hp q hq
      obtain ⟨ir, -, rfl⟩ := List.mem_map.mp hp
      obtain ⟨ir', -, rfl⟩ := List.mem_map.mp hq
      exact path_uncorr H (List.of_mem_zip m).1 (List.of_mem_zip m').1 (List.of_mem_zip m).2 (List.of_mem_zip m').2 (.inl hu) ir ir'

/-! ### `tensor_square` -/

/-- The sums over a tensor that is symmetric in its first two indices. -/
theorem diag_sum {l L : ℕ} (hL : L ≤ 2 * l) (he : L % 2 = 0) (s4 : ℝ) (c c' : Fin (2 * L + 1)) :
    ∑ a, ∑ b, ∑ a', ∑ b', clebschGordan l l L a b c * clebschGordan l l L a' b' c' *
      (s4 * ((if a.val = b.val ∧ a'.val = b'.val then 1 else 0) + (if a.val = a'.val ∧ b.val = b'.val then 1 else 0) +
        (if a.val = b'.val ∧ b.val = a'.val then 1 else 0))) =
      s4 * if c = c' then ((if L = 0 then (2 * (l : ℝ) + 1) else 0) + 2 / (2 * (L : ℝ) + 1)) else 0 := by
  have hsym : ∀ a b, clebschGordan l l L b a c' = clebschGordan l l L a b c' := by
    intro a b
    rw [cg_swap, Even.neg_one_pow, one_mul]
    rw [Nat.even_iff]; omega
  have hG := C58_orthogonal (l1 := l) (l2 := l) (l3 := L) ⟨by rw [abs_le]; omega, by omega⟩ c c'
  have hT : (∑ a, clebschGordan l l L a a c) * (∑ a, clebschGordan l l L a a c') = if c = c' then (if L = 0 then (2 * (l : ℝ) + 1) else 0) else 0 := by
    by_cases h0 : L = 0
    · subst h0
      have e : c = c' := by apply Fin.ext; have := c.2; have := c'.2; omega
      subst e
      rw [if_pos rfl, if_pos rfl]
      simp only [(C58_scalar l c _ _).2.2, if_true, Finset.sum_const, Finset.card_univ, Fintype.card_fin, nsmul_eq_mul]
      have h1 : (0 : ℝ) < 2 * (l : ℝ) + 1 := by positivity
      have h2 := Real.mul_self_sqrt h1.le
      have h3 : Real.sqrt (2 * (l : ℝ) + 1) ≠ 0 := (Real.sqrt_pos.mpr h1).ne'
      push_cast
      field_simp
      rw [sq, h2]
    · rw [cg_trace l (Nat.pos_of_ne_zero h0), if_neg h0]; simp
  have split : ∀ (u v w : ℝ), s4 * (u + v + w) = s4 * u + s4 * v + s4 * w := by intros; ring
  have e1 : ∑ a, ∑ b, ∑ a', ∑ b', clebschGordan l l L a b c * clebschGordan l l L a' b' c' * (if a.val = b.val ∧ a'.val = b'.val then 1 else 0) =
      (∑ a, clebschGordan l l L a a c) * (∑ a, clebschGordan l l L a a c') := by
    rw [Finset.sum_mul]
    apply Finset.sum_congr rfl; intro a _
    rw [Finset.sum_eq_single a]
    · rw [Finset.mul_sum]
      apply Finset.sum_congr rfl; intro a' _
      rw [Finset.sum_eq_single a']
      · simp
      · intro b' _ hb; rw [if_neg (fun e => hb (Fin.ext e.2.symm))]; ring
      · simp
    · intro b _ hb
      apply Finset.sum_eq_zero; intro a' _
      apply Finset.sum_eq_zero; intro b' _
      rw [if_neg (fun e => hb (Fin.ext e.1.symm))]; ring
    · simp
  have e2 : ∑ a, ∑ b, ∑ a', ∑ b', clebschGordan l l L a b c * clebschGordan l l L a' b' c' * (if a.val = a'.val ∧ b.val = b'.val then 1 else 0) =
      ∑ a, ∑ b, clebschGordan l l L a b c * clebschGordan l l L a b c' := by
    apply Finset.sum_congr rfl; intro a _
    apply Finset.sum_congr rfl; intro b _
    rw [Finset.sum_eq_single a]
    · rw [Finset.sum_eq_single b]
      · simp
      · intro b' _ hb; rw [if_neg (fun e => hb (Fin.ext e.2.symm))]; ring
      · simp
    · intro a' _ hb
      apply Finset.sum_eq_zero; intro b' _
      rw [if_neg (fun e => hb (Fin.ext e.1.symm))]; ring
    · simp
  have e3 : ∑ a, ∑ b, ∑ a', ∑ b', clebschGordan l l L a b c * clebschGordan l l L a' b' c' * (if a.val = b'.val ∧ b.val = a'.val then 1 else 0) =
      ∑ a, ∑ b, clebschGordan l l L a b c * clebschGordan l l L a b c' := by
    apply Finset.sum_congr rfl; intro a _
    apply Finset.sum_congr rfl; intro b _
    rw [Finset.sum_eq_single b]
    · rw [Finset.sum_eq_single a]
      · rw [hsym]; simp
      · intro b' _ hb; rw [if_neg (fun e => hb (Fin.ext e.1.symm))]; ring
      · simp
    · intro a' _ hb
      apply Finset.sum_eq_zero; intro b' _
      rw [if_neg (fun e => hb (Fin.ext e.2.symm))]; ring
    · simp
  rw [hT] at e1
  rw [hG] at e2 e3
  have e4 : ∑ a, ∑ b, ∑ a', ∑ b', clebschGordan l l L a b c * clebschGordan l l L a' b' c' *
      (s4 * ((if a.val = b.val ∧ a'.val = b'.val then 1 else 0) + (if a.val = a'.val ∧ b.val = b'.val then 1 else 0) +
        (if a.val = b'.val ∧ b.val = a'.val then 1 else 0))) =
      s4 * (∑ a, ∑ b, ∑ a', ∑ b', clebschGordan l l L a b c * clebschGordan l l L a' b' c' * (if a.val = b.val ∧ a'.val = b'.val then 1 else 0)) +
      s4 * (∑ a, ∑ b, ∑ a', ∑ b', clebschGordan l l L a b c * clebschGordan l l L a' b' c' * (if a.val = a'.val ∧ b.val = b'.val then 1 else 0)) +
      s4 * (∑ a, ∑ b, ∑ a', ∑ b', clebschGordan l l L a b c * clebschGordan l l L a' b' c' * (if a.val = b'.val ∧ b.val = a'.val then 1 else 0)) := by
    simp only [Finset.mul_sum, ← Finset.sum_add_distrib]
    refine Finset.sum_congr rfl fun a _ => Finset.sum_congr rfl fun b _ => Finset.sum_congr rfl fun a' _ =>
      Finset.sum_congr rfl fun b' _ => ?_
    ring
  rw [e4, e1, e2, e3]
  split_ifs <;> ring

theorem alphaOff_pos (n : IrNorm) (ni : Bool) (i1 i2 ir : Irrep) : 0 ≤ alphaOff n ni i1 i2 ir := by
  unfold alphaOff; split <;> positivity

theorem alphaDiag_pos (n : IrNorm) (ni : Bool) (i1 i2 ir : Irrep) : 0 ≤ alphaDiag n ni i1 i2 ir := by
  unfold alphaDiag; split <;> (try split) <;> positivity

theorem alphaOff_target {n : IrNorm} (hn : n = .component ∨ n = .norm) (ni : Bool) (i1 i2 ir : Irrep) :
    (alphaOff n ni i1 i2 ir : ℝ) * (second n ni i1 * second n ni i2 * (1 / (2 * (ir.l : ℝ) + 1))) = target n ir := by
  rcases hn with rfl | rfl <;> cases ni <;> simp only [alphaOff, second, target, Irrep.dim, if_true, if_false, Bool.false_eq_true] <;> push_cast <;> field_simp

theorem alphaDiag_target {n : IrNorm} (hn : n = .component ∨ n = .norm) (ni : Bool) (i ir : Irrep) :
    (alphaDiag n ni i i ir : ℝ) * (fourth n ni i * ((if ir.l = 0 then (2 * (i.l : ℝ) + 1) else 0) + 2 / (2 * (ir.l : ℝ) + 1))) = target n ir := by
  by_cases h : ir.l = 0
  · rcases hn with rfl | rfl <;> cases ni <;> simp only [alphaDiag, fourth, target, Irrep.dim, if_true, if_false, Bool.false_eq_true, h] <;> push_cast <;> field_simp <;> ring
  · rcases hn with rfl | rfl <;> cases ni <;> simp only [alphaDiag, fourth, target, Irrep.dim, if_true, if_false, Bool.false_eq_true, h] <;> push_cast <;> field_simp <;> ring

/-- **C67 (`tensor_square`).** Let the blocks of `x` be independent of each other and isotropic up to
the fourth order with the moments that the arguments of `tensor_square` announce (`second`, `fourth`).
Then every block of `tensor_square(x)` is normalised as `irrep_normalization` promises: for `component`
every component has second moment one, for `norm` every block has expected squared norm one. -/
theorem C67_tensor_square {n : IrNorm} (hn : n = .component ∨ n = .norm) (ni rg : Bool) (x : IArr (Ω → ℝ)) (h : x.Coherent)
    (iso : ∀ b ∈ x.blocks, Isotropic4 μ b (second n ni b.1) (fourth n ni b.1))
    (ind : x.blocks.Pairwise fun b b' => Indep μ b.2 b'.2) :
    ∃ y, tensorSquare (realCtx (Ω → ℝ)) n ni rg x = .ok y ∧ Normalised n μ y.blocks := by
  have hn' : n ≠ .other := by rcases hn with rfl | rfl <;> simp
  have hc := realCtx_shape (Ω → ℝ)
  obtain ⟨z, y, p, q, -, y1, y2, y3⟩ := tensorSquare_spec hc.ok hn' ni rg h.inv
  refine ⟨y, y1, ?_⟩
  have hp := y3.trans (squareEntries_perm hc.ok n ni q.pairs.1)
  rw [← q.blocks_pairs] at hp
  obtain ⟨z', p', -, r⟩ := prepare_spec rg h.inv
  rw [p] at p'; cases p'
  replace iso : ∀ b ∈ z.blocks, Isotropic4 μ b (second n ni b.1) (fourth n ni b.1) := fun b hb => iso b (r.mem_iff.mp hb)
  replace ind : z.blocks.Pairwise fun b b' => Indep μ b.2 b'.2 :=
    (r.pairwise_iff (fun {a b} hab => IndepFun.symm hab)).mpr ind
  have hlen := fun b (hb : b ∈ z.blocks) => block_length q.coherent hb
  intro b hb
  replace hb := hp.mem_iff.mp hb
  unfold squareProducts at hb
  rcases List.mem_append.mp hb with hb | hb
  · obtain ⟨⟨b1, b2⟩, m, hb⟩ := List.mem_flatMap.mp hb
    obtain ⟨ir, hir, rfl⟩ := List.mem_map.mp hb
    obtain ⟨m1, m2⟩ := mem_pairsOf m
    have hI : Indep μ b1.2 b2.2 := pairsOf_pairwise ind m
    simp only at hir m1 m2 ⊢
    unfold offC
    rw [contract_scale]
    rw [show ir.dim = 2 * ir.l + 1 from rfl, contract_formula (hc _ _ _) _ _ _ (hlen b1 m1) (hlen b2 m2)]
    intro i j hi hj
    have key := corr_path (μ := μ) (b1 := b1) (b2 := b2) (b1' := b1) (b2' := b2) (hlen b1 m1) (hlen b2 m2) (hlen b1 m1) (hlen b2 m2)
      (Real.sqrt (alphaOff n ni b1.1 b2.1 ir)) (Real.sqrt (alphaOff n ni b1.1 b2.1 ir)) ir.l ir.l
      (E := fun a b a' b' => (if a = a' then second n ni b1.1 else 0) * (if b = b' then second n ni b2.1 else 0))
      (fun a b a' b' ha hb ha' hb' => corr_indep ((iso b1 m1).1 a a' ha ha') ((iso b2 m2).1 b b' hb hb')
        (indep_products hI (getD_mem (hlen b1 m1) ha) (getD_mem (hlen b1 m1) ha') (getD_mem (hlen b2 m2) hb) (getD_mem (hlen b2 m2) hb')))
      ⟨i, hi⟩ ⟨j, hj⟩
    have ht : b1.1.l ≤ b2.1.l + ir.l ∧ b2.1.l ≤ b1.1.l + ir.l ∧ ir.l ≤ b1.1.l + b2.1.l :=
      ((mem_irsOut (filter := none) (a := b1.1) (b := b2.1) (c := ir)).mp (by unfold irsOut; simpa using hir)).1
    rw [gram_ite ht, Real.mul_self_sqrt (by exact_mod_cast alphaOff_pos n ni _ _ _)] at key
    simp only [true_and] at key
    refine ⟨key.1, key.2.trans ?_⟩
    by_cases e : i = j
    · rw [if_pos e, if_pos e]; exact alphaOff_target hn ni b1.1 b2.1 ir
    · rw [if_neg e, if_neg e]; ring
  · obtain ⟨b1, m1, hb⟩ := List.mem_flatMap.mp hb
    obtain ⟨ir, hir, rfl⟩ := List.mem_map.mp hb
    rw [List.mem_filter] at hir
    unfold diagC
    rw [contract_scale]
    rw [show ir.dim = 2 * ir.l + 1 from rfl, contract_formula (hc _ _ _) _ _ _ (hlen b1 m1) (hlen b1 m1)]
    intro i j hi hj
    have key := corr_path (μ := μ) (b1 := b1) (b2 := b1) (b1' := b1) (b2' := b1) (hlen b1 m1) (hlen b1 m1) (hlen b1 m1) (hlen b1 m1)
      (Real.sqrt (alphaDiag n ni b1.1 b1.1 ir)) (Real.sqrt (alphaDiag n ni b1.1 b1.1 ir)) ir.l ir.l
      (E := fun a b a' b' => fourth n ni b1.1 * ((if a = b ∧ a' = b' then 1 else 0) + (if a = a' ∧ b = b' then 1 else 0) + (if a = b' ∧ b = a' then 1 else 0)))
      (fun a b a' b' ha hb ha' hb' => (iso b1 m1).2 a b a' b' ha hb ha' hb')
      ⟨i, hi⟩ ⟨j, hj⟩
    have ht : ir.l ≤ b1.1.l + b1.1.l :=
      ((mem_irsOut (filter := none) (a := b1.1) (b := b1.1) (c := ir)).mp (by unfold irsOut; simpa using hir.1)).1.2.2
    rw [diag_sum (by omega) (by simpa using hir.2), Real.mul_self_sqrt (by exact_mod_cast alphaDiag_pos n ni _ _ _)] at key
    refine ⟨key.1, key.2.trans ?_⟩
    by_cases e : i = j
    · rw [if_pos e, if_pos (Fin.ext e)]; exact alphaDiag_target hn ni b1.1 ir
    · rw [if_neg e, if_neg (fun e' => e (congrArg Fin.val e'))]; ring

end
end E3nn
