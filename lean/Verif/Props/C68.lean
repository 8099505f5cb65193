import Verif.Model.Normal
import Verif.Lemmas.Gaussian
import Verif.Props.C67

/-!
# C68: `normal` has the distribution it promises, and tensor products of it are normalised
-/

namespace E3nn
open IArr E3nn.TP E3nn.Stat E3nn.Basic MeasureTheory ProbabilityTheory Finset

/-- The position of every block in the array. -/
def offs : List Irrep → ℕ → List (Irrep × ℕ)
  | [], _ => []
  | ir :: s, o => (ir, o) :: offs s (o + (2 * ir.l + 1))

theorem blocksOf_offs {α : Type} (s : List Irrep) (a : List α) (o : ℕ) :
    blocksOf s (a.drop o) = (offs s o).map fun p => (p.1, (a.drop p.2).take (2 * p.1.l + 1)) := by
  induction s generalizing o with
  | nil => rfl
  | cons ir s ih => simp only [blocksOf, offs, List.map_cons, List.drop_drop, ih]

theorem offs_le (s : List Irrep) (o : ℕ) : ∀ p ∈ offs s o, o ≤ p.2 ∧ p.2 + (2 * p.1.l + 1) ≤ o + dimOf s := by
  induction s generalizing o with
  | nil => simp [offs]
  | cons ir s ih =>
    intro p hp
    simp only [offs, List.mem_cons] at hp
    rw [dimOf_cons]
    have : ir.dim = 2 * ir.l + 1 := rfl
    rcases hp with rfl | hp
    · simp only; omega
    · have := ih _ p hp; omega

theorem offs_pairwise (s : List Irrep) (o : ℕ) : (offs s o).Pairwise fun p q => p.2 + (2 * p.1.l + 1) ≤ q.2 := by
  induction s generalizing o with
  | nil => simp [offs]
  | cons ir s ih =>
    simp only [offs, List.pairwise_cons]
    exact ⟨fun p hp => (offs_le s _ p hp).1, ih _⟩

section
variable {N M : ℕ}

/-- The raw standard normal numbers: the entries of the array are different coordinates of a Gaussian vector. -/
def coords (idx : Fin M → Fin N) : List ((Fin N → ℝ) → ℝ) := List.ofFn fun i ω => ω (idx i)

/-- A block of the raw numbers. -/
theorem coords_block (idx : Fin M → Fin N) (o d : ℕ) (h : o + d ≤ M) :
    ((coords idx).drop o).take d = List.ofFn fun (i : Fin d) ω => ω (idx ⟨o + i, by omega⟩) := by
  apply List.ext_getElem
  · simp [coords]; omega
  · intro i h1 h2
    simp [coords]

/-- The three transformations of the raw blocks. -/
noncomputable def shape (normalize : Bool) (n : IrNorm) (b : Irrep × List ((Fin N → ℝ) → ℝ)) : Irrep × List ((Fin N → ℝ) → ℝ) :=
  (b.1, if normalize then unitRow b.1 b.2 else match n with
    | .component => b.2
    | _ => scaleRow b.1 b.2)

theorem act_unitRow {ι : Type} : Act (unitRow (ι := ι)) := by
  refine ⟨fun ir r h => by simp [unitRow, h], fun ir => ?_⟩
  unfold unitRow
  rw [List.map_replicate]
  congr 1
  funext i; simp

theorem act_scaleRow {ι : Type} : Act (scaleRow (ι := ι)) := by
  refine ⟨fun ir r h => by simp [scaleRow, h], fun ir => ?_⟩
  unfold scaleRow
  rw [List.map_replicate]
  congr 1
  funext i; simp

theorem normal_blocks (normalize : Bool) {n : IrNorm} (hn : n = .component ∨ n = .norm) (irreps : Irreps) (g : List ((Fin N → ℝ) → ℝ))
    (hg : g.length = dimOf (expand irreps)) :
    ∃ y, normal normalize n irreps g = .ok y ∧ y.Coherent ∧ y.irreps = irreps ∧ y.blocks = (blocksOf (expand irreps) g).map (shape normalize n) := by
  obtain ⟨x, hx, hc, hi, ha, -, -⟩ := (C12_from_array irreps g).1 hg
  have hb : x.blocks = blocksOf (expand irreps) g := by unfold IArr.blocks; rw [hi, ha]
  have tr : ∀ D : Irrep → List ((Fin N → ℝ) → ℝ) → List ((Fin N → ℝ) → ℝ), Act D →
      ∃ y, fromChunks irreps ((irreps.zip x.chunks).map (actRows D)) = .ok y ∧ y.Coherent ∧ y.irreps = irreps ∧
        y.blocks = (blocksOf (expand irreps) g).map fun b => (b.1, D b.1 b.2) := by
    intro D hD
    obtain ⟨y, h1, h2⟩ := transformBy_spec hD hc.inv
    unfold transformBy at h1
    rw [hi] at h1
    exact ⟨y, h1, h2.inv'.coherent, by rw [h2.irreps, hi], by rw [h2.blocks hD, hb]; rfl⟩
  unfold normal
  rw [hx]
  simp only [bind, Except.bind]
  cases normalize with
  | true =>
    obtain ⟨y, h1, h2, h3, h4⟩ := tr _ act_unitRow
    exact ⟨y, by rw [if_pos rfl]; exact h1, h2, h3, h4⟩
  | false =>
    rw [if_neg (by simp)]
    rcases hn with rfl | rfl
    · refine ⟨x, rfl, hc, hi, ?_⟩
      rw [hb]
      exact (List.map_id _).symm
    · obtain ⟨y, h1, h2, h3, h4⟩ := tr _ act_scaleRow
      exact ⟨y, h1, h2, h3, h4⟩

/-- What one block of `normal` looks like. -/
noncomputable def gaussBlock (normalize : Bool) (n : IrNorm) (ir : Irrep) (e : Fin (2 * ir.l + 1) → Fin N) : Irrep × List ((Fin N → ℝ) → ℝ) :=
  shape normalize n (ir, List.ofFn fun i ω => ω (e i))

/-- The components as functions. -/
noncomputable def gaussComp (normalize : Bool) (n : IrNorm) (ir : Irrep) (x : Fin (2 * ir.l + 1) → ℝ) (i : Fin (2 * ir.l + 1)) : ℝ :=
  if normalize then unit x i else Real.sqrt (target n ir) * x i

theorem gaussBlock_eq (normalize : Bool) {n : IrNorm} (hn : n = .component ∨ n = .norm) (ir : Irrep) (e : Fin (2 * ir.l + 1) → Fin N) :
    gaussBlock normalize n ir e = (ir, List.ofFn fun i ω => gaussComp normalize n ir (fun j => ω (e j)) i) := by
  unfold gaussBlock shape gaussComp
  simp only
  congr 1
  cases normalize with
  | true =>
    rw [if_pos rfl]
    unfold unitRow rowDot
    rw [List.map_ofFn]
    congr 1
    funext i ω
    simp only [Function.comp_apply, if_true, unit]
    congr 2
    rw [List.zipWith_self, List.map_ofFn, List.sum_ofFn]
    simp [Finset.sum_apply, sq]
  | false =>
    rw [if_neg (by simp)]
    rcases hn with rfl | rfl
    · simp [target]
    · show scaleRow ir _ = _
      unfold scaleRow
      rw [List.map_ofFn]
      congr 1
      funext i ω
      simp only [Function.comp_apply, target, Irrep.dim]
      rw [if_neg (by simp), one_div, Real.sqrt_inv]
      push_cast
      ring

theorem measurable_gaussComp (normalize : Bool) (n : IrNorm) (ir : Irrep) : Measurable (gaussComp normalize n ir) := by
  unfold gaussComp
  cases normalize with
  | true => simpa using measurable_unit
  | false => simp only [Bool.false_eq_true, if_false]; fun_prop

/-- The moments of one block. -/
theorem gaussBlock_iso (normalize : Bool) {n : IrNorm} (hn : n = .component ∨ n = .norm) (ir : Irrep) (e : Fin (2 * ir.l + 1) → Fin N)
    (he : Function.Injective e) : Isotropic4 (gauss N) (gaussBlock normalize n ir e) (second n normalize ir) (fourth n normalize ir) := by
  rw [gaussBlock_eq normalize hn]
  have ht : 0 ≤ target n ir := by rcases hn with rfl | rfl <;> simp only [target] <;> positivity
  have hs := Real.mul_self_sqrt ht
  refine ⟨fun i j hi hj => ?_, fun i j k l hi hj hk hl => ?_⟩
  · simp only [] at hi hj ⊢
    rw [getD_ofFn _ _ ⟨i, hi⟩, getD_ofFn _ _ ⟨j, hj⟩]
    cases normalize with
    | true =>
      simp only [gaussComp, if_true]
      constructor
      · have h := (sphere_integrable2 (d := 2 * ir.l + 1) ⟨i, hi⟩ ⟨j, hj⟩)
        unfold sphere at h
        have h2 := h.comp_measurable measurable_unit
        rw [← gauss_marginal e he] at h2
        exact h2.comp_measurable (measurable_pi_lambda _ fun i => measurable_pi_apply (e i))
      · rw [sphere_integral e he (φ := fun x => x ⟨i, hi⟩ * x ⟨j, hj⟩) (by fun_prop), sphere_second]
        simp [second, Fin.ext_iff]
    | false =>
      simp only [gaussComp, Bool.false_eq_true, if_false]
      have c : ∀ ω : Fin N → ℝ, Real.sqrt (target n ir) * ω (e ⟨i, hi⟩) * (Real.sqrt (target n ir) * ω (e ⟨j, hj⟩)) =
          target n ir * (ω (e ⟨i, hi⟩) * ω (e ⟨j, hj⟩)) := by
        intro ω; linear_combination (ω (e ⟨i, hi⟩) * ω (e ⟨j, hj⟩)) * hs
      unfold Corr
      simp only [c]
      refine ⟨(gauss_integrable2 _ _).const_mul _, ?_⟩
      rw [integral_const_mul, gauss_second]
      simp [second, he.eq_iff, Fin.ext_iff]
  · simp only [] at hi hj hk hl ⊢
    rw [getD_ofFn _ _ ⟨i, hi⟩, getD_ofFn _ _ ⟨j, hj⟩, getD_ofFn _ _ ⟨k, hk⟩, getD_ofFn _ _ ⟨l, hl⟩]
    cases normalize with
    | true =>
      simp only [gaussComp, if_true]
      constructor
      · have h := (sphere_integrable4 (d := 2 * ir.l + 1) ⟨i, hi⟩ ⟨j, hj⟩ ⟨k, hk⟩ ⟨l, hl⟩)
        unfold sphere at h
        have h2 := h.comp_measurable measurable_unit
        rw [← gauss_marginal e he] at h2
        exact h2.comp_measurable (measurable_pi_lambda _ fun i => measurable_pi_apply (e i))
      · simp only [Pi.mul_apply]
        rw [sphere_integral e he (φ := fun x => x ⟨i, hi⟩ * x ⟨j, hj⟩ * (x ⟨k, hk⟩ * x ⟨l, hl⟩)) (by fun_prop), sphere_fourth]
        simp only [fourth, Fin.mk.injEq, if_true]
        push_cast
        ring
    | false =>
      simp only [gaussComp, Bool.false_eq_true, if_false]
      have c : ∀ ω : Fin N → ℝ, Real.sqrt (target n ir) * ω (e ⟨i, hi⟩) * (Real.sqrt (target n ir) * ω (e ⟨j, hj⟩)) *
          (Real.sqrt (target n ir) * ω (e ⟨k, hk⟩) * (Real.sqrt (target n ir) * ω (e ⟨l, hl⟩))) =
          target n ir ^ 2 * (ω (e ⟨i, hi⟩) * ω (e ⟨j, hj⟩) * (ω (e ⟨k, hk⟩) * ω (e ⟨l, hl⟩))) := by
        intro ω
        linear_combination (ω (e ⟨i, hi⟩) * ω (e ⟨j, hj⟩) * (ω (e ⟨k, hk⟩) * ω (e ⟨l, hl⟩))) * (Real.sqrt (target n ir) ^ 2 + target n ir) * hs
      unfold Corr
      simp only [Pi.mul_apply, c]
      refine ⟨(gauss_integrable4 _ _ _ _).const_mul _, ?_⟩
      rw [integral_const_mul, gauss_fourth]
      simp only [fourth, Bool.false_eq_true, if_false, he.eq_iff, Fin.mk.injEq]

/-- Every entry is a measurable function of the coordinates in `S`. -/
def Dep (S : Finset (Fin N)) (l : List ((Fin N → ℝ) → ℝ)) : Prop :=
  ∀ c ∈ l, ∃ φ : (S → ℝ) → ℝ, Measurable φ ∧ c = fun ω => φ fun i => ω i

theorem Dep.indep {S T : Finset (Fin N)} (h : Disjoint S T) {a b : List ((Fin N → ℝ) → ℝ)} (ha : Dep S a) (hb : Dep T b) :
    Indep (gauss N) a b := by
  have key : ∀ {S : Finset (Fin N)} {a : List ((Fin N → ℝ) → ℝ)}, Dep S a → ∃ f : (S → ℝ) → ℕ → ℝ, Measurable f ∧
      (fun ω (i : ℕ) => a.getD i 0 ω) = fun ω => f fun i => ω i := by
    intro S a ha
    have : ∀ i : ℕ, ∃ φ : (S → ℝ) → ℝ, Measurable φ ∧ a.getD i 0 = fun ω => φ fun i => ω i := by
      intro i
      by_cases hi : i < a.length
      · have e : a.getD i 0 = a[i] := by simp [List.getD, hi]
        rw [e]
        exact ha _ (List.getElem_mem _)
      · refine ⟨fun _ => 0, measurable_const, ?_⟩
        rw [List.getD_eq_default _ _ (by omega)]
        rfl
    choose φ h1 h2 using this
    refine ⟨fun z i => φ i z, measurable_pi_lambda _ h1, ?_⟩
    funext ω i
    rw [h2 i]
  obtain ⟨f, f1, f2⟩ := key ha
  obtain ⟨g, g1, g2⟩ := key hb
  unfold Stat.Indep
  rw [f2, g2]
  exact gauss_indep S T h f g f1 g1

theorem gaussBlock_dep (normalize : Bool) {n : IrNorm} (hn : n = .component ∨ n = .norm) (ir : Irrep) (e : Fin (2 * ir.l + 1) → Fin N)
    {S : Finset (Fin N)} (hS : ∀ i, e i ∈ S) : Dep S (gaussBlock normalize n ir e).2 := by
  rw [gaussBlock_eq normalize hn]
  intro c hc
  obtain ⟨i, rfl⟩ := (List.mem_ofFn' _ _).mp hc
  refine ⟨fun z => gaussComp normalize n ir (fun j => z ⟨e j, hS j⟩) i, ?_, rfl⟩
  have h : Measurable fun (z : S → ℝ) (j : Fin (2 * ir.l + 1)) => z ⟨e j, hS j⟩ := by fun_prop
  exact (measurable_pi_apply i).comp ((measurable_gaussComp normalize n ir).comp h)

/-- Every component has mean zero. -/
theorem gaussBlock_mean (normalize : Bool) {n : IrNorm} (hn : n = .component ∨ n = .norm) (ir : Irrep) (e : Fin (2 * ir.l + 1) → Fin N)
    (he : Function.Injective e) {i : ℕ} (hi : i < 2 * ir.l + 1) :
    Integrable ((gaussBlock normalize n ir e).2.getD i 0) (gauss N) ∧ ∫ ω, (gaussBlock normalize n ir e).2.getD i 0 ω ∂(gauss N) = 0 := by
  rw [gaussBlock_eq normalize hn]
  simp only []
  rw [getD_ofFn _ _ ⟨i, hi⟩]
  cases normalize with
  | true =>
    simp only [gaussComp, if_true]
    constructor
    · have h : Integrable (fun x : Fin (2 * ir.l + 1) → ℝ => x ⟨i, hi⟩) (sphere (2 * ir.l + 1)) :=
        sphere_integrable _ (by fun_prop) ⟨1, fun x h => h _⟩
      unfold sphere at h
      have h2 := h.comp_measurable measurable_unit
      rw [← gauss_marginal e he] at h2
      exact h2.comp_measurable (measurable_pi_lambda _ fun i => measurable_pi_apply (e i))
    · rw [sphere_integral e he (φ := fun x => x ⟨i, hi⟩) (by fun_prop), first_moments (sphere_rotInv _)]
  | false =>
    simp only [gaussComp, Bool.false_eq_true, if_false]
    refine ⟨((memLp_coord (e ⟨i, hi⟩) 1 (by simp)).integrable le_rfl).const_mul _, ?_⟩
    rw [integral_const_mul, gauss_first, mul_zero]

/-- The normalisation of the result of `normal`. -/
def outNorm (normalize : Bool) (n : IrNorm) : IrNorm := if normalize then .norm else n

/-- The distribution that `normal` promises, for arrays computed from the Gaussian coordinates in `S`. -/
structure Promise (normalize : Bool) (n : IrNorm) (S : Finset (Fin N)) (y : IArr ((Fin N → ℝ) → ℝ)) : Prop where
  /-- every block is isotropic with the moments of a Gaussian vector resp. a unit vector -/
  iso : ∀ b ∈ y.blocks, Isotropic4 (gauss N) b (second n normalize b.1) (fourth n normalize b.1)
  /-- the blocks are independent -/
  ind : y.blocks.Pairwise fun b b' => Indep (gauss N) b.2 b'.2
  /-- all components are uncorrelated and normalised -/
  white : White (outNorm normalize n) (gauss N) y.blocks
  /-- with `normalize=True` every block has norm one, with probability one -/
  unit : normalize = true → ∀ᵐ ω ∂(gauss N), ∀ b ∈ y.blocks, ∑ i ∈ range (2 * b.1.l + 1), b.2.getD i 0 ω ^ 2 = 1
  /-- the array depends on the numbers drawn for it only -/
  dep : Dep S y.array

/-- **C68 (`normal`).** Let the pseudo-random numbers drawn by `normal` be independent standard normal
numbers (different coordinates of a Gaussian vector).  Then `normal(irreps, normalize=.., normalization=n)`
returns an array of the given irreps whose blocks are independent, isotropic, uncorrelated and
normalised; with `normalize=True` every block has norm one with probability one. -/
theorem C68_normal (normalize : Bool) {n : IrNorm} (hn : n = .component ∨ n = .norm) (irreps : Irreps)
    (idx : Fin (dimOf (expand irreps)) → Fin N) (hidx : Function.Injective idx) :
    ∃ y, normal normalize n irreps (coords idx) = .ok y ∧ y.Coherent ∧ y.irreps = irreps ∧
      Promise normalize n (univ.image idx) y := by
  obtain ⟨y, y1, y2, y3, y4⟩ := normal_blocks normalize hn irreps (coords idx) (by simp [coords])
  refine ⟨y, y1, y2, y3, ?_⟩
  -- the blocks
  let O := offs (expand irreps) 0
  have hO := offs_le (expand irreps) 0
  let E : (p : Irrep × ℕ) → p ∈ O → Fin (2 * p.1.l + 1) → Fin N := fun p hp i =>
    idx ⟨p.2 + i, by have := (hO p hp).2; have := i.2; omega⟩
  have hE : ∀ p hp, Function.Injective (E p hp) := by
    intro p hp i j h
    have := congrArg Fin.val (hidx h)
    apply Fin.ext
    simp only at this; omega
  have hb : y.blocks = O.attach.map fun p => gaussBlock normalize n p.1.1 (E p.1 p.2) := by
    rw [y4]
    have h0 := blocksOf_offs (expand irreps) (coords idx) 0
    rw [List.drop_zero] at h0
    rw [h0, List.map_map, ← List.attach_map_val (l := offs (expand irreps) 0)]
    apply List.map_congr_left
    intro p _
    simp only [Function.comp_apply]
    rw [coords_block idx p.1.2 (2 * p.1.1.l + 1) (by have := (hO p.1 p.2).2; omega)]
    rfl
  have hw : O.attach.Pairwise fun p q => p.1.2 + (2 * p.1.1.l + 1) ≤ q.1.2 := by
    have := offs_pairwise (expand irreps) 0
    rw [show offs (expand irreps) 0 = O.attach.map Subtype.val from (by rw [List.attach_map_subtype_val]), List.pairwise_map] at this
    exact this
  have hdis : ∀ p q : {p // p ∈ O}, p.1.2 + (2 * p.1.1.l + 1) ≤ q.1.2 →
      Disjoint (univ.image (E p.1 p.2)) (univ.image (E q.1 q.2)) := by
    intro p q hpq
    rw [Finset.disjoint_left]
    intro a ha hb
    obtain ⟨i, -, rfl⟩ := Finset.mem_image.mp ha
    obtain ⟨j, -, hj⟩ := Finset.mem_image.mp hb
    have := congrArg Fin.val (hidx hj)
    simp only at this
    have := i.2
    omega
  have hind : y.blocks.Pairwise fun b b' => Indep (gauss N) b.2 b'.2 := by
    rw [hb, List.pairwise_map]
    refine hw.imp fun {p q} h => ?_
    exact (gaussBlock_dep normalize hn _ _ fun i => Finset.mem_image_of_mem _ (Finset.mem_univ i)).indep (hdis p q h)
      (gaussBlock_dep normalize hn _ _ fun i => Finset.mem_image_of_mem _ (Finset.mem_univ i))
  have hiso : ∀ b ∈ y.blocks, Isotropic4 (gauss N) b (second n normalize b.1) (fourth n normalize b.1) := by
    rw [hb]
    intro b hb
    obtain ⟨p, -, rfl⟩ := List.mem_map.mp hb
    exact gaussBlock_iso normalize hn p.1.1 (E p.1 p.2) (hE p.1 p.2)
  refine ⟨hiso, hind, ⟨?_, ?_⟩, ?_, ?_⟩
  · intro b hb
    have := (hiso b hb).1
    have e : second n normalize b.1 = target (outNorm normalize n) b.1 := by
      cases normalize <;> simp [second, outNorm, target]
    rwa [e] at this
  · rw [hb, List.pairwise_map]
    refine hw.imp fun {p q} h => ?_
    intro i j hi hj
    have hI := (gaussBlock_dep normalize hn p.1.1 (E p.1 p.2) fun i => Finset.mem_image_of_mem _ (Finset.mem_univ i)).indep (hdis p q h)
      (gaussBlock_dep normalize hn q.1.1 (E q.1 q.2) fun i => Finset.mem_image_of_mem _ (Finset.mem_univ i))
    have h1 := gaussBlock_mean normalize hn p.1.1 (E p.1 p.2) (hE p.1 p.2) hi
    have h2 := gaussBlock_mean normalize hn q.1.1 (E q.1 q.2) (hE q.1 q.2) hj
    have mi : ∀ i, Measurable fun f : ℕ → ℝ => f i := fun i => measurable_pi_apply i
    have hI2 := IndepFun.comp (φ := fun f : ℕ → ℝ => f i) (ψ := fun f : ℕ → ℝ => f j) hI (mi i) (mi j)
    have hI3 : IndepFun ((gaussBlock normalize n p.1.1 (E p.1 p.2)).2.getD i 0) ((gaussBlock normalize n q.1.1 (E q.1 q.2)).2.getD j 0) (gauss N) := hI2
    refine ⟨hI3.integrable_mul h1.1 h2.1, ?_⟩
    have := hI3.integral_mul_eq_mul_integral h1.1.aestronglyMeasurable h2.1.aestronglyMeasurable
    rw [h1.2, zero_mul] at this
    exact this
  · intro hnorm
    subst hnorm
    have hae : ∀ᵐ ω ∂(gauss N), ∀ i, ω i ≠ 0 := ae_all_iff.mpr fun i => gauss_ne_zero i
    filter_upwards [hae] with ω hω
    rw [hb]
    intro b hb
    obtain ⟨p, -, rfl⟩ := List.mem_map.mp hb
    rw [gaussBlock_eq true hn, ← Fin.sum_univ_eq_sum_range (fun i => (List.ofFn fun i (ω : Fin N → ℝ) => gaussComp true n p.1.1 (fun j => ω (E p.1 p.2 j)) i).getD i 0 ω ^ 2)]
    have := unit_norm (x := fun j => ω (E p.1 p.2 j)) ⟨⟨0, by omega⟩, hω _⟩
    rw [← this]
    apply Finset.sum_congr rfl
    intro i _
    rw [getD_ofFn]
    simp [gaussComp]
  · intro c hc
    rw [← y2.inv.array_eq_blocks, hb] at hc
    obtain ⟨l, hl, hcl⟩ := List.mem_flatten.mp hc
    obtain ⟨b, hbm, rfl⟩ := List.mem_map.mp hl
    obtain ⟨p, -, rfl⟩ := List.mem_map.mp hbm
    exact gaussBlock_dep normalize hn p.1.1 (E p.1 p.2) (S := univ.image idx) (fun i => Finset.mem_image.mpr ⟨_, Finset.mem_univ _, rfl⟩) c hcl

/-- `normal` refuses other values of `normalization` unless `normalize=True`, which ignores it. -/
theorem C68_refuses (irreps : Irreps) (g : List ((Fin N → ℝ) → ℝ)) (hg : g.length = dimOf (expand irreps)) {n : IrNorm}
    (hn : n ≠ .component ∧ n ≠ .norm) :
    normal false n irreps g = .error .valueError ∧ normal true n irreps g = normal true .component irreps g := by
  obtain ⟨x, hx, -⟩ := (C12_from_array irreps g).1 hg
  unfold normal
  rw [hx]
  refine ⟨?_, rfl⟩
  simp only [bind, Except.bind]
  rw [if_neg (by simp)]
  cases n <;> simp_all

/-- **C68 (`tensor_square`).** `tensor_square(normal(irreps, normalize=b, normalization=n), irrep_normalization=n,
normalized_input=b)` is normalised, for every `irreps`, every normalisation and both values of `b`. -/
theorem C68_tensor_square (normalize rg : Bool) {n : IrNorm} (hn : n = .component ∨ n = .norm) (irreps : Irreps)
    (idx : Fin (dimOf (expand irreps)) → Fin N) (hidx : Function.Injective idx) :
    ∃ x y, normal normalize n irreps (coords idx) = .ok x ∧ tensorSquare (realCtx ((Fin N → ℝ) → ℝ)) n normalize rg x = .ok y ∧
      Normalised n (gauss N) y.blocks := by
  obtain ⟨x, x1, x2, x3, P⟩ := C68_normal normalize hn irreps idx hidx
  obtain ⟨y, y1, y2⟩ := C67_tensor_square hn normalize rg x x2 P.iso P.ind
  exact ⟨x, y, x1, y1, y2⟩

/-- **C68 (`tensor_product`).** The tensor product of two `normal` arrays drawn with different keys has
uncorrelated, normalised components. -/
theorem C68_tensor_product (filter : Option (List Irrep)) (rg : Bool) {n : IrNorm} (hn : n = .component ∨ n = .norm) (irreps1 irreps2 : Irreps)
    (idx1 : Fin (dimOf (expand irreps1)) → Fin N) (h1 : Function.Injective idx1)
    (idx2 : Fin (dimOf (expand irreps2)) → Fin N) (h2 : Function.Injective idx2) (hd : ∀ i j, idx1 i ≠ idx2 j) :
    ∃ x1 x2 y, normal false n irreps1 (coords idx1) = .ok x1 ∧ normal false n irreps2 (coords idx2) = .ok x2 ∧
      tensorProduct (realCtx ((Fin N → ℝ) → ℝ)) n filter rg x1 x2 = .ok y ∧ White n (gauss N) y.blocks := by
  obtain ⟨x1, a1, a2, a3, P⟩ := C68_normal false hn irreps1 idx1 h1
  obtain ⟨x2, b1, b2, b3, Q⟩ := C68_normal false hn irreps2 idx2 h2
  have hdis : Disjoint (univ.image idx1) (univ.image idx2) := by
    rw [Finset.disjoint_left]
    intro a ha hb
    obtain ⟨i, -, rfl⟩ := Finset.mem_image.mp ha
    obtain ⟨j, -, hj⟩ := Finset.mem_image.mp hb
    exact hd i j hj.symm
  obtain ⟨y, y1, y2⟩ := C67_tensor_product hn filter rg x1 x2 a2 b2 P.white Q.white (P.dep.indep hdis Q.dep)
  exact ⟨x1, x2, y, a1, b1, y1, y2⟩

/-- The hypotheses are satisfiable: `1x0e + 2x1o` with seven normal numbers and `1x2e` with five others. -/
example : ∃ (idx1 : Fin (dimOf (expand [⟨1, ⟨0, .e⟩⟩, ⟨2, ⟨1, .o⟩⟩])) → Fin 12) (idx2 : Fin (dimOf (expand [⟨1, ⟨2, .e⟩⟩])) → Fin 12),
    Function.Injective idx1 ∧ Function.Injective idx2 ∧ ∀ i j, idx1 i ≠ idx2 j :=
  ⟨fun i => ⟨i.val, by have := i.2; have : dimOf (expand [⟨1, ⟨0, .e⟩⟩, ⟨2, ⟨1, .o⟩⟩]) = 7 := by decide
                       omega⟩,
   fun i => ⟨7 + i.val, by have := i.2; have : dimOf (expand [⟨1, ⟨2, .e⟩⟩]) = 5 := by decide
                           omega⟩,
   fun i j h => Fin.ext (by have := congrArg Fin.val h; exact this), fun i j h => by have := congrArg Fin.val h; simp only at this; apply Fin.ext; omega,
   fun i j h => by
    have h1 := congrArg Fin.val h
    have h2 := i.2
    have : dimOf (expand [⟨1, ⟨0, .e⟩⟩, ⟨2, ⟨1, .o⟩⟩]) = 7 := by decide
    simp only at h1; omega⟩

end
end E3nn
