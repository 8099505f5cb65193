import Verif.Props.C78

/-!
# C79: `s2_dirac`
-/

namespace E3nn.S2

open E3nn.IArr E3nn.SH MeasureTheory Metric

variable {ι : Type}

/-- Integral over the unit sphere for the area measure. -/
noncomputable def sphereIntegral (f : (Fin 3 → ℝ) → ℝ) : ℝ :=
  ∫ ω : sphere (0 : EuclideanSpace ℝ (Fin 3)) 1, f (fun j => (ω : EuclideanSpace ℝ (Fin 3)) j) ∂((volume : Measure (EuclideanSpace ℝ (Fin 3))).toSphere)

/-- The sum over the degrees up to `lmax` of the products of spherical harmonics at two points. -/
noncomputable def kern (lmax : ℕ) (p x : Fin 3 → ℝ) : ℝ := ∑ l ∈ Finset.range (lmax + 1), ∑ k : Fin (2 * l + 1), Y .integral l p k * Y .integral l x k

theorem kern_continuous (lmax : ℕ) (p : Fin 3 → ℝ) : Continuous fun ω : sphere (0 : EuclideanSpace ℝ (Fin 3)) 1 => kern lmax p (fun j => (ω : EuclideanSpace ℝ (Fin 3)) j) :=
  continuous_finset_sum _ fun l _ => continuous_finset_sum _ fun k _ => continuous_const.mul (Y_continuous .integral l k)

theorem kern_one {lmax j : ℕ} (hj : j ≤ lmax) (p : Fin 3 → ℝ) (k' : Fin (2 * j + 1)) : sphereIntegral (fun x => kern lmax p x * Y .integral j x k') = Y .integral j p k' := by
  unfold sphereIntegral kern
  simp_rw [Finset.sum_mul]
  have hc : ∀ l (k : Fin (2 * l + 1)), Integrable (fun ω : sphere (0 : EuclideanSpace ℝ (Fin 3)) 1 => Y .integral l p k * Y .integral l (fun j => (ω : EuclideanSpace ℝ (Fin 3)) j) k *
      Y .integral j (fun j => (ω : EuclideanSpace ℝ (Fin 3)) j) k') ((volume : Measure (EuclideanSpace ℝ (Fin 3))).toSphere) :=
    fun l k => integrable_of_continuous ((continuous_const.mul (Y_continuous .integral l k)).mul (Y_continuous .integral j k'))
  rw [integral_finset_sum _ fun l _ => integrable_finset_sum _ fun k _ => hc l k]
  have e : ∀ l, ∫ ω : sphere (0 : EuclideanSpace ℝ (Fin 3)) 1, ∑ k : Fin (2 * l + 1), Y .integral l p k * Y .integral l (fun j => (ω : EuclideanSpace ℝ (Fin 3)) j) k *
      Y .integral j (fun j => (ω : EuclideanSpace ℝ (Fin 3)) j) k' ∂((volume : Measure (EuclideanSpace ℝ (Fin 3))).toSphere) =
      ∑ k : Fin (2 * l + 1), Y .integral l p k * if l = j ∧ k.val = k'.val then 1 else 0 := by
    intro l
    rw [integral_finset_sum _ fun k _ => hc l k]
    refine Finset.sum_congr rfl fun k _ => ?_
    simp_rw [mul_assoc]
    rw [integral_const_mul, C64_orthogonal .integral (fun l => Y_spec .integral l)]
    simp only [sphIntegral]
  simp_rw [e]
  rw [Finset.sum_eq_single j]
  · rw [Finset.sum_eq_single k']
    · simp
    · intro k _ hk
      rw [if_neg (fun h => hk (Fin.ext h.2)), mul_zero]
    · simp
  · intro l _ hl
    exact Finset.sum_eq_zero fun k _ => by rw [if_neg (fun h => hl h.1), mul_zero]
  · intro h
    simp at h
    omega

theorem series_continuous {c : ℕ → ℝ} {B : (l : ℕ) → (Fin 3 → ℝ) → Fin (2 * l + 1) → ℝ} (hB : IsBasis c B) (bs : List (Irrep × List (ι → ℝ))) (i : ι) :
    Continuous fun ω : sphere (0 : EuclideanSpace ℝ (Fin 3)) 1 => series B bs (fun j => (ω : EuclideanSpace ℝ (Fin 3)) j) i := by
  have hBc : ∀ l k, Continuous fun ω : sphere (0 : EuclideanSpace ℝ (Fin 3)) 1 => B l (fun j => (ω : EuclideanSpace ℝ (Fin 3)) j) k := fun l k => by
    simp_rw [basis_c hB]
    exact continuous_const.mul (Y_continuous .integral l k)
  induction bs with
  | nil => simpa [series] using continuous_const
  | cons g bs ih =>
    have : ∀ z, series B (g :: bs) z i = (∑ k : Fin (2 * g.1.l + 1), B g.1.l z k * g.2.getD k 0 i) + series B bs z i := fun z => by simp [series]
    simp_rw [this]
    exact (continuous_finset_sum _ fun k _ => (hBc g.1.l k).mul continuous_const).add ih

/-- `kern` reproduces the series of degrees up to `lmax`. -/
theorem kern_series {c : ℕ → ℝ} {B : (l : ℕ) → (Fin 3 → ℝ) → Fin (2 * l + 1) → ℝ} (hB : IsBasis c B) {lmax : ℕ} (p : Fin 3 → ℝ) (bs : List (Irrep × List (ι → ℝ)))
    (hl : ∀ b ∈ bs, b.1.l ≤ lmax) (i : ι) : sphereIntegral (fun x => kern lmax p x * series B bs x i) = series B bs p i := by
  induction bs with
  | nil => simp [series, sphereIntegral]
  | cons g bs ih =>
    have hs : ∀ z, series B (g :: bs) z i = (∑ k : Fin (2 * g.1.l + 1), B g.1.l z k * g.2.getD k 0 i) + series B bs z i := fun z => by simp [series]
    rw [hs, ← ih fun b h => hl b (List.mem_cons_of_mem _ h)]
    unfold sphereIntegral
    simp_rw [hs, mul_add, Finset.mul_sum]
    have hc : ∀ k : Fin (2 * g.1.l + 1), Integrable (fun ω : sphere (0 : EuclideanSpace ℝ (Fin 3)) 1 => kern lmax p (fun j => (ω : EuclideanSpace ℝ (Fin 3)) j) *
        (B g.1.l (fun j => (ω : EuclideanSpace ℝ (Fin 3)) j) k * g.2.getD k 0 i)) ((volume : Measure (EuclideanSpace ℝ (Fin 3))).toSphere) := by
      intro k
      simp_rw [basis_c hB]
      exact integrable_of_continuous ((kern_continuous lmax p).mul ((continuous_const.mul (Y_continuous .integral _ k)).mul continuous_const))
    have hc2 : Integrable (fun ω : sphere (0 : EuclideanSpace ℝ (Fin 3)) 1 => kern lmax p (fun j => (ω : EuclideanSpace ℝ (Fin 3)) j) *
        series B bs (fun j => (ω : EuclideanSpace ℝ (Fin 3)) j) i) ((volume : Measure (EuclideanSpace ℝ (Fin 3))).toSphere) :=
      integrable_of_continuous ((kern_continuous lmax p).mul (series_continuous hB bs i))
    rw [integral_add (integrable_finset_sum _ fun k _ => hc k) hc2, integral_finset_sum _ fun k _ => hc k]
    congr 1
    refine Finset.sum_congr rfl fun k _ => ?_
    have h1 := kern_one (hl g List.mem_cons_self) p k
    unfold sphereIntegral at h1
    simp_rw [basis_c hB]
    rw [← h1, mul_right_comm, ← integral_const_mul]
    congr 1
    funext ω
    ring

theorem list_sum_range (n : ℕ) (f : ℕ → ℝ) : ((List.range n).map f).sum = ∑ l ∈ Finset.range n, f l := by
  induction n with
  | zero => rfl
  | succ n ih => rw [List.range_succ, List.map_append, List.sum_append, ih, Finset.sum_range_succ]; simp

/-- **C79 (`s2_dirac`).** For `p_val = 1`, the coefficients are those of a function that reproduces every function of degree up to `lmax`: its integral over the sphere against such a
function is the value of that function in the direction of the position.  In particular its own integral is `1`.  The irreps are those of `s2_irreps`. -/
theorem C79_dirac {cfg : Option (List String)} (hcfg : ∀ a, cfg = some a → AlgOk a) {a : Parity} {position : Input ι} (hin : InputOk a position) (lmax : ℕ) :
    ∃ c, s2Dirac cfg position lmax .e a = .ok c ∧ c.Coherent ∧ c.irreps = s2Irreps lmax .e a ∧
      ∀ B, IsBasis (basisLength .integral lmax) B → ∀ i,
        (∀ bs : List (Irrep × List (ι → ℝ)), (∀ b ∈ bs, b.1.l ≤ lmax) →
          sphereIntegral (fun x => series B c.blocks x i * series B bs x i) = series B bs (point true (vecOf position.cols i)) i) ∧
        sphereIntegral (fun x => series B c.blocks x i) = 1 := by
  obtain ⟨-, s1, s2, s3⟩ := C77_s2_irreps lmax .e a
  have hp : ∀ m ∈ s2Irreps lmax .e a, m.ir.p = a.pow m.ir.l := by
    intro m hm
    have := s1 m.ir (List.mem_map.mpr ⟨m, hm, rfl⟩)
    rw [this]; rfl
  obtain ⟨d, d1, d2, d3, -, d5⟩ := sh_run (cfg := cfg) (algorithm := none) (by simpa using hcfg) (fun l => Y_spec .integral l) (out := .irreps (s2Irreps lmax .e a)) (input := position) rfl hp hin true
  obtain ⟨c, c1, c2, c3, c4, -⟩ := mapCols_spec (f := fun (f : ι → ℝ) => fun i => f i / Real.sqrt (4 * Real.pi)) (by funext i; simp) d2.inv
  refine ⟨c, ?_, c2.coherent, by rw [c3, d3], ?_⟩
  · unfold s2Dirac
    rw [d1]
    change scale _ d = _
    unfold scale
    rw [lmax_of (by rw [d3]; exact s2)]
    exact c1
  intro B hB i
  have hbl : c.blocks = (List.range (lmax + 1)).map fun l => ((⟨l, a.pow l⟩ : Irrep), List.ofFn fun (k : Fin (2 * l + 1)) (i : ι) => Y .integral l (point true (vecOf position.cols i)) k / Real.sqrt (4 * Real.pi)) := by
    have h1 : c.blocks = d.blocks.map fun b => (b.1, b.2.map fun (f : ι → ℝ) => fun i => f i / Real.sqrt (4 * Real.pi)) := by
      unfold IArr.blocks
      rw [c3, c4, blocksOf_map]
    rw [h1, d5]
    unfold shBlocks
    rw [expand_s2, List.map_map, List.map_map]
    refine List.map_congr_left fun l _ => ?_
    simp only [Function.comp, List.map_ofFn]
    congr 2
    
  have hk : ∀ x, series B c.blocks x i = kern lmax (point true (vecOf position.cols i)) x := by
    intro x
    rw [hbl]
    unfold series kern
    rw [List.map_map, list_sum_range]
    refine Finset.sum_congr rfl fun l _ => ?_
    simp only [Function.comp]
    refine Finset.sum_congr rfl fun k _ => ?_
    rw [getD_ofFn, basis_eq hB]
    have hpos : (0 : ℝ) < Real.sqrt (4 * Real.pi) := by positivity
    simp only [normTo]
    field_simp
  simp_rw [hk]
  refine ⟨fun bs hbs => kern_series hB _ bs hbs i, ?_⟩
  have h1 := kern_series hB (point true (vecOf position.cols i)) [((⟨0, .e⟩ : Irrep), [fun _ : ι => (1 : ℝ)])] (lmax := lmax) (by simp) i
  have h0 : ∀ x k, B 0 x k = 1 := by
    intro x k
    have hb : IsSphericalHarmonics (sphLength .norm 0) 0 (B 0) := by
      have := hB 0
      simpa [basisLength, sphLength] using this
    rw [C48_unique hb (Y_spec .norm 0), norm_zero_eq]
  have hser : ∀ x, series B [((⟨0, .e⟩ : Irrep), [fun _ : ι => (1 : ℝ)])] x i = 1 := by
    intro x
    simp [series, h0]
  simpa only [hser, mul_one] using h1

/-- **C79 (refusal).** With `p_val = -1` it always fails with `AssertionError`, for every position and degree. -/
theorem C79_refuse (cfg : Option (List String)) (position : Input ι) (lmax : ℕ) (a : Parity) : s2Dirac cfg position lmax .o a = .error .assertion := by
  have h : ((s2Irreps lmax .o a).all fun m => m.ir.l % 2 == 1 || m.ir.p == .e) = false := by
    rw [List.all_eq_false]
    refine ⟨⟨1, ⟨0, .o⟩⟩, List.mem_map.mpr ⟨0, by simp, by cases a <;> rfl⟩, by decide⟩
  unfold s2Dirac sphericalHarmonics
  simp [outIrreps, h, bind, Except.bind]

/-- The hypotheses are met by a position given as an array, with the default configuration. -/
example (x y z : ℝ) : ∃ c, s2Dirac (ι := Unit) none (.raw [fun _ => x, fun _ => y, fun _ => z]) 2 .e .o = .ok c ∧ c.irreps = [⟨1, ⟨0, .e⟩⟩, ⟨1, ⟨1, .o⟩⟩, ⟨1, ⟨2, .e⟩⟩] := by
  obtain ⟨c, h1, -, h3, -⟩ := C79_dirac (ι := Unit) (cfg := none) (by intro a h; cases h) (a := .o) (position := .raw [fun _ => x, fun _ => y, fun _ => z]) ⟨rfl, fun _ h => by cases h⟩ 2
  exact ⟨c, h1, by rw [h3]; rfl⟩

end E3nn.S2
