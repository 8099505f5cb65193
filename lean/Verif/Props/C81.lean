import Verif.Props.C80

/-!
# C81: signals that only depend on `beta`
-/

namespace E3nn.S2

open E3nn.IArr E3nn.SH E3nn.SU2

variable {ι : Type}

/-- The central function of degree `l` (`m = 0`). -/
example (l : ℕ) : SU2.mid l = ⟨l, by omega⟩ := rfl

/-- It does not depend on `alpha`. -/
theorem mid_grid (l : ℕ) {y : ℝ} (hy : y ^ 2 ≤ 1) (α : ℝ) : Y .integral l (gridVector y α) (mid l) = shBeta l 0 y := by
  rw [← sh_grid (mid l) hy α]
  have : (((mid l : Fin _) : ℕ) : ℤ) - l = 0 := by simp [mid]
  rw [this]
  simp [ang]

theorem m0Index_eq (l : ℕ) : m0Index l = l ^ 2 + l := by
  unfold m0Index
  congr 1
  induction l with
  | zero => rfl
  | succ l ih =>
    rw [show 2 * (l + 1) + 1 = (2 * l + 1) + 1 + 1 by ring, List.range_succ, List.range_succ, List.map_append, List.map_append, List.sum_append, List.sum_append, ih]
    simp only [List.map_cons, List.map_nil, List.sum_cons, List.sum_nil]
    have h1 : (2 * l + 1) / 2 = l := by omega
    have h2 : (2 * l + 1 + 1) / 2 = l + 1 := by omega
    rw [h1, h2]
    ring

theorem foldl_set_prefix {A : Type} (f : ℕ → ℕ) (g : ℕ → A) (n : ℕ) (u v : List A) (h : ∀ l < n, f l < u.length) :
    (List.range n).foldl (fun m l => m.set (f l) (g l)) (u ++ v) = (List.range n).foldl (fun m l => m.set (f l) (g l)) u ++ v ∧
      ((List.range n).foldl (fun m l => m.set (f l) (g l)) u).length = u.length := by
  induction n with
  | zero => exact ⟨rfl, rfl⟩
  | succ n ih =>
    obtain ⟨h1, h2⟩ := ih (fun l hl => h l (by omega))
    rw [List.range_succ, List.foldl_append, List.foldl_append, h1]
    refine ⟨?_, ?_⟩
    · simp only [List.foldl_cons, List.foldl_nil]
      rw [List.set_append_left _ _ (by rw [h2]; exact h n (by omega))]
    · simp [h2]

theorem blocksOf_unique (bs : List (Irrep × List (ι → ℝ))) (h : ∀ b ∈ bs, b.2.length = b.1.dim) : blocksOf (bs.map Prod.fst) (bs.map Prod.snd).flatten = bs := by
  induction bs with
  | nil => rfl
  | cons b bs ih =>
    have hb : b.2.length = 2 * b.1.l + 1 := h b (by simp)
    simp only [List.map_cons, List.flatten_cons, blocksOf]
    rw [List.take_left' hb, List.drop_left' hb, ih (fun c hc => h c (by simp [hc]))]

theorem flatten_dim (bs : List (Irrep × List (ι → ℝ))) (h : ∀ b ∈ bs, b.2.length = b.1.dim) : (bs.map Prod.snd).flatten.length = dimOf (bs.map Prod.fst) := by
  induction bs with
  | nil => rfl
  | cons b bs ih =>
    simp only [List.map_cons, List.flatten_cons, List.length_append, dimOf_cons]
    rw [ih (fun c hc => h c (by simp [hc])), h b (by simp)]

/-- The array of the coefficients: the value in the middle of zeros, for each degree. -/
theorem m0_array {A : Type} [Zero A] (g : ℕ → A) (n : ℕ) :
    (List.range n).foldl (fun m l => m.set (m0Index l) (g l)) (List.replicate (n ^ 2) 0) =
      (List.range n).flatMap fun l => List.ofFn fun k : Fin (2 * l + 1) => if k.val = l then g l else 0 := by
  induction n with
  | zero => rfl
  | succ n ih =>
    have hs : (n + 1) ^ 2 = n ^ 2 + (2 * n + 1) := by ring
    rw [List.range_succ, List.foldl_append, List.flatMap_append, hs, List.replicate_add]
    obtain ⟨h1, h2⟩ := foldl_set_prefix m0Index g n (List.replicate (n ^ 2) (0 : A)) (List.replicate (2 * n + 1) 0) (fun l hl => by
      rw [m0Index_eq, List.length_replicate]; nlinarith)
    rw [h1, ← ih]
    simp only [List.foldl_cons, List.foldl_nil, List.flatMap_cons, List.flatMap_nil, List.append_nil]
    rw [List.set_append_right _ _ (by rw [h2, m0Index_eq, List.length_replicate]; omega)]
    congr 1
    rw [h2, m0Index_eq, List.length_replicate, Nat.add_sub_cancel_left]
    refine List.ext_getElem (by simp) fun j h1 h2 => ?_
    simp only [List.getElem_set, List.getElem_replicate, List.getElem_ofFn]
    by_cases h : n = j
    · subst h; simp
    · rw [if_neg h, if_neg (fun e => h e.symm)]

/-- **C81 (irreps of the `m = 0` coefficients).** With one leading axis and `lmax + 1` values, `m0_values_to_irrepsarray` returns an array of `s2_irreps(lmax, p_val, p_arg)` whose
block of degree `l` is the `l`-th value in its middle and zeros around it; a single value is used for all degrees.  Every other number of values is refused, and so are values without
a leading axis. -/
theorem C81_m0 (vals : List (ι → ℝ)) (lmax : ℕ) (v a : Parity) :
    (vals.length = lmax + 1 ∨ vals.length = 1 → ∃ c, m0ToIrreps true vals lmax v a = .ok c ∧ c.Coherent ∧ c.irreps = s2Irreps lmax v a ∧
      c.blocks = (List.range (lmax + 1)).map fun l => (⟨l, v.mul (a.pow l)⟩, List.ofFn fun k : Fin (2 * l + 1) => if k.val = l then vals.getD (if vals.length = 1 then 0 else l) 0 else 0)) ∧
    (¬ (vals.length = lmax + 1 ∨ vals.length = 1) → m0ToIrreps true vals lmax v a = .error .valueError) ∧
    m0ToIrreps false vals lmax v a = .error .indexError := by
  refine ⟨fun h => ?_, fun h => ?_, rfl⟩
  · have hA := m0_array (fun l => if vals.length = lmax + 1 then vals.getD l 0 else vals.getD 0 0) (lmax + 1)
    have hB : ((List.range (lmax + 1)).flatMap fun l => List.ofFn fun k : Fin (2 * l + 1) => if k.val = l then (if vals.length = lmax + 1 then vals.getD l 0 else vals.getD 0 0) else 0) =
        (((List.range (lmax + 1)).map fun l => ((⟨l, v.mul (a.pow l)⟩ : Irrep), List.ofFn fun k : Fin (2 * l + 1) => if k.val = l then vals.getD (if vals.length = 1 then 0 else l) 0 else 0)).map Prod.snd).flatten := by
      rw [List.map_map, List.flatMap_def]
      congr 1
      refine List.map_congr_left fun l hl => ?_
      have hl := List.mem_range.mp hl
      simp only [Function.comp_apply]
      congr 1
      funext k
      congr 1
      rcases h with h | h
      · rw [if_pos h]
        split
        · rename_i h1
          have : l = 0 := by omega
          rw [this]
        · rfl
      · rw [if_pos h]
        split
        · have : l = 0 := by omega
          rw [this]
        · rfl
    rw [hB] at hA
    set bs : List (Irrep × List (ι → ℝ)) := (List.range (lmax + 1)).map fun l => ((⟨l, v.mul (a.pow l)⟩ : Irrep), List.ofFn fun k : Fin (2 * l + 1) => if k.val = l then vals.getD (if vals.length = 1 then 0 else l) 0 else 0) with hbs
    have hfst : bs.map Prod.fst = expand (s2Irreps lmax v a) := by
      rw [expand_s2, hbs, List.map_map]; rfl
    have hlen : ∀ b ∈ bs, b.2.length = b.1.dim := by
      intro b hb
      obtain ⟨l, -, rfl⟩ := List.mem_map.mp hb
      simp [Irrep.dim]
    obtain ⟨c, c1, c2, c3, c4, -, -⟩ := (C12_from_array (s2Irreps lmax v a) (bs.map Prod.snd).flatten).1 (by
      rw [← hfst]
      exact flatten_dim bs hlen)
    refine ⟨c, ?_, c2, c3, ?_⟩
    · unfold m0ToIrreps
      rw [if_neg (by simp), if_neg (by omega), hA]
      exact c1
    · unfold IArr.blocks
      rw [c3, c4, ← hfst]
      exact blocksOf_unique bs hlen
  · unfold m0ToIrreps
    rw [if_neg (by simp), if_pos (by omega)]

/-- **C81 (`legendre_transform_to_s2grid`).** The values along `beta` are those of the series of the `m = 0` basis functions, at the points of the grid with any angle `alpha`. -/
theorem C81_to {lg : LegGauss} (hlg : GaussLegendre lg) (nrm : Normalization) {lmax : ℕ} (c : Fin (lmax + 1) → ι → ℝ) {rb : ℕ} {q : Quad} {y w : Fin rb → ℝ}
    (hq : quadratureWeights lg q rb = .ok (y, w)) {B : (l : ℕ) → (Fin 3 → ℝ) → Fin (2 * l + 1) → ℝ} (hB : IsBasis (basisLength nrm lmax) B) :
    ∃ v, legendreTo lg nrm c rb q = .ok v ∧ ∀ b alpha i, v b i = ∑ l : Fin (lmax + 1), B l (gridVector (y b) alpha) (mid l) * c l i := by
  refine ⟨_, by unfold legendreTo; rw [hq]; rfl, fun b alpha i => ?_⟩
  refine Finset.sum_congr rfl fun l _ => ?_
  rw [basis_eq hB, mid_grid _ ((exact_of_grid hlg b.pos hq).nodes b)]
  ring

theorem series_m0 {B : (l : ℕ) → (Fin 3 → ℝ) → Fin (2 * l + 1) → ℝ} {lmax : ℕ} (c : Fin (lmax + 1) → ι → ℝ) (v a : Parity) (x : Fin 3 → ℝ) (i : ι) (f : ℕ → ι → ℝ) (hf : ∀ l : Fin (lmax + 1), f l = c l) :
    series B ((List.range (lmax + 1)).map fun l => ((⟨l, v.mul (a.pow l)⟩ : Irrep), List.ofFn fun k : Fin (2 * l + 1) => if k.val = l then f l else 0)) x i =
      ∑ l : Fin (lmax + 1), B l x (mid l) * c l i := by
  unfold series
  rw [List.map_map, list_sum_range, Finset.sum_range]
  refine Finset.sum_congr rfl fun l _ => ?_
  simp only [Function.comp_apply]
  rw [Finset.sum_eq_single (mid l)]
  · rw [getD_ofFn, if_pos (show ((mid l : Fin _) : ℕ) = l from rfl), hf]
  · intro k _ hk
    rw [getD_ofFn, if_neg (show ¬ (k : ℕ) = l from fun h => hk (Fin.ext h))]
    simp
  · simp

/-- **C81 (axially symmetric signals).** Spreading the values of `legendre_transform_to_s2grid` over `res_alpha` angles gives the same signal as `to_s2grid` of the `m = 0` coefficients
placed in an `IrrepsArray` with even values and odd arguments, on every grid that `to_s2grid` accepts. -/
theorem C81_axial {lg : LegGauss} (hlg : GaussLegendre lg) (nrm : Normalization) (fft : Bool) {lmax : ℕ} (c : Fin (lmax + 1) → ι → ℝ) {rb : ℕ} (ra : ℕ) {q : Quad} {y w : Fin rb → ℝ}
    (hq : quadratureWeights lg q rb = .ok (y, w)) (hfft : fft = true → ra % 2 = 1 ∧ 2 * lmax + 1 ≤ ra) :
    ∃ v x, legendreTo lg nrm c rb q = .ok v ∧ m0ToIrreps true (List.ofFn c) lmax .e .o = .ok x ∧ toS2Grid lg nrm fft x rb ra q (some .e) (some .o) = .ok (betasToSignal v ra q) := by
  obtain ⟨B, hB⟩ := basis_exists (basisLength nrm lmax)
  obtain ⟨v, v1, v2⟩ := C81_to hlg nrm c hq hB
  obtain ⟨x, x1, x2, x3, x4⟩ := (C81_m0 (List.ofFn c) lmax .e .o).1 (Or.inl (by simp))
  obtain ⟨-, s2, s3, s4⟩ := C77_s2_irreps lmax .e .o
  refine ⟨v, x, v1, x1, ?_⟩
  rw [C76_to_s2grid hlg nrm fft x2 (by rw [x3]; exact s4) (L := lmax) (by rw [x3]; exact s3) (v := .e) (a := .o) (by rw [x3]; exact sphereParity_expand s2) (Or.inl ⟨rfl, rfl⟩) ra hq hfft hB]
  unfold betasToSignal
  congr 2
  funext b j i
  rw [v2 b (gridAlpha ra j) i, x4]
  refine series_m0 c .e .o _ i (fun l => (List.ofFn c).getD (if (List.ofFn c).length = 1 then 0 else l) 0) ?_
  intro l
  rw [show (if (List.ofFn c).length = 1 then 0 else (l : ℕ)) = (l : ℕ) by
    split
    · rename_i h
      have := l.isLt
      simp at h
      omega
    · rfl]
  exact getD_ofFn _ _ _

/-- **C81 (`legendre_transform_from_s2grid`).** It returns the quadratures of the values with the `m = 0` spherical harmonics, of the length of the requested normalisation.  It refuses with an
`AssertionError` a number of values that is not `res_beta`. -/
theorem C81_from {lg : LegGauss} (hlg : GaussLegendre lg) (nrm : Normalization) {n : ℕ} (x : Fin n → ι → ℝ) (lmax : ℕ) {q : Quad} {y w : Fin n → ℝ}
    (hq : quadratureWeights lg q n = .ok (y, w)) {A : (l : ℕ) → (Fin 3 → ℝ) → Fin (2 * l + 1) → ℝ} (hA : IsBasis (dualLength nrm lmax lmax) A) :
    (∃ c, legendreFrom lg nrm x lmax n q = .ok c ∧ ∀ l (alpha : ℝ) i, c l i = ∑ b, w b * (x b i * A l (gridVector (y b) alpha) (mid l))) ∧
    (∀ rb ≠ n, legendreFrom lg nrm x lmax rb q = .error .assertion) := by
  refine ⟨⟨_, by unfold legendreFrom; rw [if_neg (by simp), hq]; rfl, fun l alpha i => ?_⟩, fun rb h => by unfold legendreFrom; rw [if_pos h]⟩
  refine Finset.sum_congr rfl fun b _ => ?_
  rw [dual_eq hA, mid_grid _ ((exact_of_grid hlg b.pos hq).nodes b)]
  ring

/-- **C81 (round trip).** When `2 lmax` is at most the degree of the quadrature, `legendre_transform_from_s2grid` gives back the coefficients from the values of `legendre_transform_to_s2grid`. -/
theorem C81_round_trip {lg : LegGauss} (hlg : GaussLegendre lg) (nrm : Normalization) {lmax : ℕ} (c : Fin (lmax + 1) → ι → ℝ) {rb : ℕ} (hrb : 0 < rb) {q : Quad} {y w : Fin rb → ℝ}
    (hq : quadratureWeights lg q rb = .ok (y, w)) (hD : 2 * lmax ≤ gridDegree q rb) :
    ∃ v, legendreTo lg nrm c rb q = .ok v ∧ legendreFrom lg nrm v lmax rb q = .ok c := by
  have hex := exact_of_grid hlg hrb hq
  refine ⟨_, by unfold legendreTo; rw [hq]; rfl, ?_⟩
  unfold legendreFrom
  rw [if_neg (by simp), hq]
  change Except.ok _ = _
  congr 1
  funext l i
  simp_rw [Finset.mul_sum]
  rw [Finset.sum_comm, Finset.sum_eq_single l]
  · have h := hex.shBeta (m := 0) (l := l) (j := l) (by omega) (by omega) (by omega)
    rw [if_pos rfl] at h
    have e : ∀ b, shBeta l 0 (y b) * normFrom nrm lmax lmax l * w b * (shBeta l 0 (y b) * normTo nrm lmax l * c l i) = normFrom nrm lmax lmax l * normTo nrm lmax l * c l i * (w b * (shBeta l 0 (y b) * shBeta l 0 (y b))) := fun b => by ring
    rw [Finset.sum_congr rfl fun b _ => e b, ← Finset.mul_sum, h]
    have h1 := normTo_length nrm lmax l
    have h2 := normFrom_length nrm lmax lmax l
    have h3 := sphLength_sq l
    have h4 := ratio_eq nrm lmax lmax lmax l
    have h5 : ratio nrm lmax lmax lmax = 1 := by
      have : Real.sqrt ((lmax : ℝ) + 1) ≠ 0 := by positivity
      cases nrm <;> simp [ratio, this]
    rw [h5, ← h1, ← h2] at h4
    have h6 : (2 * (l : ℝ) + 1) ≠ 0 := by positivity
    have hpi : (4 * Real.pi) ≠ 0 := by positivity
    have h7 : normTo nrm lmax l * normFrom nrm lmax lmax l * (sphLength .integral l * sphLength .integral l) = 2 * l + 1 := by
      rw [div_eq_iff h6] at h4
      linear_combination h4
    rw [h3, mul_div_assoc', div_eq_iff hpi] at h7
    have h8 : normTo nrm lmax l * normFrom nrm lmax lmax l = 4 * Real.pi := by
      apply mul_right_cancel₀ h6
      linear_combination h7
    field_simp
    linear_combination c l i * h8
  · intro j _ hj
    have h := hex.shBeta (m := 0) (l := l) (j := j) (by omega) (by omega) (by omega)
    rw [if_neg (fun h => hj (Fin.ext h.symm))] at h
    have e : ∀ b, shBeta l 0 (y b) * normFrom nrm lmax lmax l * w b * (shBeta j 0 (y b) * normTo nrm lmax j * c j i) = normFrom nrm lmax lmax l * normTo nrm lmax j * c j i * (w b * (shBeta l 0 (y b) * shBeta j 0 (y b))) := fun b => by ring
    rw [Finset.sum_congr rfl fun b _ => e b, ← Finset.mul_sum, h, mul_zero]
  · simp

/-- A grid that satisfies the conditions, for every `lmax`: `2 lmax + 2` values of `beta` and the "soft" quadrature. -/
example (lg : LegGauss) (lmax : ℕ) : (∃ y w, quadratureWeights lg .soft (2 * lmax + 2) = .ok (y, w)) ∧ 2 * lmax ≤ gridDegree .soft (2 * lmax + 2) := by
  refine ⟨⟨_, _, by unfold quadratureWeights; simp only; rw [if_pos (by omega)]⟩, ?_⟩
  simp [gridDegree]

end E3nn.S2
