import Verif.Props.C76

/-!
# C77: `from_s2grid` is the inverse of `to_s2grid` on band-limited signals
-/

namespace E3nn.S2

open E3nn.IArr E3nn.SH

variable {ι : Type}

/-- The coefficient of the function of degree `l` and index `k` in a series: the sum over the blocks of this degree. -/
noncomputable def coeffAt (bs : List (Irrep × List (ι → ℝ))) (l k : ℕ) (i : ι) : ℝ := ((bs.filter fun b => b.1.l = l).map fun b => b.2.getD k 0 i).sum

theorem sphLength_sq (l : ℕ) : sphLength .integral l * sphLength .integral l = (2 * l + 1) / (4 * Real.pi) := by
  unfold sphLength
  exact Real.mul_self_sqrt (by positivity)

/-- The discrete orthogonality of the spherical harmonics. -/
theorem grid_orth {D n ra : ℕ} {y w : Fin n → ℝ} (h : Exact D y w) {l j : ℕ} (hD : l + j ≤ D) (hra : l + j < ra) (k : Fin (2 * l + 1)) (k' : Fin (2 * j + 1))
    {cA cB : ℕ → ℝ} {A B : (l : ℕ) → (Fin 3 → ℝ) → Fin (2 * l + 1) → ℝ} (hA : IsBasis cA A) (hB : IsBasis cB B) :
    ∑ b, ∑ a : Fin ra, w b / ra * (B l (gridVector (y b) (gridAlpha ra a)) k * A j (gridVector (y b) (gridAlpha ra a)) k') =
      if l = j ∧ k.val = k'.val then cB l * cA l / (2 * l + 1) else 0 := by
  have hk := k.isLt
  have hk' := k'.isLt
  have e : ∀ (b : Fin n) (a : Fin ra), w b / ra * (B l (gridVector (y b) (gridAlpha ra a)) k * A j (gridVector (y b) (gridAlpha ra a)) k') =
      (cB l / sphLength .integral l * (cA j / sphLength .integral j)) * (w b * (shBeta l ((k : ℤ) - l).natAbs (y b) * shBeta j ((k' : ℤ) - j).natAbs (y b))) *
        (ang ((k : ℤ) - l) (gridAlpha ra a) * ang ((k' : ℤ) - j) (gridAlpha ra a) / ra) := by
    intro b a
    rw [basis_c hB, basis_c hA, ← sh_grid k (h.nodes b), ← sh_grid k' (h.nodes b)]; ring
  simp_rw [e, ← Finset.mul_sum, ← Finset.sum_div]
  have ho := ang_orth (n := ra) (mu := (k : ℤ) - l) (nu := (k' : ℤ) - j) (by omega)
  rw [Finset.sum_range] at ho
  simp_rw [ho]
  rw [← Finset.sum_mul, ← Finset.mul_sum]
  by_cases hm : (k : ℤ) - l = (k' : ℤ) - j
  · rw [if_pos hm, mul_one, ← hm]
    rw [h.shBeta (by omega) (by omega) hD]
    by_cases hl : l = j
    · subst hl
      rw [if_pos rfl, if_pos ⟨rfl, by omega⟩]
      have hs := sphLength_sq l
      have hp : sphLength .integral l ≠ 0 := by unfold sphLength; positivity
      have hpi := Real.pi_ne_zero
      have h2 : (2 * (l : ℝ) + 1) ≠ 0 := by positivity
      rw [div_mul_div_comm, hs]
      field_simp
    · rw [if_neg hl, if_neg (fun h => hl h.1), mul_zero]
  · rw [if_neg hm, mul_zero, if_neg (by omega)]

/-- The quadrature against one function, for the values of a series. -/
theorem project_series {D n ra : ℕ} {y w : Fin n → ℝ} (h : Exact D y w) {j : ℕ} (k' : Fin (2 * j + 1)) (bs : List (Irrep × List (ι → ℝ)))
    (hl : ∀ b ∈ bs, b.1.l + j ≤ D ∧ b.1.l + j < ra) (i : ι)
    {cA cB : ℕ → ℝ} {A B : (l : ℕ) → (Fin 3 → ℝ) → Fin (2 * l + 1) → ℝ} (hA : IsBasis cA A) (hB : IsBasis cB B) :
    ∑ b, ∑ a : Fin ra, w b / ra * (series B bs (gridVector (y b) (gridAlpha ra a)) i * A j (gridVector (y b) (gridAlpha ra a)) k') =
      cB j * cA j / (2 * j + 1) * coeffAt bs j k' i := by
  induction bs with
  | nil => simp [series, coeffAt]
  | cons g bs ih =>
    have hs : ∀ z, series B (g :: bs) z i = (∑ k : Fin (2 * g.1.l + 1), B g.1.l z k * g.2.getD k 0 i) + series B bs z i := fun z => by simp [series]
    have hgl := hl g (by simp)
    have e : ∀ (b : Fin n) (a : Fin ra), w b / ra * (series B (g :: bs) (gridVector (y b) (gridAlpha ra a)) i * A j (gridVector (y b) (gridAlpha ra a)) k') =
        (∑ k : Fin (2 * g.1.l + 1), w b / ra * (B g.1.l (gridVector (y b) (gridAlpha ra a)) k * A j (gridVector (y b) (gridAlpha ra a)) k') * g.2.getD k 0 i) +
          w b / ra * (series B bs (gridVector (y b) (gridAlpha ra a)) i * A j (gridVector (y b) (gridAlpha ra a)) k') := by
      intro b a
      rw [hs, add_mul, mul_add]
      congr 1
      rw [Finset.sum_mul, Finset.mul_sum]
      exact Finset.sum_congr rfl fun k _ => by ring
    simp_rw [e, Finset.sum_add_distrib]
    rw [ih (fun b hb => hl b (by simp [hb]))]
    have e2 : ∑ b, ∑ a : Fin ra, ∑ k : Fin (2 * g.1.l + 1), w b / ra * (B g.1.l (gridVector (y b) (gridAlpha ra a)) k * A j (gridVector (y b) (gridAlpha ra a)) k') * g.2.getD k 0 i =
        ∑ k : Fin (2 * g.1.l + 1), (if g.1.l = j ∧ k.val = k'.val then cB g.1.l * cA g.1.l / (2 * g.1.l + 1) else 0) * g.2.getD k 0 i := by
      rw [Finset.sum_congr rfl fun b _ => Finset.sum_comm, Finset.sum_comm]
      refine Finset.sum_congr rfl fun k _ => ?_
      rw [← grid_orth h hgl.1 hgl.2 k k' hA hB, Finset.sum_mul]
      refine Finset.sum_congr rfl fun b _ => ?_
      rw [Finset.sum_mul]
    rw [e2]
    unfold coeffAt
    by_cases hj : g.1.l = j
    · obtain ⟨⟨gl, gp⟩, gc⟩ := g
      simp only at hj
      subst hj
      rw [List.filter_cons_of_pos (by simp), List.map_cons, List.sum_cons, mul_add]
      congr 1
      simp only
      rw [Finset.sum_eq_single k']
      · simp
      · intro k _ hk
        rw [if_neg (fun h => hk (Fin.ext h.2)), zero_mul]
      · intro h; exact absurd (Finset.mem_univ _) h
    · rw [List.filter_cons_of_neg (by simpa using hj)]
      rw [Finset.sum_eq_zero, zero_add]
      intro k _
      rw [if_neg (fun h => hj h.1), zero_mul]

theorem ls_nil {ms : Irreps} : ms.ls = [] ↔ expand ms = [] := by rw [ls_eq, List.map_eq_nil_iff]

theorem from_reduce (lg : LegGauss) (nrm : Normalization) (fft : Bool) (lmaxIn : Option ℕ) (x : Signal ι) {irreps : Irreps} {L : ℕ} (hL : IsLmax (expand irreps) L) (hnd : (expand irreps).Nodup)
    (hp : SphereParity (irreps.map (·.ir)) x.pVal x.pArg) : fromS2Grid lg nrm fft lmaxIn x irreps = fromGridCore lg nrm fft x irreps L (lmaxIn.getD L) := by
  obtain ⟨g, g1, g2, g3, g4⟩ := C07_regroup_spec irreps
  have hone : (g.all fun m => m.mul == 1) = true := by
    rw [List.all_eq_true]
    intro m hm
    have h1 := List.nodup_iff_count_le_one.mp hnd m.ir
    rw [← Irreps.count_eq_count_expand, ← g4, Irreps.count_eq_count_expand] at h1
    have h2 := g3 m hm
    have : m.mul ≤ (expand g).count m.ir := by
      obtain ⟨s, t, hst⟩ := List.append_of_mem hm
      rw [hst]
      unfold expand
      rw [List.flatMap_append, List.flatMap_cons, List.count_append, List.count_append, List.count_replicate]
      simp
      omega
    simp
    omega
  have hmax : irreps.ls.foldl max 0 = L := by
    rw [ls_eq]
    refine foldl_max_eq ?_ ?_
    · intro l hl; obtain ⟨ir, hir, rfl⟩ := List.mem_map.mp hl; exact hL.2 _ hir
    · obtain ⟨ir, hir, he⟩ := hL.1; exact List.mem_map.mpr ⟨ir, hir, he⟩
  have hck := check_both irreps x.pVal x.pArg
  rw [if_pos hp] at hck
  have hne : irreps.ls ≠ [] := by
    rw [Ne, ls_nil]
    intro h
    obtain ⟨ir, hir, -⟩ := hL.1
    rw [h] at hir; cases hir
  unfold fromS2Grid
  rw [g1]
  simp only [bind, Except.bind, hone, Bool.not_true, Bool.false_eq_true, if_false, hck, hmax]

/-- **C77 (formula).** `from_s2grid` returns the requested irreps (pairwise distinct, in any order, with the parities of the signal), in the given order, and each coefficient is
the quadrature of the product of the signal with a spherical harmonic — of the length of the requested normalisation — over the grid.  `fft` does not change the result. -/
theorem C77_from_s2grid {lg : LegGauss} (hlg : GaussLegendre lg) (nrm : Normalization) (fft : Bool) (lmaxIn : Option ℕ) (x : Signal ι) {irreps : Irreps} {L : ℕ}
    (hL : IsLmax (expand irreps) L) (hnd : (expand irreps).Nodup) (hp : SphereParity (irreps.map (·.ir)) x.pVal x.pArg)
    {y w : Fin x.resBeta → ℝ} (hq : quadratureWeights lg x.quad x.resBeta = .ok (y, w)) (hfft : fft = true → 0 < x.resAlpha ∧ L ≤ x.resAlpha / 2)
    {A : (l : ℕ) → (Fin 3 → ℝ) → Fin (2 * l + 1) → ℝ} (hA : IsBasis (dualLength nrm L (lmaxIn.getD L)) A) :
    ∃ c, fromS2Grid lg nrm fft lmaxIn x irreps = .ok c ∧ c.Coherent ∧ c.irreps = irreps ∧
      c.blocks = (expand irreps).map fun ir => (ir, List.ofFn fun (k : Fin (2 * ir.l + 1)) (i : ι) =>
        ∑ b : Fin x.resBeta, ∑ a : Fin x.resAlpha, w b / x.resAlpha * (x.values b a i * A ir.l (gridVector (y b) (gridAlpha x.resAlpha a)) k)) := by
  rw [from_reduce lg nrm fft lmaxIn x hL hnd hp]
  exact fromGridCore_spec lg nrm fft x irreps (lmaxIn.getD L) hL hq (fun b => (exact_of_grid hlg b.pos hq).nodes b) hfft hA

/-- The factor between the coefficients of a signal written with `lmax = Lin` and the ones read with `lmax = L` and `lmax_in`. -/
noncomputable def ratio (nrm : Normalization) (Lin L lmaxIn : ℕ) : ℝ :=
  match nrm with
  | .integral => 1
  | .norm => Real.sqrt (lmaxIn + 1) / Real.sqrt (Lin + 1)
  | .component => Real.sqrt (L + 1) / Real.sqrt (Lin + 1)

theorem ratio_eq (nrm : Normalization) (Lin L lmaxIn l : ℕ) : basisLength nrm Lin l * dualLength nrm L lmaxIn l / (2 * l + 1) = ratio nrm Lin L lmaxIn := by
  have h2 : Real.sqrt (2 * l + 1) * Real.sqrt (2 * l + 1) = 2 * l + 1 := Real.mul_self_sqrt (by positivity)
  have h3 : (2 * (l : ℝ) + 1) ≠ 0 := by positivity
  have h4 : Real.sqrt ((Lin : ℝ) + 1) ≠ 0 := by positivity
  cases nrm <;> simp only [basisLength, dualLength, ratio]
  · rw [h2]; field_simp
  · field_simp
  · field_simp
    rw [pow_two, h2]

/-- **C77 (band-limited signals).** If the values of the signal are those of a series written with the basis of `to_s2grid` for `lmax = Lin`, and the sum of any degree of the series
with any requested degree is at most the degree of the quadrature and less than `res_alpha`, then `from_s2grid` returns the coefficients of the series, zero for the degrees that are not in the series,
times `ratio`: `1` for "integral", `√((lmax_in+1)/(Lin+1))` for "norm", `√((lmax+1)/(Lin+1))` for "component", where `lmax` is the greatest requested degree. -/
theorem C77_band_limited {lg : LegGauss} (hlg : GaussLegendre lg) (nrm : Normalization) (fft : Bool) (lmaxIn : Option ℕ) (x : Signal ι) {irreps : Irreps} {L : ℕ}
    (hL : IsLmax (expand irreps) L) (hnd : (expand irreps).Nodup) (hp : SphereParity (irreps.map (·.ir)) x.pVal x.pArg)
    {y w : Fin x.resBeta → ℝ} (hq : quadratureWeights lg x.quad x.resBeta = .ok (y, w)) (hrb : 0 < x.resBeta) (hfft : fft = true → L ≤ x.resAlpha / 2)
    {Lin : ℕ} {B : (l : ℕ) → (Fin 3 → ℝ) → Fin (2 * l + 1) → ℝ} (hB : IsBasis (basisLength nrm Lin) B) (bs : List (Irrep × List (ι → ℝ)))
    (hx : ∀ b a i, x.values b a i = series B bs (gridVector (y b) (gridAlpha x.resAlpha a)) i) (hra : 0 < x.resAlpha)
    (hl : ∀ b ∈ bs, b.1.l + L ≤ gridDegree x.quad x.resBeta ∧ b.1.l + L < x.resAlpha) :
    ∃ c, fromS2Grid lg nrm fft lmaxIn x irreps = .ok c ∧ c.Coherent ∧ c.irreps = irreps ∧
      c.blocks = (expand irreps).map fun ir => (ir, List.ofFn fun (k : Fin (2 * ir.l + 1)) (i : ι) => ratio nrm Lin L (lmaxIn.getD L) * coeffAt bs ir.l k i) := by
  obtain ⟨A, hA⟩ := basis_exists (dualLength nrm L (lmaxIn.getD L))
  obtain ⟨c, c1, c2, c3, c4⟩ := C77_from_s2grid hlg nrm fft lmaxIn x hL hnd hp hq (fun h => ⟨hra, hfft h⟩) hA
  refine ⟨c, c1, c2, c3, ?_⟩
  rw [c4]
  refine List.map_congr_left fun ir hir => ?_
  congr 2
  funext k i
  simp_rw [hx]
  rw [project_series (exact_of_grid hlg hrb hq) k bs _ i hA hB, ratio_eq]
  intro b hb
  have h1 := hL.2 ir hir
  have h2 := hl b hb
  constructor <;> omega

theorem coeffAt_mem {bs : List (Irrep × List (ι → ℝ))} {v a : Parity} (hp : SphereParity (bs.map Prod.fst) v a) (hnd : (bs.map Prod.fst).Nodup) {b : Irrep × List (ι → ℝ)} (hb : b ∈ bs) (k : ℕ) (i : ι) :
    coeffAt bs b.1.l k i = b.2.getD k 0 i := by
  unfold coeffAt
  obtain ⟨s, t, rfl⟩ := List.append_of_mem hb
  have hne : ∀ g, g ∈ s ∨ g ∈ t → g.1.l ≠ b.1.l := by
    intro g hg he
    have h1 := hp g.1 (List.mem_map.mpr ⟨g, by rcases hg with h | h <;> simp [h], rfl⟩)
    have h2 := hp b.1 (by simp)
    have : g.1 = b.1 := by
      have h3 : g.1.p = b.1.p := by rw [h1, h2, he]
      cases hg1 : g.1; cases hb1 : b.1
      rw [hg1, hb1] at h3 he
      simp_all
    rw [List.map_append, List.map_cons, List.nodup_append] at hnd
    rcases hg with h | h
    · exact hnd.2.2 g.1 (List.mem_map.mpr ⟨g, h, rfl⟩) b.1 (by simp) this
    · have := List.nodup_cons.mp hnd.2.1
      exact this.1 (List.mem_map.mpr ⟨g, h, by assumption⟩)
  rw [List.filter_append, List.filter_cons_of_pos (by simp)]
  have e1 : s.filter (fun g => g.1.l = b.1.l) = [] := List.filter_eq_nil_iff.mpr fun g hg => by simpa using hne g (.inl hg)
  have e2 : t.filter (fun g => g.1.l = b.1.l) = [] := List.filter_eq_nil_iff.mpr fun g hg => by simpa using hne g (.inr hg)
  rw [e1, e2]
  simp

theorem sphereParity_expand {ms : Irreps} {v a : Parity} (h : SphereParity (ms.map (·.ir)) v a) : SphereParity (expand ms) v a := by
  intro ir hir
  unfold expand at hir
  obtain ⟨m, hm, h2⟩ := List.mem_flatMap.mp hir
  rw [(List.mem_replicate.mp h2).2]
  exact h _ (List.mem_map.mpr ⟨m, hm, rfl⟩)

/-- The blocks of coherent coefficients are recovered from the entries. -/
theorem blocks_of_coeffs {c : IArr (ι → ℝ)} (hc : c.Coherent) {v a : Parity} (hp : SphereParity (expand c.irreps) v a) (hnd : (expand c.irreps).Nodup) :
    (expand c.irreps).map (fun ir => (ir, List.ofFn fun (k : Fin (2 * ir.l + 1)) (i : ι) => coeffAt c.blocks ir.l k i)) = c.blocks := by
  have hf : c.blocks.map Prod.fst = expand c.irreps := blocksOf_fst _ _
  conv_lhs => rw [← hf]
  rw [List.map_map]
  conv_rhs => rw [← List.map_id c.blocks]
  refine List.map_congr_left fun b hb => ?_
  have hlen : b.2.length = 2 * b.1.l + 1 := blocksOf_row_length (expand c.irreps) c.array hc.array_length b hb
  rw [← hf] at hp hnd
  simp only [Function.comp_apply, id_eq]
  refine Prod.ext rfl ?_
  simp only
  apply List.ext_getElem
  · simp [hlen]
  · intro n h1 h2
    rw [List.getElem_ofFn]
    funext i
    rw [coeffAt_mem hp hnd hb]
    simp [List.getD_eq_getElem?_getD, List.getElem?_eq_getElem h2]

/-- **C77 (round trip).** `from_s2grid(to_s2grid(coeffs, ...), coeffs.irreps)` gives back `coeffs`, for every normalisation, with and without `fft`, when twice the greatest degree
is at most the degree of the quadrature (`res_beta - 1` for "soft", `2 res_beta - 1` for "gausslegendre") and less than `res_alpha`. -/
theorem C77_round_trip {lg : LegGauss} (hlg : GaussLegendre lg) (nrm : Normalization) (fft fft' : Bool) {c : IArr (ι → ℝ)} (hc : c.Coherent) (hnd : (expand c.irreps).Nodup) {L : ℕ}
    (hL : IsLmax (expand c.irreps) L) {pVal pArg : Option Parity} {v a : Parity} (hp : SphereParity (c.irreps.map (·.ir)) v a) (hg : ParityGiven (expand c.irreps) pVal pArg v a)
    {rb ra : ℕ} {q : Quad} (hrb : 0 < rb) (hsoft : q = .soft → rb % 2 = 0) (hfft : fft = true → ra % 2 = 1) (hD : 2 * L ≤ gridDegree q rb) (hra : 2 * L < ra) :
    ∃ s d, toS2Grid lg nrm fft c rb ra q pVal pArg = .ok s ∧ fromS2Grid lg nrm fft' none s c.irreps = .ok d ∧ d.Coherent ∧ d.irreps = c.irreps ∧ d.array = c.array := by
  obtain ⟨y, w, hq⟩ : ∃ y w, quadratureWeights lg q rb = .ok (y, w) := by
    cases q with
    | soft => exact ⟨_, _, by unfold quadratureWeights; simp only; rw [if_pos (hsoft rfl)]⟩
    | gauss => exact ⟨_, _, by unfold quadratureWeights; simp only; rw [if_neg (by omega)]⟩
  obtain ⟨B, hB⟩ := basis_exists (basisLength nrm L)
  have hp' := sphereParity_expand hp
  have hs := C76_to_s2grid hlg nrm fft hc hnd hL hp' hg ra hq (fun h => ⟨hfft h, by omega⟩) hB
  have hf : c.blocks.map Prod.fst = expand c.irreps := blocksOf_fst _ _
  obtain ⟨d, d1, d2, d3, d4⟩ := C77_band_limited hlg nrm fft' none
    (⟨rb, ra, fun b j i => series B c.blocks (gridVector (y b) (gridAlpha ra j)) i, q, v, a⟩ : Signal ι) hL hnd hp hq hrb (fun _ => by simp only; omega) hB c.blocks (fun _ _ _ => rfl) (by simp only; omega)
    (fun b hb => by
      have h1 : b.1.l ≤ L := hL.2 b.1 (by rw [← hf]; exact List.mem_map.mpr ⟨b, hb, rfl⟩)
      simp only
      constructor <;> omega)
  refine ⟨_, d, hs, d1, d2, d3, ?_⟩
  have hr : ratio nrm L L (Option.getD none L) = 1 := by
    have : Real.sqrt ((L : ℝ) + 1) ≠ 0 := by positivity
    cases nrm <;> simp [ratio, this]
  rw [hr] at d4
  simp_rw [one_mul] at d4
  rw [blocks_of_coeffs hc hp' hnd] at d4
  rw [← Inv.array_eq_blocks d2.inv, d4, Inv.array_eq_blocks hc.inv]

/-- **C77 (`lmax_in`).** `lmax_in` has an effect with the normalisation "norm" only; with "component" (and "integral") it is ignored. -/
theorem C77_lmax_in_ignored (lg : LegGauss) (nrm : Normalization) (h : nrm ≠ .norm) (fft : Bool) (k k' : Option ℕ) (x : Signal ι) (irreps : Irreps) :
    fromS2Grid lg nrm fft k x irreps = fromS2Grid lg nrm fft k' x irreps := by
  have e : ∀ L a b l, normFrom nrm L a l = normFrom nrm L b l := by
    intro L a b l
    cases nrm
    · rfl
    · rfl
    · exact absurd rfl h
  have e2 : ∀ L a b ls y w m i, shYFrom nrm L a ls y w m i = shYFrom nrm L b ls y w m i := by
    intro L a b ls y w m i
    unfold shYFrom
    refine Finset.sum_congr rfl fun l _ => Finset.sum_congr rfl fun j _ => ?_
    rw [e L a b]
  have e3 : ∀ L a b, fromGridCore lg nrm fft x irreps L a = fromGridCore lg nrm fft x irreps L b := by
    intro L a b
    unfold fromGridCore
    simp_rw [e2 L a b]
  unfold fromS2Grid
  simp_rw [e3 _ (k.getD _) (k'.getD (irreps.ls.foldl max 0))]

theorem expand_s2 (lmax : ℕ) (v a : Parity) : expand (s2Irreps lmax v a) = (List.range (lmax + 1)).map fun l => ⟨l, v.mul (a.pow l)⟩ := by
  unfold s2Irreps expand
  rw [List.flatMap_map]
  exact List.map_eq_flatMap.symm

/-- **C77 (`s2_irreps`).** `s2_irreps(lmax, p_val, p_arg)` lists the degrees `0, ..., lmax` once, with the parities `p_val * p_arg ** l`. -/
theorem C77_s2_irreps (lmax : ℕ) (v a : Parity) :
    (s2Irreps lmax v a).map (fun m => (m.mul, m.ir.l)) = (List.range (lmax + 1)).map (fun l => (1, l)) ∧ SphereParity ((s2Irreps lmax v a).map (·.ir)) v a ∧
      IsLmax (expand (s2Irreps lmax v a)) lmax ∧ (expand (s2Irreps lmax v a)).Nodup := by
  refine ⟨?_, ?_, ?_, ?_⟩
  · simp [s2Irreps, Function.comp_def]
  · intro ir hir
    simp only [s2Irreps, List.map_map, List.mem_map, Function.comp_apply] at hir
    obtain ⟨l, -, rfl⟩ := hir
    rfl
  · rw [expand_s2]
    refine ⟨⟨_, List.mem_map.mpr ⟨lmax, by simp, rfl⟩, rfl⟩, ?_⟩
    intro ir hir
    obtain ⟨l, hl, rfl⟩ := List.mem_map.mp hir
    have := List.mem_range.mp hl
    simp only
    omega
  · rw [expand_s2]
    refine List.nodup_range.map ?_
    intro l l' h
    injection h

theorem sum_range_filter (n l : ℕ) (f : ℕ → ℝ) : ((List.range n).map fun j => if j = l then f j else 0).sum = if l < n then f l else 0 := by
  induction n with
  | zero => simp
  | succ n ih =>
    rw [List.range_succ, List.map_append, List.sum_append, ih]
    by_cases h : n = l
    · subst h; simp
    · by_cases h2 : l < n
      · simp [h, h2, show l < n + 1 by omega]
      · simp [h, h2, show ¬ l < n + 1 by omega]

theorem series_coeffs {B : (l : ℕ) → (Fin 3 → ℝ) → Fin (2 * l + 1) → ℝ} (bs : List (Irrep × List (ι → ℝ))) (f : ℕ → Irrep) (hf : ∀ l, (f l).l = l) (n : ℕ) (x : Fin 3 → ℝ) (i : ι) :
    series B ((List.range (n + 1)).map fun l => (f l, List.ofFn fun (k : Fin (2 * (f l).l + 1)) (i : ι) => coeffAt bs (f l).l k i)) x i =
      series B (bs.filter fun b => b.1.l ≤ n) x i := by
  have e : series B ((List.range (n + 1)).map fun l => (f l, List.ofFn fun (k : Fin (2 * (f l).l + 1)) (i : ι) => coeffAt bs (f l).l k i)) x i =
      ((List.range (n + 1)).map fun l => ∑ k : Fin (2 * l + 1), B l x k * coeffAt bs l k i).sum := by
    unfold series
    rw [List.map_map]
    congr 1
    refine List.map_congr_left fun l _ => ?_
    simp only [Function.comp_apply]
    have : ∀ ir : Irrep, ∀ l, ir.l = l → ∑ k : Fin (2 * ir.l + 1), B ir.l x k * (List.ofFn fun (k : Fin (2 * ir.l + 1)) (i : ι) => coeffAt bs ir.l k i).getD k 0 i = ∑ k : Fin (2 * l + 1), B l x k * coeffAt bs l k i := by
      rintro ir l rfl
      refine Finset.sum_congr rfl fun k _ => ?_
      rw [getD_ofFn]
    exact this (f l) l (hf l)
  rw [e]
  clear e
  induction bs with
  | nil => simp [coeffAt, series]
  | cons g bs ih =>
    have h1 : ∀ (l k : ℕ), coeffAt (g :: bs) l k i = (if l = g.1.l then g.2.getD k 0 i else 0) + coeffAt bs l k i := by
      intro l k
      unfold coeffAt
      by_cases h : g.1.l = l
      · rw [List.filter_cons_of_pos (by simpa using h), if_pos h.symm]; simp
      · rw [List.filter_cons_of_neg (by simpa using h), if_neg (fun e => h e.symm)]; simp
    simp_rw [h1, mul_add, Finset.sum_add_distrib]
    rw [List.sum_map_add, ih]
    have h2 : ∀ l : ℕ, ∑ k : Fin (2 * l + 1), B l x k * (if l = g.1.l then g.2.getD k 0 i else 0) = if l = g.1.l then ∑ k : Fin (2 * l + 1), B l x k * g.2.getD k 0 i else 0 := by
      intro l
      split
      · rfl
      · simp
    simp_rw [h2]
    rw [sum_range_filter (n + 1) g.1.l (fun l => ∑ k : Fin (2 * l + 1), B l x k * g.2.getD k 0 i)]
    by_cases hg : g.1.l ≤ n
    · rw [if_pos (by omega), List.filter_cons_of_pos (by simpa using hg)]
      simp [series]
    · rw [if_neg (by omega), List.filter_cons_of_neg (by simpa using hg)]
      simp

/-- **C77 (`resample`).** Resampling a band-limited signal gives the values at the new grid of the same function, cut to the degrees up to `lmax`; the parities are kept. -/
theorem C77_resample {lg : LegGauss} (hlg : GaussLegendre lg) (x : Signal ι) {y w : Fin x.resBeta → ℝ} (hq : quadratureWeights lg x.quad x.resBeta = .ok (y, w)) (hrb : 0 < x.resBeta)
    {B : (l : ℕ) → (Fin 3 → ℝ) → Fin (2 * l + 1) → ℝ} {L' : ℕ} (hB : IsBasis (basisLength .integral L') B) (bs : List (Irrep × List (ι → ℝ)))
    (hx : ∀ b a i, x.values b a i = series B bs (gridVector (y b) (gridAlpha x.resAlpha a)) i) (hra : 0 < x.resAlpha) (lmax : ℕ) (hfft : lmax ≤ x.resAlpha / 2)
    (hl : ∀ b ∈ bs, b.1.l + lmax ≤ gridDegree x.quad x.resBeta ∧ b.1.l + lmax < x.resAlpha)
    {rb ra : ℕ} (q : Option Quad) {y' w' : Fin rb → ℝ} (hq' : quadratureWeights lg (q.getD x.quad) rb = .ok (y', w')) (hra' : ra % 2 = 1 ∧ 2 * lmax + 1 ≤ ra) :
    resample lg x rb ra lmax q = .ok ⟨rb, ra, fun b j i => series B (bs.filter fun b => b.1.l ≤ lmax) (gridVector (y' b) (gridAlpha ra j)) i, q.getD x.quad, x.pVal, x.pArg⟩ := by
  obtain ⟨-, s1, s2, s3⟩ := C77_s2_irreps lmax x.pVal x.pArg
  obtain ⟨c, c1, c2, c3, c4⟩ := C77_band_limited hlg .integral true none x s2 s3 s1 hq hrb (fun _ => hfft) hB bs hx hra hl
  have hb : IsBasis (basisLength .integral lmax) B := hB
  rw [← c3] at s1 s2 s3
  have ht := C76_to_s2grid hlg .integral true c2 s3 s2 (sphereParity_expand s1) (.inl ⟨rfl, rfl⟩) ra hq' (fun _ => hra') hb
  unfold resample
  rw [c1]
  refine ht.trans ?_
  congr 2
  funext b j i
  rw [c4, expand_s2, List.map_map]
  simp only [ratio, one_mul]
  exact series_coeffs bs (fun l => ⟨l, x.pVal.mul (x.pArg.pow l)⟩) (fun _ => rfl) lmax _ i

/-- **C77 (refusals).** No irreps, repeated irreps, and parities other than those of the signal are refused (`ValueError`); with `fft`, so is a grid with `res_alpha // 2 < lmax` (`TypeError`). -/
theorem C77_refuse (lg : LegGauss) (nrm : Normalization) (fft : Bool) (k : Option ℕ) (x : Signal ι) (irreps : Irreps) :
    (expand irreps = [] ∨ ¬ (expand irreps).Nodup ∨ ¬ SphereParity (irreps.map (·.ir)) x.pVal x.pArg → fromS2Grid lg nrm fft k x irreps = .error .valueError) ∧
    (∀ L g, IsLmax (expand irreps) L → (expand irreps).Nodup → SphereParity (irreps.map (·.ir)) x.pVal x.pArg → quadratureWeights lg x.quad x.resBeta = .ok g → fft = true → x.resAlpha / 2 < L →
      fromS2Grid lg nrm fft k x irreps = .error .typeError) := by
  constructor
  · intro h
    obtain ⟨g, g1, g2, g3, g4⟩ := C07_regroup_spec irreps
    unfold fromS2Grid
    rw [g1]
    simp only [bind, Except.bind]
    by_cases hone : (g.all fun m => m.mul == 1) = true
    swap
    · simp [Bool.not_eq_true _ ▸ hone]
    have hnd : (expand irreps).Nodup := by
      rw [List.nodup_iff_count_le_one]
      intro ir
      rw [← Irreps.count_eq_count_expand, ← g4, Irreps.count_eq_count_expand]
      have hz : ∀ m ∈ g, m.mul = 1 := fun m hm => by simpa using List.all_eq_true.mp hone m hm
      have he : expand g = g.map (·.ir) := by
        unfold expand
        rw [List.flatMap_congr (g := fun m => [m.ir]) (fun m hm => by rw [hz m hm]; rfl)]
        exact List.map_eq_flatMap.symm
      have hn : (g.map (·.ir)).Nodup := by
        unfold List.Nodup
        rw [List.pairwise_map]
        refine g2.imp ?_
        intro a b hab he
        rw [he, Irrep.lt_iff_enc] at hab
        omega
      rw [he]
      exact List.nodup_iff_count_le_one.mp hn ir
    simp only [hone, Bool.not_true, Bool.false_eq_true, if_false]
    rw [check_both]
    by_cases hp : SphereParity (irreps.map (·.ir)) x.pVal x.pArg
    swap
    · rw [if_neg hp]
    rw [if_pos hp]
    have he : expand irreps = [] := by
      rcases h with h | h | h
      · exact h
      · exact absurd hnd h
      · exact absurd hp h
    rw [← ls_nil] at he
    rw [he]
  · intro L g hL hnd hp hq hf hr
    rw [from_reduce lg nrm fft k x hL hnd hp]
    unfold fromGridCore
    rw [hq]
    simp [bind, Except.bind, hf, hr]

end E3nn.S2
