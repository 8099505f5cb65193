import Verif.Spec.SphericalHarmonics
import Verif.Lemmas.LegendreCore
import Verif.Props.C47
import Verif.Props.C59

/-!
# C48: `spherical_harmonics` returns the spherical harmonics

They exist, are unique, and every algorithm returns them for every input, degree and normalisation.
-/

namespace E3nn.SH

open E3nn.SU2 E3nn.Wig E3nn.Rot E3nn.IArr Matrix

theorem poleVal_eq (nrm : Normalization) (l : ℕ) : poleVal nrm l = sphLength nrm l := by cases nrm <;> rfl

theorem Y_poly (nrm : Normalization) (l : ℕ) : ∀ k, ∃ P : MvPolynomial (Fin 3) ℝ, P.IsHomogeneous l ∧ ∀ x, Y nrm l x k = MvPolynomial.eval x P := by
  induction l using shInduction with
  | h0 =>
    intro k
    exact ⟨MvPolynomial.C (cst0 nrm), MvPolynomial.isHomogeneous_C _ _, fun x => by rw [Y_zero]; simp⟩
  | h1 =>
    intro k
    refine ⟨MvPolynomial.C (cst1 nrm) * MvPolynomial.X k, ?_, fun x => by rw [Y_one]; simp⟩
    have := (MvPolynomial.isHomogeneous_C (Fin 3) (cst1 nrm)).mul (MvPolynomial.isHomogeneous_X ℝ k)
    rwa [zero_add] at this
  | hs l1 l2 l hl1 hl2 hl ih1 ih2 hY =>
    intro k
    choose P hP1 hP2 using ih1
    choose Q hQ1 hQ2 using ih2
    refine ⟨∑ i, ∑ j, MvPolynomial.C (cstStep nrm l l1 l2 * clebschGordan l1 l2 l i j k / poleNorm l1 l2 l) * (P i * Q j), ?_, ?_⟩
    · apply MvPolynomial.IsHomogeneous.sum
      intro i _
      apply MvPolynomial.IsHomogeneous.sum
      intro j _
      have := (MvPolynomial.isHomogeneous_C (Fin 3) (cstStep nrm l l1 l2 * clebschGordan l1 l2 l i j k / poleNorm l1 l2 l)).mul ((hP1 i).mul (hQ1 j))
      rwa [zero_add, ← hl] at this
    · intro x
      rw [hY]
      simp only [map_sum, map_mul, MvPolynomial.eval_C, hP2, hQ2, Finset.sum_div, Finset.mul_sum]
      exact Finset.sum_congr rfl fun i _ => Finset.sum_congr rfl fun j _ => by ring

theorem Y_spec (nrm : Normalization) (l : ℕ) : IsSphericalHarmonics (sphLength nrm l) l (Y nrm l) where
  polynomial := Y_poly nrm l
  equivariant p R hR x := Y_equivariant nrm p hR l x
  pole k := by
    have : (![0, 1, 0] : Fin 3 → ℝ) = ey := rfl
    rw [this, Y_pole, poleVal_eq]
    have hk : (k = mid l) ↔ k.val = l := ⟨fun h => by rw [h]; rfl, fun h => Fin.ext h⟩
    simp only [hk]

theorem IsSphericalHarmonics.rot {c : ℝ} {l : ℕ} {f : (Fin 3 → ℝ) → Fin (2 * l + 1) → ℝ} (h : IsSphericalHarmonics c l f) {R : Matrix (Fin 3) (Fin 3) ℝ}
    (hR : IsRotation R) (x : Fin 3 → ℝ) : f (R *ᵥ x) = repD l R *ᵥ f x := by
  have := h.equivariant .o R hR.1 x
  rwa [(C39_defining hR.1).1, dMatrix_rot _ hR] at this

theorem IsSphericalHarmonics.smul {c : ℝ} {l : ℕ} {f : (Fin 3 → ℝ) → Fin (2 * l + 1) → ℝ} (h : IsSphericalHarmonics c l f) (r : ℝ) (x : Fin 3 → ℝ) :
    f (r • x) = r ^ l • f x := by
  funext k
  obtain ⟨P, h1, h2⟩ := h.polynomial k
  rw [h2, Pi.smul_apply, h2, smul_eq_mul, MvPolynomial.eval_eq', MvPolynomial.eval_eq', Finset.mul_sum]
  refine Finset.sum_congr rfl fun d hd => ?_
  have hw := h1 (MvPolynomial.mem_support_iff.mp hd)
  have hs : ∑ i, d i = l := by
    rw [← hw, Finsupp.weight_apply, Finsupp.sum_fintype _ _ (by simp)]
    simp
  simp only [Pi.smul_apply, smul_eq_mul, mul_pow, Finset.prod_mul_distrib, Finset.prod_pow_eq_pow_sum, hs]
  ring

/-- **C48 (uniqueness).** At most one function has the three properties. -/
theorem C48_unique {c : ℝ} {l : ℕ} {f g : (Fin 3 → ℝ) → Fin (2 * l + 1) → ℝ} (hf : IsSphericalHarmonics c l f) (hg : IsSphericalHarmonics c l g) : f = g :=
  equiv_unique (fun _ hR x => hf.rot hR x) (fun _ hR x => hg.rot hR x) hf.smul hg.smul (by
    funext k
    have e : ey = ![0, 1, 0] := rfl
    rw [e, hf.pole, hg.pole])

/-- **C48 (existence).** -/
theorem C48_exists (nrm : Normalization) (l : ℕ) : ∃ f, IsSphericalHarmonics (sphLength nrm l) l f := ⟨_, Y_spec nrm l⟩

/-- **C48 (norm).** The sum of the squares of the components of degree `l`. -/
theorem C48_norm (nrm : Normalization) {l : ℕ} {f : (Fin 3 → ℝ) → Fin (2 * l + 1) → ℝ} (hf : IsSphericalHarmonics (sphLength nrm l) l f) (x : Fin 3 → ℝ) :
    ∑ k, f x k ^ 2 = sphLength nrm l ^ 2 * (x 0 ^ 2 + x 1 ^ 2 + x 2 ^ 2) ^ l := by
  rw [C48_unique hf (Y_spec nrm l), Y_norm, poleVal_eq]; rfl

/-- The algorithms that are accepted: known keywords, `legendre`, or `recursive` with `dense` or `sparse`. -/
def AlgOk (alg : List String) : Prop :=
  (∀ k ∈ alg, k = "legendre" ∨ k = "recursive" ∨ k = "dense" ∨ k = "sparse" ∨ k = "custom_jvp") ∧
  ("legendre" ∈ alg ∨ ("recursive" ∈ alg ∧ ("dense" ∈ alg ∨ "sparse" ∈ alg)))

theorem AlgOk.core {alg : List String} (h : AlgOk alg) (nrm : Normalization) : CoreOk nrm alg := by
  by_cases hl : "legendre" ∈ alg
  · exact coreOk_legendre nrm hl
  · obtain ⟨h1, h2⟩ := h.2.resolve_left hl
    exact coreOk_recursive nrm hl h1 h2

theorem chooseAlgorithm_ok {cfg algorithm : Option (List String)} (halg : ∀ a, (algorithm <|> cfg) = some a → AlgOk a) {ms : Irreps} (hms : ms.numIrreps ≠ 0) :
    ∃ alg, resolveAlgorithm cfg algorithm ms = .ok alg ∧ AlgOk alg := by
  unfold resolveAlgorithm
  cases algorithm with
  | some a => exact ⟨a, rfl, halg a rfl⟩
  | none =>
    cases cfg with
    | some a => exact ⟨a, rfl, halg a rfl⟩
    | none =>
      simp only [chooseAlgorithm]
      have : ∃ l, ms.lmax = .ok l := by
        have hne : ms ≠ [] := by rintro rfl; exact hms rfl
        unfold Irreps.lmax
        rw [if_neg (by simpa using hne)]
        have : ms.ls ≠ [] := by
          rw [Irreps.ls_eq]
          intro h
          rw [List.map_eq_nil_iff] at h
          rw [Irreps.numIrreps_eq_length_expand, h] at hms
          exact hms rfl
        obtain ⟨l, hl⟩ := Option.ne_none_iff_exists'.mp (fun h => this (List.max?_eq_none_iff.mp h))
        exact ⟨l, by rw [hl]⟩
      obtain ⟨l, hl⟩ := this
      rw [hl]
      simp only [Except.map]
      split
      · exact ⟨_, rfl, by unfold AlgOk; simp⟩
      · exact ⟨_, rfl, by unfold AlgOk; simp⟩

/-- The vectors that are evaluated: the unit vector of the input (zero stays zero) when `normalize` is true. -/
noncomputable def point (normalize : Bool) (x : Fin 3 → ℝ) : Fin 3 → ℝ := if normalize then (Real.sqrt (x 0 ^ 2 + x 1 ^ 2 + x 2 ^ 2))⁻¹ • x else x

theorem point_eq (b : Bool) (x : Fin 3 → ℝ) : (if b then normalizeVec x else x) = point b x := by
  cases b
  · rfl
  · simp only [if_true, point, normalizeVec]
    funext i
    split
    · rename_i h
      have := r2_eq_zero h
      rw [this]; simp
    · simp [div_eq_inv_mul]

/-- The blocks of the result: one copy of `Y^l` for every irrep. -/
def shBlocks {ι : Type} (f : (l : ℕ) → (Fin 3 → ℝ) → Fin (2 * l + 1) → ℝ) (ms : Irreps) (pts : ι → Fin 3 → ℝ) : List (Irrep × List (ι → ℝ)) :=
  (expand ms).map fun ir => (ir, List.ofFn fun k => fun i => f ir.l (pts i) k)

theorem sh_chunks {ι : Type} (f : (l : ℕ) → (Fin 3 → ℝ) → Fin (2 * l + 1) → ℝ) (ms : Irreps) (pts : ι → Fin 3 → ℝ) (vals : ι → List Vals)
    (hv : ∀ i, vals i = ms.map fun m => ⟨m.ir.l, f m.ir.l (pts i)⟩) :
    ∃ y, fromChunks ms (ms.zipIdx.map fun q => shChunk vals q.1 q.2) = .ok y ∧ y.Coherent ∧ y.irreps = ms ∧ y.zeroFlags = ms.map (fun _ => false) ∧
      y.blocks = shBlocks f ms pts := by
  have hc : (ms.zipIdx.map fun q => shChunk vals q.1 q.2) = ms.map fun m => some (List.replicate m.mul (List.ofFn fun k => fun i => f m.ir.l (pts i) k)) := by
    apply List.ext_getElem
    · simp
    · intro n h1 h2
      simp only [List.getElem_map, List.getElem_zipIdx, Nat.zero_add]
      have hn : n < ms.length := by simpa using h2
      unfold shChunk
      congr 2
      apply List.ext_getElem
      · simp
      · intro k hk1 hk2
        simp only [List.getElem_map, List.getElem_range, List.getElem_ofFn]
        funext i
        have : (vals i)[n]? = some ⟨ms[n].ir.l, f ms[n].ir.l (pts i)⟩ := by
          rw [hv, List.getElem?_map, List.getElem?_eq_getElem hn]; rfl
        rw [this]
        simp only
        rw [dif_pos (by simpa using hk1)]
  obtain ⟨y, e1, e2, e3, e4, e5, e6⟩ := fromChunks_of_pairs (ms.map fun m => (m, some (List.replicate m.mul (List.ofFn fun k => fun i => f m.ir.l (pts i) k))))
    (by intro q hq
        obtain ⟨m, -, rfl⟩ := List.mem_map.mp hq
        simp [shapeOk, Irrep.dim])
    (ms := ms) (cs := (ms.zipIdx.map fun q => shChunk vals q.1 q.2)) (by rw [List.map_map]; simp [Function.comp_def]) (by rw [hc, List.map_map]; rfl)
  refine ⟨y, e1, e2.coherent, e3, ?_, ?_⟩
  · rw [e5, List.map_map]; rfl
  · rw [e6, List.flatMap_map]
    unfold shBlocks expand
    rw [List.map_flatMap]
    apply List.flatMap_congr
    intro m _
    rw [blk_some (by simp [shapeOk, Irrep.dim])]
    simp

variable {ι : Type}

theorem pow_even (p : Parity) {l : ℕ} (h : l % 2 ≠ 1) : p.pow l = .e := by
  cases p
  · rfl
  · have : l % 2 = 0 := by omega
    simp [Parity.pow, Parity.ofPow, this]

theorem pow_odd (p : Parity) {l : ℕ} (h : l % 2 = 1) : p.pow l = p := by
  cases p
  · rfl
  · simp [Parity.pow, Parity.ofPow, h]

/-- The checks on the parities, __init__.py:130-137. -/
theorem check_ok {ms : Irreps} {p : Parity} (hp : ∀ m ∈ ms, m.ir.p = p.pow m.ir.l) :
    (ms.all fun m => m.ir.l % 2 == 1 || m.ir.p == .e) = true ∧ ¬ (oddParities ms).dedup.length > 1 ∧ ((oddParities ms).all fun q => p == q) = true := by
  have hq : ∀ q ∈ oddParities ms, q = p := by
    intro q hq
    obtain ⟨m, hm, rfl⟩ := List.mem_map.mp hq
    obtain ⟨h1, h2⟩ := List.mem_filter.mp hm
    rw [hp m h1, pow_odd p (by simpa using h2)]
  refine ⟨?_, ?_, ?_⟩
  · rw [List.all_eq_true]
    intro m hm
    by_cases h : m.ir.l % 2 = 1
    · simp [h]
    · rw [hp m hm, pow_even p h]; simp
  · have h1 : (oddParities ms).dedup ⊆ [p] := by
      intro q hq'
      rw [List.mem_dedup] at hq'
      rw [hq q hq']; simp
    have := ((List.nodup_dedup (oddParities ms)).subperm h1).length_le
    simpa using this
  · rw [List.all_eq_true]
    intro q hq'
    rw [hq q hq']; simp

theorem check_conv {ms : Irreps} {p : Parity} (h1 : (ms.all fun m => m.ir.l % 2 == 1 || m.ir.p == .e) = true)
    (h2 : ∀ q ∈ oddParities ms, q = p) : ∀ m ∈ ms, m.ir.p = p.pow m.ir.l := by
  intro m hm
  rw [List.all_eq_true] at h1
  by_cases h : m.ir.l % 2 = 1
  · rw [pow_odd p h]
    exact h2 _ (List.mem_map.mpr ⟨m, List.mem_filter.mpr ⟨hm, by simpa using h⟩, rfl⟩)
  · rw [pow_even p h]
    have := h1 m hm
    simpa [h] using this

/-- The input is three columns; an `IrrepsArray` is one vector of parity `p`. -/
def InputOk (p : Parity) (input : Input ι) : Prop :=
  input.cols.length = 3 ∧ ∀ x, input = .arr x → x.irreps = [⟨1, ⟨1, p⟩⟩]

theorem sh_run {cfg algorithm : Option (List String)} (halg : ∀ a, (algorithm <|> cfg) = some a → AlgOk a) {nrm : Normalization}
    {f : (l : ℕ) → (Fin 3 → ℝ) → Fin (2 * l + 1) → ℝ} (hf : ∀ l, IsSphericalHarmonics (sphLength nrm l) l (f l)) {out : IrrepsOut} {input : Input ι}
    {ms : Irreps} (ho : outIrreps out input = .ok ms) {p : Parity} (hp : ∀ m ∈ ms, m.ir.p = p.pow m.ir.l) (hin : InputOk p input) (normalize : Bool) :
    ∃ y, sphericalHarmonics cfg out input normalize nrm algorithm = .ok y ∧ y.Coherent ∧ y.irreps = ms ∧
      (ms.numIrreps ≠ 0 → y.zeroFlags = ms.map (fun _ => false)) ∧
      y.blocks = shBlocks f ms fun i => point normalize (vecOf input.cols i) := by
  obtain ⟨c1, c2, c3⟩ := check_ok hp
  have hfY : f = Y nrm := by funext l; exact C48_unique (hf l) (Y_spec nrm l)
  unfold sphericalHarmonics
  simp only [ho]
  rw [if_neg (by simp [c1]), if_neg c2]
  have hchk : checkInput ms input = .ok () := by
    cases input with
    | raw c => rfl
    | arr x =>
      have hx := hin.2 x rfl
      have : checkIsVector [⟨1, ⟨1, p⟩⟩] = .ok p := by cases p <;> decide
      simp only [checkInput, hx, this]
      rw [if_pos c3]
  rw [hchk]
  simp only
  by_cases h0 : ms.numIrreps = 0
  · rw [if_pos h0]
    have hd : expand ms = [] := by
      rw [Irreps.numIrreps_eq_length_expand] at h0
      exact List.eq_nil_of_length_eq_zero h0
    obtain ⟨y, h1, h2, h3⟩ := (C12_from_array ms ([] : List (ι → ℝ))).1 (by rw [hd]; rfl)
    refine ⟨y, h1, h2, h3.1, fun h => absurd h0 h, ?_⟩
    unfold IArr.blocks shBlocks
    rw [h3.1, hd]; rfl
  · rw [if_neg h0]
    obtain ⟨alg, ha, hok⟩ := chooseAlgorithm_ok halg h0
    rw [ha]
    simp only
    unfold evaluate
    rw [if_neg (by
      have h := hok.1
      simp only [Bool.not_eq_true', Bool.not_eq_false, List.all_eq_true, decide_eq_true_eq]
      intro k hk
      have := h k hk
      simpa using this), if_neg (by simpa using hin.1)]
    have hne : (ms.map fun m => m.ir.l) ≠ [] := by
      intro h; rw [List.map_eq_nil_iff] at h; rw [h] at h0; exact h0 rfl
    have hcore := hok.core nrm _ hne
    simp only [hcore]
    simp only [point_eq]
    obtain ⟨y, y1, y2, y3, y4, y5⟩ := sh_chunks f ms (fun i => point normalize (vecOf input.cols i))
      (fun i => (ms.map fun m => m.ir.l).map fun l => ⟨l, Y nrm l (point normalize (vecOf input.cols i))⟩)
      (by intro i; rw [List.map_map, hfY]; rfl)
    exact ⟨y, y1, y2, y3, fun _ => y4, y5⟩

theorem vec_length {x : IArr (ι → ℝ)} (hx : x.Coherent) {p : Parity} (hxi : x.irreps = [⟨1, ⟨1, p⟩⟩]) : x.array.length = 3 := by
  rw [hx.inv.flags.lengths.1, hxi]; rfl

theorem inputOk_arr {x : IArr (ι → ℝ)} (hx : x.Coherent) {p : Parity} (hxi : x.irreps = [⟨1, ⟨1, p⟩⟩]) : InputOk p (.arr x) :=
  ⟨vec_length hx hxi, fun _ h => by injection h with h; rw [← h]; exact hxi⟩

theorem parity_rule {m : MulIrrep} {p : Parity} (h : m.ir.p = if m.ir.l % 2 = 1 then p else .e) : m.ir.p = p.pow m.ir.l := by
  rw [h]
  split
  · rename_i h; rw [pow_odd p h]
  · rename_i h; rw [pow_even p h]

/-- **C48 (value).** `spherical_harmonics(irreps_out, x, normalize, normalization, algorithm)` of a vector of parity `p`, for every algorithm: when every
term of `irreps_out` has the parity `p^l` (`p` for odd degrees, even for even degrees), the result has these irreps, and each of its
irreps holds `Y^l` of the vector (of its direction with `normalize`), at every leading index. -/
theorem C48_value {cfg algorithm : Option (List String)} (halg : ∀ a, (algorithm <|> cfg) = some a → AlgOk a) {nrm : Normalization}
    {f : (l : ℕ) → (Fin 3 → ℝ) → Fin (2 * l + 1) → ℝ} (hf : ∀ l, IsSphericalHarmonics (sphLength nrm l) l (f l)) (ms : Irreps) (p : Parity)
    (x : IArr (ι → ℝ)) (hx : x.Coherent) (hxi : x.irreps = [⟨1, ⟨1, p⟩⟩]) (hp : ∀ m ∈ ms, m.ir.p = if m.ir.l % 2 = 1 then p else .e) (normalize : Bool) :
    ∃ y, sphericalHarmonics cfg (.irreps ms) (.arr x) normalize nrm algorithm = .ok y ∧ y.Coherent ∧ y.irreps = ms ∧
      y.blocks = (expand ms).map fun ir => (ir, List.ofFn fun k => fun i => f ir.l (point normalize fun j => x.array.getD j 0 i) k) := by
  obtain ⟨y, h1, h2, h3, -, h5⟩ := sh_run halg hf (out := .irreps ms) (input := .arr x) (ms := ms) rfl (fun m hm => parity_rule (hp m hm)) (inputOk_arr hx hxi) normalize
  exact ⟨y, h1, h2, h3, h5⟩

theorem checkIsVector_ok (p : Parity) : checkIsVector [⟨1, ⟨1, p⟩⟩] = .ok p := by cases p <;> decide

/-- **C48 (degrees).** Called with a list of degrees, it returns `Y^l` for each of them, with the parity `p^l`; called with one degree, the list of
that degree. -/
theorem C48_degrees {cfg algorithm : Option (List String)} (halg : ∀ a, (algorithm <|> cfg) = some a → AlgOk a) {nrm : Normalization}
    {f : (l : ℕ) → (Fin 3 → ℝ) → Fin (2 * l + 1) → ℝ} (hf : ∀ l, IsSphericalHarmonics (sphLength nrm l) l (f l)) (ls : List ℕ) (p : Parity)
    (x : IArr (ι → ℝ)) (hx : x.Coherent) (hxi : x.irreps = [⟨1, ⟨1, p⟩⟩]) (normalize : Bool) :
    (∃ y, sphericalHarmonics cfg (.ints ls) (.arr x) normalize nrm algorithm = .ok y ∧ y.Coherent ∧
      y.irreps = ls.map (fun l => ⟨1, ⟨l, if l % 2 = 1 then p else .e⟩⟩) ∧
      y.array = ls.flatMap fun l => List.ofFn fun k => fun i => f l (point normalize fun j => x.array.getD j 0 i) k) ∧
    ∀ l, sphericalHarmonics cfg (.int l) (.arr x) normalize nrm algorithm = sphericalHarmonics cfg (.ints [l]) (.arr x) normalize nrm algorithm := by
  have hpow : ∀ l, p.pow l = if l % 2 = 1 then p else .e := by
    intro l
    split
    · rename_i h; exact pow_odd p h
    · rename_i h; exact pow_even p h
  refine ⟨?_, fun l => ?_⟩
  · have ho : outIrreps (.ints ls) (.arr x) = .ok (ls.map fun l => ⟨1, ⟨l, p.pow l⟩⟩) := by
      simp only [outIrreps, hxi, checkIsVector_ok]; rfl
    obtain ⟨y, h1, h2, h3, -, h5⟩ := sh_run halg hf ho (p := p) (by intro m hm; obtain ⟨l, -, rfl⟩ := List.mem_map.mp hm; rfl) (inputOk_arr hx hxi) normalize
    refine ⟨y, h1, h2, ?_, ?_⟩
    · rw [h3]; simp only [hpow]
    · rw [← h2.inv.array_eq_blocks, h5]
      unfold shBlocks
      have he : expand (ls.map fun l => (⟨1, ⟨l, p.pow l⟩⟩ : MulIrrep)) = ls.map fun l => ⟨l, p.pow l⟩ := by
        unfold expand
        rw [List.flatMap_map, List.map_eq_flatMap]; rfl
      rw [he, List.map_map, List.map_map, List.flatMap_def]
      rfl
  · unfold sphericalHarmonics outIrreps
    rfl

/-- **C48 (arrays).** On an array of shape `(..., 3)`, the irreps must be compatible with some parity of the vector. -/
theorem C48_raw {cfg algorithm : Option (List String)} (halg : ∀ a, (algorithm <|> cfg) = some a → AlgOk a) {nrm : Normalization}
    {f : (l : ℕ) → (Fin 3 → ℝ) → Fin (2 * l + 1) → ℝ} (hf : ∀ l, IsSphericalHarmonics (sphLength nrm l) l (f l)) (ms : Irreps)
    (a b c : ι → ℝ) (normalize : Bool) :
    (∀ p : Parity, (∀ m ∈ ms, m.ir.p = if m.ir.l % 2 = 1 then p else .e) →
      ∃ y, sphericalHarmonics cfg (.irreps ms) (.raw [a, b, c]) normalize nrm algorithm = .ok y ∧ y.Coherent ∧ y.irreps = ms ∧
      y.blocks = (expand ms).map fun ir => (ir, List.ofFn fun k => fun i => f ir.l (point normalize ![a i, b i, c i]) k)) ∧
    ((¬ ∃ p : Parity, ∀ m ∈ ms, m.ir.p = if m.ir.l % 2 = 1 then p else .e) →
      sphericalHarmonics cfg (.irreps ms) (.raw [a, b, c]) normalize nrm algorithm = .error .assertion) ∧
    (∀ l, sphericalHarmonics cfg (.int l) (.raw [a, b, c]) normalize nrm algorithm = .error .valueError) ∧
    ∀ ls, sphericalHarmonics cfg (.ints ls) (.raw [a, b, c]) normalize nrm algorithm = .error .valueError := by
  refine ⟨fun p hp => ?_, fun h => ?_, fun l => rfl, fun ls => rfl⟩
  · obtain ⟨y, h1, h2, h3, -, h5⟩ := sh_run halg hf (out := .irreps ms) (input := .raw [a, b, c]) (ms := ms) rfl (fun m hm => parity_rule (hp m hm))
      ⟨rfl, fun _ h => by cases h⟩ normalize
    refine ⟨y, h1, h2, h3, ?_⟩
    rw [h5]
    have : ∀ i, vecOf (Input.raw [a, b, c]).cols i = ![a i, b i, c i] := by
      intro i; funext j; fin_cases j <;> rfl
    simp only [this]
    rfl
  · unfold sphericalHarmonics
    simp only [outIrreps]
    by_cases c1 : (ms.all fun m => m.ir.l % 2 == 1 || m.ir.p == .e) = true
    · rw [if_neg (by simp [c1])]
      by_cases c2 : (oddParities ms).dedup.length > 1
      · rw [if_pos c2]
      · exfalso
        apply h
        have hq : ∃ p, ∀ q ∈ oddParities ms, q = p := by
          match hd : (oddParities ms).dedup with
          | [] => exact ⟨.e, fun q hq => by rw [← List.mem_dedup, hd] at hq; cases hq⟩
          | [p] => exact ⟨p, fun q hq => by rw [← List.mem_dedup, hd] at hq; simpa using hq⟩
          | a :: b :: t => rw [hd] at c2; simp at c2
        obtain ⟨p, hq⟩ := hq
        refine ⟨p, fun m hm => ?_⟩
        rw [check_conv c1 hq m hm]
        split
        · rename_i h; exact pow_odd p h
        · rename_i h; exact pow_even p h
    · rw [if_pos (by simpa using c1)]

/-- **C48 (refusal).** An `IrrepsArray` that is not one vector is refused, and so are output irreps of another parity than `p^l`. -/
theorem C48_refuse (cfg algorithm : Option (List String)) (nrm : Normalization) (normalize : Bool) (x : IArr (ι → ℝ)) (ms : Irreps) :
    ((¬ ∃ p, x.irreps.filter (fun m => 0 < m.mul) = [⟨1, ⟨1, p⟩⟩]) →
      (∃ e, sphericalHarmonics cfg (.irreps ms) (.arr x) normalize nrm algorithm = .error e) ∧
      ∀ ls, sphericalHarmonics cfg (.ints ls) (.arr x) normalize nrm algorithm = .error .valueError) ∧
    ∀ p, x.irreps = [⟨1, ⟨1, p⟩⟩] → (¬ ∀ m ∈ ms, m.ir.p = if m.ir.l % 2 = 1 then p else .e) →
      ∃ e, sphericalHarmonics cfg (.irreps ms) (.arr x) normalize nrm algorithm = .error e := by
  have key : (¬ ∃ p, checkIsVector x.irreps = .ok p) → checkIsVector x.irreps = .error .valueError := by
    intro h
    unfold checkIsVector at h ⊢
    split
    · rfl
    · rename_i hn
      rw [if_neg hn] at h
      split
      · rename_i m hm
        rw [hm] at h
        simp only at h
        split
        · rename_i hc; rw [if_pos hc] at h; exact absurd ⟨_, rfl⟩ h
        · rfl
      · rfl
  refine ⟨fun h => ?_, fun p hxi h => ?_⟩
  · have hv : checkIsVector x.irreps = .error .valueError := by
      apply key
      rintro ⟨p, hp⟩
      apply h
      unfold checkIsVector at hp
      split at hp
      · cases hp
      · split at hp
        · rename_i m hm
          split at hp
          · rename_i hc
            rw [hm]
            obtain ⟨mul, ⟨l, q⟩⟩ := m
            simp only at hc
            obtain ⟨rfl, rfl⟩ := hc
            exact ⟨q, rfl⟩
          · cases hp
        · cases hp
    refine ⟨?_, fun ls => ?_⟩
    · unfold sphericalHarmonics
      simp only [outIrreps, checkInput, hv]
      split
      · exact ⟨_, rfl⟩
      · split
        · exact ⟨_, rfl⟩
        · exact ⟨_, rfl⟩
    · unfold sphericalHarmonics
      simp only [outIrreps, hv]
      rfl
  · unfold sphericalHarmonics
    simp only [outIrreps, checkInput, hxi, checkIsVector_ok]
    by_cases c1 : (ms.all fun m => m.ir.l % 2 == 1 || m.ir.p == .e) = true
    · rw [if_neg (by simp [c1])]
      by_cases c2 : (oddParities ms).dedup.length > 1
      · rw [if_pos c2]; exact ⟨_, rfl⟩
      · rw [if_neg c2]
        by_cases c3 : ((oddParities ms).all fun q => p == q) = true
        · exfalso
          apply h
          intro m hm
          rw [check_conv (p := p) c1 (fun q hq => by rw [List.all_eq_true] at c3; have := c3 q hq; exact (beq_iff_eq.mp this).symm) m hm]
          split
          · rename_i h; exact pow_odd p h
          · rename_i h; exact pow_even p h
        · rw [if_neg c3]; exact ⟨_, rfl⟩
    · rw [if_pos (by simpa using c1)]; exact ⟨_, rfl⟩

/-- **C48 (sh).** `sh` is the same function on arrays, for vectors of even parity; it returns the array. -/
theorem C48_sh {cfg algorithm : Option (List String)} (halg : ∀ a, (algorithm <|> cfg) = some a → AlgOk a) {nrm : Normalization}
    {f : (l : ℕ) → (Fin 3 → ℝ) → Fin (2 * l + 1) → ℝ} (hf : ∀ l, IsSphericalHarmonics (sphLength nrm l) l (f l)) (ls : List ℕ)
    (a b c : ι → ℝ) (normalize : Bool) :
    sh cfg (.ints ls) [a, b, c] normalize nrm algorithm = .ok (ls.flatMap fun l => List.ofFn fun k => fun i => f l (point normalize ![a i, b i, c i]) k) := by
  obtain ⟨x, h1, h2, h3, h4, -⟩ := (C12_from_array [⟨1, ⟨1, .e⟩⟩] [a, b, c]).1 rfl
  obtain ⟨⟨y, y1, -, -, y4⟩, -⟩ := C48_degrees halg hf ls .e x h2 h3 normalize
  unfold sh
  simp only [h1, bind, Except.bind, y1]
  rw [y4]
  have : ∀ i, (fun j : Fin 3 => x.array.getD j 0 i) = ![a i, b i, c i] := by
    intro i; rw [h4]; funext j; fin_cases j <;> rfl
  simp only [this]

theorem point_rot (b : Bool) {D : Matrix (Fin 3) (Fin 3) ℝ} (hD : IsOrth D) (v : Fin 3 → ℝ) : point b (D *ᵥ v) = D *ᵥ point b v := by
  unfold point
  cases b
  · rfl
  · simp only [if_true]
    have h : r2 (D *ᵥ v) = r2 v := by
      have e : ∀ w : Fin 3 → ℝ, r2 w = w ⬝ᵥ w := fun w => by simp [r2, dotProduct, Fin.sum_univ_three, sq]
      have hD' : Dᵀ * D = 1 := mul_eq_one_comm.mp hD
      rw [e, e, Matrix.dotProduct_mulVec, Matrix.vecMul_mulVec, hD', Matrix.vecMul_one]
    unfold r2 at h
    rw [h, Matrix.mulVec_smul]

/-- **C48 (equivariance).** For every orthogonal matrix `R` (rotations, reflections, inversion), the spherical harmonics of the transformed vector are the transformed
spherical harmonics. -/
theorem C48_equivariant {cfg algorithm : Option (List String)} (halg : ∀ a, (algorithm <|> cfg) = some a → AlgOk a) (nrm : Normalization)
    (ms : Irreps) (p : Parity) (x : IArr (ι → ℝ)) (hx : x.Coherent) (hxi : x.irreps = [⟨1, ⟨1, p⟩⟩])
    (hp : ∀ m ∈ ms, m.ir.p = if m.ir.l % 2 = 1 then p else .e) (normalize : Bool) {R : Matrix (Fin 3) (Fin 3) ℝ} (hR : R * Rᵀ = 1) :
    ∃ x' y y' z, x.transformByMatrix R = .ok x' ∧ sphericalHarmonics cfg (.irreps ms) (.arr x) normalize nrm algorithm = .ok y ∧
      sphericalHarmonics cfg (.irreps ms) (.arr x') normalize nrm algorithm = .ok y' ∧ y.transformByMatrix R = .ok z ∧
      y'.irreps = z.irreps ∧ y'.array = z.array := by
  obtain ⟨x', a1, a2, a3, -, a5⟩ := C59_transform R x hx
  obtain ⟨y, b1, b2, b3, b4⟩ := C48_value halg (fun l => Y_spec nrm l) ms p x hx hxi hp normalize
  obtain ⟨y', c1, c2, c3, c4⟩ := C48_value halg (fun l => Y_spec nrm l) ms p x' a2 (by rw [a3, hxi]) hp normalize
  obtain ⟨z, d1, d2, d3, -, d5⟩ := C59_transform R y b2
  refine ⟨x', y, y', z, a1, b1, c1, d1, by rw [c3, d3, b3], ?_⟩
  rw [← c2.inv.array_eq_blocks, ← d2.inv.array_eq_blocks]
  congr 1
  rw [c4, d5, b4]
  apply congrArg (List.map Prod.snd)
  rw [List.map_map]
  apply List.map_congr_left
  intro ir hir
  have hirp : ir.p = p.pow ir.l := by
    unfold expand at hir
    obtain ⟨m, hm, h⟩ := List.mem_flatMap.mp hir
    obtain ⟨-, rfl⟩ := List.mem_replicate.mp h
    exact parity_rule (hp m hm)
  -- the transformed vector
  obtain ⟨v, hv⟩ : ∃ v : Fin 3 → ι → ℝ, x.array = List.ofFn v := by
    obtain ⟨v, hv⟩ := exists_ofFn (vec_length hx hxi)
    exact ⟨v, hv⟩
  have hb : x.blocks = [(⟨1, p⟩, List.ofFn v)] := by
    unfold IArr.blocks; rw [hxi, hv]; simp [expand, blocksOf]
  have hx' : x'.array = List.ofFn fun i => ∑ j, dMatrix ⟨1, p⟩ R i j • v j := by
    rw [← a2.inv.array_eq_blocks, a5, hb]
    simp only [List.map_cons, List.map_nil, List.flatMap_cons, List.flatMap_nil, List.append_nil]
    exact matVec_ofFn (dMatrix ⟨1, p⟩ R) v
  simp only [Function.comp]
  rw [matVec_ofFn]
  congr 1
  congr 1
  funext k
  funext i
  have e1 : (fun j : Fin 3 => x.array.getD j 0 i) = fun j => v j i := by
    funext j; rw [hv, List.getD_eq_getElem?_getD, List.getElem?_ofFn]; simp
  have e2 : (fun j : Fin 3 => x'.array.getD j 0 i) = dMatrix ⟨1, p⟩ R *ᵥ fun j => v j i := by
    funext j; rw [hx', List.getD_eq_getElem?_getD, List.getElem?_ofFn]; simp [Matrix.mulVec, dotProduct]
  have e3 : (∑ j, dMatrix ir R k j • fun i => Y nrm ir.l (point normalize fun j => x.array.getD (↑j) 0 i) j) i =
      (dMatrix ir R *ᵥ Y nrm ir.l (point normalize fun j => x.array.getD (↑j) 0 i)) k := by
    simp [Matrix.mulVec, dotProduct]
  rw [e3, e1, e2, point_rot normalize (C39_orthogonal ⟨1, p⟩ hR).1, Y_equivariant nrm p hR]
  rw [← hirp]
  rfl

/-- A concrete case: degrees 0, 1 and 2 of an odd vector, with the default algorithm. -/
example : ∃ y, sphericalHarmonics (ι := Unit) none (.ints [0, 1, 2]) (.arr ⟨[⟨1, ⟨1, .o⟩⟩], [1, 2, 3], none, none⟩) true .component none = .ok y ∧
    y.irreps = [⟨1, ⟨0, .e⟩⟩, ⟨1, ⟨1, .o⟩⟩, ⟨1, ⟨2, .e⟩⟩] := by
  obtain ⟨⟨y, h1, -, h3, -⟩, -⟩ := C48_degrees (ι := Unit) (cfg := none) (algorithm := none) (by intro a h; cases h) (fun l => Y_spec .component l) [0, 1, 2] .o
    ⟨[⟨1, ⟨1, .o⟩⟩], [1, 2, 3], none, none⟩ (Basic.coherent_plain _ _ rfl) rfl true
  exact ⟨y, h1, by rw [h3]; rfl⟩

/-- A concrete case: the algorithms. -/
example : AlgOk ["recursive", "sparse"] ∧ AlgOk ["legendre", "dense", "custom_jvp"] := by unfold AlgOk; simp

end E3nn.SH
