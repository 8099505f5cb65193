import Verif.Lemmas.S2fft
import Verif.Props.C77

/-! # C119: `to_s2grid` and `from_s2grid` with `use_s2fft=True` -/

namespace E3nn.S2

open E3nn.IArr E3nn.SH E3nn.SU2 E3nn.S2fft

variable {ι : Type}

theorem theta_grid (L : ℕ) {lg : LegGauss} {y w : Fin (2 * L + 2) → ℝ} (hq : quadratureWeights lg .soft (2 * L + 2) = .ok (y, w)) (b : Fin (2 * L + 2)) :
    y b = -Real.cos (theta L b) ∧ 0 ≤ Real.sin (theta L b) := by
  have h : quadratureWeights lg .soft (2 * L + 2) = .ok (fun i : Fin (2 * L + 2) => -Real.cos ((i + 0.5) / (2 * L + 2 : ℕ) * Real.pi), fun i => softWeight (2 * L + 2) i / 2) := by
    unfold quadratureWeights
    simp only
    rw [if_pos (by omega)]
  rw [h] at hq
  have hy := (Prod.mk.inj (Except.ok.inj hq)).1
  have hb : ((b : ℕ) : ℝ) + 1 ≤ 2 * L + 2 := by have := b.isLt; exact_mod_cast this
  constructor
  · rw [← hy]
    simp only
    congr 2
    unfold theta
    push_cast
    field_simp
    ring
  · refine Real.sin_nonneg_of_nonneg_of_le_pi (by unfold theta; positivity) ?_
    unfold theta
    rw [div_le_iff₀ (by positivity)]
    nlinarith [Real.pi_pos]

/-- The inverse transform of the package gives the values on the grid. -/
theorem inverse_series {s : Package} (hs : s.Correct) {lg : LegGauss} (nrm : Normalization) (L : ℕ) (r : (l : ℕ) → Fin (2 * l + 1) → ℝ)
    {B : (l : ℕ) → (Fin 3 → ℝ) → Fin (2 * l + 1) → ℝ} (hB : IsBasis (basisLength nrm L) B) {y w : Fin (2 * L + 2) → ℝ}
    (hq : quadratureWeights lg .soft (2 * L + 2) = .ok (y, w)) (b : Fin (2 * L + 2)) (a : Fin (2 * L + 1)) :
    s.inverse L (s2fftArray nrm L r) b a = ∑ l : Fin (L + 1), ∑ k : Fin (2 * (l : ℕ) + 1), B l (gridVector (y b) (gridAlpha (2 * L + 1) a)) k * r l k := by
  obtain ⟨h1, h2⟩ := theta_grid L hq b
  have h := ((hs L _ (realCoefficients_array nrm L r)).1 b a).trans (value_array nrm L r h2 (phi L a))
  rw [Complex.ofReal_inj] at h
  rw [h]
  refine Finset.sum_congr rfl fun l _ => Finset.sum_congr rfl fun k _ => ?_
  have e : phi L a = gridAlpha (2 * L + 1) a := by unfold phi gridAlpha; push_cast; ring
  rw [basis_eq hB, ← sh_grid k (by rw [h1]; nlinarith [Real.sin_sq_add_cos_sq (theta L b), sq_nonneg (Real.sin (theta L b))]), ← h1, e]

theorem slice_length (l : ℕ) : (l + 1) ^ 2 - l ^ 2 = 2 * l + 1 := by
  rw [show (l + 1) ^ 2 = l ^ 2 + (2 * l + 1) by ring]; omega

theorem blocksOf_range {α : Type} (f : ℕ → Irrep) (hf : ∀ l, (f l).l = l) (arr : List α) (n s : ℕ) :
    blocksOf ((List.range' s n).map f) (arr.drop (s ^ 2)) = (List.range' s n).map fun l => (f l, (arr.drop (l ^ 2)).take ((l + 1) ^ 2 - l ^ 2)) := by
  induction n generalizing s with
  | zero => rfl
  | succ n ih =>
    rw [List.range'_succ, List.map_cons, List.map_cons, blocksOf, List.drop_drop, hf, slice_length, ← ih (s + 1), show s ^ 2 + (2 * s + 1) = (s + 1) ^ 2 by ring]

/-- The series of the blocks of all degrees. -/
theorem series_range (B : (l : ℕ) → (Fin 3 → ℝ) → Fin (2 * l + 1) → ℝ) (p : ℕ → Parity) (sl : ℕ → List (ι → ℝ)) (L : ℕ) (x : Fin 3 → ℝ) (i : ι) :
    series B ((List.range (L + 1)).map fun l => ((⟨l, p l⟩ : Irrep), sl l)) x i = ∑ l : Fin (L + 1), ∑ k : Fin (2 * (l : ℕ) + 1), B l x k * (sl l).getD k 0 i := by
  unfold series
  rw [List.map_map, Fin.sum_univ_eq_sum_range (fun l => ∑ k : Fin (2 * l + 1), B l x k * (sl l).getD k 0 i) (L + 1)]
  rfl

/-- Sorted irreps of all degrees. -/
theorem full_irreps {s : List Irrep} {v a : Parity} {L : ℕ} (hs : s.Pairwise (fun a b => b.lt a = false)) (hnd : s.Nodup) (hp : SphereParity s v a) (hL : IsLmax s L)
    (hfull : ∀ l ≤ L, ∃ ir ∈ s, ir.l = l) : s = (List.range (L + 1)).map fun l => ⟨l, v.mul (a.pow l)⟩ := by
  have hperm : s.Perm ((List.range (L + 1)).map fun l => (⟨l, v.mul (a.pow l)⟩ : Irrep)) := by
    rw [List.perm_ext_iff_of_nodup hnd (List.nodup_range.map fun a b h => congrArg Irrep.l h)]
    intro ir
    rw [List.mem_map]
    constructor
    · intro h
      refine ⟨ir.l, List.mem_range.mpr (by have := hL.2 ir h; omega), ?_⟩
      have := hp ir h
      cases ir
      simp_all
    · rintro ⟨l, hl, rfl⟩
      obtain ⟨ir, h1, h2⟩ := hfull l (by have := List.mem_range.mp hl; omega)
      have := hp ir h1
      cases ir
      simp only at h2 this
      subst h2
      rw [← this]
      exact h1
  refine hperm.eq_of_pairwise ?_ hs ?_
  · intro x y _ _ h1 h2
    have h1' : ¬ (y.enc < x.enc) := by rw [← Irrep.lt_iff_enc, h1]; simp
    have h2' : ¬ (x.enc < y.enc) := by rw [← Irrep.lt_iff_enc, h2]; simp
    exact Irrep.enc_inj (by omega)
  · rw [List.pairwise_map]
    refine List.pairwise_lt_range.imp ?_
    intro x y hxy
    rw [Bool.eq_false_iff, Ne, Irrep.lt_iff_enc]
    unfold Irrep.enc
    simp only
    split <;> split <;> omega

/-- **C119 (`to_s2grid`).** With `use_s2fft=True` the signal is the same as without, for coefficients that have every degree up to the greatest one once. -/
theorem C119_to_s2grid {s : Package} (hs : s.Correct) {lg : LegGauss} (hlg : GaussLegendre lg) (nrm : Normalization) (fft : Bool) {c : IArr (ι → ℝ)} (hc : c.Coherent) (hnd : (expand c.irreps).Nodup) {L : ℕ}
    (hL : IsLmax (expand c.irreps) L) (hfull : ∀ l ≤ L, ∃ ir ∈ expand c.irreps, ir.l = l)
    {pVal pArg : Option Parity} {v a : Parity} (hp : SphereParity (expand c.irreps) v a) (hg : ParityGiven (expand c.irreps) pVal pArg v a) :
    toS2GridS2fft s nrm true c (2 * L + 2) (2 * L + 1) .soft pVal pArg = toS2Grid lg nrm fft c (2 * L + 2) (2 * L + 1) .soft pVal pArg ∧
      ∃ x, toS2Grid lg nrm fft c (2 * L + 2) (2 * L + 1) .soft pVal pArg = .ok x := by
  obtain ⟨y, w, hq⟩ : ∃ y w, quadratureWeights lg .soft (2 * L + 2) = .ok (y, w) := ⟨_, _, by unfold quadratureWeights; simp only; rw [if_pos (by omega)]⟩
  obtain ⟨B, hB⟩ := basis_exists (basisLength nrm L)
  have ht := C76_to_s2grid hlg nrm fft hc hnd hL hp hg (2 * L + 1) hq (fun _ => by omega) hB
  refine ⟨?_, _, ht⟩
  rw [ht]
  obtain ⟨z, z1, z2, z3, z4, z5, z6, z7⟩ := regroup_unit hc
  have hk := checks_ok z4 z5 z6 (z7.mpr hnd) hL hp hg
  have hexp := full_irreps z6 (z4.nodup_iff.mpr hnd) (fun ir hir => hp ir (z4.mem_iff.mp hir))
    ⟨by obtain ⟨ir, h1, h2⟩ := hL.1; exact ⟨ir, z4.mem_iff.mpr h1, h2⟩, fun ir hir => hL.2 ir (z4.mem_iff.mp hir)⟩
    (fun l hl => by obtain ⟨ir, h1, h2⟩ := hfull l hl; exact ⟨ir, z4.mem_iff.mpr h1, h2⟩)
  have hbl : z.blocks = (List.range (L + 1)).map fun l => ((⟨l, v.mul (a.pow l)⟩ : Irrep), s2fftSlice z.array l) := by
    unfold IArr.blocks
    rw [hexp, List.range_eq_range']
    exact blocksOf_range _ (fun _ => rfl) z.array (L + 1) 0
  have hlen : ∀ l < L + 1, (s2fftSlice z.array l).length = 2 * l + 1 := by
    intro l hl
    have h1 : ((⟨l, v.mul (a.pow l)⟩ : Irrep), s2fftSlice z.array l) ∈ z.blocks := by
      rw [hbl]
      exact List.mem_map.mpr ⟨l, List.mem_range.mpr hl, rfl⟩
    exact blocksOf_row_length (expand z.irreps) z.array z2.array_length _ h1
  have hread : s2fftRead z.array L = .ok fun l k => (s2fftSlice z.array l).getD (if (s2fftSlice z.array l).length == 1 then 0 else k) 0 := by
    unfold s2fftRead
    rw [if_pos]
    rw [List.all_eq_true]
    intro l hl
    simp [hlen l (List.mem_range.mp hl)]
  have hck : checkS2fft L (2 * L + 2) (2 * L + 1) .soft true = .ok () := by
    unfold checkS2fft s2fftResolution
    simp
  unfold toS2GridS2fft
  rw [z1]
  change (Except.bind (toGridChecks z pVal pArg) _ : Except PyErr _) = _
  rw [hk]
  change (Except.bind (checkS2fft L (2 * L + 2) (2 * L + 1) .soft true) _ : Except PyErr _) = _
  rw [hck]
  change (Except.bind (s2fftRead z.array L) _ : Except PyErr _) = _
  rw [hread]
  change Except.ok _ = _
  congr 2
  funext b j i
  rw [← series_perm z3, hbl, series_range, inverse_series hs nrm L _ hB hq]
  refine Finset.sum_congr rfl fun l _ => Finset.sum_congr rfl fun k _ => ?_
  have hkl := k.isLt
  have e : (if ((s2fftSlice z.array l).length == 1) = true then 0 else (k : ℕ)) = k := by
    rw [hlen l l.isLt]
    split
    · rename_i h1
      rw [beq_iff_eq] at h1
      omega
    · rfl
  simp only [e]

/-- The checks of `from_s2grid`. -/
theorem from_reduce_s2fft (s : Package) (nrm : Normalization) (fft : Bool) (x : Signal ι) {irreps : Irreps} {L : ℕ} (hL : IsLmax (expand irreps) L) (hnd : (expand irreps).Nodup)
    (hp : SphereParity (irreps.map (·.ir)) x.pVal x.pArg) : fromS2GridS2fft s nrm fft x irreps = (do
      checkS2fft L x.resBeta x.resAlpha x.quad fft
      IArr.make (s2Irreps L .e .o) ((List.finRange (L + 1)).flatMap fun (l : Fin (L + 1)) => List.ofFn fun (k : Fin (2 * (l : ℕ) + 1)) (i : ι) =>
        complexToReal nrm L (s.forward L fun b a => if h : (b : ℕ) < x.resBeta ∧ (a : ℕ) < x.resAlpha then x.values ⟨b, h.1⟩ ⟨a, h.2⟩ i else 0) l k) none none) := by
  obtain ⟨g, g1, g2, g3, g4⟩ := C07_regroup_spec irreps
  have hone : (g.all fun m => m.mul == 1) = true := by
    rw [List.all_eq_true]
    intro m hm
    have h1 := List.nodup_iff_count_le_one.mp hnd m.ir
    rw [← Irreps.count_eq_count_expand, ← g4, Irreps.count_eq_count_expand] at h1
    have h2 := g3 m hm
    have : m.mul ≤ (expand g).count m.ir := by
      obtain ⟨s, t, hst⟩ := List.append_of_mem hm
      rw [hst]
      unfold expand
      rw [List.flatMap_append, List.flatMap_cons, List.count_append, List.count_append, List.count_replicate]
      simp
      omega
    simp
    omega
  have hmax : irreps.ls.foldl max 0 = L := by
    rw [ls_eq]
    refine foldl_max_eq ?_ ?_
    · intro l hl; obtain ⟨ir, hir, rfl⟩ := List.mem_map.mp hl; exact hL.2 _ hir
    · obtain ⟨ir, hir, he⟩ := hL.1; exact List.mem_map.mpr ⟨ir, hir, he⟩
  have hck := check_both irreps x.pVal x.pArg
  rw [if_pos hp] at hck
  have hne : irreps.ls ≠ [] := by
    rw [Ne, ls_nil]
    intro h
    obtain ⟨ir, hir, -⟩ := hL.1
    rw [h] at hir; cases hir
  subst hmax
  unfold fromS2GridS2fft
  rw [g1]
  simp only [bind, Except.bind, hone, Bool.not_true, Bool.false_eq_true, if_false, hck]

/-- **C119 (`from_s2grid`).** With `use_s2fft=True` the coefficients of a signal of degree at most the greatest degree of the irreps are the same as without;
but they are those of all degrees, in order, and carry the irreps `0e+1o+2e+…`, whatever irreps were asked for and whatever the parities of the signal are. -/
theorem C119_from_s2grid {s : Package} (hs : s.Correct) {lg : LegGauss} (hlg : GaussLegendre lg) (nrm : Normalization) (fft : Bool) {L : ℕ}
    (vals : Fin (2 * L + 2) → Fin (2 * L + 1) → ι → ℝ) (v a : Parity) {irreps : Irreps} (hL : IsLmax (expand irreps) L) (hnd : (expand irreps).Nodup) (hp : SphereParity (irreps.map (·.ir)) v a)
    {y w : Fin (2 * L + 2) → ℝ} (hq : quadratureWeights lg .soft (2 * L + 2) = .ok (y, w)) {B : (l : ℕ) → (Fin 3 → ℝ) → Fin (2 * l + 1) → ℝ} (hB : IsBasis (basisLength nrm L) B)
    (bs : List (Irrep × List (ι → ℝ))) (hbs : ∀ b ∈ bs, b.1.l ≤ L) (hx : ∀ b j i, vals b j i = series B bs (gridVector (y b) (gridAlpha (2 * L + 1) j)) i) :
    ∃ d d', fromS2GridS2fft s nrm true ⟨2 * L + 2, 2 * L + 1, vals, .soft, v, a⟩ irreps = .ok d ∧
      fromS2Grid lg nrm fft none ⟨2 * L + 2, 2 * L + 1, vals, .soft, v, a⟩ (s2Irreps L v a) = .ok d' ∧
      d.irreps = s2Irreps L .e .o ∧ d'.irreps = s2Irreps L v a ∧ d.array = d'.array ∧
      d.array = (List.finRange (L + 1)).flatMap fun (l : Fin (L + 1)) => List.ofFn fun (k : Fin (2 * (l : ℕ) + 1)) (i : ι) => coeffAt bs l k i := by
  obtain ⟨-, s1, s2, s3⟩ := C77_s2_irreps L v a
  obtain ⟨d', c1, c2, c3, c4⟩ := C77_band_limited hlg nrm fft none (⟨2 * L + 2, 2 * L + 1, vals, .soft, v, a⟩ : Signal ι) s2 s3 s1 hq (by simp) (fun _ => by simp only; omega) hB bs hx (by simp)
    (fun b hb => by have := hbs b hb; simp only [gridDegree]; omega)
  have hr : ratio nrm L L (Option.getD none L) = 1 := by
    have : Real.sqrt ((L : ℝ) + 1) ≠ 0 := by positivity
    cases nrm <;> simp [ratio, this]
  rw [hr] at c4
  simp_rw [one_mul] at c4
  have hd' : d'.array = (List.finRange (L + 1)).flatMap fun (l : Fin (L + 1)) => List.ofFn fun (k : Fin (2 * (l : ℕ) + 1)) (i : ι) => coeffAt bs l k i := by
    rw [← Inv.array_eq_blocks c2.inv, c4, expand_s2, List.map_map, List.map_map, ← List.flatMap_def, ← List.map_coe_finRange_eq_range, List.flatMap_map]
    rfl
  have hck : checkS2fft L (2 * L + 2) (2 * L + 1) .soft true = .ok () := by
    unfold checkS2fft s2fftResolution
    simp
  have hfw : ∀ i, (s.forward L fun b j => vals b j i) = s2fftArray nrm L fun l k => coeffAt bs l k i := by
    intro i
    rw [← (hs L _ (realCoefficients_array nrm L fun l k => coeffAt bs l k i)).2]
    congr 1
    funext b j
    rw [inverse_series hs nrm L _ hB hq, hx]
    have hfil : (bs.filter fun b => b.1.l ≤ L) = bs := List.filter_eq_self.mpr fun b hb => by simpa using hbs b hb
    have e := series_coeffs (B := B) bs (fun l => ⟨l, v.mul (a.pow l)⟩) (fun _ => rfl) L (gridVector (y b) (gridAlpha (2 * L + 1) j)) i
    rw [hfil, series_range B (fun l => v.mul (a.pow l)) (fun l => List.ofFn fun (k : Fin (2 * l + 1)) (i : ι) => coeffAt bs l k i)] at e
    rw [← e]
    refine Finset.sum_congr rfl fun l _ => Finset.sum_congr rfl fun k _ => ?_
    rw [getD_ofFn]
  have hred := from_reduce_s2fft s nrm true (⟨2 * L + 2, 2 * L + 1, vals, .soft, v, a⟩ : Signal ι) hL hnd hp
  simp only [hck, bind, Except.bind] at hred
  have harr : ((List.finRange (L + 1)).flatMap fun (l : Fin (L + 1)) => List.ofFn fun (k : Fin (2 * (l : ℕ) + 1)) (i : ι) =>
        complexToReal nrm L (s.forward L fun b a => if h : (b : ℕ) < 2 * L + 2 ∧ (a : ℕ) < 2 * L + 1 then vals ⟨b, h.1⟩ ⟨a, h.2⟩ i else 0) l k) = d'.array := by
    rw [hd']
    refine List.flatMap_congr fun l _ => ?_
    congr 1
    funext k i
    have e : (fun (b : Fin (2 * L + 2)) (a : Fin (2 * L + 1)) => if h : (b : ℕ) < 2 * L + 2 ∧ (a : ℕ) < 2 * L + 1 then vals ⟨b, h.1⟩ ⟨a, h.2⟩ i else 0) = fun b j => vals b j i := by
      funext b j
      rw [dif_pos ⟨b.isLt, j.isLt⟩]
    rw [e, hfw, complexToReal_array]
  rw [harr] at hred
  obtain ⟨d, e1, -, e3, e4, -⟩ := (C12_from_array (s2Irreps L .e .o) d'.array).1 (by
    have h := c2.array_length
    rw [c3] at h
    rw [h, expand_s2, expand_s2]
    simp [dimOf, Function.comp_def, Irrep.dim])
  exact ⟨d, d', hred.trans e1, c1, e3, c3, e4, e4.trans hd'⟩

/-- **C119 (round trip).** `from_s2grid(to_s2grid(coeffs, use_s2fft=True), irreps, use_s2fft=True)` has the array of `coeffs`, for coefficients with the irreps `s2_irreps(lmax, p_val, p_arg)`. -/
theorem C119_round_trip {s : Package} (hs : s.Correct) (nrm : Normalization) {c : IArr (ι → ℝ)} (hc : c.Coherent) {L : ℕ} {v a : Parity} (hi : c.irreps = s2Irreps L v a) :
    ∃ x d, toS2GridS2fft s nrm true c (2 * L + 2) (2 * L + 1) .soft (some v) (some a) = .ok x ∧ x.pVal = v ∧ x.pArg = a ∧
      fromS2GridS2fft s nrm true x c.irreps = .ok d ∧ d.irreps = s2Irreps L .e .o ∧ d.array = c.array := by
  obtain ⟨lg, hlg⟩ := gauss_exists
  obtain ⟨-, s1, s2, s3⟩ := C77_s2_irreps L v a
  have hfull : ∀ l ≤ L, ∃ ir ∈ expand (s2Irreps L v a), ir.l = l := fun l hl => ⟨⟨l, v.mul (a.pow l)⟩, by rw [expand_s2]; exact List.mem_map.mpr ⟨l, List.mem_range.mpr (by omega), rfl⟩, rfl⟩
  rw [← hi] at s1 s2 s3 hfull
  obtain ⟨y, w, hq⟩ : ∃ y w, quadratureWeights lg .soft (2 * L + 2) = .ok (y, w) := ⟨_, _, by unfold quadratureWeights; simp only; rw [if_pos (by omega)]⟩
  obtain ⟨B, hB⟩ := basis_exists (basisLength nrm L)
  have ht := C76_to_s2grid hlg nrm true hc s3 s2 (sphereParity_expand s1) (.inl ⟨rfl, rfl⟩) (2 * L + 1) hq (fun _ => by omega) hB
  have h1 := (C119_to_s2grid hs hlg nrm true hc s3 s2 hfull (sphereParity_expand s1) (.inl ⟨rfl, rfl⟩)).1
  obtain ⟨x, d'', r1, r2, -, -, r5⟩ := C77_round_trip hlg nrm true true hc s3 s2 s1 (.inl ⟨rfl, rfl⟩) (rb := 2 * L + 2) (ra := 2 * L + 1) (q := .soft) (by omega) (fun _ => by omega) (fun _ => by omega)
    (by simp only [gridDegree]; omega) (by omega)
  obtain ⟨d, d', f1, f2, f3, -, f5, -⟩ := C119_from_s2grid hs hlg nrm true (fun b j i => series B c.blocks (gridVector (y b) (gridAlpha (2 * L + 1) j)) i) v a s2 s3 s1 hq hB c.blocks
    (fun b hb => s2.2 b.1 (by
      have : c.blocks.map Prod.fst = expand c.irreps := blocksOf_fst _ _
      rw [← this]
      exact List.mem_map.mpr ⟨b, hb, rfl⟩)) (fun _ _ _ => rfl)
  rw [ht] at r1 h1
  have ex := Except.ok.inj r1
  rw [← ex, hi, f2] at r2
  exact ⟨_, d, h1, rfl, rfl, f1, f3, by rw [f5, Except.ok.inj r2, r5]⟩

/-- **C119 (refusals).** With `use_s2fft=True` another quadrature than "soft", another resolution than `(2 lmax + 2, 2 lmax + 1)` and `fft=False` are refused (`ValueError`). -/
theorem C119_refuse (s : Package) (nrm : Normalization) (fft : Bool) {c : IArr (ι → ℝ)} (hc : c.Coherent) (hnd : (expand c.irreps).Nodup) {L : ℕ}
    (hL : IsLmax (expand c.irreps) L) {pVal pArg : Option Parity} {v a : Parity} (hp : SphereParity (expand c.irreps) v a) (hg : ParityGiven (expand c.irreps) pVal pArg v a)
    (rb ra : ℕ) (q : Quad) (h : q ≠ .soft ∨ rb ≠ 2 * L + 2 ∨ ra ≠ 2 * L + 1 ∨ fft = false) :
    toS2GridS2fft s nrm fft c rb ra q pVal pArg = .error .valueError := by
  obtain ⟨z, z1, z2, z3, z4, z5, z6, z7⟩ := regroup_unit hc
  have hk := checks_ok z4 z5 z6 (z7.mpr hnd) hL hp hg
  have hck : checkS2fft L rb ra q fft = .error .valueError := by
    unfold checkS2fft s2fftResolution
    by_cases h1 : q = .soft
    · by_cases h2 : rb = 2 * L + 2 ∧ ra = 2 * L + 1
      · have h3 : fft = false := by tauto
        simp [h1, h2, h3]
      · rw [if_neg (by simp [h1]), if_pos (by simpa using h2)]
    · rw [if_pos h1]
  unfold toS2GridS2fft
  rw [z1]
  change (Except.bind (toGridChecks z pVal pArg) _ : Except PyErr _) = _
  rw [hk]
  change (Except.bind (checkS2fft L rb ra q fft) _ : Except PyErr _) = _
  rw [hck]
  rfl

/-- **C119 (refusals of `from_s2grid`).** -/
theorem C119_from_refuse (s : Package) (nrm : Normalization) (fft : Bool) (x : Signal ι) {irreps : Irreps} {L : ℕ} (hL : IsLmax (expand irreps) L) (hnd : (expand irreps).Nodup)
    (hp : SphereParity (irreps.map (·.ir)) x.pVal x.pArg) (h : x.quad ≠ .soft ∨ x.resBeta ≠ 2 * L + 2 ∨ x.resAlpha ≠ 2 * L + 1 ∨ fft = false) :
    fromS2GridS2fft s nrm fft x irreps = .error .valueError := by
  rw [from_reduce_s2fft s nrm fft x hL hnd hp]
  have hck : checkS2fft L x.resBeta x.resAlpha x.quad fft = .error .valueError := by
    unfold checkS2fft s2fftResolution
    by_cases h1 : x.quad = .soft
    · by_cases h2 : x.resBeta = 2 * L + 2 ∧ x.resAlpha = 2 * L + 1
      · have h3 : fft = false := by tauto
        simp [h1, h2, h3]
      · rw [if_neg (by simp [h1]), if_pos (by simpa using h2)]
    · rw [if_pos h1]
  rw [hck]
  rfl

/-- Coefficients are determined by the values on the grid. -/
theorem grid_injective {L : ℕ} {lg : LegGauss} (hlg : GaussLegendre lg) {B : (l : ℕ) → (Fin 3 → ℝ) → Fin (2 * l + 1) → ℝ} (hB : IsBasis (basisLength .integral L) B) {y w : Fin (2 * L + 2) → ℝ}
    (hq : quadratureWeights lg .soft (2 * L + 2) = .ok (y, w)) (r r' : (l : ℕ) → Fin (2 * l + 1) → ℝ)
    (h : ∀ (b : Fin (2 * L + 2)) (a : Fin (2 * L + 1)), ∑ l : Fin (L + 1), ∑ k : Fin (2 * (l : ℕ) + 1), B l (gridVector (y b) (gridAlpha (2 * L + 1) a)) k * r l k =
      ∑ l : Fin (L + 1), ∑ k : Fin (2 * (l : ℕ) + 1), B l (gridVector (y b) (gridAlpha (2 * L + 1) a)) k * r' l k) (l : Fin (L + 1)) (k : Fin (2 * (l : ℕ) + 1)) : r l k = r' l k := by
  let bs : ((l : ℕ) → Fin (2 * l + 1) → ℝ) → List (Irrep × List (Unit → ℝ)) := fun r => (List.range (L + 1)).map fun l => ((⟨l, Parity.e.mul (Parity.o.pow l)⟩ : Irrep), List.ofFn fun (k : Fin (2 * l + 1)) (_ : Unit) => r l k)
  have hser : ∀ r x, series B (bs r) x () = ∑ l : Fin (L + 1), ∑ k : Fin (2 * (l : ℕ) + 1), B l x k * r l k := by
    intro r x
    rw [series_range B (fun l => Parity.e.mul (Parity.o.pow l)) (fun l => List.ofFn fun (k : Fin (2 * l + 1)) (_ : Unit) => r l k)]
    refine Finset.sum_congr rfl fun l _ => Finset.sum_congr rfl fun k _ => ?_
    rw [getD_ofFn]
  have hbs : ∀ r, ∀ b ∈ bs r, b.1.l ≤ L := by
    intro r b hb
    obtain ⟨l, hl, rfl⟩ := List.mem_map.mp hb
    have := List.mem_range.mp hl
    simp only
    omega
  obtain ⟨-, s1, s2, s3⟩ := C77_s2_irreps L .e .o
  have hfst : ∀ r, (bs r).map Prod.fst = expand (s2Irreps L .e .o) := by
    intro r
    rw [expand_s2, List.map_map]
    rfl
  let x : Signal Unit := ⟨2 * L + 2, 2 * L + 1, fun b a _ => ∑ l : Fin (L + 1), ∑ k : Fin (2 * (l : ℕ) + 1), B l (gridVector (y b) (gridAlpha (2 * L + 1) a)) k * r l k, .soft, .e, .o⟩
  have hcoef : ∀ r'', (∀ b a i, x.values b a i = series B (bs r'') (gridVector (y b) (gridAlpha (2 * L + 1) a)) i) →
      ∃ c, fromS2Grid lg .integral true none x (s2Irreps L .e .o) = .ok c ∧ c.blocks = bs r'' := by
    intro r'' hx
    obtain ⟨c, c1, c2, c3, c4⟩ := C77_band_limited hlg .integral true none x s2 s3 s1 hq (by simp [x]) (fun _ => by simp only [x]; omega) hB (bs r'') hx (by simp [x])
      (fun b hb => by have := hbs r'' b hb; simp only [x, gridDegree]; omega)
    refine ⟨c, c1, ?_⟩
    rw [c4, ← hfst r'', List.map_map]
    conv_rhs => rw [← List.map_id (bs r'')]
    refine List.map_congr_left fun b hb => ?_
    have hsp : SphereParity ((bs r'').map Prod.fst) .e .o := by rw [hfst]; exact sphereParity_expand s1
    have hn : ((bs r'').map Prod.fst).Nodup := by rw [hfst]; exact s3
    have hcm := coeffAt_mem hsp hn hb
    obtain ⟨l, hl, rfl⟩ := List.mem_map.mp hb
    simp only [Function.comp_apply, id_eq, ratio, one_mul]
    refine Prod.ext rfl ?_
    simp only
    congr 1
    funext k i
    rw [hcm, getD_ofFn]
  obtain ⟨c, c1, c2⟩ := hcoef r fun b a i => by rw [hser]
  obtain ⟨c', c1', c2'⟩ := hcoef r' fun b a i => by rw [hser, ← h]
  rw [c1] at c1'
  have hbb : bs r = bs r' := by rw [← c2, ← c2', Except.ok.inj c1']
  have hl := congrArg (fun z : List (Irrep × List (Unit → ℝ)) => (z[(l : ℕ)]?).map fun b => b.2.getD k 0 ()) hbb
  have hll := l.isLt
  simp only [bs, List.getElem?_map, List.getElem?_range hll, Option.map_some, getD_ofFn, Option.some.injEq] at hl
  exact hl

/-- There is a package that meets the specification. -/
theorem C119_package_exists : ∃ s : Package, s.Correct := by
  classical
  obtain ⟨lg, hlg⟩ := gauss_exists
  let inv : (lmax : ℕ) → (Fin (lmax + 1) → Fin (2 * lmax + 1) → ℂ) → Fin (2 * lmax + 2) → Fin (2 * lmax + 1) → ℝ := fun lmax f t p => (value f (theta lmax t) (phi lmax p)).re
  have hre : ∀ lmax (f : Fin (lmax + 1) → Fin (2 * lmax + 1) → ℂ), RealCoefficients f → ∀ t p, (inv lmax f t p : ℂ) = value f (theta lmax t) (phi lmax p) := by
    intro lmax f hf t p
    obtain ⟨y, w, hq⟩ : ∃ y w, quadratureWeights lg .soft (2 * lmax + 2) = .ok (y, w) := ⟨_, _, by unfold quadratureWeights; simp only; rw [if_pos (by omega)]⟩
    obtain ⟨r, rfl⟩ := array_complexToReal .integral hf
    simp only [inv]
    rw [value_array .integral lmax r (theta_grid lmax hq t).2, Complex.ofReal_re]
  have hinj : ∀ lmax (f f' : Fin (lmax + 1) → Fin (2 * lmax + 1) → ℂ), RealCoefficients f → RealCoefficients f' → inv lmax f = inv lmax f' → f = f' := by
    intro lmax f f' hf hf' he
    obtain ⟨y, w, hq⟩ : ∃ y w, quadratureWeights lg .soft (2 * lmax + 2) = .ok (y, w) := ⟨_, _, by unfold quadratureWeights; simp only; rw [if_pos (by omega)]⟩
    obtain ⟨B, hB⟩ := basis_exists (basisLength .integral lmax)
    obtain ⟨r, rfl⟩ := array_complexToReal .integral hf
    obtain ⟨r', rfl⟩ := array_complexToReal .integral hf'
    have hval : ∀ (r : (l : ℕ) → Fin (2 * l + 1) → ℝ) b a, inv lmax (s2fftArray .integral lmax r) b a = ∑ l : Fin (lmax + 1), ∑ k : Fin (2 * (l : ℕ) + 1), B l (gridVector (y b) (gridAlpha (2 * lmax + 1) a)) k * r l k := by
      intro r b a
      obtain ⟨h1, h2⟩ := theta_grid lmax hq b
      simp only [inv]
      rw [value_array .integral lmax r h2, Complex.ofReal_re]
      refine Finset.sum_congr rfl fun l _ => Finset.sum_congr rfl fun k _ => ?_
      have e : phi lmax a = gridAlpha (2 * lmax + 1) a := by unfold phi gridAlpha; push_cast; ring
      rw [basis_eq hB, ← sh_grid k (by rw [h1]; nlinarith [Real.sin_sq_add_cos_sq (theta lmax b), sq_nonneg (Real.sin (theta lmax b))]), ← h1, e]
    have h := grid_injective hlg hB hq r r' fun b a => by rw [← hval, ← hval, he]
    funext l j
    unfold s2fftArray
    split
    · unfold realToComplex
      congr 1
      refine Finset.sum_congr rfl fun c _ => ?_
      rw [h l c]
    · rfl
  refine ⟨⟨inv, fun lmax g => if h : ∃ f, RealCoefficients f ∧ inv lmax f = g then h.choose else 0⟩, fun lmax f hf => ⟨hre lmax f hf, ?_⟩⟩
  have hex : ∃ f', RealCoefficients f' ∧ inv lmax f' = inv lmax f := ⟨f, hf, rfl⟩
  simp only
  rw [dif_pos hex]
  exact hinj lmax _ _ hex.choose_spec.1 hf hex.choose_spec.2

/-- **C119 (the parities are lost).** For a signal with odd values (`p_val = -1`, for example a pseudoscalar field), `from_s2grid(x, "0o")` has the irreps `0o`, with `use_s2fft=True` they are `0e`. -/
theorem C119_parity_witness {s : Package} (hs : s.Correct) {lg : LegGauss} (hlg : GaussLegendre lg) (nrm : Normalization) (t : ℝ) :
    ∃ (x : Signal Unit) (d d' : IArr (Unit → ℝ)), x.pVal = .o ∧ fromS2GridS2fft s nrm true x [⟨1, ⟨0, .o⟩⟩] = .ok d ∧ fromS2Grid lg nrm true none x [⟨1, ⟨0, .o⟩⟩] = .ok d' ∧
      d.irreps = [⟨1, ⟨0, .e⟩⟩] ∧ d'.irreps = [⟨1, ⟨0, .o⟩⟩] ∧ d.array = [fun _ => t] ∧ d'.array = [fun _ => t] := by
  obtain ⟨y, w, hq⟩ : ∃ y w, quadratureWeights lg .soft (2 * 0 + 2) = .ok (y, w) := ⟨_, _, by unfold quadratureWeights; simp only; rw [if_pos (by norm_num)]⟩
  obtain ⟨B, hB⟩ := basis_exists (basisLength nrm 0)
  obtain ⟨d, d', h1, h2, h3, h4, h5, h6⟩ := C119_from_s2grid hs hlg nrm true (L := 0) (ι := Unit) (fun b j i => series B [((⟨0, .o⟩ : Irrep), [fun _ => t])] (gridVector (y b) (gridAlpha (2 * 0 + 1) j)) i) .o .o
    (irreps := [⟨1, ⟨0, .o⟩⟩]) ⟨⟨⟨0, .o⟩, by simp [expand], rfl⟩, by simp [expand]⟩ (by simp [expand]) (by intro ir hir; simp at hir; subst hir; rfl) hq hB [((⟨0, .o⟩ : Irrep), [fun _ => t])] (by simp) (fun _ _ _ => rfl)
  have h7 : d.array = [fun _ => t] := by
    rw [h6]
    simp [coeffAt, List.finRange_succ]
  exact ⟨_, d, d', rfl, h1, h2, h3, h4, h7, h5 ▸ h7⟩

/-- **C119 (missing degrees).** For coefficients of degree two only, `to_s2grid(coeffs, 6, 5, use_s2fft=True)` does not fail: it reads the first four entries as those of the degrees zero
and one, and the last one as all those of degree two.  The coefficients `[1, 0, 0, 0, 0]` give a constant signal. -/
theorem C119_missing_witness {s : Package} (hs : s.Correct) {lg : LegGauss} (hlg : GaussLegendre lg) :
    ∃ (c : IArr (Unit → ℝ)) (x x' : Signal Unit), c.Coherent ∧ c.irreps = [⟨1, ⟨2, .e⟩⟩] ∧
      toS2GridS2fft s .integral true c 6 5 .soft (some .e) (some .o) = .ok x ∧ toS2Grid lg .integral true c 6 5 .soft (some .e) (some .o) = .ok x' ∧
      (∃ v, v ≠ 0 ∧ ∀ b a, x.values b a () = v) ∧ ∃ b a, x'.values b a () = 0 := by
  obtain ⟨c, c1, c2, c3, c4, -, -⟩ := (C12_from_array [⟨1, ⟨2, .e⟩⟩] ([fun _ => 1, fun _ => 0, fun _ => 0, fun _ => 0, fun _ => 0] : List (Unit → ℝ))).1 (by simp [expand, dimOf, Irrep.dim])
  obtain ⟨y, w, hq⟩ : ∃ y w, quadratureWeights lg .soft (2 * 2 + 2) = .ok (y, w) := ⟨_, _, by unfold quadratureWeights; simp only; rw [if_pos (by norm_num)]⟩
  obtain ⟨B, hB⟩ := basis_exists (basisLength .integral 2)
  have hexp : expand c.irreps = [⟨2, .e⟩] := by rw [c3]; simp [expand]
  have hnd : (expand c.irreps).Nodup := by rw [hexp]; simp
  have hL : IsLmax (expand c.irreps) 2 := by rw [hexp]; exact ⟨⟨⟨2, .e⟩, by simp, rfl⟩, by simp⟩
  have hp : SphereParity (expand c.irreps) .e .o := by rw [hexp]; intro ir hir; simp at hir; subst hir; rfl
  have hg : ParityGiven (expand c.irreps) (some .e) (some .o) .e .o := .inl ⟨rfl, rfl⟩
  have ht := C76_to_s2grid hlg .integral true c2 hnd hL hp hg 5 hq (fun _ => by omega) hB
  obtain ⟨z, z1, z2, z3, z4, z5, z6, z7⟩ := regroup_unit c2
  have hk := checks_ok z4 z5 z6 (z7.mpr hnd) hL hp hg
  have hbl : c.blocks = [((⟨2, .e⟩ : Irrep), c.array)] := by
    unfold IArr.blocks
    rw [hexp, c4]
    rfl
  have hza : z.array = c.array := by
    rw [hbl] at z3
    rw [← Inv.array_eq_blocks z2.inv, List.perm_singleton.mp z3]
    simp
  rw [c4] at hza
  have hread : s2fftRead z.array 2 = .ok fun l k => (s2fftSlice z.array l).getD (if (s2fftSlice z.array l).length == 1 then 0 else k) 0 := by
    unfold s2fftRead
    rw [if_pos]
    rw [hza]
    rfl
  have hto : toS2GridS2fft s .integral true c 6 5 .soft (some .e) (some .o) = .ok ⟨2 * 2 + 2, 2 * 2 + 1, fun b a i =>
      s.inverse 2 (s2fftArray .integral 2 fun l k => (s2fftSlice z.array l).getD (if (s2fftSlice z.array l).length == 1 then 0 else k) 0 i) b a, .soft, .e, .o⟩ := by
    unfold toS2GridS2fft
    rw [z1]
    change (Except.bind (toGridChecks z (some .e) (some .o)) _ : Except PyErr _) = _
    rw [hk]
    change (Except.bind (s2fftRead z.array 2) _ : Except PyErr _) = _
    rw [hread]
    rfl
  refine ⟨c, _, _, c2, c3, hto, ht, ⟨B 0 0 0, ?_, fun b a => ?_⟩, 0, 0, ?_⟩
  · rw [basis_eq hB, Y_zero]
    exact mul_ne_zero (normTo_ne _ _ _) (by unfold cst0; positivity)
  · show s.inverse 2 (s2fftArray .integral 2 _) b a = _
    rw [inverse_series hs .integral 2 _ hB hq, hza, Fin.sum_univ_three]
    simp [s2fftSlice, Fin.sum_univ_succ]
    rw [basis_eq hB, basis_eq hB, Y_zero, Y_zero]
  · show series B c.blocks (gridVector (y 0) (gridAlpha 5 0)) () = 0
    rw [hbl, c4]
    have e : B 2 (gridVector (y 0) (gridAlpha 5 0)) 0 = 0 := by
      rw [basis_eq hB, ← sh_grid (0 : Fin (2 * 2 + 1)) ((exact_of_grid hlg (by norm_num) hq).nodes 0)]
      simp [ang, gridAlpha]
    simp [series, Fin.sum_univ_succ, e]

end E3nn.S2
