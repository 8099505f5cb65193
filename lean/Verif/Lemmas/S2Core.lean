import Verif.Lemmas.S2Fourier
import Verif.Spec.S2
import Verif.Props.C65_C66
import Verif.Props.C12_C20

/-! # `to_s2grid` and `from_s2grid` in terms of the spherical harmonics -/

namespace E3nn.S2

open E3nn.IArr E3nn.SH E3nn.Wig
open scoped Matrix

variable {ι : Type}

/-- The functions of the two angles are the spherical harmonics at the points of the grid. -/
theorem sh_grid {l : ℕ} (k : Fin (2 * l + 1)) {y : ℝ} (hy : y ^ 2 ≤ 1) (α : ℝ) :
    shBeta l ((k : ℤ) - l).natAbs y * ang ((k : ℤ) - l) α = Y .integral l (gridVector y α) k := by
  have hk := k.isLt
  obtain ⟨h1, h2⟩ : -1 ≤ y ∧ y ≤ 1 := abs_le.mp (by rwa [← sq_le_one_iff_abs_le_one])
  have hx : gridVector y α = ![Real.sin (Real.arccos y) * Real.sin α, Real.cos (Real.arccos y), Real.sin (Real.arccos y) * Real.cos α] := by
    unfold gridVector
    rw [Real.sin_arccos, Real.cos_arccos h1 h2]
  have hb : ∀ m ≤ l, shBeta l m y = Real.sqrt ((2 * l + 1) / (4 * Real.pi)) * Real.sqrt ((l - m).factorial / (l + m).factorial) * Real.sin (Real.arccos y) ^ m *
      (Polynomial.derivative^[m] (legendrePoly l)).eval (Real.cos (Real.arccos y)) := by
    intro m hm
    unfold shBeta lpmn
    rw [if_neg (by omega), Real.sin_arccos, Real.cos_arccos h1 h2, Real.sqrt_mul (by positivity)]
    have : ((-1 : ℝ) ^ m) * (-1) ^ m = 1 := by rw [← mul_pow]; norm_num
    linear_combination (Real.sqrt ((2 * l + 1) / (4 * Real.pi)) * Real.sqrt ((l - m).factorial / (l + m).factorial) * (Real.sqrt (1 - y ^ 2) ^ m * (Polynomial.derivative^[m] (legendrePoly l)).eval y)) * this
  rw [hx]
  have hs : ∀ m : ℕ, Real.sqrt (2 * (((l - m).factorial : ℝ) / (l + m).factorial)) = Real.sqrt 2 * Real.sqrt (((l - m).factorial : ℝ) / (l + m).factorial) := fun m => Real.sqrt_mul (by norm_num) _
  rcases lt_trichotomy k.val l with h | h | h
  · have hst := ((C66_standard .integral l (Y_spec .integral l) α (Real.arccos y) (l - k.val) (by omega)).2 (by omega)).2
    have ek : (⟨l - (l - k.val), by omega⟩ : Fin (2 * l + 1)) = k := Fin.ext (by simp only; omega)
    rw [ek] at hst
    rw [hst, show ((k : ℤ) - l).natAbs = l - k.val by omega, hb _ (by omega), hs]
    unfold ang
    rw [if_pos (by omega), show ((k : ℤ) - l).natAbs = l - k.val by omega]
    unfold legendrePoly
    simp only [sphLength]
    ring
  · have hst := (C66_standard .integral l (Y_spec .integral l) α (Real.arccos y) 0 (by omega)).1 rfl
    have ek : (⟨l, by omega⟩ : Fin (2 * l + 1)) = k := Fin.ext h.symm
    rw [ek] at hst
    rw [hst, show ((k : ℤ) - l).natAbs = 0 by omega, hb _ (by omega)]
    unfold ang
    rw [if_neg (by omega), if_pos (by omega)]
    have e0 : (((l - 0).factorial : ℝ) / (l + 0).factorial) = 1 := div_self (by positivity)
    rw [e0]
    simp [sphLength, legendrePoly]
  · have hst := ((C66_standard .integral l (Y_spec .integral l) α (Real.arccos y) (k.val - l) (by omega)).2 (by omega)).1
    have ek : (⟨l + (k.val - l), by omega⟩ : Fin (2 * l + 1)) = k := Fin.ext (by simp only; omega)
    rw [ek] at hst
    rw [hst, show ((k : ℤ) - l).natAbs = k.val - l by omega, hb _ (by omega), hs]
    unfold ang
    rw [if_neg (by omega), if_neg (by omega), show ((k : ℤ) - l).natAbs = k.val - l by omega]
    unfold legendrePoly
    simp only [sphLength]
    ring

/-- Scaling. -/
theorem isSH_smul {c : ℝ} {l : ℕ} {f : (Fin 3 → ℝ) → Fin (2 * l + 1) → ℝ} (h : IsSphericalHarmonics c l f) (t : ℝ) : IsSphericalHarmonics (t * c) l (fun x k => t * f x k) := by
  refine ⟨?_, ?_, ?_⟩
  · intro k
    obtain ⟨P, hP, he⟩ := h.polynomial k
    refine ⟨MvPolynomial.C t * P, ?_, fun x => by rw [he, MvPolynomial.eval_mul, MvPolynomial.eval_C]⟩
    have := (MvPolynomial.isHomogeneous_C (Fin 3) t).mul hP
    rwa [zero_add] at this
  · intro p R hR x
    have e := h.equivariant p R hR x
    have : (fun k => t * f (dMatrix ⟨1, p⟩ R *ᵥ x) k) = t • f (dMatrix ⟨1, p⟩ R *ᵥ x) := rfl
    rw [this, e, ← Matrix.mulVec_smul]
    rfl
  · intro k
    rw [h.pole]; split <;> simp

theorem sphLength_integral (l : ℕ) : Real.sqrt (4 * Real.pi) * sphLength .integral l = Real.sqrt (2 * l + 1) := by
  unfold sphLength
  rw [← Real.sqrt_mul (by positivity)]
  congr 1
  have := Real.pi_ne_zero
  field_simp

theorem normTo_length (nrm : Normalization) (lmax l : ℕ) : normTo nrm lmax l * sphLength .integral l = basisLength nrm lmax l := by
  have h := sphLength_integral l
  have h2 : (0 : ℝ) < Real.sqrt (2 * l + 1) := by positivity
  have h3 : (0 : ℝ) < Real.sqrt (lmax + 1) := by positivity
  cases nrm <;> simp only [normTo, basisLength]
  · rw [one_mul, h]
  · rw [div_mul_eq_mul_div, h]; field_simp
  · rw [mul_one, div_mul_eq_mul_div, h]

theorem normFrom_length (nrm : Normalization) (lmax lmaxIn l : ℕ) : normFrom nrm lmax lmaxIn l * sphLength .integral l = dualLength nrm lmax lmaxIn l := by
  have h := sphLength_integral l
  have h2 : Real.sqrt (2 * l + 1) * Real.sqrt (2 * l + 1) = 2 * l + 1 := Real.mul_self_sqrt (by positivity)
  cases nrm <;> simp only [normFrom, dualLength]
  · rw [one_mul, h]
  · linear_combination (Real.sqrt (2 * l + 1) * Real.sqrt (lmax + 1)) * h + Real.sqrt (lmax + 1) * h2
  · linear_combination Real.sqrt (lmaxIn + 1) * h

theorem basis_eq {nrm : Normalization} {lmax : ℕ} {B : (l : ℕ) → (Fin 3 → ℝ) → Fin (2 * l + 1) → ℝ} (hB : IsBasis (basisLength nrm lmax) B) (l : ℕ) (x : Fin 3 → ℝ) (k : Fin (2 * l + 1)) :
    B l x k = normTo nrm lmax l * Y .integral l x k := by
  have h := isSH_smul (Y_spec .integral l) (normTo nrm lmax l)
  rw [normTo_length] at h
  exact congrFun (congrFun (C48_unique (hB l) h) x) k

theorem dual_eq {nrm : Normalization} {lmax lmaxIn : ℕ} {A : (l : ℕ) → (Fin 3 → ℝ) → Fin (2 * l + 1) → ℝ} (hA : IsBasis (dualLength nrm lmax lmaxIn) A) (l : ℕ) (x : Fin 3 → ℝ) (k : Fin (2 * l + 1)) :
    A l x k = normFrom nrm lmax lmaxIn l * Y .integral l x k := by
  have h := isSH_smul (Y_spec .integral l) (normFrom nrm lmax lmaxIn l)
  rw [normFrom_length] at h
  exact congrFun (congrFun (C48_unique (hA l) h) x) k

theorem sum_inWin {lmax l : ℕ} (hl : l ≤ lmax) (F : ℕ → ℝ) :
    ∑ m ∈ Finset.range (2 * lmax + 1), (if InWin lmax l m then F m else 0) = ∑ k : Fin (2 * l + 1), F (lmax - l + k) := by
  rw [← Finset.sum_range (fun k => F (lmax - l + k)), show 2 * lmax + 1 = (lmax - l) + ((2 * l + 1) + (lmax - l)) by omega, Finset.sum_range_add, Finset.sum_range_add]
  have e1 : ∑ m ∈ Finset.range (lmax - l), (if InWin lmax l m then F m else 0) = 0 :=
    Finset.sum_eq_zero fun m hm => if_neg (fun h => by have := Finset.mem_range.mp hm; have := h.1; omega)
  have e2 : ∑ m ∈ Finset.range (lmax - l), (if InWin lmax l (lmax - l + (2 * l + 1 + m)) then F (lmax - l + (2 * l + 1 + m)) else 0) = 0 :=
    Finset.sum_eq_zero fun m hm => if_neg (fun h => by have := h.2; omega)
  rw [e1, e2, zero_add, add_zero]
  exact Finset.sum_congr rfl fun k hk => if_pos ⟨by omega, by have := Finset.mem_range.mp hk; omega⟩

theorem list_finset_sum {γ : Type} (L : List γ) (n : ℕ) (f : γ → ℕ → ℝ) : ∑ m ∈ Finset.range n, (L.map fun g => f g m).sum = (L.map fun g => ∑ m ∈ Finset.range n, f g m).sum := by
  induction L with
  | nil => simp
  | cons g L ih => simp only [List.map_cons, List.sum_cons, Finset.sum_add_distrib, ih]

/-- The values on the grid. -/
theorem synthesize_blocks (nrm : Normalization) (fft : Bool) {lmax n : ℕ} (h0 : 0 < n) (hn : fft = true → lmax ≤ n / 2) (bs : List (Irrep × List (ι → ℝ)))
    (hG : ∀ g ∈ bs, g.2.length = 2 * g.1.l + 1 ∧ g.1.l ≤ lmax) (hmax : lmax ∈ bs.map fun b => b.1.l) {y : ℝ} (hy : y ^ 2 ≤ 1) (a : ℕ) (i : ι)
    {B : (l : ℕ) → (Fin 3 → ℝ) → Fin (2 * l + 1) → ℝ} (hB : IsBasis (basisLength nrm lmax) B) :
    synthesize fft lmax n (signalB nrm lmax (bs.map fun b => b.1.l) y (bs.map Prod.snd).flatten) a i = series B bs (gridVector y (gridAlpha n a)) i := by
  let G : List (ℕ × List (ι → ℝ)) := bs.map fun b => (b.1.l, b.2)
  have g1 : G.map Prod.fst = bs.map fun b => b.1.l := by simp [G, Function.comp_def]
  have g2 : G.map Prod.snd = bs.map Prod.snd := by simp [G, Function.comp_def]
  have hG' : ∀ g ∈ G, g.2.length = 2 * g.1 + 1 ∧ g.1 ≤ lmax := by
    intro g hg
    obtain ⟨b, hb, rfl⟩ := List.mem_map.mp hg
    exact hG b hb
  rw [synthesize_ang fft h0 hn, ← g1, ← g2]
  simp_rw [signalB_eq nrm G hG' (by rw [g1]; exact hmax)]
  have e : ∀ m : ℕ, (G.map fun g => if InWin lmax g.1 m then normTo nrm lmax g.1 * shBeta g.1 ((m : ℤ) - lmax).natAbs y * g.2.getD (m - (lmax - g.1)) 0 i else 0).sum * ang ((m : ℤ) - lmax) (gridAlpha n a) =
      (G.map fun g => if InWin lmax g.1 m then normTo nrm lmax g.1 * shBeta g.1 ((m : ℤ) - lmax).natAbs y * g.2.getD (m - (lmax - g.1)) 0 i * ang ((m : ℤ) - lmax) (gridAlpha n a) else 0).sum := by
    intro m
    rw [← List.sum_map_mul_right]
    congr 1
    refine List.map_congr_left fun g _ => ?_
    rw [ite_mul, zero_mul]
  simp_rw [e]
  rw [list_finset_sum]
  unfold series
  simp only [G, List.map_map, Function.comp_def]
  congr 1
  refine List.map_congr_left fun b hb => ?_
  have hl := (hG b hb).2
  rw [sum_inWin hl (fun m => normTo nrm lmax b.1.l * shBeta b.1.l ((m : ℤ) - lmax).natAbs y * b.2.getD (m - (lmax - b.1.l)) 0 i * ang ((m : ℤ) - lmax) (gridAlpha n a))]
  refine Finset.sum_congr rfl fun k _ => ?_
  rw [basis_eq hB, ← sh_grid k hy, show (((lmax - b.1.l + k : ℕ) : ℤ) - lmax) = (k : ℤ) - b.1.l by omega, Nat.add_sub_cancel_left]
  ring

/-! ### `from_s2grid` -/

theorem expand_later (lmax : ℕ) (st : (ℕ → ℕ → ℕ → ℝ) × ℕ) (v : List ℕ) {l m i : ℕ} (hi : i < st.2) : (v.foldl (expandStep lmax) st).1 l m i = st.1 l m i := by
  induction v generalizing st with
  | nil => rfl
  | cons l0 v ih =>
    rw [List.foldl_cons, ih (expandStep lmax st l0) (by simp only [expandStep]; omega)]
    simp only [expandStep]
    rw [if_neg (by omega)]

theorem expand_block {lmax : ℕ} {u v : List ℕ} {l0 : ℕ} (hl0 : l0 ≤ lmax) (l m : ℕ) {k : ℕ} (hk : k < 2 * l0 + 1) :
    ((u ++ l0 :: v).foldl (expandStep lmax) (fun _ _ _ => 0, 0)).1 l m (dimLs u + k) = if l = l0 ∧ m = lmax - l0 + k then 1 else 0 := by
  have hs := expand_foldl lmax u
  rw [List.foldl_append, List.foldl_cons, expand_later _ _ _ (by simp only [expandStep]; omega)]
  simp only [expandStep]
  rw [hs.1, Nat.add_sub_cancel_left]
  by_cases h : l = l0 ∧ m = lmax - l0 + k
  · obtain ⟨rfl, rfl⟩ := h
    rw [if_pos ⟨rfl, by omega, by omega⟩, if_pos (by omega), if_pos ⟨rfl, rfl⟩]
  · rw [if_neg h]
    by_cases h2 : l = l0 ∧ (lmax - l0 ≤ m ∧ m < lmax + l0 + 1) ∧ (dimLs u ≤ dimLs u + k ∧ dimLs u + k < dimLs u + (2 * l0 + 1))
    · rw [if_pos h2, if_neg (fun hm => h ⟨h2.1, by omega⟩)]
    · rw [if_neg h2, hs.2 _ _ _ (by omega)]

/-- One output coefficient: the quadrature of the product of the signal with a function. -/
theorem coeff_eq (nrm : Normalization) (fft : Bool) {lmax : ℕ} (lmaxIn : ℕ) (x : Signal ι) {y w : Fin x.resBeta → ℝ} (hy : ∀ b, y b ^ 2 ≤ 1) {u v : List ℕ} {l0 : ℕ} (hl0 : l0 ≤ lmax)
    (hmax : (u ++ l0 :: v).foldl max 0 = lmax) (k : Fin (2 * l0 + 1)) (i : ι) {A : (l : ℕ) → (Fin 3 → ℝ) → Fin (2 * l + 1) → ℝ} (hA : IsBasis (dualLength nrm lmax lmaxIn) A) :
    ∑ m ∈ Finset.range (2 * lmax + 1), ∑ b : Fin x.resBeta, shYFrom nrm lmax lmaxIn (u ++ l0 :: v) (y b) (w b) m (dimLs u + k) * analyze fft lmax x.resAlpha (row x b i) m =
      ∑ b : Fin x.resBeta, ∑ a : Fin x.resAlpha, w b / x.resAlpha * (x.values b a i * A l0 (gridVector (y b) (gridAlpha x.resAlpha a)) k) := by
  have hk := k.isLt
  have e1 : ∀ m ∈ Finset.range (2 * lmax + 1), ∑ b : Fin x.resBeta, shYFrom nrm lmax lmaxIn (u ++ l0 :: v) (y b) (w b) m (dimLs u + k) * analyze fft lmax x.resAlpha (row x b i) m =
      if m = lmax - l0 + k then ∑ b : Fin x.resBeta, (shBeta l0 ((m : ℤ) - lmax).natAbs (y b) * normFrom nrm lmax lmaxIn l0 * w b) * analyze fft lmax x.resAlpha (row x b i) m else 0 := by
    intro m _
    have e2 : ∀ b, shYFrom nrm lmax lmaxIn (u ++ l0 :: v) (y b) (w b) m (dimLs u + k) = if m = lmax - l0 + k then shBeta l0 ((m : ℤ) - lmax).natAbs (y b) * normFrom nrm lmax lmaxIn l0 * w b else 0 := by
      intro b
      rw [shYFrom_eq]
      unfold expandMatrix
      rw [hmax]
      simp_rw [expand_block hl0 _ _ hk]
      rw [Finset.sum_eq_single l0]
      · by_cases hm : m = lmax - l0 + k
        · have h1 : InWin lmax l0 m := ⟨by omega, by omega⟩
          have h2 : l0 = l0 ∧ m = lmax - l0 + k := ⟨rfl, hm⟩
          rw [if_pos hm, if_pos h1, if_pos h2]; ring
        · have h2 : ¬ (l0 = l0 ∧ m = lmax - l0 + k) := fun h => hm h.2
          rw [if_neg hm, if_neg h2]; ring
      · intro l _ hl
        have h2 : ¬ (l = l0 ∧ m = lmax - l0 + k) := fun h => hl h.1
        rw [if_neg h2]; ring
      · intro h; exact absurd (Finset.mem_range.mpr (by omega)) h
    simp_rw [e2]
    by_cases hm : m = lmax - l0 + k
    · simp only [hm, if_true]
    · simp only [hm, if_false, zero_mul, Finset.sum_const_zero]
  rw [Finset.sum_congr rfl e1, Finset.sum_ite_eq', if_pos (Finset.mem_range.mpr (by omega))]
  refine Finset.sum_congr rfl fun b _ => ?_
  rw [analyze_ang fft (by omega), Finset.sum_range, ← mul_div_assoc, Finset.mul_sum, Finset.sum_div]
  refine Finset.sum_congr rfl fun a _ => ?_
  have hrow : row x b i a = x.values b a i := by unfold row; rw [dif_pos a.isLt]
  rw [dual_eq hA, ← sh_grid k (hy b), show (((lmax - l0 + k : ℕ) : ℤ) - lmax) = (k : ℤ) - l0 by omega, hrow]
  ring

theorem ls_eq (ms : Irreps) : ms.ls = (expand ms).map Irrep.l := by
  induction ms with
  | nil => rfl
  | cons m ms ih =>
    have he : expand (m :: ms) = List.replicate m.mul m.ir ++ expand ms := rfl
    rw [he, List.map_append, ← ih, List.map_replicate]
    rfl

theorem blocksOf_table (s : List Irrep) (off : ℕ) (e : ℕ → ι → ℝ) :
    ∀ F : (ir : Irrep) → (Fin (2 * ir.l + 1)) → ι → ℝ, ∀ u₀ : List Irrep, off = dimLs (u₀.map Irrep.l) →
      (∀ u ir v, s = u ++ ir :: v → ∀ k : Fin (2 * ir.l + 1), e (dimLs ((u₀ ++ u).map Irrep.l) + k) = F ir k) →
      blocksOf s ((List.range' off (dimOf s)).map e) = s.map fun ir => (ir, List.ofFn (F ir)) := by
  induction s generalizing off with
  | nil => intros; rfl
  | cons ir s ih =>
    intro F u₀ hoff h
    have hd : dimOf (ir :: s) = (2 * ir.l + 1) + dimOf s := by simp [dimOf, Irrep.dim]
    have hsp : List.range' off (dimOf (ir :: s)) = List.range' off (2 * ir.l + 1) ++ List.range' (off + (2 * ir.l + 1)) (dimOf s) := by
      rw [hd, ← List.range'_append_1]
    rw [hsp, List.map_append, blocksOf, List.take_left' (by simp), List.drop_left' (by simp), List.map_cons]
    congr 1
    · congr 1
      apply List.ext_getElem
      · simp
      · intro n h1 h2
        simp only [List.length_map, List.length_range'] at h1
        simp only [List.getElem_map, List.getElem_range', List.getElem_ofFn, one_mul]
        have := h [] ir s rfl ⟨n, h1⟩
        rw [List.append_nil] at this
        rw [hoff, this]
    · refine ih (off + (2 * ir.l + 1)) F (u₀ ++ [ir]) (by rw [hoff]; simp [dimLs]) ?_
      intro u ir' v hs k
      have := h (ir :: u) ir' v (by rw [hs]; rfl) k
      rwa [show u₀ ++ ir :: u = u₀ ++ [ir] ++ u by simp] at this

/-- The coefficients of `from_s2grid`. -/
theorem fromGridCore_spec (lg : LegGauss) (nrm : Normalization) (fft : Bool) (x : Signal ι) (irreps : Irreps) {lmax : ℕ} (lmaxIn : ℕ) (hL : IsLmax (expand irreps) lmax)
    {y w : Fin x.resBeta → ℝ} (hg : quadratureWeights lg x.quad x.resBeta = .ok (y, w)) (hy : ∀ b, y b ^ 2 ≤ 1) (hfft : fft = true → 0 < x.resAlpha ∧ lmax ≤ x.resAlpha / 2)
    {A : (l : ℕ) → (Fin 3 → ℝ) → Fin (2 * l + 1) → ℝ} (hA : IsBasis (dualLength nrm lmax lmaxIn) A) :
    ∃ c, fromGridCore lg nrm fft x irreps lmax lmaxIn = .ok c ∧ c.Coherent ∧ c.irreps = irreps ∧
      c.blocks = (expand irreps).map fun ir => (ir, List.ofFn fun (k : Fin (2 * ir.l + 1)) (i : ι) =>
        ∑ b : Fin x.resBeta, ∑ a : Fin x.resAlpha, w b / x.resAlpha * (x.values b a i * A ir.l (gridVector (y b) (gridAlpha x.resAlpha a)) k)) := by
  have hcond : (fft && (x.resAlpha == 0 || decide (x.resAlpha / 2 < lmax))) = false := by
    cases fft with
    | false => rfl
    | true =>
      obtain ⟨h1, h2⟩ := hfft rfl
      simp; omega
  obtain ⟨c, h1, h2, h3, h4, -, -⟩ := (C12_from_array irreps ((List.range irreps.dim).map fun k => fun i =>
      ∑ m ∈ Finset.range (2 * lmax + 1), ∑ b : Fin x.resBeta, shYFrom nrm lmax lmaxIn irreps.ls (y b) (w b) m k * analyze fft lmax x.resAlpha (row x b i) m)).1
        (by rw [List.length_map, List.length_range, Irreps.dim_eq_dimOf_expand])
  refine ⟨c, ?_, h2, h3, ?_⟩
  · unfold fromGridCore
    rw [hg]
    simp only [bind, Except.bind, hcond, Bool.false_eq_true, if_false]
    exact h1
  unfold IArr.blocks
  rw [h3, h4, Irreps.dim_eq_dimOf_expand, List.range_eq_range']
  refine blocksOf_table _ 0 _ (fun ir k i => ∑ b : Fin x.resBeta, ∑ a : Fin x.resAlpha, w b / x.resAlpha * (x.values b a i * A ir.l (gridVector (y b) (gridAlpha x.resAlpha a)) k)) [] rfl ?_
  intro u ir v hs k
  funext i
  rw [List.nil_append, ls_eq, hs, List.map_append, List.map_cons]
  refine coeff_eq nrm fft lmaxIn x hy ?_ ?_ k i hA
  · exact hL.2 _ (by rw [hs]; simp)
  · have e : u.map Irrep.l ++ ir.l :: v.map Irrep.l = (expand irreps).map Irrep.l := by rw [hs, List.map_append, List.map_cons]
    rw [e]
    refine foldl_max_eq ?_ ?_
    · intro l hl; obtain ⟨ir, hir, rfl⟩ := List.mem_map.mp hl; exact hL.2 _ hir
    · obtain ⟨ir, hir, he⟩ := hL.1; exact List.mem_map.mpr ⟨ir, hir, he⟩

end E3nn.S2
