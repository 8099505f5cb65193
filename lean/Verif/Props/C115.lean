import Verif.Model.NormalSpace
import Verif.Lemmas.Erf
import Verif.Props.C44

/-! # C115: `normalspace` and `soft_odd` -/

namespace E3nn
open Activ MeasureTheory ProbabilityTheory Set

theorem linPoint_mem (n i : ℕ) (hi : i < n) : -1 < linPoint n (i + 1) ∧ linPoint n (i + 1) < 1 := by
  unfold linPoint
  have h : (i : ℝ) + 1 < n + 1 := by exact_mod_cast Nat.succ_lt_succ hi
  have h0 : (0 : ℝ) < n + 1 := by positivity
  push_cast
  constructor
  · have : 0 < 2 * ((i : ℝ) + 1) / (n + 1) := by positivity
    linarith
  · have : 2 * ((i : ℝ) + 1) / (n + 1) < 2 := by rw [div_lt_iff₀ h0]; linarith
    linarith

theorem normalspace_eq (e : ℝ → ℝ) (n : ℕ) :
    normalspace e n = (List.range n).map fun i => Real.sqrt 2 * e (linPoint n (i + 1)) := by
  unfold normalspace
  apply List.ext_getElem
  · simp
  · intro i h1 h2
    simp [Nat.add_comm]

/-- `normalspace(n)` has `n` points, and the `i`-th one (counted from 1) is the quantile
`i / (n + 1)` of the standard normal distribution. -/
theorem C115_normalspace {e : ℝ → ℝ} (he : IsErfInv e) (n : ℕ) :
    (normalspace e n).length = n ∧
    ∀ (i : ℕ) (h : i < (normalspace e n).length),
      (gaussianReal 0 1 (Iic (normalspace e n)[i])).toReal = ((i : ℝ) + 1) / (n + 1) := by
  have hl : (normalspace e n).length = n := by simp [normalspace_eq]
  refine ⟨hl, fun i h => ?_⟩
  rw [hl] at h
  have hs : Real.sqrt 2 ≠ 0 := by positivity
  obtain ⟨h1, h2⟩ := linPoint_mem n i h
  rw [normal_Iic]
  simp only [normalspace_eq, List.getElem_map, List.getElem_range]
  rw [mul_div_cancel_left₀ _ hs, he _ h1 h2]
  unfold linPoint
  have h0 : (n : ℝ) + 1 ≠ 0 := by positivity
  push_cast
  field_simp
  ring

/-- The points increase strictly and are symmetric around zero. -/
theorem C115_order {e : ℝ → ℝ} (he : IsErfInv e) (n : ℕ) :
    (normalspace e n).Pairwise (· < ·) ∧
    (normalspace e n).reverse = (normalspace e n).map fun x => -x := by
  have hs : 0 < Real.sqrt 2 := by positivity
  constructor
  · rw [normalspace_eq, List.pairwise_map]
    refine List.Pairwise.imp_of_mem ?_ (List.pairwise_lt_range (n := n))
    intro i j hi hj hij
    rw [List.mem_range] at hi hj
    obtain ⟨a1, a2⟩ := linPoint_mem n i hi
    obtain ⟨b1, b2⟩ := linPoint_mem n j hj
    refine mul_lt_mul_of_pos_left ?_ hs
    rw [← erf_strictMono.lt_iff_lt, he _ a1 a2, he _ b1 b2]
    unfold linPoint
    have : (i : ℝ) < j := by exact_mod_cast hij
    have h0 : (0 : ℝ) < n + 1 := by positivity
    push_cast
    gcongr
  · apply List.ext_getElem
    · simp
    · intro i h1 h2
      have hi : i < n := by simpa [normalspace_eq] using h1
      have hj : n - 1 - i < n := by omega
      obtain ⟨a1, a2⟩ := linPoint_mem n i hi
      obtain ⟨b1, b2⟩ := linPoint_mem n _ hj
      rw [List.getElem_reverse]
      simp only [normalspace_eq, List.getElem_map, List.getElem_range, List.length_map,
        List.length_range]
      rw [← mul_neg]
      congr 1
      apply erf_strictMono.injective
      rw [erf_neg, he _ a1 a2, he _ b1 b2]
      unfold linPoint
      have hc : ((n - 1 - i : ℕ) : ℝ) = n - 1 - i := by
        rw [Nat.cast_sub (by omega), Nat.cast_sub (by omega)]; simp
      have h0 : (n : ℝ) + 1 ≠ 0 := by positivity
      push_cast
      rw [hc]
      field_simp
      ring

/-- `soft_odd` is an odd, strictly increasing function, of the sign of its argument and smaller in
absolute value. -/
theorem C115_soft_odd :
    (∀ x, softOdd (-x) = -softOdd x) ∧ StrictMono softOdd ∧ softOdd 0 = 0 ∧
    (∀ x, 0 < x → 0 < softOdd x ∧ softOdd x < x) := by
  have hd : ∀ x : ℝ, HasDerivAt softOdd
      (Real.exp (-(x ^ 2)) * (2 * x) * x + (1 - Real.exp (-(x ^ 2)))) x := by
    intro x
    have h1 : HasDerivAt (fun t : ℝ => -(t ^ 2)) (-(2 * x)) x := by
      have h0 := (hasDerivAt_pow 2 x).fun_neg
      simpa using h0
    have h2 := ((h1.exp.const_sub 1).mul (hasDerivAt_id x))
    refine h2.congr_deriv ?_
    simp
  have hp : ∀ x : ℝ, 0 < x → 0 < softOdd x := by
    intro x hx
    have : Real.exp (-(x ^ 2)) < 1 := by rw [Real.exp_lt_one_iff]; nlinarith
    exact mul_pos (by linarith) hx
  have hodd : ∀ x, softOdd (-x) = -softOdd x := fun x => by unfold softOdd; rw [neg_sq]; ring
  have hz : softOdd 0 = 0 := by simp [softOdd]
  have hcont : Continuous softOdd := by unfold softOdd; fun_prop
  have hm : StrictMonoOn softOdd (Ici 0) := by
    apply strictMonoOn_of_deriv_pos (convex_Ici 0) hcont.continuousOn
    intro x hx
    rw [interior_Ici, mem_Ioi] at hx
    rw [(hd x).deriv]
    have : Real.exp (-(x ^ 2)) < 1 := by rw [Real.exp_lt_one_iff]; nlinarith
    have h2 : 0 < Real.exp (-(x ^ 2)) * (2 * x) * x := by positivity
    linarith
  refine ⟨hodd, ?_, hz, fun x hx => ⟨hp x hx, ?_⟩⟩
  · intro a b hab
    rcases le_or_gt 0 a with ha | ha
    · exact hm ha (ha.trans hab.le) hab
    · rcases le_or_gt 0 b with hb | hb
      · have h1 : softOdd a < 0 := by
          have := hp (-a) (by linarith)
          rw [hodd] at this; linarith
        have h2 : 0 ≤ softOdd b := by
          rcases hb.eq_or_lt with h | h
          · rw [← h, hz]
          · exact (hp b h).le
        linarith
      · have := hm (show (0 : ℝ) ≤ -b by linarith) (show (0 : ℝ) ≤ -a by linarith) (by linarith)
        rw [hodd, hodd] at this
        linarith
  · have : 0 < Real.exp (-(x ^ 2)) := Real.exp_pos _
    unfold softOdd
    nlinarith

/-- No point of `normalspace(n)` is farther than `√(n+1)` from zero. -/
theorem C115_normalspace_bound {e : ℝ → ℝ} (he : IsErfInv e) (n : ℕ) :
    ∀ x ∈ normalspace e n, x ^ 2 ≤ n + 1 := by
  have cheb : ∀ y : ℝ, y < 0 → (gaussianReal 0 1 (Iic y)).toReal ≤ 1 / y ^ 2 := by
    intro y hy
    have h := meas_ge_le_variance_div_sq (μ := gaussianReal 0 1) (X := id)
      (memLp_id_gaussianReal (μ := 0) (v := 1) 2) (c := -y) (by linarith)
    rw [variance_id_gaussianReal] at h
    simp only [id, integral_id_gaussianReal, sub_zero, NNReal.coe_one, even_two, Even.neg_pow] at h
    have hsub : Iic y ⊆ {ω : ℝ | -y ≤ |ω|} := by
      intro w hw
      have : w ≤ y := hw
      simp only [mem_setOf_eq]
      rw [abs_of_neg (by linarith)]
      linarith
    have h2 := (measure_mono hsub).trans h
    exact ENNReal.toReal_le_of_le_ofReal (by positivity) h2
  have neg : ∀ x : ℝ, (gaussianReal 0 1 (Iic (-x))).toReal = 1 - (gaussianReal 0 1 (Iic x)).toReal := by
    intro x
    rw [normal_Iic, normal_Iic, neg_div, erf_neg]
    ring
  intro x hx
  obtain ⟨i, hi, rfl⟩ := List.getElem_of_mem hx
  obtain ⟨hl, hq⟩ := C115_normalspace he n
  have hin : i < n := by rwa [hl] at hi
  have q := hq i hi
  set x := (normalspace e n)[i] with hxdef
  have h0 : (0 : ℝ) < n + 1 := by positivity
  have hi' : (i : ℝ) + 1 ≤ n := by exact_mod_cast hin
  have key : ∀ y : ℝ, y < 0 → 1 / ((n : ℝ) + 1) ≤ (gaussianReal 0 1 (Iic y)).toReal → y ^ 2 ≤ n + 1 := by
    intro y hy hP
    have h := hP.trans (cheb y hy)
    have hy2 : 0 < y ^ 2 := by nlinarith
    rw [div_le_div_iff₀ h0 hy2] at h
    linarith
  rcases lt_trichotomy x 0 with h | h | h
  · refine key x h ?_
    rw [q]
    gcongr
    have : (0 : ℝ) ≤ i := by positivity
    linarith
  · rw [h]; norm_num; linarith
  · have := key (-x) (by linarith) (by
      rw [neg, q, le_sub_iff_add_le, ← add_div, div_le_one h0]
      linarith)
    simpa using this

/-- The same for any number of sample points between 2 and `10^10`. -/
theorem C115_odd_act_of_size {e : ℝ → ℝ} (he : IsErfInv e) {N : ℕ} (hN : 2 ≤ N) (hN' : N < 10000000000) (env : ℕ → ℝ → ℝ) (odd : ℕ)
    (hodd : env odd = softOdd) (nrm : Bool) :
    parityFunction (effective env (normalspace e N) nrm odd) = -1 ∧
    effective env (normalspace e N) nrm odd 0 = 0 := by
  obtain ⟨so, _, sz, sp⟩ := C115_soft_odd
  obtain ⟨pts, hpts⟩ : ∃ p, p = normalspace e N := ⟨_, rfl⟩
  rw [← hpts]
  have hlen : pts.length = N := by rw [hpts]; exact (C115_normalspace he _).1
  have hNR : (2 : ℝ) ≤ N := by exact_mod_cast hN
  have hNR' : (N : ℝ) + 1 ≤ 1e10 := by
    have : N + 1 ≤ 10000000000 := hN'
    have h := (Nat.cast_le (α := ℝ)).mpr this
    push_cast at h
    norm_num
    exact h
  have ten : 9 ≤ softOdd 10 := by
    unfold softOdd
    have : Real.exp (-((10 : ℝ) ^ 2)) ≤ 1 / 10 := by
      have h1 : (10 : ℝ) ≤ Real.exp (10 ^ 2) := by
        have := Real.add_one_le_exp ((10 : ℝ) ^ 2)
        norm_num at this ⊢
        linarith
      rw [Real.exp_neg, inv_eq_one_div]
      gcongr
    generalize Real.exp (-((10 : ℝ) ^ 2)) = E at this ⊢
    linarith
  have fin : ∀ c : ℝ, 1e-5 ≤ c → ∀ f : ℝ → ℝ, (∀ t, f t = c * softOdd t) → parityFunction f = -1 ∧ f 0 = 0 := by
    intro c hc f hf
    refine ⟨(C44_parity_function f).2.1 (fun t => by rw [hf, hf, so]; ring) ⟨255, by norm_num, ?_⟩, by rw [hf, sz, mul_zero]⟩
    have : (10 : ℝ) * (255 : ℕ) / 255 = 10 := by norm_num
    rw [this, hf, abs_of_nonneg (by nlinarith)]
    nlinarith
  unfold effective
  cases nrm with
  | false => simpa [hodd] using fin 1 (by norm_num) softOdd (by simp)
  | true =>
    simp only [if_true, hodd]
    have hle : ∀ x, softOdd x ^ 2 ≤ x ^ 2 := by
      intro x
      have h1 : 0 < Real.exp (-(x ^ 2)) := Real.exp_pos _
      have h2 : Real.exp (-(x ^ 2)) ≤ 1 := by rw [Real.exp_le_one_iff]; nlinarith
      have h3 : (1 - Real.exp (-(x ^ 2))) ^ 2 ≤ 1 := by nlinarith
      unfold softOdd
      rw [mul_pow]
      nlinarith [sq_nonneg x]
    have hS : (pts.map fun x => softOdd x ^ 2).sum ≤ N * (N + 1) := by
      have := List.sum_le_card_nsmul (pts.map fun x => softOdd x ^ 2) ((N : ℝ) + 1) (by
        intro y hy
        obtain ⟨x, hx, rfl⟩ := List.mem_map.mp hy
        rw [hpts] at hx
        exact (hle x).trans (C115_normalspace_bound he _ x hx))
      rw [List.length_map, hlen, nsmul_eq_mul] at this
      exact this
    have hpos : 0 < (pts.map fun x => softOdd x ^ 2).sum := by
      have hne : ∃ x ∈ pts, x ≠ 0 := by
        by_contra hcon
        push Not at hcon
        have hp := (C115_order he N).1
        rw [← hpts] at hp
        have h01 := List.pairwise_iff_getElem.mp hp 0 1 (by omega) (by omega) (by norm_num)
        rw [hcon _ (List.getElem_mem _), hcon _ (List.getElem_mem _)] at h01
        exact lt_irrefl _ h01
      obtain ⟨x, hx, hx0⟩ := hne
      have hsx : softOdd x ≠ 0 := by
        rcases lt_or_gt_of_ne hx0 with h | h
        · have := (sp (-x) (by linarith)).1
          rw [so] at this
          intro hz; rw [hz] at this; simp at this
        · exact (sp x h).1.ne'
      have h1 : 0 < softOdd x ^ 2 := by positivity
      refine h1.trans_le (List.single_le_sum ?_ _ (List.mem_map.mpr ⟨x, hx, rfl⟩))
      intro y hy
      obtain ⟨z, _, rfl⟩ := List.mem_map.mp hy
      positivity
    obtain ⟨c, c0, cf, hc⟩ := C44_normalize_function pts softOdd hpos
    refine fin c ?_ _ cf
    rcases hc with hc | hc
    · simp only [cf, mul_pow] at hc
      rw [List.sum_map_mul_left, hlen] at hc
      have h3 : c ^ 2 * (pts.map fun x => softOdd x ^ 2).sum = N := by
        rw [div_eq_one_iff_eq (by positivity)] at hc
        exact hc
      by_contra hcon
      push Not at hcon
      have h4 : c ^ 2 < 1e-10 := by nlinarith
      have h5 : c ^ 2 * (pts.map fun x => softOdd x ^ 2).sum ≤ c ^ 2 * (N * (N + 1)) :=
        mul_le_mul_of_nonneg_left hS (by positivity)
      have h6 : c ^ 2 * ((N : ℝ) * (N + 1)) < N := by
        have : c ^ 2 * ((N : ℝ) + 1) < 1 := by nlinarith
        nlinarith
      linarith
    · rw [hc.1]; norm_num

/-- The default activation of odd scalars is detected as odd, after normalisation over the million
points of `normalspace` as well as without it, and it maps zero to zero: odd scalars stay odd scalars. -/
theorem C115_default_odd_act {e : ℝ → ℝ} (he : IsErfInv e) (env : ℕ → ℝ → ℝ) (odd : ℕ)
    (hodd : env odd = softOdd) (nrm : Bool) :
    parityFunction (effective env (normalspace e 1000001) nrm odd) = -1 ∧
    effective env (normalspace e 1000001) nrm odd 0 = 0 :=
  C115_odd_act_of_size he (by norm_num) (by norm_num) env odd hodd nrm

/-- The hypothesis on `erfinv` can be met. -/
example : ∃ e, IsErfInv e := exists_erfInv

/-- The median is a point of `normalspace(1)`. -/
example {e : ℝ → ℝ} (he : IsErfInv e) : normalspace e 1 = [0] := by
  have h := (C115_order he 1).2
  rw [normalspace_eq] at h ⊢
  simp at h ⊢
  nlinarith [Real.sqrt_pos.mpr (show (0 : ℝ) < 2 by norm_num)]

end E3nn
