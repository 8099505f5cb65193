import Verif.Lemmas.ActivationTr
import Verif.Lemmas.Rowwise
import Verif.Props.C59

/-!
# C44: `scalar_activation` and `norm_activation`; C60: `soft_normalization`

Leading axes are the index type `ι`.  `F = effective env pts normalize_act` gives the function that
is applied for a function object: the given function, or its normalised multiple.
-/

namespace E3nn
open IArr Matrix E3nn.Rot E3nn.Wig E3nn.Activ

variable {ι : Type}

/-- An activation may be applied to a term: there is none, or the term is made of scalars and, if they
are odd, the function was found to be even or odd. -/
def ActAllowed (F : ℕ → ℝ → ℝ) (m : MulIrrep) (a : Option ℕ) : Prop :=
  ∀ f, a = some f → m.ir.l = 0 ∧ (m.ir.p = .o → parityFunction (F f) = 1 ∨ parityFunction (F f) = -1)

theorem allowed_iff {F : ℕ → ℝ → ℝ} {m : MulIrrep} {a : Option ℕ} : ActAllowed F m a ↔ Activ.Allowed F m a := by
  cases a with
  | none => simp [ActAllowed, Activ.Allowed]
  | some a =>
    simp only [ActAllowed, Activ.Allowed, Option.some.injEq, forall_eq']
    refine and_congr_right fun _ => imp_congr_right fun _ => ?_
    rcases parityFunction_vals (F a) with e | e | e <;> rw [e] <;> decide

/-- What the activation does to a term and its data. -/
noncomputable def activated (F : ℕ → ℝ → ℝ) (t : MulIrrep × List (Col ι)) : Option ℕ → MulIrrep × List (Col ι)
  | none => t
  | some f => (⟨t.1.mul, ⟨0, if t.1.ir.p = .o ∧ parityFunction (F f) = -1 then .o else .e⟩⟩, t.2.map fun v i => F f (v i))

theorem activated_eq {F : ℕ → ℝ → ℝ} (t : MulIrrep × List (Col ι)) (a : Option ℕ) :
    activated F t a = (outTerm F t.1 a, t.2.map (applyAct F a)) := by
  cases a with
  | none => simp [activated, outTerm, applyAct]
  | some a =>
    cases h : t.1.ir.p <;> (simp [activated, outTerm, applyAct, h, ofSign]; intros; rfl)

/-- **C44 (values).** With one entry of `acts` per term, every entry accepted, and zero-flagged chunks only
under functions that vanish at zero: `scalar_activation` returns; a term without function is unchanged;
a function is applied to every component of its term, whose parity stays even if it was even and becomes
the detected parity of the function if it was odd; zero flags are kept. -/
theorem C44_scalar_activation (env : ℕ → ℝ → ℝ) (pts : List ℝ) (acts : List (Option ℕ)) (even odd : ℕ) (nrm : Bool) (x : IArr (Col ι))
    (hx : x.Coherent) (hl : acts.length = x.irreps.length)
    (hA : ∀ (i : ℕ) (m : MulIrrep) (a : Option ℕ), x.irreps[i]? = some m → acts[i]? = some a → ActAllowed (effective env pts nrm) m a)
    (hZ : ∀ (i : ℕ) (f : ℕ), x.zeroFlags[i]? = some true → acts[i]? = some (some f) → effective env pts nrm f 0 = 0) :
    ∃ y, scalarActivation env pts (some acts) even odd nrm x = .ok y ∧ y.Coherent ∧ y.zeroFlags = x.zeroFlags ∧
      y.terms = List.zipWith (activated (effective env pts nrm)) x.terms acts := by
  have hi := hx.inv
  have hA' : ∀ q ∈ x.irreps.zip acts, Activ.Allowed (effective env pts nrm) q.1 q.2 := by
    intro q hq
    obtain ⟨i, h⟩ := List.mem_iff_getElem?.mp hq
    rw [List.getElem?_zip_eq_some] at h
    exact allowed_iff.mp (hA i q.1 q.2 h.1 h.2)
  have hZ' : ∀ q ∈ (x.irreps.zip x.chunks).zip acts, q.1.2 = none → ∀ b, q.2 = some b → effective env pts nrm b 0 = 0 := by
    intro q hq hn b hb
    obtain ⟨i, h⟩ := List.mem_iff_getElem?.mp hq
    rw [List.getElem?_zip_eq_some] at h
    refine hZ i b ?_ (by rw [h.2, hb])
    rw [← hi.pairs.2.2.2.2.1, List.getElem?_map, h.1]
    simp [hn]
  obtain ⟨y, h1, h2, -, h4, -, h6⟩ := activation_spec env pts acts even odd nrm (some acts) rfl hi hl.symm hA' hZ'
  refine ⟨y, h1, h2.coherent, h6, ?_⟩
  rw [h4]
  congr 1
  funext t a
  exact (activated_eq t a).symm

/-- **C44 (default).** Without `acts`, even scalars get `even_act`, odd scalars `odd_act` and everything else nothing. -/
theorem C44_default (env : ℕ → ℝ → ℝ) (pts : List ℝ) (even odd : ℕ) (nrm : Bool) (x : IArr (Col ι)) :
    scalarActivation env pts none even odd nrm x =
      scalarActivation env pts (some (x.irreps.map fun m => if m.ir = ⟨0, .e⟩ then some even else if m.ir = ⟨0, .o⟩ then some odd else none))
        even odd nrm x := by
  have : defaultActs even odd x.irreps =
      x.irreps.map fun m => if m.ir = ⟨0, .e⟩ then some even else if m.ir = ⟨0, .o⟩ then some odd else none := by
    unfold defaultActs
    apply List.map_congr_left
    rintro ⟨mul, l, p⟩ _
    cases p <;> by_cases h : l = 0 <;> simp [h]
  unfold scalarActivation
  simp only [Option.getD_none, Option.getD_some, this]

/-- **C44 (refusals).** A wrong number of functions fails the assertion; a function on a term that is not scalar, or on
odd scalars when it was found neither even nor odd, is a `ValueError`. -/
theorem C44_refuses (env : ℕ → ℝ → ℝ) (pts : List ℝ) (acts : List (Option ℕ)) (even odd : ℕ) (nrm : Bool) (x : IArr (Col ι))
    (hx : x.Coherent) :
    (acts.length ≠ x.irreps.length → scalarActivation env pts (some acts) even odd nrm x = .error .assertion) ∧
    (acts.length = x.irreps.length → (∃ (i : ℕ) (m : MulIrrep) (a : Option ℕ), x.irreps[i]? = some m ∧ acts[i]? = some a ∧ ¬ ActAllowed (effective env pts nrm) m a) →
      scalarActivation env pts (some acts) even odd nrm x = .error .valueError) := by
  constructor
  · intro h
    unfold scalarActivation
    simp only [Option.getD_some]
    rw [if_pos (Ne.symm h)]
  · rintro h ⟨i, m, a, h1, h2, h3⟩
    refine activation_error env pts acts even odd nrm (some acts) rfl hx.inv h.symm fun hc => h3 (allowed_iff.mpr ?_)
    exact hc (m, a) (List.mem_iff_getElem?.mpr ⟨i, List.getElem?_zip_eq_some.mpr ⟨h1, h2⟩⟩)

/-- **C44 (parity detection).** An even function is found even; an odd function is found odd, unless it is
smaller than `5e-6` at all 256 sample points `10 i / 255`; a function found even (odd) is even (odd) up to `1e-5` at these points. -/
theorem C44_parity_function (f : ℝ → ℝ) :
    ((∀ t, f (-t) = f t) → parityFunction f = 1) ∧
    ((∀ t, f (-t) = -f t) → (∃ i : ℕ, i < 256 ∧ 5e-6 ≤ |f (10 * i / 255)|) → parityFunction f = -1) ∧
    (parityFunction f = 1 → ∀ i : ℕ, i < 256 → |f (10 * i / 255) - f (-(10 * i / 255))| < 1e-5) ∧
    (parityFunction f = -1 → ∀ i : ℕ, i < 256 → |f (10 * i / 255) + f (-(10 * i / 255))| < 1e-5) := by
  refine ⟨?_, ?_, ?_, ?_⟩
  · intro h
    unfold parityFunction
    rw [if_pos]
    intro i _
    rw [h]; norm_num
  · rintro h ⟨i, hi, hf⟩
    unfold parityFunction
    rw [if_neg, if_pos]
    · intro i _
      rw [h]; norm_num
    · push Not
      refine ⟨i, hi, ?_⟩
      rw [h, sub_neg_eq_add]
      have : f (samplePoint i) + f (samplePoint i) = 2 * f (10 * i / 255) := by unfold samplePoint; ring
      rw [this, abs_mul, abs_two]
      linarith
  · intro h
    unfold parityFunction at h
    split at h
    · rename_i hc; exact hc
    · split at h <;> simp at h
  · intro h
    unfold parityFunction at h
    split at h
    · simp at h
    · split at h
      · rename_i hc; exact hc
      · simp at h

/-- The claim "the parity of the activation is detected" is false in general: the odd function `sin(25.5 π x)`
vanishes at all the sample points and is taken for an even one. -/
theorem C44_aliasing_witness :
    let f : ℝ → ℝ := fun t => Real.sin (51 / 2 * Real.pi * t)
    (∀ t, f (-t) = -f t) ∧ f (1 / 51) = 1 ∧ parityFunction f = 1 := by
  intro f
  have hodd : ∀ t, f (-t) = -f t := by
    intro t
    show Real.sin _ = - Real.sin _
    rw [mul_neg, Real.sin_neg]
  refine ⟨hodd, ?_, ?_⟩
  · show Real.sin _ = 1
    rw [show 51 / 2 * Real.pi * (1 / 51) = Real.pi / 2 by ring, Real.sin_pi_div_two]
  · unfold parityFunction
    rw [if_pos]
    intro i _
    have : f (samplePoint i) = 0 := by
      show Real.sin _ = 0
      rw [show 51 / 2 * Real.pi * samplePoint i = (i : ℕ) * Real.pi by unfold samplePoint; ring]
      exact Real.sin_nat_mul_pi i
    rw [hodd, this]
    norm_num

/-- **C44 (equivariance).** If the functions on odd scalars really have the parity that was detected,
`scalar_activation` commutes with every element of O(3), inversion included. -/
theorem C44_equivariant (env : ℕ → ℝ → ℝ) (pts : List ℝ) (acts : List (Option ℕ)) (even odd : ℕ) (nrm : Bool) (x : IArr (Col ι))
    (hx : x.Coherent) (hl : acts.length = x.irreps.length)
    (hA : ∀ (i : ℕ) (m : MulIrrep) (a : Option ℕ), x.irreps[i]? = some m → acts[i]? = some a → ActAllowed (effective env pts nrm) m a)
    (hZ : ∀ (i : ℕ) (f : ℕ), x.zeroFlags[i]? = some true → acts[i]? = some (some f) → effective env pts nrm f 0 = 0)
    (hP : ∀ (i : ℕ) (mul : ℕ) (f : ℕ), x.irreps[i]? = some ⟨mul, ⟨0, .o⟩⟩ → acts[i]? = some (some f) →
      ∀ t, effective env pts nrm f (-t) = parityFunction (effective env pts nrm f) * effective env pts nrm f t)
    {R : Matrix (Fin 3) (Fin 3) ℝ} (hR : IsOrth R) :
    ∃ y x' y' y'', scalarActivation env pts (some acts) even odd nrm x = .ok y ∧ x.transformByMatrix R = .ok x' ∧
      scalarActivation env pts (some acts) even odd nrm x' = .ok y' ∧ y.transformByMatrix R = .ok y'' ∧ y'.Equal y'' := by
  have hi := hx.inv
  have hA' : ∀ q ∈ x.irreps.zip acts, Activ.Allowed (effective env pts nrm) q.1 q.2 := by
    intro q hq
    obtain ⟨i, h⟩ := List.mem_iff_getElem?.mp hq
    rw [List.getElem?_zip_eq_some] at h
    exact allowed_iff.mp (hA i q.1 q.2 h.1 h.2)
  have hZ' : ∀ q ∈ (x.irreps.zip x.chunks).zip acts, q.1.2 = none → ∀ b, q.2 = some b → effective env pts nrm b 0 = 0 := by
    intro q hq hn b hb
    obtain ⟨i, h⟩ := List.mem_iff_getElem?.mp hq
    rw [List.getElem?_zip_eq_some] at h
    refine hZ i b ?_ (by rw [h.2, hb])
    rw [← hi.pairs.2.2.2.2.1, List.getElem?_map, h.1]
    simp [hn]
  have hP' : ∀ q ∈ x.irreps.zip acts, ∀ b, q.2 = some b → q.1.ir.p = .o →
      HasParity (effective env pts nrm b) (parityFunction (effective env pts nrm b)) := by
    intro q hq b hb ho
    have hal := hA' q hq
    obtain ⟨i, h⟩ := List.mem_iff_getElem?.mp hq
    rw [List.getElem?_zip_eq_some] at h
    rw [hb] at hal
    refine hP i q.1.mul b ?_ (by rw [h.2, hb])
    rw [h.1]
    obtain ⟨⟨mul, l, p⟩, a⟩ := q
    have h1 : l = 0 := hal.1
    have h2 : p = .o := ho
    subst h1 h2; rfl
  obtain ⟨x', t1, t2⟩ := transformBy_spec (act_DR (ι := ι) R) hi
  obtain ⟨y, y', h1, h2, h3⟩ := tr_scalarActivation env pts acts even odd nrm hR t2 (some acts) rfl hl.symm hA' hZ' hP'
  obtain ⟨y'', u1, u2⟩ := transformBy_spec (act_DR (ι := ι) R) h3.inv
  exact ⟨y, x', y', y'', h1, t1, h2, u1, h3.unique u2⟩

/-- **C44 (normalisation).** `normalize_function` returns a positive multiple of the function (so it has the same exact parity and the same
zeros), whose mean square over the sample points is 1, or the function itself if its root mean square is 1 within the tolerance. -/
theorem C44_normalize_function (pts : List ℝ) (f : ℝ → ℝ) (hc : 0 < (pts.map fun x => f x ^ 2).sum) :
    ∃ c : ℝ, 0 < c ∧ (∀ t, normalizeFunction pts f t = c * f t) ∧
      ((pts.map fun x => normalizeFunction pts f x ^ 2).sum / pts.length = 1 ∨
       (c = 1 ∧ |Real.sqrt ((pts.map fun x => f x ^ 2).sum / pts.length) - 1| ≤ 1.001e-5)) := by
  set S := (pts.map fun x => f x ^ 2).sum with hS
  have hn : (0 : ℝ) < pts.length := by
    rcases Nat.eq_zero_or_pos pts.length with h | h
    · rw [List.length_eq_zero_iff] at h; rw [hS, h] at hc; simp at hc
    · exact_mod_cast h
  have hpos : 0 < Real.sqrt (S / pts.length) := Real.sqrt_pos.mpr (by positivity)
  unfold normalizeFunction
  simp only [← hS]
  split
  · rename_i h
    refine ⟨1, one_pos, by simp, Or.inr ⟨rfl, ?_⟩⟩
    unfold AllClose at h
    refine h.trans ?_
    norm_num
  · refine ⟨1 / Real.sqrt (S / pts.length), by positivity, fun t => by ring, Or.inl ?_⟩
    have e : (pts.map fun x => (f x / Real.sqrt (S / pts.length)) ^ 2) = pts.map fun x => (1 / (S / pts.length)) * f x ^ 2 := by
      apply List.map_congr_left
      intro x _
      rw [div_pow, Real.sq_sqrt (by positivity)]
      ring
    rw [e, List.sum_map_mul_left, ← hS]
    field_simp

/-- `norm_activation` applied to a block: the block times the function of its norm, the norm being the
square root of the sum of squares, or of the mean of squares when `normalization="component"`. -/
noncomputable def normActivated (env : ℕ → ℝ → ℝ) (component : Bool) (b : Irrep × List (Col ι)) : Option ℕ → Irrep × List (Col ι)
  | none => b
  | some f => (b.1, b.2.map fun v i =>
      env f (Real.sqrt ((b.2.map fun w => w i ^ 2).sum / (if component then 2 * (b.1.l : ℝ) + 1 else 1))) * v i)

theorem sumSq_nonneg (r : List (Col ι)) (i : ι) : 0 ≤ sumSq r i := by
  unfold sumSq
  apply List.sum_nonneg
  intro a ha
  obtain ⟨v, -, rfl⟩ := List.mem_map.mp ha
  positivity

theorem sumSq_zero {r : List (Col ι)} {i : ι} (h : sumSq r i = 0) : ∀ v ∈ r, v i = 0 := by
  induction r with
  | nil => intro v hv; simp at hv
  | cons a r ih =>
    have e : sumSq (a :: r) i = a i ^ 2 + sumSq r i := by simp [sumSq]
    have h1 := sumSq_nonneg r i
    have h2 := sq_nonneg (a i)
    intro v hv
    rcases List.mem_cons.mp hv with rfl | hv
    · have : v i ^ 2 = 0 := by linarith
      exact pow_eq_zero_iff (two_ne_zero) |>.mp this
    · exact ih (by linarith) v hv

theorem normG_eq (env : ℕ → ℝ → ℝ) (component : Bool) (b : Irrep × List (Col ι)) (hb : b.2.length = 2 * b.1.l + 1) (a : Option ℕ) :
    (b.1, normG env component a b.1 b.2) = normActivated env component b a := by
  cases a with
  | none => rfl
  | some f =>
    simp only [normG, normActivated, normRow, Prod.mk.injEq, true_and]
    apply List.map_congr_left
    intro v hv
    funext i
    rw [rowNorm_eq, hb]
    have hd : ((2 * b.1.l + 1 : ℕ) : ℝ) = 2 * (b.1.l : ℝ) + 1 := by push_cast; ring
    have hpos : (0 : ℝ) < 2 * (b.1.l : ℝ) + 1 := by positivity
    have e : (if component then sumSq b.2 i / ((2 * b.1.l + 1 : ℕ) : ℝ) else sumSq b.2 i) =
        (b.2.map fun w => w i ^ 2).sum / (if component then 2 * (b.1.l : ℝ) + 1 else 1) := by
      cases component <;> simp [sumSq, hd]
    rw [e, mul_comm]
    by_cases hc : 0 < (b.2.map fun w => w i ^ 2).sum / (if component then 2 * (b.1.l : ℝ) + 1 else 1)
    · rw [if_pos hc]
    · rw [if_neg hc]
      have h0 : sumSq b.2 i = 0 := by
        by_contra hne
        apply hc
        have := lt_of_le_of_ne (sumSq_nonneg b.2 i) (Ne.symm hne)
        unfold sumSq at this
        cases component
        · simpa only [Bool.false_eq_true, if_false, div_one] using this
        · simp only [if_true]; positivity
      rw [sumSq_zero h0 v hv]; simp

/-- **C44 (norm activation).** Irreps and zero flags are kept and every block is multiplied by the function of its
norm (a zero block stays zero); blocks of terms without a function are unchanged. -/
theorem C44_norm_activation (env : ℕ → ℝ → ℝ) (acts : List (Option ℕ)) (component : Bool) (x : IArr (Col ι)) (hx : x.Coherent) :
    (acts.length ≠ x.irreps.length → normActivation env acts component x = .error .assertion) ∧
    (acts.length = x.irreps.length → ∃ y, normActivation env acts component x = .ok y ∧ y.Coherent ∧ y.irreps = x.irreps ∧ y.zeroFlags = x.zeroFlags ∧
      y.blocks = List.zipWith (normActivated env component) x.blocks
        ((x.irreps.zip acts).flatMap fun q => List.replicate q.1.mul q.2)) := by
  constructor
  · intro h
    unfold normActivation
    rw [if_pos (Ne.symm h)]
  · intro h
    obtain ⟨y, h1, h2, -, h4, h5, h6⟩ := rowwise_spec (normG_act (ι := ι) env component) hx.inv acts h.symm
    refine ⟨y, by rw [normActivation_eq env acts component hx.inv h.symm, h1], h2.coherent, h4, h5, ?_⟩
    rw [h6]
    show List.zipWith _ _ (perIrrep x.irreps acts) = List.zipWith _ _ (perIrrep x.irreps acts)
    generalize perIrrep x.irreps acts = l
    have hb : ∀ b ∈ x.blocks, b.2.length = 2 * b.1.l + 1 := fun b hb => transform_comp.block_len hx hb
    generalize x.blocks = bs at hb
    induction bs generalizing l with
    | nil => simp
    | cons b bs ih =>
      cases l with
      | nil => simp
      | cons a l =>
        simp only [List.zipWith_cons_cons]
        rw [normG_eq env component b (hb b (by simp)), ih l fun c hc => hb c (by simp [hc])]

/-- **C44 (norm activation).** It commutes with every element of O(3), for arbitrary functions. -/
theorem C44_norm_equivariant (env : ℕ → ℝ → ℝ) (acts : List (Option ℕ)) (component : Bool) (x : IArr (Col ι)) (hx : x.Coherent)
    (hl : acts.length = x.irreps.length) {R : Matrix (Fin 3) (Fin 3) ℝ} (hR : IsOrth R) :
    ∃ y x' y' y'', normActivation env acts component x = .ok y ∧ x.transformByMatrix R = .ok x' ∧
      normActivation env acts component x' = .ok y' ∧ y.transformByMatrix R = .ok y'' ∧ y'.Equal y'' := by
  obtain ⟨x', t1, t2⟩ := transformBy_spec (act_DR (ι := ι) R) hx.inv
  obtain ⟨y, y', h1, h2, h3⟩ := tr_rowwise (normG_act (ι := ι) env component) t2 acts hl.symm
    fun g _ ir r hr => normG_DR env component g hR ir hr
  obtain ⟨y'', u1, u2⟩ := transformBy_spec (act_DR (ι := ι) R) h3.inv
  refine ⟨y, x', y', y'', ?_, t1, ?_, u1, h3.unique u2⟩
  · rw [normActivation_eq env acts component hx.inv hl.symm, h1]
  · rw [normActivation_eq env acts component t2.inv' (by rw [t2.irreps]; exact hl.symm), h2]

/-! ### C60 -/

theorem sus_pos {t : ℝ} (h : 0 < t) : sus t = Real.exp (-1 / t) := by
  unfold sus; simp [h]

/-- The norm after `soft_normalization` of a block of norm `n`. -/
theorem soft_bound {M n : ℝ} (hM : 0 < M) (hn : 0 ≤ n) :
    0 < 1 / (1 + n / M * sus (n / M)) ∧ 1 / (1 + n / M * sus (n / M)) ≤ 1 ∧ n * (1 / (1 + n / M * sus (n / M))) ≤ M := by
  have ht : 0 ≤ n / M := by positivity
  have hs : 0 ≤ sus (n / M) := by
    unfold sus; split <;> positivity
  have h1 : 1 ≤ 1 + n / M * sus (n / M) := by nlinarith [mul_nonneg ht hs]
  refine ⟨by positivity, by rw [div_le_one (by linarith)]; exact h1, ?_⟩
  rw [mul_one_div, div_le_iff₀ (by linarith)]
  rcases eq_or_lt_of_le ht with h0 | h0
  · have : n = 0 := by
      have := (div_eq_zero_iff.mp h0.symm); rcases this with h | h
      · exact h
      · linarith
    rw [this]; simp; exact hM.le
  · rw [sus_pos h0]
    have hexp : 1 - 1 / (n / M) ≤ Real.exp (-1 / (n / M)) := by
      have := Real.add_one_le_exp (-1 / (n / M)); rw [neg_div] at this ⊢; linarith
    have hmul : n / M * (1 - 1 / (n / M)) ≤ n / M * Real.exp (-1 / (n / M)) := mul_le_mul_of_nonneg_left hexp ht
    have he : n / M * (1 - 1 / (n / M)) = n / M - 1 := by rw [mul_sub, mul_one, mul_one_div, div_self h0.ne']
    rw [he] at hmul
    have : M * (n / M) = n := by field_simp
    nlinarith

/-- **C60 (values).** `soft_normalization(x, M)` for `M > 0` keeps irreps and zero flags and multiplies every block by a factor between
0 (excluded) and 1, the same for its components; afterwards the root mean square of the components of a block is at most `M`. -/
theorem C60_soft_normalization {M : ℝ} (hM : 0 < M) (x : IArr (Col ι)) (hx : x.Coherent) :
    ∃ (y : IArr (Col ι)) (c : Irrep × List (Col ι) → ι → ℝ), softNormalization M x = .ok y ∧ y.Coherent ∧ y.irreps = x.irreps ∧ y.zeroFlags = x.zeroFlags ∧
      (y.blocks = x.blocks.map fun b => (b.1, b.2.map fun v i => c b i * v i)) ∧
      (∀ b i, 0 < c b i ∧ c b i ≤ 1) ∧
      (∀ b ∈ y.blocks, ∀ i, Real.sqrt ((b.2.map fun w => w i ^ 2).sum / (2 * b.1.l + 1)) ≤ M) := by
  obtain ⟨y, h1, h2, h3, h4, h5⟩ := (C44_norm_activation (fun _ n => 1 / (1 + n / M * sus (n / M))) (x.irreps.map fun _ => some 0) true x hx).2 (by simp)
  set c : Irrep × List (Col ι) → ι → ℝ := fun b i =>
    (fun n => 1 / (1 + n / M * sus (n / M))) (Real.sqrt ((b.2.map fun w => w i ^ 2).sum / (2 * b.1.l + 1))) with hc
  have hlen : ∀ (ms : Irreps), (((ms.zip (ms.map fun _ => (some 0 : Option ℕ))).flatMap fun q => List.replicate q.1.mul q.2)) =
      List.replicate (expand ms).length (some 0) := by
    intro ms
    induction ms with
    | nil => rfl
    | cons m ms ih =>
      simp only [List.map_cons, List.zip_cons_cons, List.flatMap_cons, ih, expand, List.length_append, List.length_replicate, List.replicate_add]
  have hbl : x.blocks.length = (expand x.irreps).length := by
    have : ∀ (s : List Irrep) (a : List (Col ι)), (blocksOf s a).length = s.length := by
      intro s
      induction s with
      | nil => intro a; rfl
      | cons i s ih => intro a; simp [blocksOf, ih]
    exact this _ _
  have hy : y.blocks = x.blocks.map fun b => (b.1, b.2.map fun v i => c b i * v i) := by
    rw [h5, hlen, ← hbl, zipWith_replicate]
    apply List.map_congr_left
    intro b _
    simp [normActivated, hc]
  refine ⟨y, c, h1, h2, h3, h4, hy, ?_, ?_⟩
  · intro b i
    have := soft_bound (n := Real.sqrt ((b.2.map fun w => w i ^ 2).sum / (2 * b.1.l + 1))) hM (Real.sqrt_nonneg _)
    exact ⟨this.1, this.2.1⟩
  · intro b hb i
    rw [hy] at hb
    obtain ⟨b0, h0, rfl⟩ := List.mem_map.mp hb
    have hs := soft_bound (n := Real.sqrt ((b0.2.map fun w => w i ^ 2).sum / (2 * b0.1.l + 1))) hM (Real.sqrt_nonneg _)
    have e : ((b0.2.map fun v i => c b0 i * v i).map fun w => w i ^ 2).sum / (2 * (b0.1.l : ℝ) + 1) =
        c b0 i ^ 2 * ((b0.2.map fun w => w i ^ 2).sum / (2 * b0.1.l + 1)) := by
      rw [List.map_map, ← mul_div_assoc, ← List.sum_map_mul_left]
      congr 2
      apply List.map_congr_left
      intro v _
      simp only [Function.comp]; ring
    simp only
    rw [e, Real.sqrt_mul (sq_nonneg _), Real.sqrt_sq hs.1.le, mul_comm]
    exact hs.2.2

/-- **C60 (equivariance).** It commutes with every element of O(3). -/
theorem C60_equivariant (M : ℝ) (x : IArr (Col ι)) (hx : x.Coherent) {R : Matrix (Fin 3) (Fin 3) ℝ} (hR : IsOrth R) :
    ∃ y x' y' y'', softNormalization M x = .ok y ∧ x.transformByMatrix R = .ok x' ∧
      softNormalization M x' = .ok y' ∧ y.transformByMatrix R = .ok y'' ∧ y'.Equal y'' := by
  obtain ⟨y, x', y', y'', h1, h2, h3, h4⟩ := C44_norm_equivariant (fun _ n => 1 / (1 + n / M * sus (n / M))) (x.irreps.map fun _ => some 0) true x hx (by simp) hR
  refine ⟨y, x', y', y'', h1, h2, ?_, h4⟩
  obtain ⟨z, z1, -, z3, -⟩ := C59_transform R x hx
  rw [h2] at z1
  injection z1 with z1
  unfold softNormalization
  rw [z1, z3, ← z1]
  exact h3

/-- **C60 (key-value activation).** `key_value_activation` is a multiple of the key and commutes with orthogonal matrices
acting on key and value. -/
theorem C60_key_value (pts : List ℝ) (phi : ℝ → ℝ) {d : ℕ} (key value : Fin d → ℝ) {O : Matrix (Fin d) (Fin d) ℝ} (hO : O * Oᵀ = 1) :
    keyValueActivation pts phi (O.mulVec key) (O.mulVec value) = O.mulVec (keyValueActivation pts phi key value) := by
  have h1 : ∑ j, (O.mulVec key) j ^ 2 = ∑ j, key j ^ 2 := by
    simp only [pow_two]; exact orth_dot hO key key
  have h2 : ∀ N : ℝ, ∑ j, (O.mulVec key) j / N * (O.mulVec value) j = ∑ j, key j / N * value j := by
    intro N
    have := orth_dot hO key value
    simp only [div_mul_eq_mul_div, ← Finset.sum_div]
    congr 1
  funext i
  unfold keyValueActivation
  simp only [h1, h2]
  simp only [Matrix.mulVec, dotProduct]
  rw [Finset.sum_div, Finset.mul_sum]
  exact Finset.sum_congr rfl fun j _ => by ring

/-! ### non-trivial cases -/

/-- The identity on the scalars of `2x0e + 1x0o + 1x1o` meets the hypotheses of C44, the last one included. -/
example : ∃ (x : IArr (Col Unit)) (acts : List (Option ℕ)) (env : ℕ → ℝ → ℝ), x.Coherent ∧ x.irreps = [⟨2, ⟨0, .e⟩⟩, ⟨1, ⟨0, .o⟩⟩, ⟨1, ⟨1, .o⟩⟩] ∧
    acts = [some 0, some 0, none] ∧
    (∀ (i : ℕ) (m : MulIrrep) (a : Option ℕ), x.irreps[i]? = some m → acts[i]? = some a → ActAllowed (effective env [] false) m a) ∧
    (∀ (i : ℕ) (f : ℕ), x.zeroFlags[i]? = some true → acts[i]? = some (some f) → effective env [] false f 0 = 0) ∧
    (∀ (i : ℕ) (mul : ℕ) (f : ℕ), x.irreps[i]? = some ⟨mul, ⟨0, .o⟩⟩ → acts[i]? = some (some f) →
      ∀ t, effective env [] false f (-t) = parityFunction (effective env [] false f) * effective env [] false f t) := by
  have hp : parityFunction (fun t : ℝ => t) = -1 :=
    (C44_parity_function fun t => t).2.1 (fun t => rfl) ⟨255, by norm_num, by norm_num⟩
  obtain ⟨x, -, hx, hi, -⟩ := (C12_from_array (α := Col Unit) [⟨2, ⟨0, .e⟩⟩, ⟨1, ⟨0, .o⟩⟩, ⟨1, ⟨1, .o⟩⟩] [1, 2, 3, 4, 5, 6]).1 (by rfl)
  refine ⟨x, [some 0, some 0, none], fun _ t => t, hx, hi, rfl, ?_, ?_, ?_⟩
  · rw [hi]
    intro i m a h1 h2 f hf
    match i, h1, h2 with
    | 0, h1, h2 => cases h1; exact ⟨rfl, by intro h; cases h⟩
    | 1, h1, h2 => cases h1; exact ⟨rfl, fun _ => Or.inr hp⟩
    | 2, h1, h2 => cases h2; cases hf
    | i + 3, h1, h2 => simp at h1
  · intro i f _ _; rfl
  · intro i mul f _ _ t
    have e : effective (fun _ t => t) [] false f = fun t : ℝ => t := rfl
    rw [e, hp]; push_cast; ring

end E3nn
