import Verif.Props.C73_Refuse
import Verif.Props.C12_C20
import Mathlib.Algebra.BigOperators.Fin
import Mathlib.Analysis.SpecificLimits.Basic

/-!
# C74: the modules `BatchNorm` of `e3nn_jax.flax` and `e3nn_jax.haiku`: histories of calls
-/

namespace E3nn.BN

open E3nn.IArr

variable {β σ : Type} [Fintype β] [Fintype σ] [Nonempty σ]

theorem numScalars_eq (ms : Irreps) : numScalars ms = ((expand ms).filter (· == ⟨0, .e⟩)).length := by
  induction ms with
  | nil => rfl
  | cons m ms ih =>
    have he : expand (m :: ms) = List.replicate m.mul m.ir ++ expand ms := rfl
    rw [he, List.filter_append, List.length_append, ← ih, List.filter_replicate]
    unfold numScalars
    rw [List.filter_cons]
    split <;> simp

theorem numIrreps_eq (ms : Irreps) : ms.numIrreps = (expand ms).length := by
  induction ms with
  | nil => rfl
  | cons m ms ih =>
    have he : expand (m :: ms) = List.replicate m.mul m.ir ++ expand ms := rfl
    rw [he, List.length_append, ← ih]
    simp [Irreps.numIrreps]

/-- Statistics of the right lengths. -/
structure StatsFor (ms : Irreps) (s : Stats) : Prop where
  mean : s.mean.length = ((expand ms).filter (· == ⟨0, .e⟩)).length
  var : s.var.length = (expand ms).length

/-- Weights and biases of the right lengths. -/
structure ParamsFor (ms : Irreps) (p : List ℝ × List ℝ) : Prop where
  weight : p.1.length = (expand ms).length
  bias : p.2.length = ((expand ms).filter (· == ⟨0, .e⟩)).length

theorem init_for (ms : Irreps) : StatsFor ms (initStats ms) ∧ ParamsFor ms (initParams ms) := by
  refine ⟨⟨?_, ?_⟩, ⟨?_, ?_⟩⟩ <;> simp [initStats, initParams, numScalars_eq, numIrreps_eq]

omit [Fintype β] [Fintype σ] [Nonempty σ] in
theorem fits {c : Cfg} {s : Stats} {p : List ℝ × List ℝ} {x : IArr (Col β σ)} (ho : c.normalization ≠ .other ∧ c.reduce ≠ .other) (hne : c.inst = false → x.irreps ≠ [])
    (hri : ¬ (c.inst = true ∧ c.running = true)) (hs : StatsFor x.irreps s) (hp : ParamsFor x.irreps p) : Fits c (paramsOf c s p) x := by
  refine ⟨ho, hne, ?_, ?_, ?_, ?_, ?_, ?_⟩
  · intro h
    have hi : c.inst = false := by
      rcases h with h | h
      · exact h
      · cases hi : c.inst with
        | false => rfl
        | true => exact absurd ⟨hi, h⟩ hri
    simp [paramsOf, hi]
  · intro h; simp [paramsOf, h]
  · intro l h
    unfold paramsOf at h
    cases hi : c.inst <;> simp [hi] at h
    rw [← h, hs.mean]
  · intro l h
    unfold paramsOf at h
    cases hi : c.inst <;> simp [hi] at h
    rw [← h, hs.var]
  · intro l h
    unfold paramsOf at h
    cases hi : c.affine <;> simp [hi] at h
    rw [← h, hp.weight]
  · intro l h
    unfold paramsOf at h
    cases hi : c.affine <;> simp [hi] at h
    rw [← h, hp.bias, if_pos rfl]

/-- The even scalars of an array. -/
def scalars (x : IArr (Col β σ)) : List (Col β σ) := ((x.blocks.filter fun b => b.1 == ⟨0, .e⟩).map fun b => b.2.headD 0)

/-- The mean of the `k`-th even scalar over the batch and the samples. -/
noncomputable def meanStat (mask : Option (β → ℝ)) (x : IArr (Col β σ)) (k : ℕ) : ℝ :=
  batchAverage mask fun b => sampleAverage fun s => (scalars x).getD k 0 (b, s)

/-- The batch variance of the `n`-th irrep, centred at its own mean. -/
noncomputable def varStat (c : Cfg) (mask : Option (β → ℝ)) (x : IArr (Col β σ)) (n : ℕ) : ℝ :=
  batchAverage mask (spread c (centred { c with running := false, inst := false } mask 0 (x.blocks.getD n (⟨0, .e⟩, [])).1 (x.blocks.getD n (⟨0, .e⟩, [])).2))

/-- No term is flagged as zero. -/
def Unflagged (x : IArr (Col β σ)) : Prop := ∀ z ∈ x.zeroFlags, z = false

omit [Fintype β] [Fintype σ] [Nonempty σ] in
theorem tagged_unflagged {x : IArr (Col β σ)} (hx : Inv x) (hz : Unflagged x) : tagged x = x.blocks.map fun b => (b.1, false, b.2) := by
  rw [tagged_eq hx, hx.blocks_pairs, List.map_flatMap]
  apply List.flatMap_congr
  intro p hp
  have : p.2.isNone = false := by
    apply hz
    rw [← hx.pairs.2.2.2.2.1]
    exact List.mem_map_of_mem hp
  unfold tag
  rw [this]

omit [Fintype β] [Fintype σ] [Nonempty σ] in
theorem blocks_count (x : IArr (Col β σ)) : x.blocks.length = (expand x.irreps).length ∧ (scalars x).length = ((expand x.irreps).filter (· == ⟨0, .e⟩)).length := by
  rw [← blocks_irs x]
  constructor
  · simp
  · rw [List.filter_map, List.length_map]
    simp [scalars, Function.comp_def]

/-- The new running means and, with the statistics of the batch, the new running variances, of an array without flagged terms. -/
theorem new_stats {c : Cfg} {P : Params} (mask : Option (β → ℝ)) {x : IArr (Col β σ)} (hx : x.Coherent) (hf : Fits c P x) (hz : Unflagged x) (hi : c.inst = false) :
    ∃ y means vars, batchNorm c P mask x = .ok (y, some (means, vars)) ∧ y.Coherent ∧ y.irreps = x.irreps ∧
      means.length = ((expand x.irreps).filter (· == ⟨0, .e⟩)).length ∧ vars.length = (expand x.irreps).length ∧
      (∀ k < means.length, means.getD k 0 = rolled c (at' P.raMean k) (meanStat mask x k)) ∧
      (c.running = false → ∀ n < vars.length, vars.getD n 0 = rolled c (at' P.raVar n) (varStat c mask x n)) := by
  obtain ⟨y, new, b1, b2, b3, b4, b5, b6⟩ := C73_value mask hx hf
  obtain ⟨h1, h2⟩ := blocks_count x
  have ht := tagged_unflagged hx.inv hz
  rw [hi] at b6
  simp only [Bool.false_eq_true, if_false] at b6
  have hfil : (tagged x).filter Even0 = (x.blocks.filter fun b => b.1 == ⟨0, .e⟩).map fun b => (b.1, false, b.2) := by
    rw [ht, List.filter_map]; rfl
  have hsl : (scalars x).length = (x.blocks.filter fun b => b.1 == ⟨0, .e⟩).length := by simp [scalars]
  refine ⟨y, _, _, by rw [b1, b6], b2, b3, ?_, ?_, ?_, ?_⟩
  · rw [List.length_mapIdx, hfil, List.length_map, ← hsl, h2]
  · rw [List.length_mapIdx, ht, List.length_map, h1]
  · intro k hk
    rw [List.getD_eq_getElem?_getD, List.getElem?_eq_getElem hk, Option.getD_some, List.getElem_mapIdx]
    rw [List.length_mapIdx, hfil, List.length_map] at hk
    simp only [hfil, List.getElem_map, Bool.false_eq_true, if_false]
    unfold meanStat
    have : (scalars x).getD k 0 = ((x.blocks.filter fun b => b.1 == ⟨0, .e⟩)[k]).2.headD 0 := by
      unfold scalars
      rw [List.getD_eq_getElem?_getD, List.getElem?_map, List.getElem?_eq_getElem hk]
      rfl
    rw [this]
  · intro hr n hn
    rw [List.getD_eq_getElem?_getD, List.getElem?_eq_getElem hn, Option.getD_some, List.getElem_mapIdx]
    rw [List.length_mapIdx, ht, List.length_map] at hn
    have hc : ∀ a ir (r : List (Col β σ)), centred c mask a ir r = centred { c with running := false, inst := false } mask 0 ir r := by
      intro a ir r
      unfold centred meanUsed
      simp only [hr, hi, Bool.false_eq_true, if_false]
    simp only [ht, List.getElem_map, Bool.false_eq_true, if_false, hc]
    unfold varStat
    have : x.blocks.getD n (⟨0, .e⟩, []) = x.blocks[n] := by
      rw [List.getD_eq_getElem?_getD, List.getElem?_eq_getElem hn, Option.getD_some]
    rw [this]

/-- The exponential average of a sequence of observations, starting from `a`. -/
def expAvg (m : ℝ) (a : ℝ) (us : List ℝ) : ℝ := us.foldl (fun a u => (1 - m) * a + m * u) a

/-- Its closed form: the observation made `j` steps before the end has weight `m (1 - m)^j`. -/
theorem expAvg_eq (m a : ℝ) (us : List ℝ) : expAvg m a us = (1 - m) ^ us.length * a + ∑ i : Fin us.length, m * (1 - m) ^ (us.length - 1 - i) * us[i] := by
  induction us using List.reverseRecOn with
  | nil => simp [expAvg]
  | append_singleton us u ih =>
    have : expAvg m a (us ++ [u]) = (1 - m) * expAvg m a us + m * u := by simp [expAvg, List.foldl_append]
    rw [this, ih]
    have hl : (us ++ [u]).length = us.length + 1 := by simp
    have e : ∑ i : Fin (us ++ [u]).length, m * (1 - m) ^ ((us ++ [u]).length - 1 - i) * (us ++ [u])[i] =
        ∑ i : Fin (us.length + 1), m * (1 - m) ^ (us.length - i) * (us ++ [u])[i.val]'(by rw [hl]; exact i.isLt) :=
      Fintype.sum_equiv (finCongr hl) _ _ fun i => by simp
    have hp : (1 - m) ^ (us ++ [u]).length = (1 - m) ^ us.length * (1 - m) := by rw [hl, pow_succ]
    rw [hp, e, Fin.sum_univ_castSucc]
    simp only [Fin.val_castSucc, Fin.val_last, Nat.sub_self, pow_zero, mul_one, List.getElem_append_right (Nat.le_refl _), List.getElem_singleton]
    have e2 : ∑ i : Fin us.length, m * (1 - m) ^ (us.length - i.val) * (us ++ [u])[i.val]'(by rw [hl]; omega) =
        (1 - m) * ∑ i : Fin us.length, m * (1 - m) ^ (us.length - 1 - i) * us[i] := by
      rw [Finset.mul_sum]
      refine Finset.sum_congr rfl fun i _ => ?_
      have : us.length - i.val = us.length - 1 - i.val + 1 := by omega
      rw [this, pow_succ, List.getElem_append_left i.isLt]
      simp only [Fin.getElem_fin]
      ring
    rw [e2]
    ring

/-- Constant observations: the average approaches them geometrically. -/
theorem expAvg_const (m a u : ℝ) (n : ℕ) : expAvg m a (List.replicate n u) - u = (1 - m) ^ n * (a - u) := by
  induction n generalizing a with
  | zero => simp [expAvg]
  | succ n ih =>
    have : expAvg m a (List.replicate (n + 1) u) = expAvg m ((1 - m) * a + m * u) (List.replicate n u) := rfl
    rw [this, ih, pow_succ]
    ring

omit [Fintype β] [Fintype σ] [Nonempty σ] in
theorem at_replicate {n : ℕ} (a : ℝ) {k : ℕ} (hk : k < n) : at' (some (List.replicate n a)) k = a := by
  unfold at'
  simp [List.getD_eq_getElem?_getD, List.getElem?_replicate, hk]

/-- One irrep under the statistics 0 and 1, the weight 1 and the bias 0. -/
theorem normalised_initial {c : Cfg} (hr : c.running = true) (mask : Option (β → ℝ)) (w d : ℝ) (hw : c.affine = true → w = 1) (ir : Irrep)
    (hd : c.affine = true → ir = ⟨0, .e⟩ → d = 0) (a : ℝ) (ha : ir = ⟨0, .e⟩ → a = 0) (r : List (Col β σ)) : normalised c mask a 1 w d ir r = r := by
  have hc : centred c mask a ir r = r := by
    unfold centred
    split
    · rename_i h
      conv_rhs => rw [← List.map_id r]
      apply List.map_congr_left
      intro v _
      funext p
      simp [meanUsed, hr, ha h]
    · rfl
  unfold normalised
  simp only [hc]
  conv_rhs => rw [← List.map_id r]
  apply List.map_congr_left
  intro v _
  funext p
  have e1 : (1 - c.epsilon) * varUsed c mask 1 r p.1 + c.epsilon = 1 := by simp [varUsed, hr]
  rw [e1, Real.sqrt_one, div_one]
  have e2 : (if c.affine then w else 1) = 1 := by split <;> simp_all
  have e3 : (if ir = ⟨0, .e⟩ ∧ c.affine then d else 0) = 0 := by
    split
    · rename_i h; exact hd h.2 h.1
    · rfl
  rw [e2, e3]
  simp

theorem before_lt {γ : Type} (ts : List (Irrep × γ)) {n : ℕ} (hn : n < ts.length) (h : ts[n].1 = ⟨0, .e⟩) : before ts n < (ts.filter Even0).length := by
  have e : ts.filter Even0 = (ts.take n).filter Even0 ++ (ts.drop n).filter Even0 := by rw [← List.filter_append, List.take_append_drop]
  have hd : ts.drop n = ts[n] :: ts.drop (n + 1) := (List.getElem_cons_drop hn).symm
  have h0 : Even0 ts[n] = true := by simp [Even0, h]
  rw [e, List.length_append, hd, List.filter_cons, if_pos h0]
  simp [before]

theorem blocks_tagged {x : IArr (Col β σ)} (hx : Inv x) : (tagged x).map (fun t => (t.1, t.2.2)) = x.blocks := by
  rw [tagged_eq hx, hx.blocks_pairs, List.map_flatMap]
  apply List.flatMap_congr
  intro p hp
  unfold tag
  simp [List.map_map, Function.comp_def]

/-- `batch_norm` with the initial statistics and parameters, in the mode that uses the statistics, changes nothing. -/
theorem initial_value {c : Cfg} (mask : Option (β → ℝ)) {x : IArr (Col β σ)} (hx : x.Coherent) (ho : c.normalization ≠ .other ∧ c.reduce ≠ .other) (hne : x.irreps ≠ [])
    (hi : c.inst = false) (hr : c.running = true) :
    ∃ y new, batchNorm c (paramsOf c (initStats x.irreps) (initParams x.irreps)) mask x = .ok (y, some new) ∧
      y.irreps = x.irreps ∧ y.array = x.array ∧ y.chunks = x.chunks ∧ y.zeroFlags = x.zeroFlags ∧ y.Coherent := by
  have hf := fits (c := c) (x := x) (s := initStats x.irreps) (p := initParams x.irreps) ho (fun _ => hne) (by simp [hi]) (init_for _).1 (init_for _).2
  obtain ⟨y, new, b1, b2, b3, b4, b5, b6⟩ := C73_value mask hx hf
  rw [if_neg (by simp [hi])] at b6
  have hl := tagged_length hx.inv
  have hs := tagged_scalars hx.inv
  have hb : y.blocks = x.blocks := by
    rw [b5, ← blocks_tagged hx.inv]
    apply List.ext_getElem (by simp)
    intro n h1 h2
    rw [List.length_mapIdx] at h1
    rw [List.getElem_mapIdx, List.getElem_map]
    congr 1
    split
    · rfl
    · have hv : at' (paramsOf c (initStats x.irreps) (initParams x.irreps)).raVar n = 1 := by
        have e : (paramsOf c (initStats x.irreps) (initParams x.irreps)).raVar = some (List.replicate x.irreps.numIrreps 1) := by simp [paramsOf, hi, initStats]
        rw [e]
        exact at_replicate _ (by rw [numIrreps_eq, ← hl]; exact h1)
      rw [hv]
      apply normalised_initial hr
      · intro ha
        have e : (paramsOf c (initStats x.irreps) (initParams x.irreps)).weight = some (List.replicate x.irreps.numIrreps 1) := by simp [paramsOf, ha, initParams]
        rw [e]
        exact at_replicate _ (by rw [numIrreps_eq, ← hl]; exact h1)
      · intro ha h0
        have e : (paramsOf c (initStats x.irreps) (initParams x.irreps)).bias = some (List.replicate (numScalars x.irreps) 0) := by simp [paramsOf, ha, initParams]
        rw [e]
        refine at_replicate _ ?_
        rw [numScalars_eq, ← hs]
        exact before_lt _ h1 h0
      · intro h0
        have e : (paramsOf c (initStats x.irreps) (initParams x.irreps)).raMean = some (List.replicate (numScalars x.irreps) 0) := by simp [paramsOf, hi, initStats]
        rw [e]
        refine at_replicate _ ?_
        rw [numScalars_eq, ← hs]
        exact before_lt _ h1 h0
  obtain ⟨e1, e2⟩ := b2.inv.ext_blocks hx.inv b3 b4 hb
  exact ⟨y, _, by rw [b1, b6], b3, e1, e2, b4, b2⟩

/-! ### Single calls -/

/-- A freshly initialised module, evaluated on the statistics, returns its input: with `haiku`. -/
theorem C74_haiku_fresh {c : Cfg} {x : IArr (Col β σ)} (hx : x.Coherent) (ho : c.normalization ≠ .other ∧ c.reduce ≠ .other) (hne : x.irreps ≠ []) (hi : c.inst = false) :
    ∃ y, haikuCall c none false (initStats x.irreps) (initParams x.irreps) x = .ok (y, initStats x.irreps) ∧
      y.irreps = x.irreps ∧ y.array = x.array ∧ y.chunks = x.chunks ∧ y.zeroFlags = x.zeroFlags := by
  obtain ⟨y, new, h1, h2, h3, h4, h5, _⟩ := initial_value (c := { c with running := true }) (mask := (none : Option (β → ℝ))) hx ho hne hi rfl
  refine ⟨y, ?_, h2, h3, h4, h5⟩
  unfold haikuCall
  rw [if_neg (by simp [ho.1, ho.2])]
  simp only [hi, Bool.not_false, Bool.and_true]
  have e : ({ c with running := true } : Cfg) = { normalization := c.normalization, reduce := c.reduce, inst := false, running := true, affine := c.affine, momentum := c.momentum, epsilon := c.epsilon } := by
    rw [← hi]
  rw [e] at h1
  show (Except.bind (batchNorm _ _ none x) _ : Except PyErr _) = _
  rw [h1]
  rfl

/-- A freshly initialised module, evaluated on the statistics, returns its input: with `flax`, both while initialising and later. -/
theorem C74_flax_fresh {c : Cfg} {x : IArr (Col β σ)} (mask : Option (β → ℝ)) (init : Bool) (hx : x.Coherent) (ho : c.normalization ≠ .other ∧ c.reduce ≠ .other) (hne : x.irreps ≠ []) (hi : c.inst = false) :
    ∃ y s, flaxCall c init true (some true) mask (initStats x.irreps) (initParams x.irreps) x = .ok (y, s) ∧
      y.irreps = x.irreps ∧ y.array = x.array ∧ y.chunks = x.chunks ∧ y.zeroFlags = x.zeroFlags := by
  obtain ⟨y, new, h1, h2, h3, h4, h5, _⟩ := initial_value (c := { c with running := true }) mask hx ho hne hi rfl
  unfold flaxCall
  rw [if_neg (by simp [hi])]
  simp only [Option.getD_some, h1]
  cases init
  · exact ⟨y, _, rfl, h2, h3, h4, h5⟩
  · exact ⟨y, _, rfl, h2, h3, h4, h5⟩

/-- One step of the exponential average of the statistics: the mean of every even scalar and the variance of every irrep. -/
structure Updated (ms : Irreps) (m : ℝ) (s s' : Stats) (mean var : ℕ → ℝ) : Prop where
  for' : StatsFor ms s'
  mean : ∀ k < ((expand ms).filter (· == ⟨0, .e⟩)).length, s'.mean.getD k 0 = (1 - m) * s.mean.getD k 0 + m * mean k
  var : ∀ n < (expand ms).length, s'.var.getD n 0 = (1 - m) * s.var.getD n 0 + m * var n

/-- A training call of the `haiku` module moves the statistics towards those of the batch. -/
theorem haiku_train {c : Cfg} {s : Stats} {p : List ℝ × List ℝ} {x : IArr (Col β σ)} (hx : x.Coherent) (ho : c.normalization ≠ .other ∧ c.reduce ≠ .other) (hne : x.irreps ≠ [])
    (hi : c.inst = false) (hz : Unflagged x) (hs : StatsFor x.irreps s) (hp : ParamsFor x.irreps p) :
    ∃ y s', haikuCall c none true s p x = .ok (y, s') ∧ y.Coherent ∧ y.irreps = x.irreps ∧ Updated x.irreps c.momentum s s' (meanStat none x) (varStat c none x) := by
  have hf := fits (c := { c with running := false }) (x := x) (s := s) (p := p) ho (fun _ => hne) (by simp) hs hp
  obtain ⟨y, means, vars, h1, h2, h3, h4, h5, h6, h7⟩ := new_stats none hx hf hz hi
  refine ⟨y, ⟨if means.length ≠ 0 then means else s.mean, if vars.length ≠ 0 then vars else s.var⟩, ?_, h2, h3, ?_⟩
  · unfold haikuCall
    rw [if_neg (by simp [ho.1, ho.2])]
    simp only [Bool.not_true, Bool.false_and]
    show (Except.bind (batchNorm _ _ none x) _ : Except PyErr _) = _
    rw [h1]
    rfl
  · have e1 : (if means.length ≠ 0 then means else s.mean) = means := by
      by_cases h : means.length = 0
      · rw [if_neg (by simp [h]), List.eq_nil_of_length_eq_zero h]
        exact List.eq_nil_of_length_eq_zero (by rw [hs.mean, ← h4, h])
      · rw [if_pos h]
    have e2 : (if vars.length ≠ 0 then vars else s.var) = vars := by
      by_cases h : vars.length = 0
      · rw [if_neg (by simp [h]), List.eq_nil_of_length_eq_zero h]
        exact List.eq_nil_of_length_eq_zero (by rw [hs.var, ← h5, h])
      · rw [if_pos h]
    rw [e1, e2]
    refine ⟨⟨h4, h5⟩, fun k hk => ?_, fun n hn => ?_⟩
    · rw [h6 k (by rw [h4]; exact hk)]
      simp [rolled, at', paramsOf, hi]
    · rw [h7 rfl n (by rw [h5]; exact hn)]
      simp only [rolled, at', paramsOf, hi, Bool.false_eq_true, if_false, Option.getD_some]
      rfl

/-- An evaluation call of the `haiku` module, or any call of an instance normalisation, leaves the statistics as they are. -/
theorem haiku_eval {c : Cfg} {s : Stats} {p : List ℝ × List ℝ} {irs : Option Irreps} {x : IArr (Col β σ)} {r} (h : haikuCall c irs false s p x = .ok r) : r.2 = s := by
  unfold haikuCall at h
  split at h
  · cases h
  · cases irs with
    | none =>
      change (Except.bind (batchNorm _ _ none x) _ : Except PyErr _) = _ at h
      cases hb : batchNorm { c with running := !false && !c.inst } (paramsOf { c with running := !false && !c.inst } s p) none x with
      | error e => rw [hb] at h; cases h
      | ok q =>
        rw [hb] at h
        obtain ⟨q1, q2⟩ := q
        cases q2 <;> · cases h; rfl
    | some ms =>
      change (Except.bind (x.rechunk ms) _ : Except PyErr _) = _ at h
      cases hm : x.rechunk ms with
      | error e => rw [hm] at h; cases h
      | ok x' =>
        rw [hm] at h
        change (Except.bind (batchNorm _ _ none x') _ : Except PyErr _) = _ at h
        cases hb : batchNorm { c with running := !false && !c.inst } (paramsOf { c with running := !false && !c.inst } s p) none x' with
        | error e => rw [hb] at h; cases h
        | ok q =>
          rw [hb] at h
          obtain ⟨q1, q2⟩ := q
          cases q2 <;> · cases h; rfl

/-- An evaluation call of the `haiku` module succeeds. -/
theorem haiku_eval_ok {c : Cfg} {s : Stats} {p : List ℝ × List ℝ} {x : IArr (Col β σ)} (hx : x.Coherent) (ho : c.normalization ≠ .other ∧ c.reduce ≠ .other) (hne : x.irreps ≠ [])
    (hs : StatsFor x.irreps s) (hp : ParamsFor x.irreps p) : ∃ y, haikuCall c none false s p x = .ok (y, s) ∧ y.Coherent ∧ y.irreps = x.irreps := by
  have hf := fits (c := { c with running := !false && !c.inst }) (x := x) (s := s) (p := p) ho (fun _ => hne) (by simp) hs hp
  obtain ⟨y, new, b1, b2, b3, -⟩ := C73_value (none : Option (β → ℝ)) hx hf
  have : ∃ r, haikuCall c none false s p x = .ok r ∧ r.1 = y := by
    unfold haikuCall
    rw [if_neg (by simp [ho.1, ho.2])]
    show ∃ r, (Except.bind (batchNorm _ _ none x) _ : Except PyErr _) = _ ∧ _
    rw [b1]
    cases new <;> exact ⟨_, rfl, rfl⟩
  obtain ⟨⟨r1, r2⟩, e1, e2⟩ := this
  have e3 := haiku_eval e1
  simp only at e2 e3
  rw [e2, e3] at e1
  exact ⟨y, e1, b2, b3⟩

/-! ### Histories of the `haiku` module -/

/-- A call of the module: the batch and sample axes may be different at every call. -/
structure HaikuCall where
  B : Type
  S : Type
  [fintypeB : Fintype B]
  [fintypeS : Fintype S]
  [nonemptyS : Nonempty S]
  training : Bool
  x : IArr (Col B S)

attribute [instance] HaikuCall.fintypeB HaikuCall.fintypeS HaikuCall.nonemptyS

/-- The call on the statistics. -/
noncomputable def HaikuCall.run (c : Cfg) (p : List ℝ × List ℝ) (s : Stats) (k : HaikuCall) : Except PyErr Stats := (haikuCall c none k.training s p k.x).map Prod.snd

/-- After any history of training and evaluation calls on arrays of the same irreps the running mean of every even scalar and the running variance of
every irrep are the exponential averages of the means and the variances of the training batches, in order; evaluations have no influence. -/
theorem C74_haiku_history {c : Cfg} {ms : Irreps} {p : List ℝ × List ℝ} (ho : c.normalization ≠ .other ∧ c.reduce ≠ .other) (hne : ms ≠ []) (hi : c.inst = false) (hp : ParamsFor ms p)
    (calls : List HaikuCall) (hc : ∀ k ∈ calls, k.x.Coherent ∧ k.x.irreps = ms ∧ Unflagged k.x) : ∀ (s : Stats), StatsFor ms s →
    ∃ s', calls.foldlM (HaikuCall.run c p) s = .ok s' ∧ StatsFor ms s' ∧
      (∀ k < ((expand ms).filter (· == ⟨0, .e⟩)).length, s'.mean.getD k 0 =
        expAvg c.momentum (s.mean.getD k 0) ((calls.filter HaikuCall.training).map fun t => meanStat none t.x k)) ∧
      (∀ n < (expand ms).length, s'.var.getD n 0 =
        expAvg c.momentum (s.var.getD n 0) ((calls.filter HaikuCall.training).map fun t => varStat c none t.x n)) := by
  induction calls with
  | nil => intro s hs; exact ⟨s, rfl, hs, fun _ _ => rfl, fun _ _ => rfl⟩
  | cons k calls ih =>
    intro s hs
    obtain ⟨k1, k2, k3⟩ := hc k (by simp)
    have hc' := fun t ht => hc t (List.mem_cons_of_mem _ ht)
    rw [List.foldlM_cons]
    cases ht : k.training with
    | true =>
      obtain ⟨y, s1, r1, -, -, r2⟩ := haiku_train (c := c) (s := s) (p := p) k1 ho (by rw [k2]; exact hne) hi k3 (by rw [k2]; exact hs) (by rw [k2]; exact hp)
      rw [k2] at r2
      obtain ⟨s', q1, q2, q3, q4⟩ := ih hc' s1 r2.for'
      have e : HaikuCall.run c p s k = .ok s1 := by unfold HaikuCall.run; rw [ht, r1]; rfl
      rw [e]
      refine ⟨s', q1, q2, fun j hj => ?_, fun n hn => ?_⟩
      · rw [q3 j hj, r2.mean j hj, List.filter_cons_of_pos ht]; rfl
      · rw [q4 n hn, r2.var n hn, List.filter_cons_of_pos ht]; rfl
    | false =>
      obtain ⟨y, r1, -⟩ := haiku_eval_ok (c := c) (s := s) (p := p) k1 ho (by rw [k2]; exact hne) (by rw [k2]; exact hs) (by rw [k2]; exact hp)
      have e : HaikuCall.run c p s k = .ok s := by unfold HaikuCall.run; rw [ht, r1]; rfl
      rw [e, List.filter_cons_of_neg (by simp [ht])]
      exact ih hc' s hs

/-! ### The `flax` module -/

/-- The options of a `flax` call. -/
theorem flax_ok {c : Cfg} {s : Stats} {p : List ℝ × List ℝ} (mask : Option (β → ℝ)) (use : Option Bool) {x : IArr (Col β σ)} (hx : x.Coherent) (ho : c.normalization ≠ .other ∧ c.reduce ≠ .other) (hne : x.irreps ≠ [])
    (hi : c.inst = false) (hz : Unflagged x) (hs : StatsFor x.irreps s) (hp : ParamsFor x.irreps p) :
    ∃ y means vars, batchNorm { c with running := use.getD c.running } (paramsOf { c with running := use.getD c.running } s p) mask x = .ok (y, some (means, vars)) ∧
      y.Coherent ∧ y.irreps = x.irreps ∧ StatsFor x.irreps ⟨means, vars⟩ ∧
      (∀ k < means.length, means.getD k 0 = (1 - c.momentum) * s.mean.getD k 0 + c.momentum * meanStat mask x k) ∧
      (use.getD c.running = false → ∀ n < vars.length, vars.getD n 0 = (1 - c.momentum) * s.var.getD n 0 + c.momentum * varStat c mask x n) := by
  have hf := fits (c := { c with running := use.getD c.running }) (x := x) (s := s) (p := p) ho (fun _ => hne) (by simp [hi]) hs hp
  obtain ⟨y, means, vars, h1, h2, h3, h4, h5, h6, h7⟩ := new_stats mask hx hf hz hi
  refine ⟨y, means, vars, h1, h2, h3, ⟨h4, h5⟩, fun k hk => ?_, fun hr n hn => ?_⟩
  · rw [h6 k hk]
    simp [rolled, at', paramsOf, hi]
  · rw [h7 hr n hn]
    simp only [rolled, at', paramsOf, hi, Bool.false_eq_true, if_false, Option.getD_some]
    rfl

/-- Outside of initialisation every call of the `flax` module moves the running means towards those of the batch, *also* an evaluation with
`use_running_average=True`; a training call moves the variances as well. -/
theorem C74_flax_writes {c : Cfg} {s : Stats} {p : List ℝ × List ℝ} (mask : Option (β → ℝ)) (use : Option Bool) {x : IArr (Col β σ)} (hx : x.Coherent) (ho : c.normalization ≠ .other ∧ c.reduce ≠ .other)
    (hne : x.irreps ≠ []) (hi : c.inst = false) (hz : Unflagged x) (hs : StatsFor x.irreps s) (hp : ParamsFor x.irreps p) :
    ∃ y s', flaxCall c false true use mask s p x = .ok (y, s') ∧ y.Coherent ∧ y.irreps = x.irreps ∧ StatsFor x.irreps s' ∧
      (∀ k < ((expand x.irreps).filter (· == ⟨0, .e⟩)).length, s'.mean.getD k 0 = (1 - c.momentum) * s.mean.getD k 0 + c.momentum * meanStat mask x k) ∧
      (use.getD c.running = false → ∀ n < (expand x.irreps).length, s'.var.getD n 0 = (1 - c.momentum) * s.var.getD n 0 + c.momentum * varStat c mask x n) := by
  obtain ⟨y, means, vars, h1, h2, h3, h4, h5, h6⟩ := flax_ok mask use hx ho hne hi hz hs hp
  refine ⟨y, ⟨means, vars⟩, ?_, h2, h3, h4, fun k hk => h5 k (h4.mean.symm ▸ hk), fun hr n hn => h6 hr n (h4.var.symm ▸ hn)⟩
  unfold flaxCall
  rw [if_neg (by simp [hi])]
  simp only [h1]
  rfl

/-- If the collection `batch_stats` is not mutable every call outside of initialisation raises, also an evaluation. -/
theorem C74_flax_frozen {c : Cfg} {s : Stats} {p : List ℝ × List ℝ} (mask : Option (β → ℝ)) (use : Option Bool) {x : IArr (Col β σ)} (hx : x.Coherent) (ho : c.normalization ≠ .other ∧ c.reduce ≠ .other)
    (hne : x.irreps ≠ []) (hi : c.inst = false) (hs : StatsFor x.irreps s) (hp : ParamsFor x.irreps p) :
    flaxCall c false false use mask s p x = .error .runtimeError := by
  have hf := fits (c := { c with running := use.getD c.running }) (x := x) (s := s) (p := p) ho (fun _ => hne) (by simp [hi]) hs hp
  obtain ⟨y, new, b1, b2, b3, b4, b5, b6⟩ := C73_value mask hx hf
  rw [if_neg (by simp [hi])] at b6
  unfold flaxCall
  rw [if_neg (by simp [hi])]
  simp only [b1, b6]
  rfl

/-- During initialisation, and for an instance normalisation, the statistics are not touched. -/
theorem C74_flax_init {c : Cfg} {init wr : Bool} {s : Stats} {p : List ℝ × List ℝ} {mask : Option (β → ℝ)} {use : Option Bool} {x : IArr (Col β σ)} {r}
    (hi : init = true ∨ c.inst = true) (hx : x.Coherent) (h : flaxCall c init wr use mask s p x = .ok r) : r.2 = s := by
  unfold flaxCall at h
  by_cases hg : (use.getD c.running && c.inst) = true
  · rw [if_pos hg] at h; cases h
  · rw [if_neg hg] at h
    change (Except.bind (batchNorm _ _ mask x) _ : Except PyErr _) = _ at h
    cases hb : batchNorm { c with running := use.getD c.running } (paramsOf { c with running := use.getD c.running } s p) mask x with
    | error e => rw [hb] at h; cases h
    | ok q =>
      rw [hb] at h
      obtain ⟨q1, q2⟩ := q
      cases q2 with
      | none => cases h; rfl
      | some new =>
        rcases hi with hi | hi
        · subst hi; cases h; rfl
        · exfalso
          unfold batchNorm at hb
          cases hst : (x.irreps.zip x.chunks).foldlM (step { c with running := use.getD c.running } (paramsOf { c with running := use.getD c.running } s p) mask) ⟨0, 0, 0, [], [], []⟩ with
          | error e => rw [hst] at hb; cases hb
          | ok st =>
            rw [hst] at hb
            change finish _ _ _ _ = _ at hb
            unfold finish at hb
            split at hb
            · cases hb
            · cases hy : fromChunks x.irreps st.chunks with
              | error e => rw [hy] at hb; cases hb
              | ok y =>
                rw [hy] at hb
                cases hb

/-- An instance normalisation has no statistics to use. -/
theorem C74_flax_instance {c : Cfg} (init wr : Bool) (s : Stats) (p : List ℝ × List ℝ) (mask : Option (β → ℝ)) (use : Option Bool) (x : IArr (Col β σ)) (hi : c.inst = true) (hr : use.getD c.running = true) :
    flaxCall c init wr use mask s p x = .error .valueError := by
  unfold flaxCall
  rw [if_pos (by simp [hi, hr])]

/-- A call of the `flax` module outside of initialisation, with mutable statistics and its own batch and sample axes. -/
structure FlaxCall where
  B : Type
  S : Type
  [fintypeB : Fintype B]
  [fintypeS : Fintype S]
  [nonemptyS : Nonempty S]
  mask : Option (B → ℝ)
  x : IArr (Col B S)

attribute [instance] FlaxCall.fintypeB FlaxCall.fintypeS FlaxCall.nonemptyS

/-- A training call on the statistics. -/
noncomputable def FlaxCall.run (c : Cfg) (p : List ℝ × List ℝ) (s : Stats) (k : FlaxCall) : Except PyErr Stats := (flaxCall c false true (some false) k.mask s p k.x).map Prod.snd

/-- After any history of training calls of the `flax` module the statistics are the exponential averages of those of the batches, over the valid elements. -/
theorem C74_flax_history {c : Cfg} {ms : Irreps} {p : List ℝ × List ℝ} (ho : c.normalization ≠ .other ∧ c.reduce ≠ .other) (hne : ms ≠ []) (hi : c.inst = false) (hp : ParamsFor ms p)
    (calls : List FlaxCall) (hc : ∀ k ∈ calls, k.x.Coherent ∧ k.x.irreps = ms ∧ Unflagged k.x) : ∀ (s : Stats), StatsFor ms s →
    ∃ s', calls.foldlM (FlaxCall.run c p) s = .ok s' ∧ StatsFor ms s' ∧
      (∀ k < ((expand ms).filter (· == ⟨0, .e⟩)).length, s'.mean.getD k 0 = expAvg c.momentum (s.mean.getD k 0) (calls.map fun t => meanStat t.mask t.x k)) ∧
      (∀ n < (expand ms).length, s'.var.getD n 0 = expAvg c.momentum (s.var.getD n 0) (calls.map fun t => varStat c t.mask t.x n)) := by
  induction calls with
  | nil => intro s hs; exact ⟨s, rfl, hs, fun _ _ => rfl, fun _ _ => rfl⟩
  | cons k calls ih =>
    intro s hs
    obtain ⟨k1, k2, k3⟩ := hc k (by simp)
    rw [List.foldlM_cons]
    obtain ⟨y, s1, r1, -, -, r2, r3, r4⟩ := C74_flax_writes (c := c) (s := s) (p := p) k.mask (some false) k1 ho (by rw [k2]; exact hne) hi k3 (by rw [k2]; exact hs) (by rw [k2]; exact hp)
    rw [k2] at r2 r3 r4
    obtain ⟨s', q1, q2, q3, q4⟩ := ih (fun t ht => hc t (List.mem_cons_of_mem _ ht)) s1 r2
    have e : FlaxCall.run c p s k = .ok s1 := by unfold FlaxCall.run; rw [r1]; rfl
    rw [e]
    refine ⟨s', q1, q2, fun j hj => ?_, fun n hn => ?_⟩
    · rw [q3 j hj, r3 j hj]; rfl
    · rw [q4 n hn, r4 rfl n hn]; rfl

/-- The weights of the history sum to one: the statistics are an affine mean of the initial ones and those of the batches. -/
theorem C74_weights (m : ℝ) (n : ℕ) : (1 - m) ^ n + ∑ i : Fin n, m * (1 - m) ^ (n - 1 - i.val) = 1 := by
  have h := expAvg_eq m 1 (List.replicate n 1)
  have h2 := expAvg_const m 1 1 n
  have e : expAvg m 1 (List.replicate n 1) = 1 := by linarith [h2, mul_zero ((1 - m) ^ n), sub_self (1 : ℝ)]
  rw [e] at h
  have e2 : ∑ i : Fin (List.replicate n (1 : ℝ)).length, m * (1 - m) ^ ((List.replicate n (1 : ℝ)).length - 1 - i) * (List.replicate n (1 : ℝ))[i] = ∑ i : Fin n, m * (1 - m) ^ (n - 1 - i.val) :=
    Fintype.sum_equiv (finCongr (by simp)) _ _ fun i => by simp
  rw [e2, List.length_replicate, mul_one] at h
  exact h.symm

/-- If the batches all have the same statistics, the running ones converge to them (for a momentum strictly between 0 and 2). -/
theorem C74_converge (m a u : ℝ) (h0 : 0 < m) (h2 : m < 2) : Filter.Tendsto (fun n => expAvg m a (List.replicate n u)) Filter.atTop (nhds u) := by
  have : (fun n => expAvg m a (List.replicate n u)) = fun n => (1 - m) ^ n * (a - u) + u := by
    funext n
    linarith [expAvg_const m a u n]
  rw [this]
  have hp := tendsto_pow_atTop_nhds_zero_of_abs_lt_one (r := 1 - m) (by rw [abs_lt]; constructor <;> linarith)
  simpa using (hp.mul_const (a - u)).add_const u

/-- A concrete evaluation of a fresh `flax` module (momentum 1/2) with `use_running_average=True` on a batch of two scalars 1 and 3: the stored mean
changes from 0 to 1.  The arrays of this example meet the hypotheses of the theorems above. -/
theorem C74_flax_eval_witness : ∃ (x y : IArr (Col (Fin 2) Unit)) (s : Stats), x.Coherent ∧ Unflagged x ∧
    StatsFor x.irreps (initStats x.irreps) ∧ ParamsFor x.irreps (initParams x.irreps) ∧
    flaxCall witnessCfg false true (some true) none (initStats x.irreps) (initParams x.irreps) x = .ok (y, s) ∧
    (initStats x.irreps).mean = [0] ∧ s.mean = [1] := by
  let x : IArr (Col (Fin 2) Unit) := ⟨[⟨1, ⟨0, .e⟩⟩], [fun p => if p.1 = 0 then 1 else 3], some [false], none⟩
  have hx : x.Coherent := (⟨by simp [x, FlagsOk, IArr.zeroFlags, termsOf, MulIrrep.dim, Irrep.dim], by simp [x]⟩ : Inv x).coherent
  have hz : Unflagged x := by intro z hz; simpa [x, IArr.zeroFlags] using hz
  obtain ⟨y, s, h1, h2, h3, h4, h5, -⟩ := C74_flax_writes (c := witnessCfg) none (some true) hx (by simp [witnessCfg]) (by simp [x]) rfl hz (init_for _).1 (init_for _).2
  have e1 : (expand x.irreps) = [⟨0, .e⟩] := rfl
  have hl := h4.mean
  rw [e1] at hl
  have hl1 : s.mean.length = 1 := hl
  obtain ⟨m, hm⟩ := List.length_eq_one_iff.mp hl1
  have h0 := h5 0 (by rw [e1]; decide)
  have es : scalars x = [fun p => if p.1 = 0 then 1 else 3] := rfl
  rw [hm] at h0
  simp [witnessCfg, meanStat, es, batchAverage, sampleAverage, initStats, numScalars_eq, e1] at h0
  refine ⟨x, y, s, hx, hz, (init_for _).1, (init_for _).2, h1, rfl, ?_⟩
  rw [hm, h0]
  norm_num

end E3nn.BN
