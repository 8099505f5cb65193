import Verif.Lemmas.LinearEquinox

/-!
# C104: the `Linear` module of Equinox

`init c rnd` is the constructor, with `rnd i j` the normal numbers drawn from the keys; `call m lead k W x` is `m(W, x)` on one element of the leading axes,
`lead` the size of the last of them and `k` the position on it; `callChannel` is the call of a module with `channel_out`.
-/

namespace E3nn.LinEqx
open E3nn.IArr E3nn.LinM E3nn.Wig

/-- The arguments that the type of the layer needs are given; `n` sets of weights are drawn, and their standard deviation is multiplied by `std`. -/
def Given (c : Cfg) (n : ℕ) (std : ℝ) : Prop :=
  (c.kind = .vanilla ∧ n = 1 ∧ std = 1) ∨ (c.kind = .indexed ∧ c.numIndexed = some n ∧ std = 1) ∨
  (c.kind = .mixed ∧ c.weightsDim = some n ∧ 0 < n ∧ std = Real.sqrt (1 / n) ^ (1 - c.g)) ∨
  (c.kind = .mixedPerChannel ∧ ∃ d k, c.weightsDim = some d ∧ c.channelIn = some k ∧ 0 < d ∧ n = d * k ∧ std = Real.sqrt (1 / d) ^ (1 - c.g))

/-- **C104 (the constructor).** When the arguments that the type needs are given, the constructor returns a module.  Its input irreps are sorted and grouped, its output irreps are
those of the argument that the input has (all of them with `force_irreps_out`).  The parameters have distinct names, one for each path of the layer, `n` times the
size of the path, and are normal numbers times the standard deviation of the path. -/
theorem C104_init {c : Cfg} {n : ℕ} {std : ℝ} (hc : Given c n std) (hp : c.channelOut = none ∨ c.perChannel = false) (rnd : ℕ → ℕ → ℝ) :
    ∃ m, init c rnd = .ok m ∧ m.cfg = c ∧ c.irrepsIn.regroup = .ok m.irrepsIn ∧ m.irrepsOut = outOf c ∧
      FLin.init m.irrepsIn ((outOf c).mul (c.channelOut.getD 1)) none (.all c.biases) c.a c.g = .ok m.lin ∧
      (m.weights.map Prod.fst).Nodup ∧ m.weights.length = m.lin.instructions.length ∧
      ∀ i ins, m.lin.instructions[i]? = some ins → m.weights[i]? =
        some (nameOf m.irrepsIn ((outOf c).mul (c.channelOut.getD 1)) ins, (List.range (n * FLin.size ins)).map fun j => std * ins.weightStd * rnd i j) := by
  have hs : c.shape = .ok (n, std) := by
    rcases hc with ⟨h1, rfl, rfl⟩ | ⟨h1, h2, rfl⟩ | ⟨h1, h2, h3, rfl⟩ | ⟨h1, d, k, h2, h3, h4, rfl, rfl⟩
    · simp [Cfg.shape, h1]
    · simp [Cfg.shape, h1, h2]
    · simp [Cfg.shape, h1, h2, h3.ne']
    · simp [Cfg.shape, h1, h2, h3, h4.ne']
  obtain ⟨r, hr⟩ : ∃ r, c.irrepsIn.regroup = .ok r := ⟨_, Irreps.regroup_eq _⟩
  obtain ⟨f, hf, f1, f2⟩ := C28_init_returns r ((outOf c).mul (c.channelOut.getD 1)) (some c.biases) c.a c.g
  simp only [Option.elim] at hf
  have hn := names_nodup hf
  refine ⟨⟨c, r, outOf c, f, f.instructions.zipIdx.map fun q => (nameOf f.irrepsIn f.irrepsOut q.1, (List.range (n * FLin.size q.1)).map fun j => std * q.1.weightStd * rnd q.2 j)⟩,
    ?_, rfl, hr, rfl, hf, ?_, by simp, ?_⟩
  · unfold init
    simp only [hr, bind, Except.bind]
    rw [if_neg (by rcases hp with h | h <;> simp [h]), outIrreps_eq hr]
    simp only [hf, getWeights_ok hs, pure, Except.pure]
  · rw [List.map_map]
    have : f.instructions.map (nameOf r ((outOf c).mul (c.channelOut.getD 1))) = f.instructions.zipIdx.map (Prod.fst ∘ fun q : LinIns ℝ × ℕ =>
        (nameOf f.irrepsIn f.irrepsOut q.1, (List.range (n * FLin.size q.1)).map fun j => std * q.1.weightStd * rnd q.2 j)) := by
      conv_lhs => rw [← List.zipIdx_map_fst 0 f.instructions, List.map_map]
      rw [f1, f2]
      rfl
    rw [← this]
    exact hn
  · intro i ins hi
    simp only [List.getElem?_map, List.getElem?_zipIdx, hi, f1, f2]
    simp

/-- **C104 (missing arguments).** `channel_out` with `weights_per_channel` raises `AssertionError`.  As soon as the layer has a path, a missing `num_indexed_weights` (type `indexed`),
`weights_dim` (types `mixed` and `mixed_per_channel`) or `channel_in` (type `mixed_per_channel`) raises `ValueError`, and another type raises `UnboundLocalError`. -/
theorem C104_init_refuse (c : Cfg) (rnd : ℕ → ℕ → ℝ) :
    (c.channelOut.isSome = true → c.perChannel = true → init c rnd = .error .assertion) ∧
    ((c.channelOut = none ∨ c.perChannel = false) → (∃ a ∈ c.irrepsIn, ∃ b ∈ c.irrepsOut, 0 < a.mul ∧ 0 < b.mul ∧ a.ir = b.ir) →
      ((c.kind = .indexed → c.numIndexed = none → init c rnd = .error .valueError) ∧
      (c.kind = .mixed → c.weightsDim = none → init c rnd = .error .valueError) ∧
      (c.kind = .mixedPerChannel → c.weightsDim = none ∨ c.channelIn = none → init c rnd = .error .valueError) ∧
      (c.kind = .other → init c rnd = .error .nameError))) := by
  obtain ⟨r, hr⟩ : ∃ r, c.irrepsIn.regroup = .ok r := ⟨_, Irreps.regroup_eq _⟩
  refine ⟨fun h1 h2 => ?_, fun hp hab => ?_⟩
  · unfold init
    simp only [hr, bind, Except.bind]
    rw [if_pos (by simp [h1, h2])]
  · obtain ⟨a, ha, b, hb, a0, b0, hab⟩ := hab
    obtain ⟨f, hf, f1, f2⟩ := C28_init_returns r ((outOf c).mul (c.channelOut.getD 1)) (some c.biases) c.a c.g
    simp only [Option.elim] at hf
    have hne : f.instructions ≠ [] := by
      have hin : ∃ (i : ℕ) (mi : MulIrrep), r[i]? = some mi ∧ mi.ir = a.ir := by
        have h1 : 0 < c.irrepsIn.count a.ir := by
          rw [Irreps.count_eq_count_expand, List.count_pos_iff]
          unfold expand
          exact List.mem_flatMap.mpr ⟨a, ha, List.mem_replicate.mpr ⟨by omega, rfl⟩⟩
        obtain ⟨g, g1, g2, g3, g4⟩ := C07_regroup_spec c.irrepsIn
        rw [hr] at g1
        cases g1
        rw [← g4, Irreps.count_eq_count_expand, List.count_pos_iff] at h1
        unfold expand at h1
        obtain ⟨mi, h2, h3⟩ := List.mem_flatMap.mp h1
        obtain ⟨i, hi, e⟩ := List.getElem_of_mem h2
        exact ⟨i, mi, by rw [List.getElem?_eq_getElem hi, e], (List.mem_replicate.mp h3).2.symm⟩
      have hout : ∃ (o : ℕ) (mo : MulIrrep), ((outOf c).mul (c.channelOut.getD 1))[o]? = some mo ∧ mo.ir = b.ir := by
        have : ∃ m ∈ outOf c, m.ir = b.ir := by
          unfold outOf
          split_ifs with hforce
          · exact ⟨b, hb, rfl⟩
          · have hm : b ∈ c.irrepsOut.filter fun m => decide (∃ a ∈ c.irrepsIn, 0 < a.mul ∧ a.ir = m.ir) := List.mem_filter.mpr ⟨hb, by simpa using ⟨a, ha, a0, hab⟩⟩
            have h1 : b.ir ∈ expand (c.irrepsOut.filter fun m => decide (∃ a ∈ c.irrepsIn, 0 < a.mul ∧ a.ir = m.ir)) := by
              unfold expand
              exact List.mem_flatMap.mpr ⟨b, hm, List.mem_replicate.mpr ⟨by omega, rfl⟩⟩
            rw [← Irreps.expand_simplify] at h1
            unfold expand at h1
            obtain ⟨m, h2, h3⟩ := List.mem_flatMap.mp h1
            exact ⟨m, h2, (List.mem_replicate.mp h3).2.symm⟩
        obtain ⟨m, m1, m2⟩ := this
        obtain ⟨o, ho, e⟩ := List.getElem_of_mem m1
        exact ⟨o, ⟨m.mul * c.channelOut.getD 1, m.ir⟩, by simp [Irreps.mul, List.getElem?_map, List.getElem?_eq_getElem ho, e], m2⟩
      obtain ⟨i, mi, i1, i2⟩ := hin
      obtain ⟨o, mo, o1, o2⟩ := hout
      have := ((C31_default_instructions hf).1 i o).mpr ⟨mi, mo, i1, o1, by rw [i2, o2, hab]⟩
      intro h
      rw [h] at this
      simp at this
    have key : ∀ e, c.shape = .error e → init c rnd = .error e := by
      intro e he
      unfold init
      simp only [hr, bind, Except.bind]
      rw [if_neg (by rcases hp with h | h <;> simp [h]), outIrreps_eq hr]
      simp only [hf, getWeights_error he hne]
    refine ⟨fun h1 h2 => key _ (by simp [Cfg.shape, h1, h2]), fun h1 h2 => key _ (by simp [Cfg.shape, h1, h2]), fun h1 h2 => key _ ?_, fun h1 => key _ (by simp [Cfg.shape, h1])⟩
    rcases h2 with h2 | h2
    · simp [Cfg.shape, h1, h2]
    · cases h3 : c.weightsDim <;> simp [Cfg.shape, h1, h2, h3]

theorem live_blocks {x : IArr ℝ} (hx : x.Coherent) (h : Unflagged x) : ((live x).flatMap fun t => blocksOf (List.replicate t.1.mul t.1.ir) t.2) = x.blocks := by
  have hl : x.terms.length = x.zeroFlags.length := by
    have a := termsOf_length x.irreps x.array
    have b := hx.inv.flags.lengths.2
    unfold IArr.terms
    omega
  have key : ∀ (ts : List (MulIrrep × List ℝ)) (fs : List Bool), ts.length = fs.length → (∀ (j : ℕ) (m : MulIrrep), (ts.map Prod.fst)[j]? = some m → 0 < m.mul → fs[j]? = some false) →
      ((((ts.zip fs).filter fun t => !t.2).map Prod.fst).flatMap fun t => blocksOf (List.replicate t.1.mul t.1.ir) t.2) = ts.flatMap fun t => blocksOf (List.replicate t.1.mul t.1.ir) t.2 := by
    intro ts
    induction ts with
    | nil => intro fs _ _; simp
    | cons t ts ih =>
      intro fs hl hf
      cases fs with
      | nil => simp at hl
      | cons b fs =>
        have ih := ih fs (by simpa using hl) fun j m hj hm => by simpa using hf (j + 1) m (by simpa using hj) hm
        cases b
        · simp only [List.zip_cons_cons, List.filter_cons, Bool.not_false, if_true, List.map_cons, List.flatMap_cons, ih]
        · simp only [List.zip_cons_cons, List.filter_cons, Bool.not_true, Bool.false_eq_true, if_false, List.flatMap_cons, ih]
          have h0 : t.1.mul = 0 := by
            by_contra h0
            have := hf 0 t.1 (by simp) (by omega)
            simp at this
          rw [h0]
          simp [blocksOf]
  rw [blocks_eq]
  exact key x.terms x.zeroFlags hl (by rw [terms_fst]; exact h)

theorem effective_total {m : Module} {s : Source} (g : ℝ) {q : PName} (h : (m.params q).length = copies s * entries q) : effective g s (total m s) q = effective g s m.params q := by
  unfold effective total
  rw [if_pos h]

/-- The layer on an accepted input, component by component. -/
theorem layer_value {c : Cfg} {rnd : ℕ → ℕ → ℝ} {m₀ m : Module} (h : init c rnd = .ok m₀) (ht : Trained m₀ m) {lead : Option ℕ} {k : ℕ} {W : Weights} {s : Source} (hu : Uses c lead k W s)
    (hch : c.channelIn = none ∨ c.channelIn = lead) {x : IArr ℝ} (hx : x.Coherent) (hi : x.irreps.regroup = c.irrepsIn.regroup) (hf : Unflagged x) :
    ∃ (z y : IArr ℝ), z.Coherent ∧ c.irrepsIn.regroup = .ok z.irreps ∧ (∀ ir, (z.blocks.filter fun b => decide (b.1 = ir)) = x.blocks.filter fun b => decide (b.1 = ir)) ∧
      layer m lead k W x = .ok y ∧ y.Coherent ∧ y.irreps = (outOf c).mul (c.channelOut.getD 1) ∧
      ∀ (o : ℕ) (mo : MulIrrep), ((outOf c).mul (c.channelOut.getD 1))[o]? = some mo → ∀ v j, v < mo.mul → j < 2 * mo.ir.l + 1 →
        y.array.getD (Irreps.dim (((outOf c).mul (c.channelOut.getD 1)).take o) + (v * (2 * mo.ir.l + 1) + j)) 0 =
          ((m.lin.instructions.filter fun ins => ins.iOut == o).map fun ins =>
            linearTerm m.lin z.array ins (effective c.g s m.params (nameOf z.irreps ((outOf c).mul (c.channelOut.getD 1)) ins))
              ((ins.iIn.bind fun i => z.irreps[i]?).getD ⟨0, ⟨0, .e⟩⟩) mo v j).sum := by
  obtain ⟨i1, i2, i3, i4, i5⟩ := init_spec h
  have hc : m.cfg = c := ht.1.trans i1
  have hfit : Fits c s := by
    have := (uses_select (m := m) (by rw [hc]; exact hu)).2
    rwa [hc] at this
  obtain ⟨z, z1, z2, z3, z4⟩ := layer_eq h ht hu hch hx hi hf
  obtain ⟨f, y, hf', hw, h1, h2, h3, h4⟩ := core_spec (base m) false ((outOf c).mul (c.channelOut.getD 1)) (total_shaped m s) hfit.1 rfl z2.1 rfl
  have hzi : z.irreps = m₀.irrepsIn := by rw [z3, ht.2.1]
  have hfm : f = m.lin := by
    simp only [base, hc] at hf'
    rw [hzi, i4] at hf'
    rw [ht.2.2.2.1]
    exact (Except.ok.inj hf').symm
  subst hfm
  refine ⟨z, y, z2.1, by rw [i2, hzi], fun ir => ?_, by rw [z4, h4], h2, h3, ?_⟩
  · rw [(z2.2.2 rfl).2 ir, live_blocks hx hf]
  · intro o mo ho v j hv hj
    rw [C28_formula hf' _ hw z z2.1 y h1 o mo ho v j hv hj]
    rw [← List.map_id m.lin.instructions, List.map_map, List.zip_map', List.filter_map, List.map_map, List.map_id]
    congr 1
    refine List.map_congr_left fun ins hins => ?_
    have hins' := (List.mem_filter.mp hins).1
    obtain ⟨w1, w2⟩ := weights_spec h ht hfit ins hins'
    obtain ⟨n1, n2, n3⟩ := name_mem hf'
    simp only [Function.comp, id]
    have e : effective (base m).g s (total m s) (nameOf z.irreps ((outOf c).mul (c.channelOut.getD 1)) ins) = effective c.g s m.params (nameOf z.irreps ((outOf c).mul (c.channelOut.getD 1)) ins) := by
      have : (base m).g = c.g := by simp [base, hc]
      rw [this]
      refine effective_total _ ?_
      rw [← n3 ins hins', ← w2, n1, n2]
    rw [e]

/-- **C104 (values).** Take a module from the constructor, after any training, and an input whose irreps are, up to their order, those of the constructor and
without terms marked as zero.  The call returns an array with the output irreps of the module.  Component `j` of copy `v` of the term `o` is the sum over the
paths `i → o` of equal irreps of `path_weight * Σ_u w[u, v] * z[i][u, j]`, plus the bias, where `z` is the input with its irreps sorted and grouped
and `w` the weight of the path: the parameter itself, the one selected by the (clamped) index, or the combination with the given numbers (see `LinM.entry`). -/
theorem C104_value {c : Cfg} {rnd : ℕ → ℕ → ℝ} {m₀ m : Module} (h : init c rnd = .ok m₀) (ht : Trained m₀ m) (hco : c.channelOut = none) {lead : Option ℕ} {k : ℕ} {W : Weights} {s : Source}
    (hu : Uses c lead k W s) (hch : c.channelIn = none ∨ c.channelIn = lead) {x : IArr ℝ} (hx : x.Coherent) (hi : x.irreps.regroup = c.irrepsIn.regroup) (hf : Unflagged x) :
    ∃ (z y : IArr ℝ), z.Coherent ∧ c.irrepsIn.regroup = .ok z.irreps ∧ (∀ ir, (z.blocks.filter fun b => decide (b.1 = ir)) = x.blocks.filter fun b => decide (b.1 = ir)) ∧
      call m lead k W x = .ok y ∧ y.Coherent ∧ y.irreps = outOf c ∧
      ∀ (o : ℕ) (mo : MulIrrep), (outOf c)[o]? = some mo → ∀ v j, v < mo.mul → j < 2 * mo.ir.l + 1 →
        y.array.getD (Irreps.dim ((outOf c).take o) + (v * (2 * mo.ir.l + 1) + j)) 0 =
          ((m.lin.instructions.filter fun ins => ins.iOut == o).map fun ins =>
            linearTerm m.lin z.array ins (effective c.g s m.params (nameOf z.irreps (outOf c) ins)) ((ins.iIn.bind fun i => z.irreps[i]?).getD ⟨0, ⟨0, .e⟩⟩) mo v j).sum := by
  obtain ⟨z, y, z1, z2, z3, y1, y2, y3, y4⟩ := layer_value h ht hu hch hx hi hf
  have e : (outOf c).mul (c.channelOut.getD 1) = outOf c := by simp [hco, Irreps.mul]
  rw [e] at y3 y4
  have hout : m.irrepsOut = outOf c := by rw [ht.2.2.1, (init_spec h).2.2.1]
  obtain ⟨w, w1, w2, w3, w4⟩ := rechunk_spec y2.inv (new := m.irrepsOut) (by rw [y3, hout])
  refine ⟨z, w, z1, z2, z3, ?_, w2.coherent, by rw [w3, hout], ?_⟩
  · simp only [call, y1, w1, bind, Except.bind]
  · rw [w4]
    exact y4

/-- **C104 (channels).** With `channel_out = ch > 0`, the call returns an array with a new axis of `ch` channels and the output irreps of the module: the multiplicities of the
layer to `ch` times the output irreps are split.  Unlike the Flax and Haiku modules, an axis of channels of the input is not mixed: every element of the leading axes is an input of its own. -/
theorem C104_channel {c : Cfg} {rnd : ℕ → ℕ → ℝ} {m₀ m : Module} (h : init c rnd = .ok m₀) (ht : Trained m₀ m) {ch : ℕ} (hco : c.channelOut = some ch) (h0 : 0 < ch) {lead : Option ℕ} {k : ℕ}
    {W : Weights} {s : Source} (hu : Uses c lead k W s) (hch : c.channelIn = none ∨ c.channelIn = lead) {x : IArr ℝ} (hx : x.Coherent) (hi : x.irreps.regroup = c.irrepsIn.regroup)
    (hf : Unflagged x) :
    ∃ (z y₀ : IArr ℝ) (y₁ y : IArr (Fin ch → ℝ)), z.Coherent ∧ c.irrepsIn.regroup = .ok z.irreps ∧ (∀ ir, (z.blocks.filter fun b => decide (b.1 = ir)) = x.blocks.filter fun b => decide (b.1 = ir)) ∧
      y₀.Coherent ∧ y₀.irreps = (outOf c).mul ch ∧
      (∀ (o : ℕ) (mo : MulIrrep), ((outOf c).mul ch)[o]? = some mo → ∀ v j, v < mo.mul → j < 2 * mo.ir.l + 1 →
        y₀.array.getD (Irreps.dim (((outOf c).mul ch).take o) + (v * (2 * mo.ir.l + 1) + j)) 0 =
          ((m.lin.instructions.filter fun ins => ins.iOut == o).map fun ins =>
            linearTerm m.lin z.array ins (effective c.g s m.params (nameOf z.irreps ((outOf c).mul ch) ins)) ((ins.iIn.bind fun i => z.irreps[i]?).getD ⟨0, ⟨0, .e⟩⟩) mo v j).sum) ∧
      y₀.mulToAxis ch = .ok y₁ ∧ callChannel m ch lead k W x = .ok y ∧ y.Coherent ∧ y.irreps = outOf c ∧ y.array = y₁.array := by
  obtain ⟨z, y, z1, z2, z3, y1, y2, y3, y4⟩ := layer_value h ht hu hch hx hi hf
  have e : c.channelOut.getD 1 = ch := by simp [hco]
  rw [e] at y3 y4
  have hout : m.irrepsOut = outOf c := by rw [ht.2.2.1, (init_spec h).2.2.1]
  obtain ⟨u, v1, v2, v3, -⟩ := mulToAxis_spec y2.inv h0 (by
    rw [y3]
    intro m hm
    obtain ⟨m', -, rfl⟩ := List.mem_map.mp hm
    exact Nat.dvd_mul_left _ _)
  have hi' : u.irreps = outOf c := by
    rw [v3, y3, Irreps.mul, List.map_map]
    conv_rhs => rw [← List.map_id (outOf c)]
    exact List.map_congr_left fun m _ => by simp [Nat.mul_div_cancel _ h0]
  obtain ⟨w, w1, w2, w3, w4⟩ := rechunk_spec v2.coherent.inv (new := m.irrepsOut) (by rw [hi', hout])
  refine ⟨z, y, u, w, z1, z2, z3, y2, y3, y4, v1, ?_, w2.coherent, by rw [w3, hout], w4⟩
  simp only [callChannel, y1, v1, w1, bind, Except.bind]

/-! ### Equivariance -/

theorem tr_layer {D : Irrep → List ℝ → List ℝ} (hD : FLin.LinAct D) (h0 : FLin.FixesScalars D) {c : Cfg} {rnd : ℕ → ℕ → ℝ} {m₀ m : Module} (h : init c rnd = .ok m₀) (ht : Trained m₀ m)
    {lead : Option ℕ} {k : ℕ} {W W' : Weights} {s : Source} (hu : Uses c lead k W s) (hu' : Uses c lead k W' s) {x x' y : IArr ℝ} (hx : Tr D x x') (hy : layer m lead k W x = .ok y) :
    ∃ y', layer m lead k W' x' = .ok y' ∧ Tr D y y' := by
  obtain ⟨i1, i2, i3, i4, i5⟩ := init_spec h
  have hc : m.cfg = c := ht.1.trans i1
  obtain ⟨s1, hfit⟩ := uses_select (m := m) (by rw [hc]; exact hu)
  obtain ⟨s1', -⟩ := uses_select (m := m) (by rw [hc]; exact hu')
  rw [hc] at hfit
  unfold layer at hy ⊢
  rw [hx.irreps]
  cases hr : x.irreps.regroup with
  | error e => rw [hr] at hy; cases hy
  | ok r =>
    simp only [hr, bind, Except.bind] at hy ⊢
    by_cases hne : m.irrepsIn = r
    · rw [if_neg (by simp [hne])] at hy ⊢
      cases hck : checkChannel m.cfg.channelIn lead with
      | error e => rw [hck] at hy; cases hy
      | ok _ =>
        simp only [hck, s1, s1'] at hy ⊢
        cases hv : x.removeZeroChunks with
        | error e => rw [hv] at hy; cases hy
        | ok v =>
          obtain ⟨v', v1, v2⟩ := tr_removeZeroChunks hD.toAct hx hv
          simp only [hv, v1] at hy ⊢
          cases hz : v.regroup with
          | error e => rw [hz] at hy; cases hy
          | ok z =>
            obtain ⟨z', z1, z2⟩ := tr_regroup hD.toAct v2 hz
            simp only [hz, z1] at hy ⊢
            obtain ⟨f1, f2, f3⟩ := name_mem i4
            rw [← f1, ← f2, ← ht.2.2.2.1] at f3
            have hm := FLin.mapM_ok (g := m.weight s) (h := fun ins => effective c.g s (total m s) (nameOf m.lin.irrepsIn m.lin.irrepsOut ins)) m.lin.instructions fun ins hi => by
              rw [weight_eq h ht hfit hi]
              exact LinM.weight_eq c.g (total_shaped m s) hfit.1 (f3 ins hi)
            simp only [hm] at hy ⊢
            have hw : FLin.WeightsOk m.lin (m.lin.instructions.map fun ins => effective c.g s (total m s) (nameOf m.lin.irrepsIn m.lin.irrepsOut ins)) := by
              unfold FLin.WeightsOk
              rw [List.map_map]
              refine List.map_congr_left fun ins hi => ?_
              rw [f3 ins hi]
              simp [effective]
            have hg := FLin.init_good i4 (by simp)
            rw [← ht.2.2.2.1] at hg
            exact FLin.tr_call hD hg (Or.inl h0) hw z2 hy
    · rw [if_pos hne] at hy
      cases hy

/-- Weights that are scalars are used in the same way after a rotation. -/
theorem uses_transform {R : Matrix (Fin 3) (Fin 3) ℝ} (hR : IsOrth R) {c : Cfg} {lead : Option ℕ} {k : ℕ} {W : Weights} (hW : GoodWeights W) {s : Source} (hu : Uses c lead k W s) :
    ∃ W', TransformsTo R W W' ∧ Uses c lead k W' s := by
  cases W with
  | none => exact ⟨.none, rfl, hu⟩
  | index i => exact ⟨.index i, rfl, hu⟩
  | floats w => exact ⟨.floats w, rfl, hu⟩
  | irreps w =>
    obtain ⟨w', h1, h2, h3, -⟩ := C59_transform R w hW
    refine ⟨.irreps w', h1, ?_⟩
    unfold Uses at hu ⊢
    cases hk : c.kind <;> rw [hk] at hu <;> simp only at hu ⊢
    · cases hu.1
    · obtain ⟨-, n, i, -, -, e, -⟩ := hu
      cases e
    · obtain ⟨hi, v, hv, hd, e, rfl⟩ := hu
      rcases e with e | ⟨b, e, hb, rfl⟩
      · cases e
      · cases e
        exact ⟨hi, _, hv, hd, Or.inr ⟨w', rfl, by rw [h3]; exact hb, (scalar_fixed hR hW hb h1).2⟩, rfl⟩
    · obtain ⟨hi, v, nc, hv, hd, e, r⟩ := hu
      rcases e with e | ⟨b, e, hb, rfl⟩
      · cases e
      · cases e
        exact ⟨hi, _, nc, hv, hd, Or.inr ⟨w', rfl, by rw [h3]; exact hb, (scalar_fixed hR hW hb h1).2⟩, r⟩

/-- **C104 (equivariance).** With the same parameters, the module applied to a rotated or reflected array (and to weights that transform as scalars do) returns the rotated or reflected result. -/
theorem C104_equivariant {c : Cfg} {rnd : ℕ → ℕ → ℝ} {m₀ m : Module} (h : init c rnd = .ok m₀) (ht : Trained m₀ m) {lead : Option ℕ} {k : ℕ} {W : Weights} (hW : GoodWeights W) {s : Source}
    (hu : Uses c lead k W s) {x : IArr ℝ} (hx : x.Coherent) {R : Matrix (Fin 3) (Fin 3) ℝ} (hR : IsOrth R) {y : IArr ℝ} (hy : call m lead k W x = .ok y) :
    ∃ x' W' y' y'', x.transformByMatrix R = .ok x' ∧ TransformsTo R W W' ∧ call m lead k W' x' = .ok y' ∧ y.transformByMatrix R = .ok y'' ∧ y'.Equal y'' := by
  have hD := linAct_mat (matRows_family fun ir => dMatrix ir R)
  obtain ⟨W', w1, w2⟩ := uses_transform hR hW hu
  obtain ⟨x', h1, h2⟩ := transformBy_spec hD.toAct hx.inv
  unfold call at hy
  cases hl : layer m lead k W x with
  | error e => rw [hl] at hy; cases hy
  | ok u =>
    obtain ⟨u', u1, u2⟩ := tr_layer hD (fixes hR) h ht hu w2 h2 hl
    simp only [hl, bind, Except.bind] at hy
    obtain ⟨y', k1, k2⟩ := tr_rechunk hD.toAct u2 hy
    obtain ⟨y'', l1, l2⟩ := transformBy_spec hD.toAct k2.inv
    exact ⟨x', W', y', y'', h1, w1, by simp only [call, u1, bind, Except.bind]; exact k1, l1, k2.unique l2⟩

/-- **C104 (channels, equivariance).** The same for a module with `channel_out`. -/
theorem C104_channel_equivariant {c : Cfg} {rnd : ℕ → ℕ → ℝ} {m₀ m : Module} (h : init c rnd = .ok m₀) (ht : Trained m₀ m) {ch : ℕ} (h0 : 0 < ch) {lead : Option ℕ} {k : ℕ} {W : Weights}
    (hW : GoodWeights W) {s : Source} (hu : Uses c lead k W s) {x : IArr ℝ} (hx : x.Coherent) {R : Matrix (Fin 3) (Fin 3) ℝ} (hR : IsOrth R) {y : IArr (Fin ch → ℝ)}
    (hy : callChannel m ch lead k W x = .ok y) :
    ∃ x' W' y' y'', x.transformByMatrix R = .ok x' ∧ TransformsTo R W W' ∧ callChannel m ch lead k W' x' = .ok y' ∧ y.transformByMatrix R = .ok y'' ∧ y'.Equal y'' := by
  have hM := matRows_family fun ir => dMatrix ir R
  have hD := linAct_mat hM
  have hDc : Act (fun ir => matVec (α := Fin ch → ℝ) (matRows (dMatrix ir R))) := matVec_act fun ir => (hM ir).1
  obtain ⟨W', w1, w2⟩ := uses_transform hR hW hu
  obtain ⟨x', h1, h2⟩ := transformBy_spec hD.toAct hx.inv
  unfold callChannel at hy
  cases hl : layer m lead k W x with
  | error e => rw [hl] at hy; cases hy
  | ok u =>
    obtain ⟨u', u1, u2⟩ := tr_layer hD (fixes hR) h ht hu w2 h2 hl
    simp only [hl, bind, Except.bind] at hy
    cases hv : u.mulToAxis ch with
    | error e => rw [hv] at hy; cases hy
    | ok v =>
      obtain ⟨v', v1, v2⟩ := tr_mulToAxis h0 (fun ir => (hM ir).1) u2 hv
      simp only [hv] at hy
      obtain ⟨y', k1, k2⟩ := tr_rechunk hDc v2 hy
      obtain ⟨y'', l1, l2⟩ := transformBy_spec hDc k2.inv
      exact ⟨x', W', y', y'', h1, w1, by simp only [callChannel, u1, v1, bind, Except.bind]; exact k1, l1, k2.unique l2⟩

/-! ### Refusals -/

/-- **C104 (refusals).** Irreps that are not, up to their order, those of the constructor raise `ValueError`; so does a last leading axis of another size than `channel_in`. -/
theorem C104_refuse {c : Cfg} {rnd : ℕ → ℕ → ℝ} {m₀ m : Module} (h : init c rnd = .ok m₀) (ht : Trained m₀ m) (lead : Option ℕ) (k : ℕ) (W : Weights) (x : IArr ℝ) :
    (x.irreps.regroup ≠ c.irrepsIn.regroup → call m lead k W x = .error .valueError) ∧
    (x.irreps.regroup = c.irrepsIn.regroup → ∀ n n', c.channelIn = some n → lead = some n' → n ≠ n' → call m lead k W x = .error .valueError) := by
  obtain ⟨i1, i2, i3, i4, i5⟩ := init_spec h
  have hc : m.cfg = c := ht.1.trans i1
  refine ⟨fun hne => ?_, fun he n n' h1 h2 h3 => ?_⟩
  · unfold call layer
    rw [Irreps.regroup_eq] at hne ⊢
    simp only [bind, Except.bind]
    rw [if_pos (by
      intro e
      rw [i2, ← ht.2.1, e] at hne
      exact hne rfl)]
  · unfold call layer
    rw [he, i2]
    simp only [bind, Except.bind]
    rw [if_neg (by rw [ht.2.1]; simp), hc, h1, h2]
    simp [checkChannel, h3]

/-- **C104 (zero terms).** An array of the right irreps with a term of positive multiplicity that is marked as zero raises `AssertionError`: the term is removed after the comparison
of the irreps, and the layer then refuses the remaining ones. -/
theorem C104_zero_chunk_refused {c : Cfg} {rnd : ℕ → ℕ → ℝ} {m₀ m : Module} (h : init c rnd = .ok m₀) (ht : Trained m₀ m) {lead : Option ℕ} {k : ℕ} {W : Weights} {s : Source}
    (hu : Uses c lead k W s) (hch : c.channelIn = none ∨ c.channelIn = lead) {x : IArr ℝ} (hx : x.Coherent) (hi : x.irreps.regroup = c.irrepsIn.regroup) {j : ℕ} {t : MulIrrep}
    (hj : x.irreps[j]? = some t) (hm : 0 < t.mul) (hz : x.zeroFlags[j]? = some true) : call m lead k W x = .error .assertion := by
  obtain ⟨i1, i2, i3, i4, i5⟩ := init_spec h
  have hc : m.cfg = c := ht.1.trans i1
  obtain ⟨s1, hfit⟩ := uses_select (m := m) (by rw [hc]; exact hu)
  rw [hc] at hfit
  obtain ⟨z, z1, z2⟩ := prepInput_spec (base m) hx
  have hcnt : (expand z.irreps).length ≠ (expand m.irrepsIn).length := by
    have h1 := (z2.2.2 rfl).1
    rw [Irreps.regroup_eq] at h1
    have hzi : regroupedIrreps ((live x).map Prod.fst) = z.irreps := Except.ok.inj h1
    have e2 : ∀ ms : Irreps, (expand (regroupedIrreps ms)).length = (expand ms).length := by
      intro ms
      unfold regroupedIrreps
      rw [Irreps.expand_simplify]
      exact ((Irreps.sortIrreps_perm _).flatMap_right _).length_eq
    have e3 : regroupedIrreps x.irreps = m.irrepsIn := by
      rw [← hi, Irreps.regroup_eq] at i2
      rw [ht.2.1]
      exact Except.ok.inj i2
    rw [← hzi, ← e3, e2, e2, (live_count hx).1, (live_count hx).2]
    have hl : x.terms.length = x.zeroFlags.length := by
      have a := termsOf_length x.irreps x.array
      have b := hx.inv.flags.lengths.2
      unfold IArr.terms
      omega
    have := (filter_count x.terms x.zeroFlags hl).2 j t (by rw [terms_fst]; exact hj) hm hz
    have hlive : ((live x).map fun t => t.1.mul).sum = ((((x.terms.zip x.zeroFlags).filter fun t => !t.2).map Prod.fst).map fun t => t.1.mul).sum := rfl
    omega
  have hck : checkChannel m.cfg.channelIn lead = .ok () := by
    rw [hc]
    rcases hch with e | e
    · rw [e]; rfl
    · rw [e]
      cases hl : lead with
      | some n => simp [checkChannel]
      | none => rfl
  have hz1 := z1
  unfold prepInput at hz1
  rw [if_pos (show (base m).simp = true from rfl)] at hz1
  unfold call layer
  rw [hi, i2]
  simp only [bind, Except.bind]
  rw [if_neg (by rw [ht.2.1]; simp), hck]
  simp only
  cases hv : x.removeZeroChunks with
  | error e => rw [hv] at hz1; cases hz1
  | ok v =>
    simp only [hv, bind, Except.bind] at hz1
    simp only [hz1, s1]
    obtain ⟨f1, f2, f3⟩ := name_mem i4
    rw [← f1, ← f2, ← ht.2.2.2.1] at f3
    have hm := FLin.mapM_ok (g := m.weight s) (h := fun ins => effective c.g s (total m s) (nameOf m.lin.irrepsIn m.lin.irrepsOut ins)) m.lin.instructions fun ins hi => by
      rw [weight_eq h ht hfit hi]
      exact LinM.weight_eq c.g (total_shaped m s) hfit.1 (f3 ins hi)
    simp only [hm]
    unfold FLin.call rechunk
    rw [if_pos]
    · rfl
    · intro e
      rw [Irreps.simplify_eq_iff, ht.2.2.2.1, f1, ← ht.2.1] at e
      exact hcnt (by rw [e])

/-! ### Comparison with Flax and Haiku -/

/-- The Flax or Haiku module with the same arguments. -/
noncomputable def flax (c : Cfg) : LinM.Cfg := ⟨c.irrepsOut, some c.irrepsIn, c.biases, none, none, c.force, true, c.a, c.g⟩

/-- **C104 (Flax and Haiku).** Suppose that the input has every irrep of `irreps_out` and, with `force_irreps_out`, that no two neighbours of `irreps_out` are equal and no term is empty.  Then the Equinox module returns the
same irreps and the same numbers as the Flax or Haiku module with the same parameters, for every type of weights. -/
theorem C104_flax {c : Cfg} {rnd : ℕ → ℕ → ℝ} {m₀ m : Module} (h : init c rnd = .ok m₀) (ht : Trained m₀ m) (hco : c.channelOut = none)
    (hall : ∀ b ∈ c.irrepsOut, 0 < b.mul → ∃ a ∈ c.irrepsIn, 0 < a.mul ∧ a.ir = b.ir) (hforce : c.force = true → c.irrepsOut.simplify = c.irrepsOut)
    {lead : Option ℕ} {k : ℕ} {W : Weights} {s : Source} (hu : Uses c lead k W s) (hch : c.channelIn = none ∨ c.channelIn = lead) {x : IArr ℝ} (hx : x.Coherent)
    (hi : x.irreps.regroup = c.irrepsIn.regroup) (hf : Unflagged x) {P : Params} (hP : Shaped s P) (hPm : ∀ q ∈ m.weights, P q.1 = q.2) :
    ∃ (y y' : IArr ℝ), call m lead k W x = .ok y ∧ callFrom (flax c) P (.ok s) x = .ok y' ∧ y.irreps = y'.irreps ∧ y.array = y'.array := by
  obtain ⟨i1, i2, i3, i4, i5⟩ := init_spec h
  have hc : m.cfg = c := ht.1.trans i1
  have hfit : Fits c s := by
    have := (uses_select (m := m) (by rw [hc]; exact hu)).2
    rwa [hc] at this
  have hin : ∀ b ∈ c.irrepsOut, 0 < b.mul → b.ir ∈ m.irrepsIn.map MulIrrep.ir := by
    intro b hb h0
    obtain ⟨a, a1, a2, a3⟩ := hall b hb h0
    obtain ⟨g, g1, g2, g3, g4⟩ := C07_regroup_spec c.irrepsIn
    rw [i2] at g1
    cases g1
    have h1 : 0 < c.irrepsIn.count a.ir := by
      rw [Irreps.count_eq_count_expand, List.count_pos_iff]
      unfold expand
      exact List.mem_flatMap.mpr ⟨a, a1, List.mem_replicate.mpr ⟨by omega, rfl⟩⟩
    rw [← g4, Irreps.count_eq_count_expand, List.count_pos_iff] at h1
    unfold expand at h1
    obtain ⟨mi, h2, h3⟩ := List.mem_flatMap.mp h1
    rw [ht.2.1]
    exact List.mem_map.mpr ⟨mi, h2, by rw [← a3, (List.mem_replicate.mp h3).2]⟩
  have hlay : layerOut (flax c) m.irrepsIn = outOf c := by
    unfold layerOut outOf
    have hsimp : (flax c).simp = true := rfl
    have hfo : (flax c).force = c.force := rfl
    have hio : (flax c).irrepsOut = c.irrepsOut := rfl
    rw [hsimp, hfo, hio]
    simp only [if_true]
    split_ifs with hfc
    · exact hforce hfc
    · rw [List.filter_eq_self.mpr]
      · rw [Irreps.simplify_eq_iff]
        have : ∀ l : Irreps, (∀ b ∈ l, 0 < b.mul → ∃ a ∈ c.irrepsIn, 0 < a.mul ∧ a.ir = b.ir) → expand l = expand (l.filter fun m => decide (∃ a ∈ c.irrepsIn, 0 < a.mul ∧ a.ir = m.ir)) := by
          intro l
          induction l with
          | nil => intro _; rfl
          | cons b l ih =>
            intro hl
            have ih := ih fun b hb => hl b (by simp [hb])
            rw [List.filter_cons]
            split_ifs with hb
            · unfold expand at ih ⊢
              rw [List.flatMap_cons, List.flatMap_cons, ih]
            · have h0 : b.mul = 0 := by
                by_contra h0
                exact hb (by simpa using hl b (by simp) (by omega))
              rw [← ih]
              unfold expand
              rw [List.flatMap_cons, h0]
              simp
        exact this _ hall
      · intro b hb
        have h1 : b.ir ∈ expand c.irrepsOut := by
          rw [← Irreps.expand_simplify]
          unfold expand
          exact List.mem_flatMap.mpr ⟨b, hb, List.mem_replicate.mpr ⟨by have := Irreps.simplify_pos c.irrepsOut b hb; omega, rfl⟩⟩
        unfold expand at h1
        obtain ⟨b', h2, h3⟩ := List.mem_flatMap.mp h1
        have := List.mem_replicate.mp h3
        simpa [this.2] using hin b' h2 (by omega)
  obtain ⟨z, z1, z2, z3, z4⟩ := layer_eq h ht hu hch hx hi hf
  have e1 : (outOf c).mul (c.channelOut.getD 1) = outOf c := by simp [hco, Irreps.mul]
  rw [e1] at z4 i4
  have hout : m.irrepsOut = outOf c := by rw [ht.2.2.1, i3]
  -- the two layers are the same
  have hval : validate (flax c) false z.irreps = .ok () := by
    refine validate_ok rfl ?_ false
    intro i hii
    have : i = c.irrepsIn := (Option.some.inj hii).symm
    subst this
    rw [z3, ht.2.1]
    have := C07_regroup_idempotent c.irrepsIn
    rw [i2] at this
    rw [i2]
    exact this
  obtain ⟨f, y, g1, g2, g3, g4, g5, g6⟩ := core_spec (base m) false (outOf c) (total_shaped m s) hfit.1 rfl z2.1 rfl
  obtain ⟨f', y', k1, k2, k3, k4, k5, k6⟩ := core_spec (flax c) false (outOf c) hP hfit.1 rfl z2.1 hval
  have hb : (base m).g = c.g := by simp [base, hc]
  have hff : f = f' := by
    have : FLin.init z.irreps (outOf c) none (.all (base m).biases) (base m).a (base m).g = FLin.init z.irreps (outOf c) none (.all (flax c).biases) (flax c).a (flax c).g := by
      simp [base, flax, hc]
    rw [g1, k1] at this
    exact Except.ok.inj this
  subst hff
  have hfm : f = m.lin := by
    simp only [base, hc] at g1
    rw [z3, ht.2.1, i4] at g1
    rw [ht.2.2.2.1]
    exact (Except.ok.inj g1).symm
  subst hfm
  have hyy : y = y' := by
    have : (m.lin.instructions.map fun ins => effective (base m).g s (total m s) (nameOf z.irreps (outOf c) ins)) =
        m.lin.instructions.map fun ins => effective (flax c).g s P (nameOf z.irreps (outOf c) ins) := by
      refine List.map_congr_left fun ins hins => ?_
      obtain ⟨w1, w2⟩ := weights_spec h ht hfit ins hins
      obtain ⟨n1, n2, n3⟩ := name_mem g1
      rw [n1, n2] at w1 w2
      rw [hb]
      show _ = effective c.g s P _
      rw [effective_total _ (by rw [w2, n3 ins hins])]
      unfold effective
      have : m.params (nameOf z.irreps (outOf c) ins) = P (nameOf z.irreps (outOf c) ins) := by
        unfold Module.get at w1
        unfold Module.params
        cases hq : m.weights.find? fun r => r.1 == nameOf z.irreps (outOf c) ins with
        | none => rw [hq] at w1; cases w1
        | some r =>
          have h1 := List.mem_of_find?_eq_some hq
          have h2 := List.find?_some hq
          simp only [beq_iff_eq] at h2
          rw [← h2, hPm r h1]
          rfl
      rw [this]
    rw [this, k3] at g3
    exact (Except.ok.inj g3).symm
  subst hyy
  obtain ⟨w, w1, w2, w3, w4⟩ := rechunk_spec g4.inv (new := m.irrepsOut) (by rw [g5, hout])
  obtain ⟨w', w1', w2', w3', w4'⟩ := finish_spec (c := flax c) (irreps := m.irrepsIn) g4 (by rw [g5, hlay])
  refine ⟨w, w', ?_, ?_, ?_, by rw [w4, w4']⟩
  · simp only [call, z4, g6, w1, bind, Except.bind]
  · have hz : prepInput (flax c) x = .ok z := z1
    simp only [callFrom, hz, LinM.outIrreps_eq, bind, Except.bind]
    rw [z3, hlay, k6]
    exact w1'
  · rw [w3, w3', hout]
    unfold finalOut
    split_ifs with hfc
    · have hfc' : c.force = true := hfc
      unfold outOf
      rw [if_pos hfc']
      rfl
    · exact hlay.symm

/-! ### A case -/

/-- `Linear(irreps_out="2x0e+1o+2e", irreps_in="1o+0e", linear_type="indexed", num_indexed_weights=3)`. -/
noncomputable def demo : Cfg := ⟨[⟨2, ⟨0, .e⟩⟩, ⟨1, ⟨1, .o⟩⟩, ⟨1, ⟨2, .e⟩⟩], [⟨1, ⟨1, .o⟩⟩, ⟨1, ⟨0, .e⟩⟩], none, none, true, 0, 0, some 3, false, false, none, .indexed⟩

example : Given demo 3 1 := Or.inr (Or.inl ⟨rfl, rfl, rfl⟩)

example : outOf demo = [⟨2, ⟨0, .e⟩⟩, ⟨1, ⟨1, .o⟩⟩] := by
  unfold outOf demo
  simp only [Bool.false_eq_true, if_false]
  decide

/-- Index `7` is read as `2`, the last one. -/
example : Uses demo none 0 (.index 7) (.indexed 3 2) := ⟨rfl, 3, 7, rfl, by decide, rfl, rfl⟩

example : ∃ (m : Module) (x y : IArr ℝ), init demo (fun _ _ => 1) = .ok m ∧ Trained m m ∧ x.Coherent ∧ Unflagged x ∧ call m none 0 (.index 7) x = .ok y ∧ y.irreps = outOf demo := by
  obtain ⟨m, h1, h2, -⟩ := C104_init (c := demo) (n := 3) (std := 1) (Or.inr (Or.inl ⟨rfl, rfl, rfl⟩)) (Or.inl rfl) (fun _ _ => 1)
  obtain ⟨x, x1, x2, x3, x4, x5⟩ := (C12_from_array demo.irrepsIn ([1, 2, 3, 4] : List ℝ)).1 rfl
  have hf : Unflagged x := by
    intro j t hj _
    have hx : (⟨demo.irrepsIn, [1, 2, 3, 4], none, none⟩ : IArr ℝ) = x := Except.ok.inj x1
    subst hx
    simp only [demo] at hj
    rcases j with - | - | j
    · rfl
    · rfl
    · simp at hj
  have ht : Trained m m := ⟨rfl, rfl, rfl, rfl, rfl⟩
  obtain ⟨z, y, -, -, -, y1, -, y2, -⟩ := C104_value h1 ht rfl (lead := none) (k := 0) (W := .index 7) (s := .indexed 3 2) ⟨rfl, 3, 7, rfl, by decide, rfl, rfl⟩ (Or.inl rfl) x2 (by rw [x3]) hf
  exact ⟨m, x, y, h1, ht, x2, hf, y1, y2⟩

end E3nn.LinEqx
