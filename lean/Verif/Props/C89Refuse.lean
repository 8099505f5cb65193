import Verif.Props.C89Complete

/-!
# C89, continued: where the `Linear` module refuses its input or goes wrong
-/

namespace E3nn.LinM
open E3nn.IArr E3nn.Wig

theorem regroup_count {ms ms' : Irreps} (h : ms.regroup = ms'.regroup) : (expand ms).length = (expand ms').length := by
  have key : ∀ l : Irreps, (expand (regroupedIrreps l)).length = (expand l).length := by
    intro l
    unfold regroupedIrreps
    rw [Irreps.expand_simplify]
    exact ((Irreps.sortIrreps_perm l).flatMap_right _).length_eq
  rw [Irreps.regroup_eq, Irreps.regroup_eq] at h
  injection h with h
  rw [← key ms, ← key ms']
  exact congrArg (fun l => (expand l).length) h

theorem expand_mul_length (ms : Irreps) (k : ℕ) : (expand (ms.mul k)).length = k * (expand ms).length := by
  induction ms with
  | nil => simp [expand, Irreps.mul]
  | cons m ms ih =>
    have : Irreps.mul (m :: ms) k = ⟨m.mul * k, m.ir⟩ :: Irreps.mul ms k := rfl
    rw [this, expand_cons, expand_cons, List.length_append, List.length_append, ih]
    simp
    ring

theorem core_refuses {c : Cfg} (hc : c.instructions = none) {i : Irreps} (hi : c.irrepsIn = some i) (ch : Bool) (out : Irreps) (P : Params) (s : Except PyErr Source)
    {x : IArr ℝ} (h : x.irreps.regroup ≠ i.regroup) : core c ch out P s x = .error .valueError := by
  have : validate c ch x.irreps = .error .valueError := by
    unfold validate
    rw [hc, hi]
    simp only [compareRegrouped]
    rw [Irreps.regroup_eq, Irreps.regroup_eq] at *
    simp only [bind, Except.bind]
    rw [if_neg fun e => h (by rw [e])]
  simp [core, this, bind, Except.bind]

/-- **C89 (refusal).** An input whose irreps are not, up to the order, the announced ones raises `ValueError`. -/
theorem C89_refuse {c : Cfg} (hc : c.instructions = none) {i : Irreps} (hi : c.irrepsIn = some i) (P : Params) (W : Weights) {x : IArr ℝ} (hx : x.Coherent)
    (h : ∀ z, Prepared c x z → z.irreps.regroup ≠ i.regroup) : call c P W x = .error .valueError := by
  obtain ⟨z, z1, z2⟩ := prepInput_spec c hx
  simp only [call, callFrom, z1, outIrreps_eq, core_refuses hc hi false _ P _ (h z z2), bind, Except.bind]

/-- **C89 (announced irreps and channels).** With `channel_out`, announcing the irreps of the input makes the module refuse it:
the comparison is made after the channels were merged into the multiplicities.  Every array of the announced irreps (with at
least one component and a number of channels other than one) raises `ValueError`. -/
theorem C89_channel_irreps_in_refused {c : Cfg} (hc : c.instructions = none) {i : Irreps} (hi : c.irrepsIn = some i) {ch : ℕ} (P : Params) (W : Weights)
    {k : ℕ} (hk : k ≠ 1) {x : IArr (Fin k → ℝ)} (hx : x.Coherent) (hne : 0 < (expand i).length) (h : ∀ z, Prepared c x z → z.irreps.regroup = i.regroup) :
    callChannel c ch P W x = .error .valueError := by
  obtain ⟨z, z1, z2⟩ := prepInput_spec c hx
  obtain ⟨u, u1, u2, u3, -⟩ := axisToMul_spec z2.1.inv
  have hu : u.irreps = z.irreps.mul k := by
    rw [u3]
    exact List.map_congr_left fun m _ => by rw [Nat.mul_comm]
  have hr : u.irreps.regroup ≠ i.regroup := by
    intro e
    rw [hu] at e
    have e1 := regroup_count e
    have e2 := regroup_count (h z z2)
    rw [expand_mul_length, e2] at e1
    have : k * (expand i).length = 1 * (expand i).length := by omega
    exact hk (Nat.eq_of_mul_eq_mul_right hne this)
  simp only [callChannel, z1, outIrreps_eq, u1, core_refuses hc hi true _ P _ hr, bind, Except.bind]

theorem live_count {x : IArr ℝ} (hx : x.Coherent) : (expand ((live x).map Prod.fst)).length = ((live x).map fun t => t.1.mul).sum ∧
    (expand x.irreps).length = (x.terms.map fun t => t.1.mul).sum := by
  have key : ∀ l : Irreps, (expand l).length = (l.map MulIrrep.mul).sum := by
    intro l
    induction l with
    | nil => rfl
    | cons m l ih => rw [expand_cons, List.length_append, ih]; simp
  constructor
  · rw [key, List.map_map]; rfl
  · rw [key, ← terms_fst, List.map_map]; rfl

theorem filter_count (ts : List (MulIrrep × List ℝ)) (fs : List Bool) (hl : ts.length = fs.length) :
    ((((ts.zip fs).filter fun t => !t.2).map Prod.fst).map fun t => t.1.mul).sum ≤ (ts.map fun t => t.1.mul).sum ∧
    ∀ (j : ℕ) (m : MulIrrep), (ts.map Prod.fst)[j]? = some m → 0 < m.mul → fs[j]? = some true →
      ((((ts.zip fs).filter fun t => !t.2).map Prod.fst).map fun t => t.1.mul).sum < (ts.map fun t => t.1.mul).sum := by
  induction ts generalizing fs with
  | nil => simp
  | cons t ts ih =>
    cases fs with
    | nil => simp at hl
    | cons b fs =>
      obtain ⟨i1, i2⟩ := ih fs (by simpa using hl)
      have e : ((((((t :: ts).zip (b :: fs)).filter fun t => !t.2).map Prod.fst).map fun t => t.1.mul).sum) =
          (if b then 0 else t.1.mul) + ((((ts.zip fs).filter fun t => !t.2).map Prod.fst).map fun t => t.1.mul).sum := by
        cases b <;> simp
      rw [e, List.map_cons, List.sum_cons]
      constructor
      · cases b
        · simp only [Bool.false_eq_true, if_false]; omega
        · simp only [if_true]; omega
      · intro j m hm hp hf
        cases j with
        | zero =>
          simp only [List.map_cons, List.getElem?_cons_zero, Option.some.injEq] at hm hf
          subst hm
          subst hf
          simp only [if_true]
          omega
        | succ j =>
          have := i2 j m (by simpa using hm) hp (by simpa using hf)
          cases b
          · simp only [Bool.false_eq_true, if_false]; omega
          · simp only [if_true]; omega

/-- **C89 (announced irreps and zero terms).** By default the terms marked as zero are dropped before the comparison, so an array
of exactly the announced irreps with a non-empty term marked as zero raises `ValueError`. -/
theorem C89_zero_chunk_refused {c : Cfg} (hc : c.instructions = none) (hs : c.simp = true) (P : Params) (W : Weights) {x : IArr ℝ} (hx : x.Coherent)
    (hi : c.irrepsIn = some x.irreps) {j : ℕ} {m : MulIrrep} (hj : x.irreps[j]? = some m) (hm : 0 < m.mul) (hz : x.zeroFlags[j]? = some true) :
    call c P W x = .error .valueError := by
  refine C89_refuse hc hi P W hx fun z hp e => ?_
  obtain ⟨-, -, h⟩ := hp
  obtain ⟨h1, -⟩ := h hs
  rw [Irreps.regroup_eq] at h1
  have hzi : regroupedIrreps ((live x).map Prod.fst) = z.irreps := Except.ok.inj h1
  have e1 := regroup_count e
  have e2 : (expand (regroupedIrreps ((live x).map Prod.fst))).length = (expand ((live x).map Prod.fst)).length := by
    unfold regroupedIrreps
    rw [Irreps.expand_simplify]
    exact ((Irreps.sortIrreps_perm _).flatMap_right _).length_eq
  rw [← hzi, e2, (live_count hx).1, (live_count hx).2] at e1
  have hl : x.terms.length = x.zeroFlags.length := by
    have a := termsOf_length x.irreps x.array
    have b := hx.inv.flags.lengths.2
    unfold IArr.terms
    omega
  have := (filter_count x.terms x.zeroFlags hl).2 j m (by rw [terms_fst]; exact hj) hm hz
  have hlive : ((live x).map fun t => t.1.mul).sum = ((((x.terms.zip x.zeroFlags).filter fun t => !t.2).map Prod.fst).map fun t => t.1.mul).sum := rfl
  omega

/-! ### The indices of the instructions -/

/-- A term of `irreps_out` that the input does not have shifts the indices: the instruction `(0, 1)` means `1o → 1o` among
the given `irreps_out = "0e+1o+1e"`. -/
noncomputable def shifted : Cfg := ⟨[⟨1, ⟨0, .e⟩⟩, ⟨1, ⟨1, .o⟩⟩, ⟨1, ⟨1, .e⟩⟩], some [⟨1, ⟨1, .o⟩⟩, ⟨1, ⟨1, .e⟩⟩], false, some [(0, 1)], none, false, false, 0, 0⟩

/-- **C89 (instructions).** Explicit instructions are applied to the output irreps left after the filtering, not to the
`irreps_out` they were written for.  With `irreps_out = "0e+1o+1e"`, `irreps_in = "1o+1e"` and the instruction `(0, 1)`, which
connects equal irreps (`1o` to `1o`), the module connects `1o` to `1e` and does not commute with the inversion. -/
theorem C89_instruction_shift_witness : ∃ (P : Params) (x x' y y' y'' : IArr ℝ), Shaped .vanilla P ∧ x.Coherent ∧ x.irreps = [⟨1, ⟨1, .o⟩⟩, ⟨1, ⟨1, .e⟩⟩] ∧
    call shifted P .none x = .ok y ∧ x.transformByMatrix (-1) = .ok x' ∧ call shifted P .none x' = .ok y' ∧ y.transformByMatrix (-1) = .ok y'' ∧
    y.irreps = [⟨1, ⟨1, .o⟩⟩, ⟨1, ⟨1, .e⟩⟩] ∧ y.array = [0, 0, 0, 1, 2, 3] ∧ y'.array = [0, 0, 0, -1, -2, -3] ∧ y''.array = [0, 0, 0, 1, 2, 3] := by
  have hf : FLin.init [⟨1, ⟨1, .o⟩⟩, ⟨1, ⟨1, .e⟩⟩] [⟨1, ⟨1, .o⟩⟩, ⟨1, ⟨1, .e⟩⟩] (some [(0, 1)]) (.all false) 0 0 =
      .ok ⟨[⟨1, ⟨1, .o⟩⟩, ⟨1, ⟨1, .e⟩⟩], [⟨1, ⟨1, .o⟩⟩, ⟨1, ⟨1, .e⟩⟩], [⟨some 0, 1, [1, 1], 1, 1⟩]⟩ := by
    simp [FLin.init, FLin.shapedPairs, FLin.mulAt, FLin.resolveBiases, FLin.biasIns, FLin.weighted, FLin.alpha,
      bind, Except.bind, pure, Except.pure]
  have key : ∀ x : IArr ℝ, x.irreps = [⟨1, ⟨1, .o⟩⟩, ⟨1, ⟨1, .e⟩⟩] → call shifted (fun q => List.replicate (entries q) 1) .none x =
      FLin.call ⟨[⟨1, ⟨1, .o⟩⟩, ⟨1, ⟨1, .e⟩⟩], [⟨1, ⟨1, .o⟩⟩, ⟨1, ⟨1, .e⟩⟩], [⟨some 0, 1, [1, 1], 1, 1⟩]⟩ [[1]] x := by
    intro x hx
    have ho : layerOut shifted [⟨1, ⟨1, .o⟩⟩, ⟨1, ⟨1, .e⟩⟩] = [⟨1, ⟨1, .o⟩⟩, ⟨1, ⟨1, .e⟩⟩] := by simp [layerOut, shifted]
    have hv : validate shifted false [⟨1, ⟨1, .o⟩⟩, ⟨1, ⟨1, .e⟩⟩] = .ok () := by simp [validate, shifted]
    have hp : prepInput shifted x = .ok x := rfl
    have hw : weight ⟨[⟨1, ⟨1, .o⟩⟩, ⟨1, ⟨1, .e⟩⟩], [⟨1, ⟨1, .o⟩⟩, ⟨1, ⟨1, .e⟩⟩], [⟨some 0, 1, [1, 1], 1, 1⟩]⟩ shifted.g (fun q => List.replicate (entries q) 1)
        .vanilla ⟨some 0, 1, [1, 1], 1, 1⟩ = .ok [1] := by
      simp [weight, get, FLin.size, nameOf, entries]
    simp only [call, callFrom, hp, bind, Except.bind, hx, outIrreps_eq, ho, core, hv, select]
    rw [show shifted.instructions = some [(0, 1)] from rfl, show shifted.biases = false from rfl, show shifted.a = 0 from rfl, show shifted.g = 0 from rfl] at *
    simp only [hf, List.mapM_cons, List.mapM_nil, hw, bind, Except.bind, pure, Except.pure]
    cases FLin.call _ [[1]] x <;> rfl
  have hgood : ∀ v1 v2 v3 : ℝ, FLin.call ⟨[⟨1, ⟨1, .o⟩⟩, ⟨1, ⟨1, .e⟩⟩], [⟨1, ⟨1, .o⟩⟩, ⟨1, ⟨1, .e⟩⟩], [⟨some 0, 1, [1, 1], 1, 1⟩]⟩ [[1]]
      (⟨[⟨1, ⟨1, .o⟩⟩, ⟨1, ⟨1, .e⟩⟩], [v1, v2, v3, 0, 0, 0], some [false, false], some [some [[v1, v2, v3]], some [[0, 0, 0]]]⟩ : IArr ℝ) =
      .ok ⟨[⟨1, ⟨1, .o⟩⟩, ⟨1, ⟨1, .e⟩⟩], [0, 0, 0, v1, v2, v3], some [true, false], some [none, some [[v1, v2, v3]]]⟩ := by
    intro v1 v2 v3
    simp [FLin.call, FLin.path, FLin.aggregate, FLin.sumTensors, FLin.reshape, FLin.einsumUW, FLin.linComb,
      IArr.rechunk, IArr.chunks, IArr.computeChunks, IArr.zeroFlags, IArr.fromChunks, IArr.make, IArr.rows, IArr.shapeOk,
      IArr.flatChunk, Irreps.dim, MulIrrep.dim, Irrep.dim,
      bind, Except.bind, pure, Except.pure, Irreps.slices, Irreps.slicesFrom, List.range, List.range.loop]
  have hrow : ∀ ir : Irrep, ∀ v1 v2 v3 : ℝ, ir.l = 1 → matVec (matRows (dMatrix ir (-1))) [v1, v2, v3] =
      [(ir.p.toInt : ℝ) * v1, (ir.p.toInt : ℝ) * v2, (ir.p.toInt : ℝ) * v3] := by
    rintro ⟨l, p⟩ v1 v2 v3 rfl
    rw [C39_inversion]
    generalize ((p.toInt : ℤ) : ℝ) = t
    have : matRows (t • (1 : Matrix (Fin (2 * 1 + 1)) (Fin (2 * 1 + 1)) ℝ)) = [[t, 0, 0], [0, t, 0], [0, 0, t]] := by
      have h : ∀ i j : Fin 3, (t • (1 : Matrix (Fin 3) (Fin 3) ℝ)) i j = if i = j then t else 0 := by
        intro i j
        simp [Matrix.one_apply]
      unfold matRows
      change List.ofFn (fun i : Fin 3 => List.ofFn fun j : Fin 3 => (t • (1 : Matrix (Fin 3) (Fin 3) ℝ)) i j) = _
      simp only [h]
      simp [List.ofFn_succ]
    show matVec (matRows (t • (1 : Matrix (Fin (2 * 1 + 1)) (Fin (2 * 1 + 1)) ℝ))) _ = _
    rw [this]
    simp [matVec]
  refine ⟨fun q => List.replicate (entries q) 1,
    ⟨[⟨1, ⟨1, .o⟩⟩, ⟨1, ⟨1, .e⟩⟩], [1, 2, 3, 0, 0, 0], some [false, false], some [some [[1, 2, 3]], some [[0, 0, 0]]]⟩,
    ⟨[⟨1, ⟨1, .o⟩⟩, ⟨1, ⟨1, .e⟩⟩], [-1, -2, -3, 0, 0, 0], some [false, false], some [some [[-1, -2, -3]], some [[0, 0, 0]]]⟩,
    ⟨[⟨1, ⟨1, .o⟩⟩, ⟨1, ⟨1, .e⟩⟩], [0, 0, 0, 1, 2, 3], some [true, false], some [none, some [[1, 2, 3]]]⟩,
    ⟨[⟨1, ⟨1, .o⟩⟩, ⟨1, ⟨1, .e⟩⟩], [0, 0, 0, -1, -2, -3], some [true, false], some [none, some [[-1, -2, -3]]]⟩,
    ⟨[⟨1, ⟨1, .o⟩⟩, ⟨1, ⟨1, .e⟩⟩], [0, 0, 0, 1, 2, 3], some [true, false], some [none, some [[1, 2, 3]]]⟩,
    fun q => by simp, ?_, rfl, ?_, ?_, ?_, ?_, rfl, rfl, rfl, rfl⟩
  · obtain ⟨v, v1, v2, -⟩ := fromChunks_pairs (α := ℝ) [(⟨1, ⟨1, .o⟩⟩, some [[1, 2, 3]]), (⟨1, ⟨1, .e⟩⟩, some [[0, 0, 0]])] (by
      intro q hq
      fin_cases hq <;> rfl)
    have : v = ⟨[⟨1, ⟨1, .o⟩⟩, ⟨1, ⟨1, .e⟩⟩], [1, 2, 3, 0, 0, 0], some [false, false], some [some [[1, 2, 3]], some [[0, 0, 0]]]⟩ := by
      simp [IArr.fromChunks, IArr.make, IArr.shapeOk, IArr.flatChunk, Irreps.dim, MulIrrep.dim, Irrep.dim, bind, Except.bind, pure, Except.pure] at v1
      exact v1.symm
    rw [← this]
    exact v2.coherent
  · rw [key _ rfl, hgood]
  · rw [transformByMatrix_eq]
    simp [IArr.transform, transformBy, actRows, hrow, IArr.fromChunks, IArr.make, IArr.shapeOk, IArr.flatChunk, IArr.chunks, Irreps.dim, MulIrrep.dim, Irrep.dim, Parity.toInt, bind, Except.bind, pure, Except.pure]
  · rw [key _ rfl, hgood]
  · rw [transformByMatrix_eq]
    simp [IArr.transform, transformBy, actRows, hrow, IArr.fromChunks, IArr.make, IArr.shapeOk, IArr.flatChunk, IArr.chunks, Irreps.dim, MulIrrep.dim, Irrep.dim, Parity.toInt, bind, Except.bind, pure, Except.pure]

/-! ### Instances of the hypotheses -/

/-- Mixed weights, biases and announced irreps in another order: the module returns. -/
example : ∃ y, call ⟨[⟨2, ⟨0, .e⟩⟩, ⟨1, ⟨1, .o⟩⟩, ⟨1, ⟨2, .e⟩⟩], some [⟨1, ⟨0, .e⟩⟩, ⟨1, ⟨1, .o⟩⟩], true, none, none, false, true, 0, 1⟩
      (fun q => List.replicate (2 * entries q) 1) (.floats [3, 4])
      (⟨[⟨1, ⟨1, .o⟩⟩, ⟨1, ⟨0, .e⟩⟩], [1, 2, 3, 4], some [false, false], some [some [[1, 2, 3]], some [[4]]]⟩ : IArr ℝ) = .ok y := by
  have hx : (⟨[⟨1, ⟨1, .o⟩⟩, ⟨1, ⟨0, .e⟩⟩], [1, 2, 3, 4], some [false, false], some [some [[1, 2, 3]], some [[4]]]⟩ : IArr ℝ).Coherent := by
    obtain ⟨v, v1, v2, -⟩ := fromChunks_pairs (α := ℝ) [(⟨1, ⟨1, .o⟩⟩, some [[1, 2, 3]]), (⟨1, ⟨0, .e⟩⟩, some [[4]])] (by
      intro q hq
      fin_cases hq <;> rfl)
    have : v = ⟨[⟨1, ⟨1, .o⟩⟩, ⟨1, ⟨0, .e⟩⟩], [1, 2, 3, 4], some [false, false], some [some [[1, 2, 3]], some [[4]]]⟩ := by
      simp [IArr.fromChunks, IArr.make, IArr.shapeOk, IArr.flatChunk, Irreps.dim, MulIrrep.dim, Irrep.dim] at v1
      exact v1.symm
    rw [← this]
    exact v2.coherent
  obtain ⟨z, f, y, -, -, h, -⟩ := C89_call ⟨[⟨2, ⟨0, .e⟩⟩, ⟨1, ⟨1, .o⟩⟩, ⟨1, ⟨2, .e⟩⟩], some [⟨1, ⟨0, .e⟩⟩, ⟨1, ⟨1, .o⟩⟩], true, none, none, false, true, 0, 1⟩ rfl
    (s := .mixed [3, 4]) (P := fun q => List.replicate (2 * entries q) 1) (fun q => by simp) trivial _ hx (by
      intro z hz i hi
      obtain ⟨h, -⟩ := hz.2.2 rfl
      simp only [Option.some.injEq] at hi
      subst hi
      have e : Irreps.regroup [⟨1, ⟨1, .o⟩⟩, ⟨1, ⟨0, .e⟩⟩] = .ok z.irreps := h
      have d : Irreps.regroup [⟨1, ⟨1, .o⟩⟩, ⟨1, ⟨0, .e⟩⟩] = .ok [⟨1, ⟨0, .e⟩⟩, ⟨1, ⟨1, .o⟩⟩] := by decide +kernel
      rw [d] at e
      rw [← Except.ok.inj e])
  refine ⟨y, ?_⟩
  have : select ⟨[⟨2, ⟨0, .e⟩⟩, ⟨1, ⟨1, .o⟩⟩, ⟨1, ⟨2, .e⟩⟩], some [⟨1, ⟨0, .e⟩⟩, ⟨1, ⟨1, .o⟩⟩], true, none, none, false, true, 0, 1⟩ (.floats [3, 4]) = .ok (.mixed [3, 4]) := by
    simp [select, ofFloats]
  rw [call, this]
  exact h

end E3nn.LinM
