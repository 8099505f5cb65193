import Verif.Lemmas.LinearSem
import Verif.Props.C22

/-!
# C28-C32: `FunctionalLinear`

`FLin.init irreps_in irreps_out instructions biases a g` is the constructor, with
`path_normalization = a` and `gradient_normalization = g`; `f.call ws x` is `f(ws, x)`;
`f.matrix ws` is `f.matrix(ws)`.  A weight is the list of its entries, in order.
-/

namespace E3nn
open IArr

/-- The weights have the shapes that the layer asks for. -/
def WeightShapes (f : FLin ℝ) (ws : List (List ℝ)) : Prop :=
  ws.map List.length = f.instructions.map fun i => i.pathShape.foldl (· * ·) 1

/-! ### C28 -/

/-- The constructor returns for every pair of irreps with the default instructions, for the default
biases or a boolean. -/
theorem C28_init_returns (irrepsIn irrepsOut : Irreps) (b : Option Bool) (a g : ℝ) :
    ∃ f, FLin.init irrepsIn irrepsOut none (b.elim .none .all) a g = .ok f ∧ f.irrepsIn = irrepsIn ∧
      f.irrepsOut = irrepsOut := by
  obtain ⟨sh, hs⟩ := FLin.shapedPairs_total (a := irrepsIn) (b := irrepsOut) (ps := FLin.defaultPairs irrepsIn irrepsOut) (by
    rintro ⟨i, o⟩ hp
    obtain ⟨mi, mo, h1, h2, -⟩ := (FLin.mem_defaultPairs _ _ _ _).mp hp
    exact ⟨(List.getElem?_eq_some_iff.mp h1).1, (List.getElem?_eq_some_iff.mp h2).1⟩)
  have hz : ∀ (l : Irreps) (h : MulIrrep → Bool), (∀ m, h m = true → m.ir.isScalar = true) →
      ((l.map h).zip l).all (fun bm => bm.2.ir.isScalar || !bm.1) = true := by
    intro l h hh
    induction l with
    | nil => rfl
    | cons m l ih =>
      simp only [List.map_cons, List.zip_cons_cons, List.all_cons, ih, Bool.and_true]
      cases e : h m with
      | false => simp
      | true => simp [hh m e]
  have key : ∀ B : FLin.BiasArg, (FLin.resolveBiases irrepsOut B).length = irrepsOut.length →
      ((FLin.resolveBiases irrepsOut B).zip irrepsOut).all (fun bm => bm.2.ir.isScalar || !bm.1) = true →
      FLin.init irrepsIn irrepsOut none B a g =
        .ok ⟨irrepsIn, irrepsOut, FLin.weighted a g sh ++ FLin.biasIns irrepsOut (FLin.resolveBiases irrepsOut B)⟩ := by
    intro B h1 h2
    unfold FLin.init
    simp only [Option.getD_none, hs, bind, Except.bind]
    rw [if_neg (by simpa using h1), if_neg (by rw [h2]; simp)]; rfl
  cases b with
  | none =>
    refine ⟨_, key .none (by simp [FLin.resolveBiases]) ?_, rfl, rfl⟩
    have e : FLin.resolveBiases irrepsOut .none = irrepsOut.map fun _ => false := by simp [FLin.resolveBiases]
    rw [e]; exact hz irrepsOut _ (by simp)
  | some b => exact ⟨_, key (.all b) (by simp [FLin.resolveBiases]) (hz irrepsOut _ (by simp)), rfl, rfl⟩

/-- The call returns for every input with the expected irreps (in any grouping), and its result
has the output irreps. -/
theorem C28_call_returns {irrepsIn irrepsOut : Irreps} {b : FLin.BiasArg} {a g : ℝ} {f : FLin ℝ}
    (hf : FLin.init irrepsIn irrepsOut none b a g = .ok f) (ws : List (List ℝ)) (hw : WeightShapes f ws)
    (x : IArr ℝ) (hx : x.Coherent) (hi : expand x.irreps = expand irrepsIn) :
    ∃ y, f.call ws x = .ok y ∧ y.Coherent ∧ y.irreps = irrepsOut := by
  have hg := FLin.init_good hf (by simp)
  obtain ⟨sh, -, -, -, rfl⟩ := FLin.init_ok hf
  obtain ⟨xr, y, -, -, -, -, h1, h2, h3, -⟩ := FLin.call_spec hg hx.inv hi hw
  exact ⟨y, h1, h2.coherent, h3⟩

theorem linAct_mat {M : Irrep → List (List ℝ)} (hM : MatFamily M) :
    FLin.LinAct (fun ir => matVec (α := ℝ) (M ir)) where
  toAct := matVec_act fun ir => (hM ir).1
  add := fun ir x y hx hy => matVec_add (M ir) x y (by rw [hx, hy])
  smul := fun ir c x _ => by
    have := matVec_map (R := ℝ) (LinearMap.mulLeft ℝ c) (M ir) x
    exact this.symm

/-- **C28**.  With the default instructions, whatever the irreps, the biases, the normalisations
and the weights, `f(ws, D x) = D f(ws, x)` for every family `D` of matrices (hence for every
rotation and for the inversion) that is trivial on `0e`, as every representation of the group is. -/
theorem C28_equivariant {irrepsIn irrepsOut : Irreps} {b : FLin.BiasArg} {a g : ℝ} {f : FLin ℝ}
    (hf : FLin.init irrepsIn irrepsOut none b a g = .ok f) (ws : List (List ℝ)) (hw : WeightShapes f ws)
    (M : Irrep → List (List ℝ)) (hM : MatFamily M) (h0 : M ⟨0, .e⟩ = [[1]])
    (x : IArr ℝ) (hx : x.Coherent) (y : IArr ℝ) (hy : f.call ws x = .ok y) :
    ∃ x' y' y'', transform M x = .ok x' ∧ f.call ws x' = .ok y' ∧ transform M y = .ok y'' ∧ y'.Equal y'' := by
  have hD := linAct_mat hM
  obtain ⟨x', h1, h2⟩ := transformBy_spec hD.toAct hx.inv
  obtain ⟨y', k1, k2⟩ := FLin.tr_call hD (FLin.init_good hf (by simp))
    (Or.inl fun v => by simp [h0, matVec]) hw h2 hy
  obtain ⟨y'', l1, l2⟩ := transformBy_spec hD.toAct k2.inv
  exact ⟨x', y', y'', h1, k1, l1, k2.unique l2⟩

/-- Explicit instructions: the same, provided that each of them connects equal irreps. -/
theorem C28_equivariant_instructions {irrepsIn irrepsOut : Irreps} {ps : List (Nat × Nat)} {b : FLin.BiasArg} {a g : ℝ}
    {f : FLin ℝ} (hf : FLin.init irrepsIn irrepsOut (some ps) b a g = .ok f)
    (hp : ∀ p ∈ ps, ∀ mi mo, irrepsIn[p.1]? = some mi → irrepsOut[p.2]? = some mo → mi.ir = mo.ir)
    (ws : List (List ℝ)) (hw : WeightShapes f ws)
    (M : Irrep → List (List ℝ)) (hM : MatFamily M) (h0 : M ⟨0, .e⟩ = [[1]])
    (x : IArr ℝ) (hx : x.Coherent) (y : IArr ℝ) (hy : f.call ws x = .ok y) :
    ∃ x' y' y'', transform M x = .ok x' ∧ f.call ws x' = .ok y' ∧ transform M y = .ok y'' ∧ y'.Equal y'' := by
  have hD := linAct_mat hM
  obtain ⟨x', h1, h2⟩ := transformBy_spec hD.toAct hx.inv
  obtain ⟨y', k1, k2⟩ := FLin.tr_call hD (FLin.init_good hf (by rintro ps' e; cases e; exact hp))
    (Or.inl fun v => by simp [h0, matVec]) hw h2 hy
  obtain ⟨y'', l1, l2⟩ := transformBy_spec hD.toAct k2.inv
  exact ⟨x', y', y'', h1, k1, l1, k2.unique l2⟩

/-- Without biases nothing at all is required of the matrices. -/
theorem C28_equivariant_no_bias {irrepsIn irrepsOut : Irreps} {a g : ℝ} {f : FLin ℝ}
    (hf : FLin.init irrepsIn irrepsOut none .none a g = .ok f) (ws : List (List ℝ)) (hw : WeightShapes f ws) :
    Equivariant ℝ (f.call ws) := by
  have hnb : ∀ ins ∈ f.instructions, ins.iIn ≠ none := by
    obtain ⟨sh, -, -, -, rfl⟩ := FLin.init_ok hf
    intro ins hi
    rcases List.mem_append.mp hi with hi | hi
    · unfold FLin.weighted at hi
      obtain ⟨t, -, rfl⟩ := List.mem_map.mp hi
      simp
    · obtain ⟨-, mo, -, -, h4, h5⟩ := FLin.biasIns_mem hi
      simp [FLin.resolveBiases, List.getElem?_replicate] at h5
  refine equiv_of_tr fun M hM x x' y ht hy => ?_
  exact FLin.tr_call (linAct_mat hM) (FLin.init_good hf (by simp)) (Or.inr hnb) hw ht hy

/-- The bias and the contribution of one path to component `k` of copy `v` of the output term:
`path_weight * Σ_u w[u, v] * x[i_in][u, k]`, the array `x` being read at the offset of the input
term; a bias contributes `path_weight * w[v]`. -/
noncomputable def linearTerm (f : FLin ℝ) (x : List ℝ) (ins : LinIns ℝ) (w : List ℝ) (mi mo : MulIrrep) (v k : Nat) : ℝ :=
  match ins.iIn with
  | none => ins.pathWeight * w.getD v 0
  | some i => ins.pathWeight * ((List.range mi.mul).map fun u =>
      w.getD (u * mo.mul + v) 0 * x.getD (Irreps.dim (f.irrepsIn.take i) + (u * (2 * mi.ir.l + 1) + k)) 0).sum

/-- **C28, the formula.**  Component `k` of copy `v` of output term `o` is the sum, over the paths
that end in `o`, of `path_weight * Σ_u w[u, v] * x[i_in][u, k]`, plus the bias. -/
theorem C28_formula {irrepsIn irrepsOut : Irreps} {b : FLin.BiasArg} {a g : ℝ} {f : FLin ℝ}
    (hf : FLin.init irrepsIn irrepsOut none b a g = .ok f) (ws : List (List ℝ)) (hw : WeightShapes f ws)
    (x : IArr ℝ) (hx : x.Coherent) (y : IArr ℝ) (hy : f.call ws x = .ok y)
    (o : Nat) (mo : MulIrrep) (ho : irrepsOut[o]? = some mo) (v k : Nat) (hv : v < mo.mul) (hk : k < 2 * mo.ir.l + 1) :
    y.array.getD (Irreps.dim (irrepsOut.take o) + (v * (2 * mo.ir.l + 1) + k)) 0 =
      (((f.instructions.zip ws).filter fun iw => iw.1.iOut == o).map fun iw =>
        linearTerm f x.array iw.1 iw.2 ((iw.1.iIn.bind fun i => irrepsIn[i]?).getD ⟨0, ⟨0, .e⟩⟩) mo v k).sum := by
  have hg := FLin.init_good hf (by simp)
  have hirr : f.irrepsIn = irrepsIn ∧ f.irrepsOut = irrepsOut := by
    obtain ⟨sh, -, -, -, rfl⟩ := FLin.init_ok hf; exact ⟨rfl, rfl⟩
  obtain ⟨rfl, rfl⟩ := hirr
  have hi : expand x.irreps = expand f.irrepsIn := by
    unfold FLin.call at hy
    cases h : x.rechunk f.irrepsIn with
    | error e => rw [h] at hy; cases hy
    | ok xr => exact (FLin.rechunk_irreps hx.inv h).2.2.2
  obtain ⟨xr, y', -, r2, r3, r4, h1, h2, h3, h4, h5⟩ := FLin.call_spec hg hx.inv hi hw
  rw [hy] at h1; cases h1
  have hoo := (List.getElem?_eq_some_iff.mp ho).1
  have hz := zip_get h2 (i := o) (by rw [h3]; exact hoo)
  have hmo : y.irreps[o]'(by rw [h3]; exact hoo) = mo := by
    have e : y.irreps[o]? = some mo := by rw [h3]; exact ho
    exact Option.some.inj ((List.getElem?_eq_getElem (by rw [h3]; exact hoo)).symm.trans e)
  have hsl := FLin.slice_flat _ h2.pairs.1 o hz
  rw [h2.pairs.2.1, h2.pairs.2.2.2.2.2, hmo, h3] at hsl
  have hlt : v * (2 * mo.ir.l + 1) + k < mo.dim := by
    show _ < mo.mul * mo.ir.dim
    calc v * (2 * mo.ir.l + 1) + k < v * (2 * mo.ir.l + 1) + (2 * mo.ir.l + 1) := by omega
      _ = (v + 1) * (2 * mo.ir.l + 1) := by ring
      _ ≤ mo.mul * mo.ir.dim := Nat.mul_le_mul_right _ hv
  rw [← FLin.getD_take_drop _ _ _ _ hlt, hsl]
  have hch : chunkAt y o = FLin.sumChunks (((f.instructions.zip ws).filter fun iw => iw.1.iOut == o).map (f.pathRows xr.chunks)) := by
    rw [h4] at hz
    simp only [FLin.outPairs, List.getElem?_map, List.getElem?_zipIdx, ho, Option.map_some, Nat.zero_add] at hz
    have := congrArg Prod.snd (Option.some.inj hz)
    exact this.symm
  rw [hch, FLin.flat_sumChunks_getD]
  · rw [List.map_map]
    congr 1
    apply List.map_congr_left
    intro iw hiw
    rw [List.mem_filter] at hiw
    have e : iw.1.iOut = o := by simpa using hiw.2
    have := FLin.pathRows_term hg r2 r3 hw hiw.1 (mo := mo) (by rw [e]; exact ho) v k hv hk
    simp only [Function.comp]
    refine Eq.trans this ?_
    unfold FLin.pathTerm linearTerm
    rw [r4]
    cases hin : iw.1.iIn with
    | none => rfl
    | some i =>
      have e1 : f.irrepsOut.getD iw.1.iOut ⟨0, ⟨0, .e⟩⟩ = mo := by simp [e, List.getD, ho]
      simp only [e1]; rfl
  · intro c hc
    obtain ⟨iw, hiw, rfl⟩ := List.mem_map.mp hc
    rw [List.mem_filter] at hiw
    obtain ⟨-, mo', j1, j2⟩ := FLin.path_spec hg r2 r3 hw hiw.1
    have : iw.1.iOut = o := by simpa using hiw.2
    rw [this, ho] at j1
    cases j1; exact j2

/-- Explicit instructions are not checked: `FunctionalLinear("1o", "1e", instructions=[(0, 0)])` is
accepted, and its call on a vector returns a pseudo-vector, which does not commute with parity. -/
theorem C28_instruction_unchecked_witness :
    ∃ f x y x' y' y'', FLin.init [⟨1, ⟨1, .o⟩⟩] [⟨1, ⟨1, .e⟩⟩] (some [(0, 0)]) .none 0 0 = .ok f ∧
      WeightShapes f [[1]] ∧ x.Coherent ∧ f.call [[1]] x = .ok y ∧
      transform (fun ir => if ir.p = .o then [[(-1 : ℝ), 0, 0], [0, -1, 0], [0, 0, -1]] else [[1, 0, 0], [0, 1, 0], [0, 0, 1]]) x = .ok x' ∧
      f.call [[1]] x' = .ok y' ∧
      transform (fun ir => if ir.p = .o then [[(-1 : ℝ), 0, 0], [0, -1, 0], [0, 0, -1]] else [[1, 0, 0], [0, 1, 0], [0, 0, 1]]) y = .ok y'' ∧
      y.array = [1, 2, 3] ∧ y'.array = [-1, -2, -3] ∧ y''.array = [1, 2, 3] := by
  refine ⟨⟨[⟨1, ⟨1, .o⟩⟩], [⟨1, ⟨1, .e⟩⟩], [⟨some 0, 0, [1, 1], 1, 1⟩]⟩,
    ⟨[⟨1, ⟨1, .o⟩⟩], [1, 2, 3], none, none⟩,
    ⟨[⟨1, ⟨1, .e⟩⟩], [1, 2, 3], some [false], some [some [[1, 2, 3]]]⟩,
    ⟨[⟨1, ⟨1, .o⟩⟩], [-1, -2, -3], some [false], some [some [[-1, -2, -3]]]⟩,
    ⟨[⟨1, ⟨1, .e⟩⟩], [-1, -2, -3], some [false], some [some [[-1, -2, -3]]]⟩,
    ⟨[⟨1, ⟨1, .e⟩⟩], [1, 2, 3], some [false], some [some [[1, 2, 3]]]⟩, ?_, rfl, ?_, ?_, ?_, ?_, ?_, rfl, rfl, rfl⟩
  · simp [FLin.init, FLin.shapedPairs, FLin.mulAt, FLin.resolveBiases, FLin.biasIns, FLin.weighted, FLin.alpha,
      bind, Except.bind, pure, Except.pure]
  · refine ⟨rfl, rfl, rfl, ?_⟩
    intro i m d h
    cases i with
    | zero =>
      simp only [IArr.terms, termsOf, List.getElem?_cons_zero, Option.some.injEq, Prod.mk.injEq] at h
      obtain ⟨rfl, rfl⟩ := h
      exact ⟨false, some [[1, 2, 3]], rfl, rfl, Or.inr ⟨rfl, _, rfl, rfl, by simp, rfl⟩⟩
    | succ i => simp [IArr.terms, termsOf] at h
  all_goals simp [FLin.call, FLin.path, FLin.aggregate, FLin.sumTensors, FLin.reshape, FLin.einsumUW, FLin.linComb,
    IArr.rechunk, IArr.chunks, IArr.computeChunks, IArr.zeroFlags, IArr.fromChunks, IArr.make, IArr.rows, IArr.shapeOk,
    transform, transformBy, actRows, matVec, IArr.flatChunk, Irreps.dim, MulIrrep.dim, Irrep.dim,
    bind, Except.bind, pure, Except.pure, Irreps.slices, Irreps.slicesFrom, List.range_succ]

/-! ### C29 -/

/-- **C29**.  Without biases `x.array @ f.matrix(ws)` is `f(ws, x).array`: entry `j` of the output
is `Σ_i x[i] * matrix[i][j]`. -/
theorem C29_matrix {irrepsIn irrepsOut : Irreps} {a g : ℝ} {f : FLin ℝ}
    (hf : FLin.init irrepsIn irrepsOut none .none a g = .ok f) (ws : List (List ℝ)) (hw : WeightShapes f ws)
    (x : IArr ℝ) (hx : x.Coherent) (hi : expand x.irreps = expand irrepsIn) :
    ∃ A y, f.matrix ws = .ok A ∧ f.call ws x = .ok y ∧ A.length = irrepsIn.dim ∧ (∀ row ∈ A, row.length = irrepsOut.dim) ∧
      y.array = (List.range irrepsOut.dim).map fun j => (List.zipWith (fun a row => a * row.getD j 0) x.array A).sum := by
  have hnb : ∀ ins ∈ f.instructions, ins.iIn ≠ none := by
    obtain ⟨sh, -, -, -, rfl⟩ := FLin.init_ok hf
    intro ins hi
    rcases List.mem_append.mp hi with hi | hi
    · unfold FLin.weighted at hi
      obtain ⟨t, -, rfl⟩ := List.mem_map.mp hi
      simp
    · obtain ⟨-, mo, -, -, h4, h5⟩ := FLin.biasIns_mem hi
      simp [FLin.resolveBiases, List.getElem?_replicate] at h5
  have hg := FLin.init_good hf (by simp)
  have hirr : f.irrepsIn = irrepsIn ∧ f.irrepsOut = irrepsOut := by
    obtain ⟨sh, -, -, -, rfl⟩ := FLin.init_ok hf; exact ⟨rfl, rfl⟩
  obtain ⟨rfl, rfl⟩ := hirr
  obtain ⟨xr, y, -, r2, r3, r4, h1, h2, h3, h4, h5⟩ := FLin.call_spec hg hx.inv hi hw
  obtain ⟨A, a1, a2, a3, a4⟩ := FLin.matrix_spec hg hnb r2 r3 hw
  refine ⟨A, y, a1, h1, a2, a3, ?_⟩
  rw [← FLin.linComb_get _ _ _ a3, ← r4, a4, h5, FLin.outPairs_arr]

/-! ### C30 -/

/-- `(path_weight * weight_std)²` is `alpha`. -/
theorem alpha_sq (a g : ℝ) (sh : List (Nat × Nat × Nat × Nat)) (t : Nat × Nat × Nat × Nat) :
    (Real.sqrt (FLin.alpha a sh t) ^ g * Real.sqrt (FLin.alpha a sh t) ^ (1 - g)) ^ 2 = FLin.alpha a sh t := by
  have hpos : 0 < FLin.alpha a sh t := by
    unfold FLin.alpha
    simp only
    split
    · rename_i h; exact one_div_pos.mpr h
    · exact one_pos
  rw [← Real.rpow_add (Real.sqrt_pos.mpr hpos)]
  simp only [add_sub_cancel, Real.rpow_one]
  exact Real.sq_sqrt hpos.le

/-- **C30**.  For every output with at least one path, and for every exponents
`path_normalization`, `gradient_normalization`, the sum over its paths of
`mul_in * (path_weight * weight_std)²` is 1: with independent unit inputs and weights of standard
deviation `weight_std`, every output component has variance 1.  (Multiplicities positive; any
explicit instructions.) -/
theorem C30_normalisation {irrepsIn irrepsOut : Irreps} {ins : Option (List (Nat × Nat))} {b : FLin.BiasArg} {a g : ℝ}
    {f : FLin ℝ} (hf : FLin.init irrepsIn irrepsOut ins b a g = .ok f) (hpos : ∀ m ∈ irrepsIn, 0 < m.mul)
    (o : Nat) (ho : ∃ i ∈ f.instructions, i.iIn ≠ none ∧ i.iOut = o) :
    (f.instructions.map fun i => match i.iIn with
      | none => 0
      | some j => if i.iOut = o then ((irrepsIn.map MulIrrep.mul).getD j 0 : ℝ) * (i.pathWeight * i.weightStd) ^ 2 else 0).sum
      = 1 := by
  obtain ⟨sh, h1, -, -, rfl⟩ := FLin.init_ok hf
  obtain ⟨s1, s2⟩ := FLin.shapedPairs_ok h1
  have hm : ∀ t ∈ sh, 0 < t.2.2.1 ∧ (irrepsIn.map MulIrrep.mul).getD t.1 0 = t.2.2.1 := by
    intro t ht
    obtain ⟨mi, mo, k1, k2, k3⟩ := s2 t ht
    refine ⟨by rw [k3]; exact hpos mi (List.mem_of_getElem? k1), ?_⟩
    simp [List.getD, k1, k3]
  rw [List.map_append, List.sum_append]
  have hb : ((FLin.biasIns irrepsOut (FLin.resolveBiases irrepsOut b)).map fun i : LinIns ℝ => match i.iIn with
      | none => 0
      | some j => if i.iOut = o then ((irrepsIn.map MulIrrep.mul).getD j 0 : ℝ) * (i.pathWeight * i.weightStd) ^ 2 else 0).sum = 0 := by
    apply List.sum_eq_zero
    intro z hz
    obtain ⟨i, hi, rfl⟩ := List.mem_map.mp hz
    rw [(FLin.biasIns_mem hi).1]
  rw [hb, add_zero]
  set S : ℝ := ((sh.filter fun t => t.2.1 = o).map fun t => (t.2.2.1 : ℝ) ^ (1 - a)).sum with hS
  have hSpos : 0 < S := by
    obtain ⟨i, hi, hi1, hi2⟩ := ho
    rcases List.mem_append.mp hi with hi | hi
    · unfold FLin.weighted at hi
      obtain ⟨t, ht, rfl⟩ := List.mem_map.mp hi
      apply List.sum_pos
      · intro z hz
        obtain ⟨u, hu, rfl⟩ := List.mem_map.mp hz
        exact Real.rpow_pos_of_pos (by exact_mod_cast (hm u (List.mem_filter.mp hu).1).1) _
      · intro hnil
        have : t ∈ sh.filter fun t => t.2.1 = o := List.mem_filter.mpr ⟨ht, by simpa using hi2⟩
        rw [List.map_eq_nil_iff] at hnil
        rw [hnil] at this; cases this
    · exact absurd (FLin.biasIns_mem hi).1 hi1
  have hterm : ∀ t ∈ sh, (if t.2.1 = o then ((irrepsIn.map MulIrrep.mul).getD t.1 0 : ℝ) *
      (Real.sqrt (FLin.alpha a sh t) ^ g * Real.sqrt (FLin.alpha a sh t) ^ (1 - g)) ^ 2 else 0) =
      if t.2.1 = o then (t.2.2.1 : ℝ) ^ (1 - a) / S else 0 := by
    intro t ht
    split
    · rename_i hto
      obtain ⟨p1, p2⟩ := hm t ht
      have p1' : (0 : ℝ) < t.2.2.1 := by exact_mod_cast p1
      have hx : FLin.alpha a sh t = 1 / ((t.2.2.1 : ℝ) ^ a * S) := by
        unfold FLin.alpha
        simp only [hto]
        rw [if_pos]
        exact mul_pos (Real.rpow_pos_of_pos p1' _) hSpos
      rw [alpha_sq, hx, p2, Real.rpow_sub p1', Real.rpow_one]
      have := (Real.rpow_pos_of_pos p1' a).ne'
      have := hSpos.ne'
      field_simp
    · rfl
  unfold FLin.weighted
  rw [List.map_map]
  have e1 := List.map_congr_left hterm
  refine Eq.trans (congrArg List.sum e1) ?_
  have e2 : ∀ l : List (Nat × Nat × Nat × Nat), (l.map fun t => if t.2.1 = o then (t.2.2.1 : ℝ) ^ (1 - a) / S else 0).sum =
      ((l.filter fun t => t.2.1 = o).map fun t => (t.2.2.1 : ℝ) ^ (1 - a)).sum / S := by
    intro l
    induction l with
    | nil => simp
    | cons t l ih =>
      by_cases h : t.2.1 = o
      · simp only [List.map_cons, List.sum_cons, ih, List.filter_cons, h, if_true, decide_true]; rw [add_div]
      · simp only [List.map_cons, List.sum_cons, ih, List.filter_cons, h, if_false, decide_false, zero_add]; rfl
  rw [e2, ← hS]
  exact div_self hSpos.ne'

/-- An input of multiplicity 0 spoils it when `path_normalization = "path"`: with inputs
`2x0e + 0x0e` the sum is 1/2, not 1 (0 ** 0.0 is 1). -/
theorem C30_zero_multiplicity_witness :
    ∃ f, FLin.init [⟨2, ⟨0, .e⟩⟩, ⟨0, ⟨0, .e⟩⟩] [⟨1, ⟨0, .e⟩⟩] none .none 1 0 = .ok f ∧
      (f.instructions.map fun i => match i.iIn with
        | none => 0
        | some j => (([2, 0] : List Nat).getD j 0 : ℝ) * (i.pathWeight * i.weightStd) ^ 2).sum = 1 / 2 := by
  refine ⟨_, rfl, ?_⟩
  have h2 : (1 : ℝ) + 1 = 2 := by norm_num
  simp [FLin.weighted, FLin.alpha, FLin.biasIns, FLin.resolveBiases, h2]
  norm_num

/-! ### C31 -/

/-- **C31**.  The default instructions are exactly the pairs of equal irreps, each once. -/
theorem C31_default_instructions {irrepsIn irrepsOut : Irreps} {b : FLin.BiasArg} {a g : ℝ} {f : FLin ℝ}
    (hf : FLin.init irrepsIn irrepsOut none b a g = .ok f) :
    (∀ i o, (some i, o) ∈ f.instructions.map (fun ins => (ins.iIn, ins.iOut)) ↔
      ∃ mi mo, irrepsIn[i]? = some mi ∧ irrepsOut[o]? = some mo ∧ mi.ir = mo.ir) ∧
    ((f.instructions.filter fun ins => ins.iIn.isSome).map fun ins => (ins.iIn, ins.iOut)).Nodup ∧
    (∀ ins ∈ f.instructions, ins.iIn = none → ∃ mo, irrepsOut[ins.iOut]? = some mo ∧ mo.ir = ⟨0, .e⟩) := by
  have hg := FLin.init_good hf (by simp)
  obtain ⟨sh, h1, -, -, rfl⟩ := FLin.init_ok hf
  obtain ⟨s1, s2⟩ := FLin.shapedPairs_ok h1
  simp only [Option.getD_none] at s1
  refine ⟨?_, ?_, ?_⟩
  · intro i o
    rw [← FLin.mem_defaultPairs, ← s1]
    simp only [List.map_append, List.mem_append, FLin.weighted, List.map_map, List.mem_map, Function.comp]
    constructor
    · rintro (⟨t, ht, e⟩ | ⟨ins, hi, e⟩)
      · simp only [Prod.mk.injEq, Option.some.injEq] at e
        exact ⟨t, ht, by simp [e]⟩
      · rw [(FLin.biasIns_mem hi).1] at e; simp at e
    · rintro ⟨t, ht, e⟩
      simp only [Prod.mk.injEq] at e
      exact Or.inl ⟨t, ht, by simp [e]⟩
  · have hbn : (FLin.biasIns irrepsOut (FLin.resolveBiases irrepsOut b)).filter (fun ins : LinIns ℝ => ins.iIn.isSome) = [] := by
      rw [List.filter_eq_nil_iff]
      intro ins hi; rw [(FLin.biasIns_mem hi).1]; simp
    have hw : (FLin.weighted a g sh).filter (fun ins => ins.iIn.isSome) = FLin.weighted a g sh := by
      rw [List.filter_eq_self]
      intro ins hi
      unfold FLin.weighted at hi
      obtain ⟨t, -, rfl⟩ := List.mem_map.mp hi
      rfl
    rw [List.filter_append, hbn, hw, List.append_nil]
    unfold FLin.weighted
    rw [List.map_map]
    have hnd := FLin.defaultPairs_nodup irrepsIn irrepsOut
    rw [← s1] at hnd
    have := hnd.map (f := fun p : Nat × Nat => (some p.1, p.2)) (by
      rintro ⟨a, b⟩ ⟨c, d⟩ h; simpa using h)
    rw [List.map_map] at this
    exact this
  · intro ins hi hn
    obtain ⟨mo, k1, k2⟩ := hg ins hi
    rw [hn] at k2
    exact ⟨mo, k1, k2.1⟩

theorem flatten_mask (l : List MulIrrep) (k : Nat) (B : MulIrrep × Nat → Bool) (P : MulIrrep × Nat → List ℝ)
    (hl : ∀ q ∈ l.zipIdx k, (P q).length = q.1.dim) (h0 : ∀ q ∈ l.zipIdx k, B q = false → ∀ v ∈ P q, v = 0)
    (j : Nat) (hj : (((l.zipIdx k).map fun q => List.replicate q.1.dim (B q)).flatten)[j]? = some false) :
    (((l.zipIdx k).map P).flatten)[j]? = some (0 : ℝ) := by
  induction l generalizing k j with
  | nil => simp at hj
  | cons m l ih =>
    simp only [List.zipIdx_cons, List.map_cons, List.flatten_cons] at *
    have hm := hl (m, k) (by simp)
    by_cases hlt : j < m.dim
    · rw [List.getElem?_append_left (by simpa using hlt), List.getElem?_replicate, if_pos hlt] at hj
      rw [List.getElem?_append_left (by rw [hm]; exact hlt), List.getElem?_eq_getElem (by rw [hm]; exact hlt)]
      rw [h0 (m, k) (by simp) (Option.some.inj hj) _ (List.getElem_mem _)]
    · rw [List.getElem?_append_right (by simp; omega), List.length_replicate] at hj
      rw [List.getElem?_append_right (by rw [hm]; simp; omega), hm]
      exact ih (k + 1) (fun q hq => hl q (by simp [hq])) (fun q hq => h0 q (by simp [hq])) _ hj

/-- **C31**.  Where `output_mask` is `False` the output is 0, for every weight and input; and the
mask has one entry per component. -/
theorem C31_output_mask {irrepsIn irrepsOut : Irreps} {b : FLin.BiasArg} {a g : ℝ} {f : FLin ℝ}
    (hf : FLin.init irrepsIn irrepsOut none b a g = .ok f) (ws : List (List ℝ)) (hw : WeightShapes f ws)
    (x : IArr ℝ) (hx : x.Coherent) (y : IArr ℝ) (hy : f.call ws x = .ok y) :
    f.outputMask.length = y.array.length ∧
    ∀ j : Nat, f.outputMask[j]? = some false → y.array[j]? = some (0 : ℝ) := by
  have hg := FLin.init_good hf (by simp)
  have hi : expand x.irreps = expand f.irrepsIn := by
    unfold FLin.call at hy
    cases h : x.rechunk f.irrepsIn with
    | error e => rw [h] at hy; cases hy
    | ok xr => exact (FLin.rechunk_irreps hx.inv h).2.2.2
  obtain ⟨xr, y', -, r2, r3, r4, h1, h2, h3, h4, h5⟩ := FLin.call_spec hg hx.inv hi hw
  rw [hy] at h1; cases h1
  have hshape : ∀ q ∈ f.irrepsOut.zipIdx, ∀ c ∈ ((f.instructions.zip ws).filter fun iw => iw.1.iOut == q.2).map (f.pathRows xr.chunks),
      shapeOk q.1 c = true := by
    rintro ⟨m, o⟩ hq c hc
    obtain ⟨iw, hiw, rfl⟩ := List.mem_map.mp hc
    rw [List.mem_filter] at hiw
    obtain ⟨-, mo', j1, j2⟩ := FLin.path_spec hg r2 r3 hw hiw.1
    have : iw.1.iOut = o := by simpa using hiw.2
    rw [this, FLin.mem_zipIdx_pair.mp hq] at j1
    cases j1; exact j2
  constructor
  · rw [h2.length_array, h3]
    unfold FLin.outputMask
    have : ∀ (l : Irreps) (k : Nat), ((l.zipIdx k).map fun mo => List.replicate mo.1.dim
        (f.instructions.any fun ins => ins.iOut == mo.2 && !(ins.pathShape.contains 0))).flatten.length = Irreps.dim l := by
      intro l
      induction l with
      | nil => intro k; rfl
      | cons m l ih => intro k; simp only [List.zipIdx_cons, List.map_cons, List.flatten_cons, List.length_append, ih, List.length_replicate]; rfl
    exact this _ 0
  · intro j hj
    rw [h5, FLin.outPairs_arr]
    unfold FLin.arr
    refine flatten_mask f.irrepsOut 0 (fun mo => f.instructions.any fun ins => ins.iOut == mo.2 && !(ins.pathShape.contains 0))
      _ ?_ ?_ j hj
    · intro q hq
      exact flatChunk_length (FLin.sumChunks_shape (hshape q hq))
    · rintro ⟨m, o⟩ hq hB v hv
      have hmo := FLin.mem_zipIdx_pair.mp hq
      obtain ⟨t, ht, rfl⟩ := List.getElem_of_mem hv
      have e : ∀ c : List ℝ, ∀ h : t < c.length, c[t] = c.getD t 0 := by intro c h; simp [List.getD, h]
      rw [e, FLin.flat_sumChunks_getD _ (hshape (m, o) hq)]
      apply List.sum_eq_zero
      intro z hz
      obtain ⟨c, hc, rfl⟩ := List.mem_map.mp hz
      have hsh := hshape (m, o) hq c hc
      obtain ⟨iw, hiw, rfl⟩ := List.mem_map.mp hc
      rw [List.mem_filter] at hiw
      have hio : iw.1.iOut = o := by simpa using hiw.2
      have hin := (FLin.WeightsOk.mem (f := f) hw hiw.1).1
      have hzero : iw.1.pathShape.contains 0 = true := by
        have := List.any_eq_false.mp hB iw.1 hin
        simpa [hio] using this
      obtain ⟨mo', k1, k2⟩ := hg _ hin
      rw [hio, hmo] at k1
      cases k1
      have hdl := flatChunk_length (FLin.sumChunks_shape (hshape (m, o) hq))
      have hdim : t < m.dim := by rw [← hdl]; exact ht
      have hmul : 0 < m.mul := by
        rcases Nat.eq_zero_or_pos m.mul with h | h
        · simp [MulIrrep.dim, h] at hdim
        · exact h
      cases hii : iw.1.iIn with
      | none =>
        rw [hii] at k2
        rw [k2.2] at hzero
        simp at hzero
        omega
      | some i =>
        rw [hii] at k2
        obtain ⟨mi, l1, l2, l3⟩ := k2
        rw [l3] at hzero
        have hmi0 : mi.mul = 0 := by simp at hzero; omega
        obtain ⟨hv1, hk1⟩ : t / m.ir.dim < m.mul ∧ t % m.ir.dim < m.ir.dim := by
          have : 0 < m.ir.dim := by unfold Irrep.dim; omega
          exact ⟨by rw [Nat.div_lt_iff_lt_mul this]; exact hdim, Nat.mod_lt _ this⟩
        have := FLin.pathRows_term hg r2 r3 hw hiw.1 (mo := m) (by rw [hio]; exact hmo) (t / m.ir.dim) (t % m.ir.dim) hv1 hk1
        rw [Nat.div_add_mod'] at this
        refine Eq.trans this ?_
        unfold FLin.pathTerm
        rw [hii]
        simp [List.getD, l1, hmi0]

/-! ### C32 -/

theorem splitWeights_go {K : Type} (weights : List K) (l : List (LinIns K)) (c : Nat) (hc : c ≤ weights.length) :
    (c + (l.map FLin.size).sum ≤ weights.length → ∃ ws, FLin.splitWeights.go weights c l = .ok ws ∧
      ws.map List.length = l.map FLin.size ∧ ws.flatten = (weights.drop c).take (l.map FLin.size).sum) ∧
    (weights.length < c + (l.map FLin.size).sum → FLin.splitWeights.go weights c l = .error .typeError) := by
  induction l generalizing c with
  | nil => simp [FLin.splitWeights.go]; omega
  | cons ins l ih =>
    have hlen : ((weights.take (c + FLin.size ins)).drop c).length = min (c + FLin.size ins) weights.length - c := by simp
    by_cases hs : c + FLin.size ins ≤ weights.length
    · obtain ⟨i1, i2⟩ := ih (c + FLin.size ins) hs
      have hl : ((weights.take (c + FLin.size ins)).drop c).length = FLin.size ins := by omega
      constructor
      · intro h
        simp only [List.map_cons, List.sum_cons] at h
        obtain ⟨ws, w1, w2, w3⟩ := i1 (by omega)
        refine ⟨(weights.take (c + FLin.size ins)).drop c :: ws, ?_, ?_, ?_⟩
        · simp only [FLin.splitWeights.go]
          rw [if_neg (by simpa using hl), w1]; rfl
        · simp only [List.map_cons, hl, w2]
        · simp only [List.flatten_cons, w3, List.map_cons, List.sum_cons]
          rw [List.drop_take, Nat.add_sub_cancel_left, List.take_add, List.drop_drop]
      · intro h
        simp only [List.map_cons, List.sum_cons] at h
        simp only [FLin.splitWeights.go]
        rw [if_neg (by simpa using hl), i2 (by omega)]; rfl
    · constructor
      · intro h; simp only [List.map_cons, List.sum_cons] at h; omega
      · intro _
        simp only [FLin.splitWeights.go]
        rw [if_pos (by omega)]

/-- **C32**.  A flat array with (at least) `num_weights` entries is cut into one piece per path, of
the size of its weight; the pieces, one after the other, are the first `num_weights` entries.  A
shorter array raises. -/
theorem C32_split_weights {K : Type} (f : FLin K) (weights : List K) :
    (f.numWeights ≤ weights.length → ∃ ws, f.splitWeights weights = .ok ws ∧
      ws.map List.length = f.instructions.map (fun i => i.pathShape.foldl (· * ·) 1) ∧
      ws.flatten = weights.take f.numWeights) ∧
    (weights.length < f.numWeights → f.splitWeights weights = .error .typeError) := by
  have := splitWeights_go weights f.instructions 0 (Nat.zero_le _)
  simp only [Nat.zero_add, List.drop_zero] at this
  exact this

/-- A call with a flat array is the call with the pieces. -/
theorem C32_call_flat {irrepsIn irrepsOut : Irreps} {b : FLin.BiasArg} {a g : ℝ} {f : FLin ℝ}
    (hf : FLin.init irrepsIn irrepsOut none b a g = .ok f) (weights : List ℝ) (hw : f.numWeights ≤ weights.length)
    (x : IArr ℝ) (hx : x.Coherent) (hi : expand x.irreps = expand irrepsIn) :
    ∃ ws y, ws.flatten = weights.take f.numWeights ∧ WeightShapes f ws ∧ f.call ws x = .ok y ∧
      f.callFlat weights x = .ok y := by
  obtain ⟨ws, w1, w2, w3⟩ := (C32_split_weights f weights).1 hw
  obtain ⟨y, y1, -⟩ := C28_call_returns hf ws w2 x hx hi
  refine ⟨ws, y, w3, w2, y1, ?_⟩
  have hirr : f.irrepsIn = irrepsIn := by
    obtain ⟨sh, -, -, -, rfl⟩ := FLin.init_ok hf; rfl
  obtain ⟨xr, r1, -⟩ := rechunk_spec hx.inv (new := f.irrepsIn) (by rw [hirr, hi])
  unfold FLin.callFlat
  rw [r1]
  show (do let ws ← f.splitWeights weights; f.call ws x) = _
  rw [w1]; exact y1

/-- The hypotheses are met: a layer `2x0e + 1x1o -> 1x0e + 3x1o` with biases. -/
theorem C28_concrete : ∃ f, FLin.init [⟨2, ⟨0, .e⟩⟩, ⟨1, ⟨1, .o⟩⟩] [⟨1, ⟨0, .e⟩⟩, ⟨3, ⟨1, .o⟩⟩] none (.all true) 0 0 = .ok f ∧
    WeightShapes f [[2, 3], [5, 7, 11], [13]] ∧ f.numWeights = 6 ∧
    (∃ x : IArr ℝ, x.Coherent ∧ expand x.irreps = expand [⟨2, ⟨0, .e⟩⟩, ⟨1, ⟨1, .o⟩⟩]) := by
  refine ⟨_, rfl, rfl, rfl, ?_⟩
  obtain ⟨y, -, h1, h2, -⟩ := fromChunks_pairs (α := ℝ) [(⟨2, ⟨0, .e⟩⟩, none), (⟨1, ⟨1, .o⟩⟩, some [[1, 2, 3]])] (by
    intro p hp; simp at hp; rcases hp with rfl | rfl <;> rfl)
  exact ⟨y, h1.coherent, by rw [h2]; rfl⟩

end E3nn
