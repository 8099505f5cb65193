import Verif.Lemmas.LinearModule
import Verif.Props.C84

/-!
# C89: the `Linear` module

`call c P W x` is `Linear(...)(W, x)` with the parameters `P`; `callChannel` is the module with `channel_out`,
`callPerChannel` the module with `weights_per_channel`.
-/

namespace E3nn.LinM
open E3nn.IArr E3nn.Wig

/-- The terms that are not marked as zero. -/
def live {α : Type} (x : IArr α) : List (MulIrrep × List α) := ((x.terms.zip x.zeroFlags).filter fun t => !t.2).map Prod.fst

/-- What the layer sees: the input itself or, by default, its terms that are not marked as zero, sorted by irrep and grouped. -/
def Prepared {α : Type} [Zero α] (c : Cfg) (x z : IArr α) : Prop :=
  z.Coherent ∧ (c.simp = false → z = x) ∧
  (c.simp = true → Irreps.regroup ((live x).map Prod.fst) = .ok z.irreps ∧
    ∀ ir, (z.blocks.filter fun b => decide (b.1 = ir)) =
      ((live x).flatMap fun t => blocksOf (List.replicate t.1.mul t.1.ir) t.2).filter fun b => decide (b.1 = ir))

/-- The irreps that the layer computes. -/
def layerOut (c : Cfg) (irreps : Irreps) : Irreps :=
  if c.force then (if c.simp then c.irrepsOut.simplify else c.irrepsOut)
  else (if c.simp then c.irrepsOut.simplify else c.irrepsOut).filter fun m => decide (m.ir ∈ irreps.map MulIrrep.ir)

/-- The irreps of the result. -/
def finalOut (c : Cfg) (irreps : Irreps) : Irreps := if c.force then c.irrepsOut else layerOut c irreps

/-- The irreps of the prepared input are, up to the order, the announced ones. -/
def Announced (c : Cfg) (irreps : Irreps) : Prop := ∀ i, c.irrepsIn = some i → irreps.regroup = i.regroup

theorem outIrreps_eq (c : Cfg) (irreps : Irreps) : outIrreps c irreps = .ok (layerOut c irreps) := by
  unfold outIrreps layerOut
  split_ifs <;> simp [Irreps.filter']

theorem validate_ok {c : Cfg} (hi : c.instructions = none) {irreps : Irreps} (h : Announced c irreps) (ch : Bool) : validate c ch irreps = .ok () := by
  unfold validate
  rw [hi]
  cases h2 : c.irrepsIn with
  | none => rfl
  | some i =>
    have := h i h2
    simp only [compareRegrouped, this]
    rw [Irreps.regroup_eq]
    simp [bind, Except.bind]

theorem prepInput_spec {α : Type} [Zero α] (c : Cfg) {x : IArr α} (hx : x.Coherent) : ∃ z, prepInput c x = .ok z ∧ Prepared c x z := by
  unfold prepInput
  split_ifs with h
  · obtain ⟨v, v1, v2, v3, -⟩ := removeZeroChunks_spec hx.inv
    obtain ⟨z, z1, z2, -, -, z3, z4⟩ := C17_regroup v v2.coherent
    refine ⟨z, by simp [v1, z1, bind, Except.bind], z2, by simp [h], fun _ => ⟨?_, ?_⟩⟩
    · rw [← z4, ← terms_fst, v3]
      rfl
    · intro ir
      rw [z3, blocks_eq, v3]
      rfl
  · exact ⟨x, rfl, hx, fun _ => rfl, fun h' => absurd h' h⟩

theorem expand_layerOut {c : Cfg} (h : c.force = true) (irreps : Irreps) : expand (layerOut c irreps) = expand c.irrepsOut := by
  unfold layerOut
  rw [if_pos h]
  split_ifs
  · exact Irreps.expand_simplify _
  · rfl

theorem finish_spec {α : Type} [Zero α] {c : Cfg} {irreps : Irreps} {y : IArr α} (hy : y.Coherent) (hi : y.irreps = layerOut c irreps) :
    ∃ z, finish c y = .ok z ∧ z.Coherent ∧ z.irreps = finalOut c irreps ∧ z.array = y.array := by
  unfold finish finalOut
  split_ifs with h
  · obtain ⟨z, z1, z2, z3, z4⟩ := rechunk_spec hy.inv (new := c.irrepsOut) (by rw [hi]; exact expand_layerOut h _)
    exact ⟨z, z1, z2.coherent, z3, z4⟩
  · exact ⟨y, rfl, hy, hi, rfl⟩

/-- **C89 (values).** Without explicit instructions, for every input (whose irreps are the announced ones, if any were),
every source of weights and all parameters of the right shape, the module returns an array with the requested irreps, those
that the input does not have left out unless `force_irreps_out` is set.  Component `k` of copy `v` of the output term `o` is
the sum over the paths `i → o` of equal irreps of `path_weight * Σ_u w[u, v] * z[i][u, k]`, plus the bias, where `z` is the
prepared input and `w` the weight of the path (see `entry`). -/
theorem C89_call (c : Cfg) (hc : c.instructions = none) {s : Source} {P : Params} (hP : Shaped s P) (hs : Ready s) (x : IArr ℝ) (hx : x.Coherent)
    (ha : ∀ z, Prepared c x z → Announced c z.irreps) :
    ∃ z f y, Prepared c x z ∧ FLin.init z.irreps (layerOut c z.irreps) none (.all c.biases) c.a c.g = .ok f ∧
      callFrom c P (.ok s) x = .ok y ∧ y.Coherent ∧ y.irreps = finalOut c z.irreps ∧
      ∀ (o : ℕ) (mo : MulIrrep), (layerOut c z.irreps)[o]? = some mo → ∀ v k, v < mo.mul → k < 2 * mo.ir.l + 1 →
        y.array.getD (Irreps.dim ((layerOut c z.irreps).take o) + (v * (2 * mo.ir.l + 1) + k)) 0 =
          ((f.instructions.filter fun ins => ins.iOut == o).map fun ins =>
            linearTerm f z.array ins (effective c.g s P (nameOf z.irreps (layerOut c z.irreps) ins))
              ((ins.iIn.bind fun i => z.irreps[i]?).getD ⟨0, ⟨0, .e⟩⟩) mo v k).sum := by
  obtain ⟨z, z1, z2⟩ := prepInput_spec c hx
  obtain ⟨f, y0, hf, hw, h1, h2, h3, h4⟩ := core_spec c false (layerOut c z.irreps) hP hs hc z2.1 (validate_ok hc (ha z z2) false)
  obtain ⟨y, y1, y2, y3, y4⟩ := finish_spec h2 h3
  refine ⟨z, f, y, z2, hf, ?_, y2, y3, ?_⟩
  · simp only [callFrom, z1, outIrreps_eq, h4, bind, Except.bind]
    exact y1
  · intro o mo ho v k hv hk
    rw [y4, C28_formula hf _ hw z z2.1 y0 h1 o mo ho v k hv hk]
    rw [← List.map_id f.instructions, List.map_map, List.zip_map', List.filter_map, List.map_map, List.map_id]
    rfl

/-- **C89 (sources).** The module with indexed weights, with mixed weights or with mixed weights per channel is the plain
module with the selected or combined weights, on every input, also where it raises. -/
theorem C89_sources (c : Cfg) {s : Source} {P : Params} (hP : Shaped s P) (hs : Ready s) (x : IArr ℝ) :
    callFrom c P (.ok s) x = call c (effective c.g s P) .none x := by
  unfold call callFrom
  cases prepInput c x with
  | error e => rfl
  | ok z =>
    simp only [bind, Except.bind]
    cases outIrreps c z.irreps with
    | error e => rfl
    | ok out =>
      simp only [core_eq c false out hP hs z]
      rfl

/-- The weights transform as scalars. -/
def TransformsTo (R : Matrix (Fin 3) (Fin 3) ℝ) : Weights → Weights → Prop
  | .irreps w, .irreps w' => w.transformByMatrix R = .ok w'
  | .irreps _, _ => False
  | W, W' => W = W'

/-- The weights are well formed. -/
def GoodWeights : Weights → Prop
  | .irreps w => w.Coherent
  | _ => True

theorem fixes {R : Matrix (Fin 3) (Fin 3) ℝ} (hR : IsOrth R) : FLin.FixesScalars fun ir => matVec (α := ℝ) (matRows (dMatrix ir R)) := by
  intro a
  simp only
  rw [(C39_defining hR).2.2.1]
  simp [matRows, matVec]

/-- An array of `0e` only is left alone. -/
theorem scalar_fixed {R : Matrix (Fin 3) (Fin 3) ℝ} (hR : IsOrth R) {w w' : IArr ℝ} (hw : w.Coherent) (hs : w.irreps.isScalar = true)
    (h : w.transformByMatrix R = .ok w') : w'.irreps = w.irreps ∧ w'.array = w.array := by
  obtain ⟨u, h1, h2, h3, -⟩ := C59_transform R w hw
  rw [h] at h1
  cases h1
  refine ⟨h3, eq_of_getD (n := w.irreps.dim) ?_ ?_ ?_⟩
  · rw [h2.array_length, h3, ← Irreps.dim_eq_dimOf_expand]
  · rw [hw.array_length, ← Irreps.dim_eq_dimOf_expand]
  · intro j hj
    obtain ⟨o, mo, v, k, ho, hv, hk, rfl⟩ := index_split w.irreps j hj
    simp only [Irreps.isScalar, Bool.and_eq_true, List.all_eq_true, beq_iff_eq] at hs
    have hir := hs.2 mo (List.mem_of_getElem? ho)
    have e := tr_coord hw h ho hv ⟨k, hk⟩
    obtain ⟨mul, ir⟩ := mo
    simp only at hir
    subst hir
    rw [(C39_defining hR).2.2.1] at e
    simp only [Matrix.one_apply, ite_mul, one_mul, zero_mul, Finset.sum_ite_eq, Finset.mem_univ, if_true, pos] at e
    exact e

theorem select_transform {R : Matrix (Fin 3) (Fin 3) ℝ} (hR : IsOrth R) (c : Cfg) {W : Weights} (hW : GoodWeights W) : ∃ W', TransformsTo R W W' ∧ select c W' = select c W := by
  cases W with
  | none => exact ⟨.none, rfl, rfl⟩
  | index i => exact ⟨.index i, rfl, rfl⟩
  | floats w => exact ⟨.floats w, rfl, rfl⟩
  | irreps w =>
    obtain ⟨w', h1, h2, h3, -⟩ := C59_transform R w hW
    refine ⟨.irreps w', h1, ?_⟩
    simp only [select, h3]
    split_ifs with h
    · rw [(scalar_fixed hR hW h h1).2]
    · rfl

/-- **C89 (equivariance).** With the same parameters, the module applied to a rotated or reflected array (and weights that
transform as scalars do) is the rotated or reflected result: for every kind of weights, with or without biases, without
instructions or with instructions that connect equal irreps. -/
theorem C89_equivariant (c : Cfg) {W : Weights} (hW : GoodWeights W) {P : Params} (hP : ∀ s, select c W = .ok s → Shaped s P ∧ Ready s)
    {x : IArr ℝ} (hx : x.Coherent)
    (hins : ∀ ps, c.instructions = some ps → ∀ p ∈ ps, ∀ mi mo, x.irreps[p.1]? = some mi → (layerOut c x.irreps)[p.2]? = some mo → mi.ir = mo.ir)
    {R : Matrix (Fin 3) (Fin 3) ℝ} (hR : IsOrth R) {y : IArr ℝ} (hy : call c P W x = .ok y) :
    ∃ x' W' y' y'', x.transformByMatrix R = .ok x' ∧ TransformsTo R W W' ∧ call c P W' x' = .ok y' ∧ y.transformByMatrix R = .ok y'' ∧ y'.Equal y'' := by
  have hD := linAct_mat (matRows_family fun ir => dMatrix ir R)
  obtain ⟨W', w1, w2⟩ := select_transform hR c hW
  obtain ⟨x', h1, h2⟩ := transformBy_spec hD.toAct hx.inv
  unfold call at hy ⊢
  cases hsel : select c W with
  | error e =>
    exfalso
    rw [hsel] at hy
    unfold callFrom core at hy
    cases hz : prepInput c x with
    | error e => rw [hz] at hy; cases hy
    | ok z =>
      simp only [hz, outIrreps_eq, bind, Except.bind] at hy
      cases hv : validate c false z.irreps with
      | error e => rw [hv] at hy; cases hy
      | ok _ =>
        simp only [hv] at hy
        cases hf : FLin.init z.irreps (layerOut c z.irreps) c.instructions (.all c.biases) c.a c.g with
        | error e => rw [hf] at hy; cases hy
        | ok f => simp only [hf] at hy; cases hy
  | ok s =>
    rw [hsel] at hy
    obtain ⟨p1, p2⟩ := hP s hsel
    obtain ⟨y', k1, k2⟩ := tr_callFrom hD (fixes hR) c (by
      intro ps hps z out hz ho p hp mi mo hmi hmo
      cases hsimp : c.simp with
      | true =>
        exfalso
        unfold callFrom core at hy
        simp only [hz, ho, bind, Except.bind, validate, hps, hsimp] at hy
        cases h : c.irrepsIn <;> rw [h] at hy <;> simp at hy
      | false =>
        have : z = x := by
          unfold prepInput at hz
          rw [if_neg (by simp [hsimp])] at hz
          cases hz
          rfl
        subst this
        rw [outIrreps_eq] at ho
        cases ho
        exact hins ps hps p hp mi mo hmi hmo) p1 p2 h2 hy
    obtain ⟨y'', l1, l2⟩ := transformBy_spec hD.toAct k2.inv
    exact ⟨x', W', y', y'', h1, w1, by rw [w2, hsel]; exact k1, l1, k2.unique l2⟩

/-- One channel of the module with `weights_per_channel`: each channel is transformed separately. -/
theorem C89_equivariant_per_channel (c : Cfg) (hc : c.instructions = none) {w : List ℝ} (hw : w ≠ []) {nc k : ℕ} (hk : k < nc) {P : Params}
    (hP : Shaped (.perChannel w nc k) P) {x : IArr ℝ} (hx : x.Coherent)
    {R : Matrix (Fin 3) (Fin 3) ℝ} (hR : IsOrth R) {y : IArr ℝ} (hy : callPerChannel c P w nc k x = .ok y) :
    ∃ x' y' y'', x.transformByMatrix R = .ok x' ∧ callPerChannel c P w nc k x' = .ok y' ∧ y.transformByMatrix R = .ok y'' ∧ y'.Equal y'' := by
  have hD := linAct_mat (matRows_family fun ir => dMatrix ir R)
  obtain ⟨x', h1, h2⟩ := transformBy_spec hD.toAct hx.inv
  unfold callPerChannel at hy ⊢
  rw [if_neg hw] at hy ⊢
  obtain ⟨y', k1, k2⟩ := tr_callFrom hD (fixes hR) c (by simp [hc]) hP hk h2 hy
  obtain ⟨y'', l1, l2⟩ := transformBy_spec hD.toAct k2.inv
  exact ⟨x', y', y'', h1, k1, l1, k2.unique l2⟩

/-! ### `channel_out` -/

/-- **C89 (channels).** With `channel_out = ch > 0` the module returns, for every input with a channel axis, an array with `ch`
channels and the same irreps as without channels: it is the layer applied to the array whose channel axis is merged into the
multiplicities, and its output multiplicities are split again. -/
theorem C89_channel_call (c : Cfg) (hc : c.instructions = none) {ch : ℕ} (hch : 0 < ch) {W : Weights} {s : Source} (hsel : select c W = .ok s) {P : Params}
    (hP : Shaped s P) (hs : Ready s) {k : ℕ} (x : IArr (Fin k → ℝ)) (hx : x.Coherent) (ha : ∀ z, Prepared c x z → Announced c (z.irreps.mul k)) :
    ∃ z u f y0 y1 y, Prepared c x z ∧ z.axisToMul = .ok u ∧ u.irreps = z.irreps.mul k ∧
      FLin.init u.irreps ((layerOut c z.irreps).mul ch) none (.all c.biases) c.a c.g = .ok f ∧
      f.call (f.instructions.map fun ins => effective c.g s P (nameOf u.irreps ((layerOut c z.irreps).mul ch) ins)) u = .ok y0 ∧
      y0.mulToAxis ch = .ok y1 ∧ callChannel c ch P W x = .ok y ∧ y.Coherent ∧ y.irreps = finalOut c z.irreps ∧ y.array = y1.array := by
  obtain ⟨z, z1, z2⟩ := prepInput_spec c hx
  obtain ⟨u, u1, u2, u3, -⟩ := axisToMul_spec z2.1.inv
  have hu : u.irreps = z.irreps.mul k := by
    rw [u3]
    exact List.map_congr_left fun m _ => by rw [Nat.mul_comm]
  obtain ⟨f, y0, hf, hw, h1, h2, h3, h4⟩ := core_spec c true ((layerOut c z.irreps).mul ch) hP hs hc u2.coherent (validate_ok hc (by rw [hu]; exact ha z z2) true)
  obtain ⟨y1, v1, v2, v3, -⟩ := mulToAxis_spec h2.inv hch (by
    rw [h3]
    intro m hm
    obtain ⟨m', -, rfl⟩ := List.mem_map.mp hm
    exact Nat.dvd_mul_left _ _)
  have hi : y1.irreps = layerOut c z.irreps := by
    rw [v3, h3, Irreps.mul, List.map_map]
    conv_rhs => rw [← List.map_id (layerOut c z.irreps)]
    exact List.map_congr_left fun m _ => by simp [Nat.mul_div_cancel _ hch]
  obtain ⟨y, e1, e2, e3, e4⟩ := finish_spec v2.coherent hi
  refine ⟨z, u, f, y0, y1, y, z2, u1, hu, hf, h1, v1, ?_, e2, e3, e4⟩
  simp only [callChannel, z1, outIrreps_eq, u1, hsel, h4, v1, bind, Except.bind]
  exact e1

/-- **C89 (channels, equivariance).** -/
theorem C89_channel_equivariant (c : Cfg) {ch : ℕ} (hch : 0 < ch) {W : Weights} (hW : GoodWeights W) {P : Params} (hP : ∀ s, select c W = .ok s → Shaped s P ∧ Ready s)
    {k : ℕ} {x : IArr (Fin k → ℝ)} (hx : x.Coherent) {R : Matrix (Fin 3) (Fin 3) ℝ} (hR : IsOrth R) {y : IArr (Fin ch → ℝ)} (hy : callChannel c ch P W x = .ok y) :
    ∃ x' W' y' y'', x.transformByMatrix R = .ok x' ∧ TransformsTo R W W' ∧ callChannel c ch P W' x' = .ok y' ∧ y.transformByMatrix R = .ok y'' ∧ y'.Equal y'' := by
  have hM := matRows_family fun ir => dMatrix ir R
  have hD := linAct_mat hM
  have hDk : Act (fun ir => matVec (α := Fin k → ℝ) (matRows (dMatrix ir R))) := matVec_act fun ir => (hM ir).1
  have hDc : Act (fun ir => matVec (α := Fin ch → ℝ) (matRows (dMatrix ir R))) := matVec_act fun ir => (hM ir).1
  obtain ⟨W', w1, w2⟩ := select_transform hR c hW
  obtain ⟨x', h1, h2⟩ := transformBy_spec hDk hx.inv
  unfold callChannel at hy
  cases hz : prepInput c x with
  | error e => rw [hz] at hy; cases hy
  | ok z =>
    obtain ⟨z', z1, z2⟩ := tr_prepInput hDk c h2 hz
    simp only [hz, outIrreps_eq, bind, Except.bind] at hy
    cases hu : z.axisToMul with
    | error e => rw [hu] at hy; cases hy
    | ok u =>
      obtain ⟨u', u1, u2⟩ := tr_axisToMul z2 hu
      simp only [hu] at hy
      cases hq : core c true ((layerOut c z.irreps).mul ch) P (select c W) u with
      | error e => rw [hq] at hy; cases hy
      | ok q =>
        have hno : c.instructions = none := by
          cases hI : c.instructions with
          | none => rfl
          | some ps =>
            exfalso
            unfold core validate at hq
            rw [hI] at hq
            cases h : c.irrepsIn <;> rw [h] at hq <;> simp [bind, Except.bind] at hq
        cases hsel : select c W with
        | error e =>
          exfalso
          rw [hsel] at hq
          unfold core at hq
          cases hv : validate c true u.irreps with
          | error e => rw [hv] at hq; cases hq
          | ok _ =>
            simp only [hv, bind, Except.bind] at hq
            cases hf : FLin.init u.irreps ((layerOut c z.irreps).mul ch) c.instructions (.all c.biases) c.a c.g with
            | error e => rw [hf] at hq; cases hq
            | ok f => simp only [hf] at hq; cases hq
        | ok s =>
          obtain ⟨p1, p2⟩ := hP s hsel
          simp only [hq] at hy
          rw [hsel] at hq
          obtain ⟨q', q1, q2⟩ := tr_core hD (fixes hR) c true _ (by simp [hno]) p1 p2 u2 hq
          cases hr : q.mulToAxis ch with
          | error e => rw [hr] at hy; cases hy
          | ok r =>
            obtain ⟨r', r1, r2⟩ := tr_mulToAxis hch (fun ir => (hM ir).1) q2 hr
            simp only [hr] at hy
            obtain ⟨y', k1, k2⟩ := tr_finish hDc c r2 hy
            obtain ⟨y'', l1, l2⟩ := transformBy_spec hDc k2.inv
            refine ⟨x', W', y', y'', h1, w1, ?_, l1, k2.unique l2⟩
            simp only [callChannel, z1, outIrreps_eq, z2.irreps, u1, w2, hsel, q1, r1, bind, Except.bind]
            exact k1

end E3nn.LinM
