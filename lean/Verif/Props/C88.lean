import Verif.Model.FCTP
import Verif.Props.C87

/-!
# C88: the `FullyConnectedTensorProduct` module

For every input and all parameters the module returns an array of the requested irreps; it commutes with the
rotations and the reflections; on arrays without terms marked as zero its parameters describe every equivariant
bilinear map.
-/

namespace E3nn.FCTP
open E3nn.IArr E3nn.Wig E3nn.LTP

/-- Every parameter has one entry per triple of copies. -/
def WellShaped (P : Params) : Prop := ∀ q, (P q).length = q.a.mul * q.b.mul * q.c.mul

/-- The irreps of the array agree with the argument `irreps_in1` (or `irreps_in2`), if given. -/
def Agrees (irreps : Option Irreps) (x : IArr ℝ) : Prop := ∀ i, irreps = some i → expand x.irreps = expand i

/-- The terms that are not marked as zero, with their data. -/
def live (x : IArr ℝ) : List (MulIrrep × List ℝ) := ((x.terms.zip x.zeroFlags).filter fun t => !t.2).map Prod.fst

/-- The name of the parameter of an instruction. -/
def nameOf (irreps1 irreps2 irrepsOut : Irreps) (ins : Ins) : PName :=
  ⟨ins.i1, ins.i2, ins.io, irreps1.getD ins.i1 ⟨0, ⟨0, .e⟩⟩, irreps2.getD ins.i2 ⟨0, ⟨0, .e⟩⟩, irrepsOut.getD ins.io ⟨0, ⟨0, .e⟩⟩⟩

theorem terms_snd {x : IArr ℝ} (hx : x.Coherent) : (x.terms.map Prod.snd).flatten = x.array := by
  have hl : x.array.length = x.irreps.dim := by rw [hx.array_length, ← Irreps.dim_eq_dimOf_expand]
  unfold IArr.terms
  generalize x.array = a at hl ⊢
  generalize x.irreps = ms at hl ⊢
  induction ms generalizing a with
  | nil =>
    have : a = [] := List.length_eq_zero_iff.mp (by simpa [Irreps.dim] using hl)
    subst this
    rfl
  | cons m ms ih =>
    have hd : Irreps.dim (m :: ms) = m.dim + Irreps.dim ms := by simp [Irreps.dim, MulIrrep.dim]
    simp only [termsOf, List.map_cons, List.flatten_cons]
    rw [ih, List.take_append_drop]
    rw [List.length_drop, hl, hd]
    simp [MulIrrep.dim, Irrep.dim]

theorem rechunkTo_spec {irreps : Option Irreps} {x : IArr ℝ} (hx : x.Coherent) (h : Agrees irreps x) :
    ∃ u, rechunkTo irreps x = .ok u ∧ u.Coherent ∧ u.array = x.array ∧ u.irreps = irreps.getD x.irreps := by
  cases irreps with
  | none => exact ⟨x, rfl, hx, rfl, rfl⟩
  | some i =>
    obtain ⟨u, h1, h2, h3, h4⟩ := rechunk_spec hx.inv (h i rfl)
    exact ⟨u, h1, h2.coherent, h4, h3⟩

theorem prepare_spec {irreps : Option Irreps} {x : IArr ℝ} (hx : x.Coherent) (h : Agrees irreps x) :
    ∃ u z, rechunkTo irreps x = .ok u ∧ u.Coherent ∧ u.array = x.array ∧ u.irreps = irreps.getD x.irreps ∧ prepare irreps x = .ok z ∧ z.Coherent ∧
      z.irreps = Irreps.simplify ((live u).map Prod.fst) ∧ z.array = ((live u).map Prod.snd).flatten := by
  obtain ⟨u, h1, h2, h3, h4⟩ := rechunkTo_spec hx h
  obtain ⟨v, v1, v2, v3, -⟩ := removeZeroChunks_spec h2.inv
  obtain ⟨z, z1, z2, z3, z4⟩ := rechunk_spec v2 (new := v.irreps.simplify) (Irreps.expand_simplify _).symm
  refine ⟨u, z, h1, h2, h3, h4, ?_, z2.coherent, ?_, ?_⟩
  · simp only [prepare, h1, v1, bind, Except.bind]
    exact z1
  · rw [z3, ← terms_fst, v3]
    rfl
  · rw [z4, ← terms_snd v2.coherent, v3]
    rfl

theorem prepare_pos {irreps : Option Irreps} {x z : IArr ℝ} (h : prepare irreps x = .ok z) (hx : x.Coherent) (ha : Agrees irreps x) : ∀ m ∈ z.irreps, 0 < m.mul := by
  obtain ⟨u, z', -, -, -, -, h5, -, h7, -⟩ := prepare_spec hx ha
  rw [h] at h5
  cases h5
  rw [h7]
  exact Irreps.simplify_pos _

/-- **C88 (values).** For every pair of inputs and all parameters of the right shape the module returns an array of the
irreps it was built with; with the terms marked as zero left out, it is the documented sum (C85) of the fully connected
product of the remaining terms, each instruction taking the parameter of its name. -/
theorem C88_call (irrepsOut : Irreps) {in1 in2 : Option Irreps} {n : IrNorm} (hn : n ≠ .other) (a g : ℝ) (fused : Bool) {P : Params} (hP : WellShaped P)
    (x1 x2 : IArr ℝ) (h1 : x1.Coherent) (h2 : x2.Coherent) (e1 : Agrees in1 x1) (e2 : Agrees in2 x2) :
    ∃ u1 u2 f z1 z2 y0 y, rechunkTo in1 x1 = .ok u1 ∧ rechunkTo in2 x2 = .ok u2 ∧
      z1.Coherent ∧ z2.Coherent ∧ z1.irreps = Irreps.simplify ((live u1).map Prod.fst) ∧ z1.array = ((live u1).map Prod.snd).flatten ∧
      z2.irreps = Irreps.simplify ((live u2).map Prod.fst) ∧ z2.array = ((live u2).map Prod.snd).flatten ∧
      prepare in1 x1 = .ok z1 ∧ prepare in2 x2 = .ok z2 ∧
      fullyConnected z1.irreps z2.irreps irrepsOut.simplify none none none n a g = .ok f ∧
      IsProduct f (f.instructions.map fun ins => P (nameOf z1.irreps z2.irreps irrepsOut.simplify ins)) z1 z2 y0 ∧
      call irrepsOut in1 in2 n a g fused P x1 x2 = .ok y ∧ y.Coherent ∧ y.irreps = irrepsOut ∧ y.array = y0.array := by
  obtain ⟨u1, z1, a1, -, -, -, a5, a6, a7, a8⟩ := prepare_spec h1 e1
  obtain ⟨u2, z2, b1, -, -, -, b5, b6, b7, b8⟩ := prepare_spec h2 e2
  have p1 : ∀ m ∈ z1.irreps, 0 < m.mul := by rw [a7]; exact Irreps.simplify_pos _
  have p2 : ∀ m ∈ z2.irreps, 0 < m.mul := by rw [b7]; exact Irreps.simplify_pos _
  have p3 : ∀ m ∈ irrepsOut.simplify, 0 < m.mul := Irreps.simplify_pos _
  obtain ⟨f, hf, -, -, -, -, hkeys, hins⟩ := C85_fully_connected z1.irreps z2.irreps irrepsOut.simplify hn a g p1 p2 p3
  obtain ⟨k1, k2, k3, -⟩ := init_ok hf
  obtain ⟨hfc, hp, hcall⟩ := fc_spec p1 p2 p3 hn hf fused
  have hget : ∀ ins ∈ f.instructions, getParameter f P ins = .ok (P (nameOf z1.irreps z2.irreps irrepsOut.simplify ins)) ∧
      (P (nameOf z1.irreps z2.irreps irrepsOut.simplify ins)).length = ins.pathShape.prod := by
    intro ins hi
    obtain ⟨A, B, C, hA, hB, hC, -⟩ := (hkeys _ _ _).mp ⟨ins, hi, rfl⟩
    have hs := (hins ins hi).2.2 A B C hA hB hC
    have hl : (P (nameOf z1.irreps z2.irreps irrepsOut.simplify ins)).length = ins.pathShape.prod := by
      rw [hP, hs]
      simp [nameOf, List.getD, hA, hB, hC, mul_assoc]
    have hnm : nameOf z1.irreps z2.irreps irrepsOut.simplify ins = ⟨ins.i1, ins.i2, ins.io, A, B, C⟩ := by
      simp [nameOf, List.getD, hA, hB, hC]
    refine ⟨?_, hl⟩
    unfold getParameter
    rw [k1, k2, k3, hA, hB, hC]
    rw [hnm] at hl ⊢
    simp only
    rw [if_pos hl]
  have hW : WeightsFor f (f.instructions.map fun ins => P (nameOf z1.irreps z2.irreps irrepsOut.simplify ins)) := by
    unfold WeightsFor
    rw [List.map_map]
    refine List.map_congr_left fun ins hi => ?_
    simp only [Function.comp, (hget ins hi).2, (hins ins hi).2.1, if_true]
  obtain ⟨-, hc⟩ := hcall _ hW
  obtain ⟨y0, y1, y2⟩ := hc _ (Or.inl rfl) z1 z2 a6 b6 rfl rfl
  obtain ⟨y, r1, r2, r3, r4⟩ := rechunk_spec y2.1.inv (new := irrepsOut) (by rw [y2.2.1, k3]; exact Irreps.expand_simplify _)
  have hm : f.instructions.mapM (getParameter f P) = .ok (f.instructions.map fun ins => P (nameOf z1.irreps z2.irreps irrepsOut.simplify ins)) :=
    FLin.mapM_ok _ fun ins hi => (hget ins hi).1
  refine ⟨u1, u2, f, z1, z2, y0, y, a1, b1, a6, b6, a7, a8, b7, b8, a5, b5, hf, y2, ?_, r2.coherent, r3, r4⟩
  simp only [call, a5, b5, hf, hm, y1, bind, Except.bind]
  exact r1

theorem tr_prepare {D : Irrep → List ℝ → List ℝ} (hD : Act D) {irreps : Option Irreps} {x x' z : IArr ℝ} (h : Tr D x x') (hz : prepare irreps x = .ok z) :
    ∃ z', prepare irreps x' = .ok z' ∧ Tr D z z' := by
  unfold prepare at hz ⊢
  have key : ∀ u, rechunkTo irreps x = .ok u → ∃ u', rechunkTo irreps x' = .ok u' ∧ Tr D u u' := by
    intro u hu
    cases irreps with
    | none => cases hu; exact ⟨x', rfl, h⟩
    | some i => exact tr_rechunk hD h hu
  cases hu : rechunkTo irreps x with
  | error e => rw [hu] at hz; cases hz
  | ok u =>
    obtain ⟨u', u1, u2⟩ := key u hu
    rw [hu] at hz
    cases hv : u.removeZeroChunks with
    | error e => simp only [bind, Except.bind, hv] at hz; cases hz
    | ok v =>
      obtain ⟨v', v1, v2⟩ := tr_removeZeroChunks hD u2 hv
      simp only [bind, Except.bind, hv] at hz
      obtain ⟨z', z1, z2⟩ := tr_rechunk hD v2 hz
      refine ⟨z', ?_, z2⟩
      simp only [u1, v1, bind, Except.bind]
      unfold IArr.simplify
      rw [v2.irreps]
      exact z1

/-- **C88 (equivariance).** With the same parameters, the module applied to two rotated or reflected arrays is the rotated or
reflected result. -/
theorem C88_equivariant (irrepsOut : Irreps) {in1 in2 : Option Irreps} {n : IrNorm} (hn : n ≠ .other) (a g : ℝ) (fused : Bool) {P : Params} (hP : WellShaped P)
    (x1 x2 : IArr ℝ) (h1 : x1.Coherent) (h2 : x2.Coherent) (e1 : Agrees in1 x1) (e2 : Agrees in2 x2)
    {R : Matrix (Fin 3) (Fin 3) ℝ} (hR : IsOrth R) :
    ∃ y x1' x2' y' y'', call irrepsOut in1 in2 n a g fused P x1 x2 = .ok y ∧ x1.transformByMatrix R = .ok x1' ∧ x2.transformByMatrix R = .ok x2' ∧
      call irrepsOut in1 in2 n a g fused P x1' x2' = .ok y' ∧ y.transformByMatrix R = .ok y'' ∧ y'.irreps = y''.irreps ∧ y'.array = y''.array := by
  have hD : Act (fun ir => matVec (α := ℝ) (matRows (Wig.dMatrix ir R))) := matVec_act fun ir => (matRows_family (fun ir => Wig.dMatrix ir R) ir).1
  obtain ⟨u1, u2, f, z1, z2, y0, y, -, -, c1, c2, -, -, -, -, q1, q2, hf, hy0, hy, hyc, hyi, hya⟩ := C88_call irrepsOut hn a g fused hP x1 x2 h1 h2 e1 e2
  obtain ⟨x1', t1, s1⟩ := transformBy_spec hD h1.inv
  obtain ⟨x2', t2, s2⟩ := transformBy_spec hD h2.inv
  obtain ⟨u1', u2', f', z1', z2', y0', y', -, -, c1', c2', -, -, -, -, q1', q2', hf', hy0', hy', hyc', hyi', hya'⟩ :=
    C88_call irrepsOut hn a g fused hP x1' x2' s1.inv'.coherent s2.inv'.coherent (fun i hi => by rw [s1.irreps]; exact e1 i hi) (fun i hi => by rw [s2.irreps]; exact e2 i hi)
  obtain ⟨w1, r1, m1⟩ := tr_prepare hD s1 q1
  obtain ⟨w2, r2, m2⟩ := tr_prepare hD s2 q2
  rw [q1'] at r1
  rw [q2'] at r2
  cases r1
  cases r2
  rw [m1.irreps, m2.irreps] at hf' hy0'
  rw [hf] at hf'
  cases hf'
  obtain ⟨k1, k2, k3, -⟩ := init_ok hf
  obtain ⟨d1, t3, t3c, t3i, -⟩ := C59_transform R z1 c1
  obtain ⟨d2, t4, t4c, t4i, -⟩ := C59_transform R z2 c2
  obtain ⟨d0, t5, t5c, t5i, -⟩ := C59_transform R y0 hy0.1
  obtain ⟨y'', t6, t6c, t6i, -⟩ := C59_transform R y hyc
  have g1 : d1.array = z1'.array := by
    obtain ⟨d, o1, o2⟩ := transformBy_spec hD c1.inv
    rw [transformByMatrix_eq] at t3
    have : d = d1 := by
      have := o1.symm.trans t3
      injection this
    subst this
    exact (o2.unique m1).2.1
  have g2 : d2.array = z2'.array := by
    obtain ⟨d, o1, o2⟩ := transformBy_spec hD c2.inv
    rw [transformByMatrix_eq] at t4
    have : d = d2 := by
      have := o1.symm.trans t4
      injection this
    subst this
    exact (o2.unique m2).2.1
  refine ⟨y, x1', x2', y', y'', hy, by rw [transformByMatrix_eq]; exact t1, by rw [transformByMatrix_eq]; exact t2, hy', t6, by rw [hyi', t6i, hyi], ?_⟩
  have hfin : IsProduct f (f.instructions.map fun ins => P (nameOf z1.irreps z2.irreps irrepsOut.simplify ins)) d1 d2 y0' := by
    unfold IsProduct at hy0' ⊢
    rw [g1, g2]
    exact hy0'
  obtain ⟨f2, hf2, hp2, -⟩ := C85_fully_connected z1.irreps z2.irreps irrepsOut.simplify hn a g (prepare_pos q1 h1 e1) (prepare_pos q2 h2 e2) (Irreps.simplify_pos _)
  rw [hf] at hf2
  cases hf2
  have hfin2 := IsProduct.transform (init_valid hf) hp2 hR c1 c2 k1.symm k2.symm t3 t4 t5 hy0 hfin
  rw [hya', hfin2.2]
  exact (tr_array_congr hyc hy0.1 (by rw [hyi, hy0.2.1, k3]; exact (Irreps.expand_simplify _).symm) hya t6 t5).1.symm

/-- An array without terms marked as zero. -/
theorem live_ofArray {ms : Irreps} {l : List ℝ} {x : IArr ℝ} (h : ofArray ms l = .ok x) (hl : l.length = ms.dim) : live x = x.terms ∧ x.Coherent ∧ x.irreps = ms ∧ x.array = l := by
  obtain ⟨y, h1, h2, h3, h4, -, h6⟩ := (C12_from_array ms l).1 (by rw [hl, Irreps.dim_eq_dimOf_expand])
  rw [h] at h1
  cases h1
  refine ⟨?_, h2, h3, h4⟩
  have hz : ∀ b ∈ x.zeroFlags, b = false := by
    intro b hb
    obtain ⟨p1, p2, p3, p4, p5, p6⟩ := h2.inv.pairs
    rw [← p5] at hb
    obtain ⟨q, hq, rfl⟩ := List.mem_map.mp hb
    have : q.2 ∈ x.chunks := by rw [← p3]; exact List.mem_map_of_mem hq
    have := h6 _ this
    cases hc : q.2 with
    | none => exact absurd hc this
    | some c => rfl
  have hlen : x.terms.length ≤ x.zeroFlags.length := by
    have a := termsOf_length x.irreps x.array
    have b := h2.inv.flags.lengths.2
    unfold IArr.terms
    omega
  unfold live
  rw [List.filter_eq_self.mpr]
  · exact List.map_fst_zip hlen
  · intro t ht
    rw [hz _ (List.of_mem_zip ht).2]
    rfl

theorem simplify_dim (ms : Irreps) : ms.simplify.dim = ms.dim := by
  rw [Irreps.dim_eq_dimOf_expand, Irreps.dim_eq_dimOf_expand, Irreps.expand_simplify]

theorem ofFn_cast {m n : ℕ} (h : m = n) (v : Fin m → ℝ) : List.ofFn (fun k : Fin n => v (Fin.cast h.symm k)) = List.ofFn v := by
  subst h
  rfl

/-- The same bilinear map on the regrouped arrays. -/
def regrouped {irreps1 irreps2 irrepsOut : Irreps} (B : Bilin irreps1 irreps2 irrepsOut) : Bilin irreps1.simplify irreps2.simplify irrepsOut.simplify :=
  (B.compl₁₂ (LinearMap.funLeft ℝ ℝ (Fin.cast (simplify_dim irreps1).symm)) (LinearMap.funLeft ℝ ℝ (Fin.cast (simplify_dim irreps2).symm))).compr₂
    (LinearMap.funLeft ℝ ℝ (Fin.cast (simplify_dim irrepsOut)))

theorem regrouped_apply {irreps1 irreps2 irrepsOut : Irreps} (B : Bilin irreps1 irreps2 irrepsOut) (v w) :
    List.ofFn (regrouped B v w) = List.ofFn (B (fun k => v (Fin.cast (simplify_dim irreps1).symm k)) fun k => w (Fin.cast (simplify_dim irreps2).symm k)) :=
  ofFn_cast (simplify_dim irrepsOut).symm _

theorem regrouped_commutes {irreps1 irreps2 irrepsOut : Irreps} {B : Bilin irreps1 irreps2 irrepsOut} (hB : Commutes irreps1 irreps2 irrepsOut B) :
    Commutes irreps1.simplify irreps2.simplify irrepsOut.simplify (regrouped B) := by
  intro R hR v w
  obtain ⟨x, x', z, z', y, y', a1, a2, b1, b2, c1, c2, h⟩ := hB R hR (fun k => v (Fin.cast (simplify_dim irreps1).symm k)) (fun k => w (Fin.cast (simplify_dim irreps2).symm k))
  rw [ofFn_cast (simplify_dim _)] at a1 b1
  rw [← regrouped_apply] at c1
  obtain ⟨-, x1, x2, x3⟩ := live_ofArray a1 (by simp [simplify_dim])
  obtain ⟨-, z1, z2, z3⟩ := live_ofArray b1 (by simp [simplify_dim])
  obtain ⟨-, y1, y2, y3⟩ := live_ofArray c1 (by simp [simplify_dim])
  obtain ⟨X, X1, X2, X3, X4⟩ := ofArray_ofFn irreps1.simplify v
  obtain ⟨Z, Z1, Z2, Z3, Z4⟩ := ofArray_ofFn irreps2.simplify w
  obtain ⟨Y, Y1, Y2, Y3, Y4⟩ := ofArray_ofFn irrepsOut.simplify (regrouped B v w)
  obtain ⟨X', X5, -⟩ := C59_transform R X X2
  obtain ⟨Z', Z5, -⟩ := C59_transform R Z Z2
  obtain ⟨Y', Y5, -⟩ := C59_transform R Y Y2
  have ex : X'.array = x'.array := (tr_array_congr X2 x1 (by rw [X3, x2, Irreps.expand_simplify]) (by rw [X4, x3]) X5 a2).1
  have ez : Z'.array = z'.array := (tr_array_congr Z2 z1 (by rw [Z3, z2, Irreps.expand_simplify]) (by rw [Z4, z3]) Z5 b2).1
  have ey : Y'.array = y'.array := (tr_array_congr Y2 y1 (by rw [Y3, y2, Irreps.expand_simplify]) (by rw [Y4, y3]) Y5 c2).1
  refine ⟨X, X', Z, Z', Y, Y', X1, X5, Z1, Z5, Y1, Y5, ?_⟩
  rw [regrouped_apply, ey, ← h, ex, ez]
  rfl

open Classical in
/-- Parameters that give the weights `W`. -/
noncomputable def paramsOf (s1 s2 so : Irreps) (f : FTP) (W : List (List ℝ)) : Params := fun q =>
  match (f.instructions.zip W).find? fun p => nameOf s1 s2 so p.1 = q with
  | some p => p.2
  | none => List.replicate (q.a.mul * q.b.mul * q.c.mul) 0

theorem paramsOf_spec {s1 s2 so : Irreps} {f : FTP} (hfc : FC s1 s2 so f) {W : List (List ℝ)} (hW : WeightsFor f W) :
    WellShaped (paramsOf s1 s2 so f W) ∧ (f.instructions.map fun ins => paramsOf s1 s2 so f W (nameOf s1 s2 so ins)) = W := by
  classical
  have hl : W.length = f.instructions.length := by simpa using congrArg List.length hW
  have hlen : ∀ p ∈ f.instructions.zip W, p.2.length = p.1.pathShape.prod := by
    intro p hp
    obtain ⟨k, hk, e⟩ := List.mem_iff_getElem.mp hp
    have hk1 : k < f.instructions.length := by simp at hk; omega
    have hk2 : k < W.length := by omega
    have := congrArg (fun l => l[k]?) hW
    simp only [List.getElem?_map, List.getElem?_eq_getElem hk1, List.getElem?_eq_getElem hk2, Option.map_some, Option.some.injEq] at this
    rw [List.getElem_zip] at e
    subst e
    simp only
    rw [this, if_pos (hfc.ins _ (List.getElem_mem hk1)).2.1]
  have hsz : ∀ ins ∈ f.instructions, ins.pathShape.prod = (nameOf s1 s2 so ins).a.mul * (nameOf s1 s2 so ins).b.mul * (nameOf s1 s2 so ins).c.mul := by
    intro ins hi
    obtain ⟨A, B, C, hA, hB, hC, -⟩ := (hfc.keys _ _ _).mp ⟨ins, hi, rfl⟩
    rw [(hfc.ins ins hi).2.2.2 A B C hA hB hC]
    simp [nameOf, List.getD, hA, hB, hC, mul_assoc]
  constructor
  · intro q
    unfold paramsOf
    split
    · rename_i p hp
      have hm := List.mem_of_find?_eq_some hp
      have hq := List.find?_some hp
      simp only [decide_eq_true_eq] at hq
      rw [hlen p hm, hsz _ (List.of_mem_zip hm).1, hq]
    · simp
  · have key : ∀ p ∈ f.instructions.zip W, paramsOf s1 s2 so f W (nameOf s1 s2 so p.1) = p.2 := by
      intro p hp
      unfold paramsOf
      split
      · rename_i r hr
        have hm := List.mem_of_find?_eq_some hr
        have hq := List.find?_some hr
        simp only [decide_eq_true_eq] at hq
        have hkey : (fun ins : Ins => (ins.i1, ins.i2, ins.io)) r.1 = (fun ins : Ins => (ins.i1, ins.i2, ins.io)) p.1 := by
          have := hq
          simp only [nameOf, PName.mk.injEq] at this
          simp only [Prod.mk.injEq]
          exact ⟨this.1, this.2.1, this.2.2.1⟩
        have hnd : ((f.instructions.zip W).map fun p => (p.1.i1, p.1.i2, p.1.io)).Nodup := by
          have e : ((f.instructions.zip W).map fun p => (p.1.i1, p.1.i2, p.1.io)) = f.instructions.map fun ins => (ins.i1, ins.i2, ins.io) := by
            conv_rhs => rw [← List.map_fst_zip (l₁ := f.instructions) (l₂ := W) hl.ge]
            rw [List.map_map]
            rfl
          rw [e]
          exact hfc.nodup
        rw [List.inj_on_of_nodup_map hnd hm hp hkey]
      · rename_i hr
        rw [List.find?_eq_none] at hr
        exact absurd (hr p hp) (by simp)
    have : (f.instructions.map fun ins => paramsOf s1 s2 so f W (nameOf s1 s2 so ins)) = (f.instructions.zip W).map fun p => paramsOf s1 s2 so f W (nameOf s1 s2 so p.1) := by
      conv_lhs => rw [← List.map_fst_zip (l₁ := f.instructions) (l₂ := W) hl.ge]
      rw [List.map_map]
      rfl
    rw [this, List.map_congr_left key]
    exact List.map_snd_zip hl.le

/-- **C88 (completeness).** On arrays without terms marked as zero, every bilinear map that commutes with the rotations and the
reflections is the module with suitable parameters. -/
theorem C88_complete (irreps1 irreps2 irrepsOut : Irreps) {n : IrNorm} (hn : n ≠ .other) (a g : ℝ) (fused : Bool)
    (B : Bilin irreps1 irreps2 irrepsOut) (hB : Commutes irreps1 irreps2 irrepsOut B) :
    ∃ P, WellShaped P ∧ ∀ v w, ∃ x z y, ofArray irreps1 (List.ofFn v) = .ok x ∧ ofArray irreps2 (List.ofFn w) = .ok z ∧
      call irrepsOut none none n a g fused P x z = .ok y ∧ y.irreps = irrepsOut ∧ y.array = List.ofFn (B v w) := by
  obtain ⟨f, hf, -⟩ := C85_fully_connected irreps1.simplify irreps2.simplify irrepsOut.simplify hn a g (Irreps.simplify_pos _) (Irreps.simplify_pos _) (Irreps.simplify_pos _)
  obtain ⟨W, ⟨hW, hcomp⟩, -⟩ := C87_complete (Irreps.simplify_pos _) (Irreps.simplify_pos _) (Irreps.simplify_pos _) hn hf fused (regrouped B) (regrouped_commutes hB)
  obtain ⟨hfc, hp, hcall⟩ := fc_spec (Irreps.simplify_pos _) (Irreps.simplify_pos _) (Irreps.simplify_pos _) hn hf fused
  obtain ⟨hl, hcall⟩ := hcall W hW
  obtain ⟨q1, q2⟩ := paramsOf_spec hfc hW
  refine ⟨paramsOf irreps1.simplify irreps2.simplify irrepsOut.simplify f W, q1, fun v w => ?_⟩
  obtain ⟨x, x1, -⟩ := ofArray_ofFn irreps1 v
  obtain ⟨z, z1, -⟩ := ofArray_ofFn irreps2 w
  obtain ⟨lx, x2, x3, x4⟩ := live_ofArray x1 (by simp)
  obtain ⟨lz, z2, z3, z4⟩ := live_ofArray z1 (by simp)
  obtain ⟨u1, u2, f', X, Z, y0, y, r1, r2, -, -, e1, e2, e3, e4, -, -, hf', hy0, hy, -, hyi, hya⟩ :=
    C88_call irrepsOut (in1 := none) (in2 := none) hn a g fused q1 x z x2 z2 (fun i hi => by cases hi) (fun i hi => by cases hi)
  cases r1
  cases r2
  rw [lx, terms_fst, x3] at e1
  rw [lx, terms_snd x2, x4] at e2
  rw [lz, terms_fst, z3] at e3
  rw [lz, terms_snd z2, z4] at e4
  rw [e1, e3] at hf' hy0
  rw [hf] at hf'
  cases hf'
  rw [q2] at hy0
  refine ⟨x, z, y, x1, z1, hy, hyi, ?_⟩
  obtain ⟨X', Z', Y', c1, c2, c3, c4, c5⟩ := hcomp (fun k => v (Fin.cast (simplify_dim irreps1) k)) (fun k => w (Fin.cast (simplify_dim irreps2) k))
  rw [ofFn_cast (simplify_dim irreps1).symm] at c1
  rw [ofFn_cast (simplify_dim irreps2).symm] at c2
  obtain ⟨-, X2, X3, X4⟩ := live_ofArray c1 (by simp [simplify_dim])
  obtain ⟨-, Z2, Z3, Z4⟩ := live_ofArray c2 (by simp [simplify_dim])
  obtain ⟨Y, Y1, Y2⟩ := hcall _ (Or.inl rfl) X' Z' X2 Z2 X3 Z3
  rw [c3] at Y1
  cases Y1
  have hy0' : IsProduct f W X' Z' y0 := by
    unfold IsProduct at hy0 ⊢
    rw [X4, Z4, ← e2, ← e4]
    exact hy0
  rw [hya, (Y2.unique hy0').2, c5, regrouped_apply]
  rfl

/-! ### A term marked as zero is not a term whose data are zero -/

noncomputable def wA : FTP := ⟨[⟨1, ⟨0, .e⟩⟩, ⟨1, ⟨0, .o⟩⟩], [⟨1, ⟨0, .e⟩⟩, ⟨1, ⟨0, .o⟩⟩], [⟨1, ⟨0, .e⟩⟩],
  [⟨0, 0, 0, .uvw, true, √2⁻¹, some 1, 1, 1, 1⟩, ⟨1, 1, 0, .uvw, true, √2⁻¹, some 1, 1, 1, 1⟩]⟩

noncomputable def wB : FTP := ⟨[⟨1, ⟨0, .e⟩⟩], [⟨1, ⟨0, .e⟩⟩, ⟨1, ⟨0, .o⟩⟩], [⟨1, ⟨0, .e⟩⟩], [⟨0, 0, 0, .uvw, true, 1, some 1, 1, 1, 1⟩]⟩

theorem wA_init : fullyConnected [⟨1, ⟨0, .e⟩⟩, ⟨1, ⟨0, .o⟩⟩] [⟨1, ⟨0, .e⟩⟩, ⟨1, ⟨0, .o⟩⟩] [⟨1, ⟨0, .e⟩⟩] none none none .component 0 1 = .ok wA := by
  have e : fullyConnectedIns [⟨1, ⟨0, .e⟩⟩, ⟨1, ⟨0, .o⟩⟩] [⟨1, ⟨0, .e⟩⟩, ⟨1, ⟨0, .o⟩⟩] [⟨1, ⟨0, .e⟩⟩] =
    [⟨0, 0, 0, .uvw, true, none⟩, ⟨1, 1, 0, .uvw, true, none⟩] := by
    have d1 : (⟨0, .e⟩ : Irrep) ∈ Irrep.mul ⟨0, .e⟩ ⟨0, .e⟩ := by decide
    have d2 : ¬ (⟨0, .e⟩ : Irrep) ∈ Irrep.mul ⟨0, .e⟩ ⟨0, .o⟩ := by decide
    have d3 : ¬ (⟨0, .e⟩ : Irrep) ∈ Irrep.mul ⟨0, .o⟩ ⟨0, .e⟩ := by decide
    have d4 : (⟨0, .e⟩ : Irrep) ∈ Irrep.mul ⟨0, .o⟩ ⟨0, .o⟩ := by decide
    simp [fullyConnectedIns, List.zipIdx_cons, d1, d2, d3, d4]
  unfold fullyConnected init
  rw [e]
  simp [mkIns, LTP.normalize, var, Ins.numElements, update, pathSum, alphaIrrep, Irrep.dim, bind, Except.bind, pure, Except.pure, Parity.mul, wA, show (1 : ℝ) + 1 = 2 by norm_num, show ¬ ((2 : ℝ) < 0) by norm_num]

theorem wB_init : fullyConnected [⟨1, ⟨0, .e⟩⟩] [⟨1, ⟨0, .e⟩⟩, ⟨1, ⟨0, .o⟩⟩] [⟨1, ⟨0, .e⟩⟩] none none none .component 0 1 = .ok wB := by
  have e : fullyConnectedIns [⟨1, ⟨0, .e⟩⟩] [⟨1, ⟨0, .e⟩⟩, ⟨1, ⟨0, .o⟩⟩] [⟨1, ⟨0, .e⟩⟩] = [⟨0, 0, 0, .uvw, true, none⟩] := by
    have d1 : (⟨0, .e⟩ : Irrep) ∈ Irrep.mul ⟨0, .e⟩ ⟨0, .e⟩ := by decide
    have d2 : ¬ (⟨0, .e⟩ : Irrep) ∈ Irrep.mul ⟨0, .e⟩ ⟨0, .o⟩ := by decide
    simp [fullyConnectedIns, List.zipIdx_cons, d1, d2]
  unfold fullyConnected init
  rw [e]
  simp [mkIns, LTP.normalize, var, Ins.numElements, update, pathSum, alphaIrrep, Irrep.dim, bind, Except.bind, pure, Except.pure, Parity.mul, wB, show ¬ ((1 : ℝ) < 0) from not_lt.mpr zero_le_one]

/-- **C88 (zero chunks).** The module treats a term whose data are zeros and a term *marked* as zero differently: the marked
term is dropped before the paths are counted.  With the same parameters, the arrays `0e+0o` with the data `(1, 0)` (equal
as arrays, with or without the mark on the second term) have two different products with `(1, 1)`: `√(1/2)` and `1` under the default normalisation. -/
theorem C88_zero_chunk_witness : ∃ (P : Params) (x x' z y y' : IArr ℝ), WellShaped P ∧ x.Coherent ∧ x'.Coherent ∧ z.Coherent ∧
    x.irreps = x'.irreps ∧ x.array = x'.array ∧
    call [⟨1, ⟨0, .e⟩⟩] none none .component 0 1 false P x z = .ok y ∧ call [⟨1, ⟨0, .e⟩⟩] none none .component 0 1 false P x' z = .ok y' ∧
    y.array = [√2⁻¹] ∧ y'.array = [1] := by
  obtain ⟨x, x1, x2, x3, x4, -⟩ := (C12_from_array [⟨1, ⟨0, .e⟩⟩, ⟨1, ⟨0, .o⟩⟩] [(1 : ℝ), 0]).1 rfl
  obtain ⟨z, z1, z2, z3, z4, -⟩ := (C12_from_array [⟨1, ⟨0, .e⟩⟩, ⟨1, ⟨0, .o⟩⟩] [(1 : ℝ), 1]).1 rfl
  obtain ⟨lx, -⟩ := live_ofArray x1 rfl
  obtain ⟨lz, -⟩ := live_ofArray z1 rfl
  let x' : IArr ℝ := ⟨[⟨1, ⟨0, .e⟩⟩, ⟨1, ⟨0, .o⟩⟩], [1, 0], some [false, true], some [some [[1]], none]⟩
  have hx' : fromChunks [⟨1, ⟨0, .e⟩⟩, ⟨1, ⟨0, .o⟩⟩] [some [[(1 : ℝ)]], none] = .ok x' := rfl
  obtain ⟨v, v1, v2, -⟩ := fromChunks_pairs (α := ℝ) [(⟨1, ⟨0, .e⟩⟩, some [[1]]), (⟨1, ⟨0, .o⟩⟩, none)] (by
    intro p hp; simp at hp; rcases hp with rfl | rfl <;> rfl)
  have hv : v = x' := by
    have := v1.symm.trans hx'
    injection this
  subst hv
  have lx' : live x' = [(⟨1, ⟨0, .e⟩⟩, [1])] := rfl
  have hP : WellShaped fun q => List.replicate (q.a.mul * q.b.mul * q.c.mul) 1 := fun q => by simp
  obtain ⟨u1, u2, f, Z1, Z2, y0, y, r1, r2, -, -, e1, e2, e3, e4, -, -, hf, hy0, hy, hyc, hyi, hya⟩ :=
    C88_call [⟨1, ⟨0, .e⟩⟩] (in1 := none) (in2 := none) (n := .component) (by decide) 0 1 false hP x z x2 z2 (fun i hi => by cases hi) (fun i hi => by cases hi)
  obtain ⟨u1', u2', f', Z1', Z2', y0', y', r1', r2', -, -, e1', e2', e3', e4', -, -, hf', hy0', hy', hyc', hyi', hya'⟩ :=
    C88_call [⟨1, ⟨0, .e⟩⟩] (in1 := none) (in2 := none) (n := .component) (by decide) 0 1 false hP x' z v2.coherent z2 (fun i hi => by cases hi) (fun i hi => by cases hi)
  cases r1; cases r2; cases r1'; cases r2'
  have s2 : Irreps.simplify [⟨1, ⟨0, .e⟩⟩, ⟨1, ⟨0, .o⟩⟩] = [⟨1, ⟨0, .e⟩⟩, ⟨1, ⟨0, .o⟩⟩] := by decide
  have s1 : Irreps.simplify [⟨1, ⟨0, .e⟩⟩] = [⟨1, ⟨0, .e⟩⟩] := by decide
  rw [lx, terms_fst, x3, s2] at e1
  rw [lx, terms_snd x2, x4] at e2
  rw [lz, terms_fst, z3, s2] at e3
  rw [lz, terms_snd z2, z4] at e4
  rw [lx'] at e1' e2'
  rw [lz, terms_fst, z3, s2] at e3'
  rw [lz, terms_snd z2, z4] at e4'
  change Z1'.irreps = Irreps.simplify [⟨1, ⟨0, .e⟩⟩] at e1'
  rw [s1] at e1'
  change Z1'.array = [1] at e2'
  rw [e1, e3, s1, wA_init] at hf
  cases hf
  rw [e1', e3', s1, wB_init] at hf'
  cases hf'
  have q := hy0.2.2 0 ⟨1, ⟨0, .e⟩⟩ rfl 0 (by decide) ⟨0, by decide⟩
  have q' := hy0'.2.2 0 ⟨1, ⟨0, .e⟩⟩ rfl 0 (by decide) ⟨0, by decide⟩
  have cg : SU2.clebschGordan 0 0 0 0 0 0 = 1 := (SU2.C58_scalar 0 0 0 0).1.trans (by simp)
  have pp : ∀ (m1 m2 : Irreps) (X1 X2 : List ℝ) (i1 i2 u v : ℕ) (k : Fin (2 * 0 + 1)), pathProduct m1 m2 X1 X2 i1 i2 0 0 0 u v k =
      X1.getD (pos m1 i1 0 u 0) 0 * X2.getD (pos m2 i2 0 v 0) 0 := by
    intro m1 m2 X1 X2 i1 i2 u v k
    obtain rfl : k = 0 := Fin.ext (by have := k.isLt; omega)
    unfold pathProduct
    rw [Fin.sum_univ_one, Fin.sum_univ_one, cg, one_mul]
    rfl
  have l1 : y0.array.length = 1 := by rw [hy0.1.array_length, hy0.2.1]; rfl
  have l2 : y0'.array.length = 1 := by rw [hy0'.1.array_length, hy0'.2.1]; rfl
  obtain ⟨c, hc⟩ := List.length_eq_one_iff.mp l1
  obtain ⟨c', hc'⟩ := List.length_eq_one_iff.mp l2
  rw [e2, e4, e1, e3, s1, hc] at q
  rw [e2', e4', e1', e3', s1, hc'] at q'
  simp only [wA, term, List.getD_cons_zero, List.getD_cons_succ, List.map_cons, List.map_nil, List.zip_cons_cons, List.zip_nil_right, List.filter_cons, List.filter_nil,
    decide_true, if_true, List.sum_cons, List.sum_nil, nameOf, pp] at q
  simp only [wB, term, List.getD_cons_zero, List.getD_cons_succ, List.map_cons, List.map_nil, List.zip_cons_cons, List.zip_nil_right, List.filter_cons, List.filter_nil,
    decide_true, if_true, List.sum_cons, List.sum_nil, nameOf, pp] at q'
  simp [paths, pos, Irreps.dim, Irrep.dim] at q q'
  refine ⟨_, x, x', z, y, y', hP, x2, v2.coherent, z2, x3, x4, hy, hy', ?_, ?_⟩
  · rw [hya, hc, q, Real.sqrt_inv]
  · rw [hya', hc', q']


end E3nn.FCTP
