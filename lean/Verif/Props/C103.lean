import Verif.Lemmas.VoxelCall
import Verif.Props.C49

/-!
# C103: the voxel convolution

`Convolution(irreps_out, irreps_sh, diameter, num_radial_basis, steps, relative_starts=...)(input, steps)`.
-/

namespace E3nn.Voxel
open E3nn.IArr E3nn.Wig E3nn.LTP Finset Matrix

/-! ### the kernel -/

/-- The parameters of the self-connection, for each path of the linear layer. -/
noncomputable def selfWeights (ps : Params) (lin : FLin ℝ) : List (List ℝ) :=
  lin.instructions.map fun ins => (List.range (FLin.size ins)).map fun j => ps.self ins.iIn ins.iOut j

theorem selfWeights_shapes (ps : Params) (lin : FLin ℝ) : WeightShapes lin (selfWeights ps lin) := by
  unfold WeightShapes selfWeights
  rw [List.map_map]
  refine List.map_congr_left fun ins _ => ?_
  simp [FLin.size]

/-- The weight of one path at distance `d`: the radial functions of the degree, combined by the parameters, divided by the number of voxels of the kernel. -/
noncomputable def radialWeight (c : Conv) (ps : Params) (number : ℕ) (start d : ℝ) (i1 i2 io j : ℕ) : ℝ :=
  (∑ k ∈ range number, Radial.profile .smoothFinite ((d - Radial.center (start * c.diameter / 2) (c.diameter / 2) true true number k) /
    Radial.spacing (start * c.diameter / 2) (c.diameter / 2) true true number) * ps.w i1 i2 io k j) / (c.lattice.length : ℝ)

theorem lattice_length (c : Conv) : c.lattice.length = (c.axis 0).length * (c.axis 1).length * (c.axis 2).length := by
  unfold Conv.lattice
  simp [List.length_flatMap, mul_assoc]

theorem mapM_get {γ δ : Type} {g : γ → Except PyErr δ} {l : List γ} {ws : List δ} (h : l.mapM g = .ok ws) {i : ℕ} {a : γ} (hi : l[i]? = some a) :
    ∃ r, g a = .ok r ∧ ws[i]? = some r := by
  induction l generalizing ws i with
  | nil => simp at hi
  | cons b l ih =>
    rw [List.mapM_cons] at h
    cases e1 : g b with
    | error e => rw [e1] at h; cases h
    | ok r =>
      cases e2 : l.mapM g with
      | error e => rw [e1, e2] at h; cases h
      | ok rs =>
        rw [e1, e2] at h
        cases h
        cases i with
        | succ i => exact ih e2 (by simpa using hi)
        | zero =>
          simp only [List.getElem?_cons_zero, Option.some.injEq] at hi
          subst hi
          exact ⟨r, e1, rfl⟩

/-- The weights at a displacement. -/
theorem weights_value {c : Conv} (ps : Params) {st : Fin 3 → ℝ} {f : FTP} {p : Fin 3 → ℤ} {ws : List (List ℝ)} (h : c.weightsAt ps st f p = .ok ws) {i : ℕ} {ins : Ins}
    (hi : f.instructions[i]? = some ins) {b : MulIrrep} (hb : f.irreps2[ins.i2]? = some b) {number : ℕ} {start : ℝ} (hn : c.numRadialBasis.get b.ir.l = .ok number)
    (hs : c.relativeStarts.get b.ir.l = .ok start) :
    ws[i]? = some ((List.range ins.size).map fun j => radialWeight c ps number start (norm2 (position st p)) ins.i1 ins.i2 ins.io j) := by
  obtain ⟨r, e1, e2⟩ := mapM_get h hi
  rw [e2]
  congr 1
  have e3 : irAt f.irreps2 ins.i2 = .ok b.ir := by unfold irAt; rw [hb]
  simp only [e3, bind, Except.bind] at e1
  unfold Conv.tpWeight at e1
  rw [hn, hs] at e1
  simp only [bind, Except.bind] at e1
  obtain ⟨emb, m1, m2⟩ : ∃ emb, Radial.softOneHotLinspace (norm2 (position st p)) (start * c.diameter / 2) (c.diameter / 2) number .smoothFinite none (some true) (some true) = .ok emb ∧
      ∀ k < number, emb.getD k 0 = Radial.profile .smoothFinite ((norm2 (position st p) - Radial.center (start * c.diameter / 2) (c.diameter / 2) true true number k) /
    Radial.spacing (start * c.diameter / 2) (c.diameter / 2) true true number) := by
    refine ⟨_, Radial.C49_one_hot _ _ _ (by simp [Radial.count]) (Or.inr (Or.inr rfl)), fun k hk => ?_⟩
    rw [List.getD_eq_getElem _ _ (by simpa using hk)]
    simp
  rw [m1] at e1
  simp only at e1
  rw [← Except.ok.inj e1]
  refine List.map_congr_left fun j _ => ?_
  unfold radialWeight
  rw [lattice_length]
  congr 1
  exact Finset.sum_congr rfl fun k hk => by rw [m2 k (Finset.mem_range.mp hk)]

theorem fc_weights {irrepsIn irrepsOut : Irreps} {c : Conv} {f : FTP} (hin : ∀ m ∈ irrepsIn, 0 < m.mul) (hc : Valid c) (hout : ∀ m ∈ irrepsOut, 0 < m.mul)
    (hf : fullyConnected irrepsIn c.irrepsSh irrepsOut none none none c.n c.a c.g = .ok f) {ws : List (List ℝ)} (hl : ws.map List.length = f.instructions.map fun ins => ins.size) :
    weightList f ws = ws ∧ WeightsFor f ws ∧ Proper f ∧ Populated f ∧ ∀ ins ∈ f.instructions, RightMode ins.mode := by
  obtain ⟨f', g1, g2, g3, g4, -, -, g7⟩ := C85_fully_connected irrepsIn c.irrepsSh irrepsOut hc.norm c.a c.g hin hc.sh hout
  rw [hf] at g1
  cases g1
  refine ⟨weightList_all (fun ins hi => (g7 ins hi).2.1) (by simpa using congrArg List.length hl), ?_, g2, g3, fun ins hi => by rw [(g7 ins hi).1]; trivial⟩
  unfold WeightsFor
  rw [hl]
  refine List.map_congr_left fun ins hi => ?_
  rw [if_pos (g7 ins hi).2.1, size_eq]

/-- **C103 (the kernel).** The kernel has `2 s + 1` voxels along each axis, with `s = floor(diameter / 2 / step)`.  At the centre it is the matrix of a linear layer with the parameters
of the self-connection.  At any other displacement it is the matrix of the fully connected tensor product with the spherical harmonics of the direction, with weights that
depend on the displacement only through its length, by the radial functions. -/
theorem C103_kernel {c : Conv} (hc : Valid c) (ps : Params) (steps : Option (Fin 3 → ℝ)) {irrepsIn irrepsOut : Irreps}
    (hin : ∀ m ∈ irrepsIn, 0 < m.mul) (hout : ∀ m ∈ irrepsOut, 0 < m.mul)
    {Y : (l : ℕ) → (Fin 3 → ℝ) → Fin (2 * l + 1) → ℝ} (hY : ∀ l, SH.IsSphericalHarmonics (SH.sphLength c.nrm l) l (Y l)) :
    ∃ (f : FTP) (lin : FLin ℝ) (K : (Fin 3 → ℤ) → List (List ℝ)), fullyConnected irrepsIn c.irrepsSh irrepsOut none none none c.n c.a c.g = .ok f ∧
      FLin.init irrepsIn irrepsOut none .none c.a c.g = .ok lin ∧ c.kernel ps irrepsIn irrepsOut steps = .ok K ∧
      ∀ p : Fin 3 → ℤ, (∀ i, |p i| ≤ ⌊c.diameter / 2 / c.steps i⌋) →
        (K p).length = irrepsIn.dim ∧ (∀ row ∈ K p, row.length = irrepsOut.dim) ∧
        (p = 0 → ∀ x : IArr ℝ, x.Coherent → x.irreps = irrepsIn →
          ∃ y, lin.call (selfWeights ps lin) x = .ok y ∧ y.Coherent ∧ y.irreps = irrepsOut ∧ y.array = vecMat x.array (K p) irrepsOut.dim) ∧
        (p ≠ 0 → ∃ (ws : List (List ℝ)) (z : IArr ℝ), z.Coherent ∧ z.irreps = c.irrepsSh ∧
          z.blocks = (expand c.irrepsSh).map (fun ir => (ir, List.ofFn (Y ir.l (SH.point true (position (steps.getD c.steps) p))))) ∧
          ws.length = f.instructions.length ∧
          (∀ (i : ℕ) (ins : Ins), f.instructions[i]? = some ins → ∃ (b : MulIrrep) (number : ℕ) (start : ℝ), c.irrepsSh[ins.i2]? = some b ∧ c.numRadialBasis.get b.ir.l = .ok number ∧ c.relativeStarts.get b.ir.l = .ok start ∧
            ws[i]? = some ((List.range ins.size).map fun j => radialWeight c ps number start (norm2 (position (steps.getD c.steps) p)) ins.i1 ins.i2 ins.io j)) ∧
          ∀ x : IArr ℝ, x.Coherent → x.irreps = irrepsIn →
            ∃ y, f.leftRight false (.list ws) x z = .ok y ∧ y.Coherent ∧ y.irreps = irrepsOut ∧ y.array = vecMat x.array (K p) irrepsOut.dim) := by
  have hYY : Y = SH.Y c.nrm := by funext l; exact SH.C48_unique (hY l) (SH.Y_spec c.nrm l)
  subst hYY
  obtain ⟨f, lin, K, f1, l1, k1, k2, k3⟩ := kernel_spec hc ps steps hin hout
  refine ⟨f, lin, K, f1, l1, k1, fun p hp => ?_⟩
  have hp : p ∈ c.lattice := (mem_lattice c p).mpr fun i => abs_le.mp (hp i)
  by_cases hz : p = 0
  · subst hz
    have hm := k3 hp
    have hlin : ∀ x : IArr ℝ, x.Coherent → x.irreps = irrepsIn → (K 0).length = irrepsIn.dim ∧ (∀ row ∈ K 0, row.length = irrepsOut.dim) ∧
          ∃ y, lin.call (selfWeights ps lin) x = .ok y ∧ y.Coherent ∧ y.irreps = irrepsOut ∧ y.array = vecMat x.array (K 0) irrepsOut.dim := by
      intro x hx hi
      obtain ⟨A, z, z1, z2, z3, z4, z5⟩ := C29_matrix l1 (selfWeights ps lin) (selfWeights_shapes ps lin) x hx (by rw [hi])
      have hA : K 0 = A := by
        have : lin.matrix (selfWeights ps lin) = .ok (K 0) := hm
        rw [z1] at this
        exact (Except.ok.inj this).symm
      obtain ⟨y, y1, y2, y3⟩ := C28_call_returns l1 (selfWeights ps lin) (selfWeights_shapes ps lin) x hx (by rw [hi])
      rw [hA]
      exact ⟨z3, z4, y, y1, y2, y3, linear_vecMat l1 (selfWeights_shapes ps lin) z1 hx hi y1⟩
    obtain ⟨x0, -, x2, x3, -⟩ := (C12_zeros_ones (α := ℝ) irrepsIn).1
    refine ⟨(hlin x0 x2 x3).1, (hlin x0 x2 x3).2.1, fun _ x hx hi => (hlin x hx hi).2.2, fun h => absurd rfl h⟩
  · obtain ⟨ws, z, a⟩ := k2 p hp
    obtain ⟨w1, w2, w3, w4, w5⟩ := fc_weights hin hc hout f1 a.lengths
    obtain ⟨M, m1, m2, m3, m4⟩ := C102_right f1 w3 w5 w2 z a.coh (by rw [a.irreps]) a.chunks
    rw [w1, a.value hz] at m1
    cases m1
    refine ⟨m2, m3, fun h => absurd h hz, fun _ => ⟨ws, z, a.coh, a.irreps, a.blocks, by simpa using congrArg List.length a.lengths, ?_, ?_⟩⟩
    · intro i ins hi
      obtain ⟨a', b, d, -, hb, -⟩ := init_valid f1 ins (List.mem_of_getElem? hi)
      obtain ⟨-, e2, -, -⟩ := init_ok f1
      have hb' := hb
      rw [e2] at hb'
      obtain ⟨num, hnum⟩ := hc.number b (List.mem_of_getElem? hb')
      obtain ⟨s, hs⟩ := hc.start b (List.mem_of_getElem? hb')
      exact ⟨b, num, s, hb', hnum, hs, weights_value ps a.weights hi hb hnum hs⟩
    · intro x hx hi
      obtain ⟨y, y1, y2⟩ := C85_left_right f1 w3 w4 w2 (w := .list ws) (Or.inl (by rw [w1])) x z hx a.coh (by rw [hi]) (by rw [a.irreps])
      exact ⟨y, y1, y2.1, by rw [y2.2.1, (init_ok f1).2.2.1], m4 x y y2⟩

/-- The radial functions vanish from the radius on. -/
theorem radialWeight_cutoff {c : Conv} (ps : Params) (number : ℕ) {start d : ℝ} (hd : 0 < c.diameter) (hs : start < 1) (h : c.diameter / 2 ≤ d) (i1 i2 io j : ℕ) :
    radialWeight c ps number start d i1 i2 io j = 0 := by
  unfold radialWeight
  rw [Finset.sum_eq_zero, zero_div]
  intro k hk
  have hlt : start * c.diameter / 2 < c.diameter / 2 := by
    have : start * c.diameter < 1 * c.diameter := mul_lt_mul_of_pos_right hs hd
    linarith
  have hcount : 2 ≤ Radial.count true true number := by simp [Radial.count]
  obtain ⟨ys, y1, y2, y3, -, y5⟩ := Radial.C49_support hlt hcount (b := .smoothFinite) (Or.inr rfl) d
  have e := Radial.C49_one_hot d (start * c.diameter / 2) (c.diameter / 2) hcount (b := .smoothFinite) (Or.inr (Or.inr rfl))
  rw [y1] at e
  have e := Except.ok.inj e
  have := y5 rfl h (Radial.profile .smoothFinite ((d - Radial.center (start * c.diameter / 2) (c.diameter / 2) true true number k) /
    Radial.spacing (start * c.diameter / 2) (c.diameter / 2) true true number)) (by rw [e]; exact List.mem_map.mpr ⟨k, List.mem_range.mpr (Finset.mem_range.mp hk), rfl⟩)
  rw [this, zero_mul]

/-- **C103 (cutoff).** With a positive diameter and relative starts below one, the kernel is zero at every displacement, other than zero, of length at least `diameter / 2`: the corners of the box do not
contribute. -/
theorem C103_cutoff {c : Conv} (hc : Valid c) (hd : 0 < c.diameter) (hs : ∀ m ∈ c.irrepsSh, ∀ s, c.relativeStarts.get m.ir.l = .ok s → s < 1) (ps : Params) (steps : Option (Fin 3 → ℝ))
    {irrepsIn irrepsOut : Irreps} (hin : ∀ m ∈ irrepsIn, 0 < m.mul) (hout : ∀ m ∈ irrepsOut, 0 < m.mul) {K : (Fin 3 → ℤ) → List (List ℝ)} (hK : c.kernel ps irrepsIn irrepsOut steps = .ok K)
    {p : Fin 3 → ℤ} (hp : ∀ i, |p i| ≤ ⌊c.diameter / 2 / c.steps i⌋) (h0 : p ≠ 0) (hfar : c.diameter / 2 ≤ norm2 (position (steps.getD c.steps) p)) :
    ∀ i o, ((K p).getD i []).getD o 0 = 0 := by
  obtain ⟨f, lin, K', f1, l1, k1, k2⟩ := C103_kernel hc ps steps hin hout (fun l => SH.Y_spec c.nrm l)
  rw [hK] at k1
  cases k1
  obtain ⟨n1, n2, -, k4⟩ := k2 p hp
  obtain ⟨ws, z, z1, z2, -, w1, w2, z3⟩ := k4 h0
  have hw0 : ∀ i, ∀ j, (ws.getD i []).getD j 0 = 0 := by
    intro i j
    by_cases hlt : i < f.instructions.length
    · obtain ⟨b, num, st, b1, b2, b3, b4⟩ := w2 i _ (List.getElem?_eq_getElem hlt)
      rw [show ws.getD i [] = (ws[i]?).getD [] from rfl, b4, Option.getD_some]
      by_cases hj : j < (f.instructions[i]).size
      · rw [List.getD_eq_getElem _ _ (by simpa using hj)]
        simp only [List.getElem_map, List.getElem_range]
        exact radialWeight_cutoff ps num hd (hs b (List.mem_of_getElem? b1) st b3) hfar _ _ _ _
      · simp [List.getD, hj]
    · have : ws.getD i [] = [] := by simp [List.getD, w1, hlt]
      rw [this]; rfl
  have hl : ws.map List.length = f.instructions.map fun ins => ins.size := by
    apply List.ext_getElem
    · simp [w1]
    · intro i hi hi'
      obtain ⟨b, num, st, b1, b2, b3, b4⟩ := w2 i _ (List.getElem?_eq_getElem (by simpa using hi'))
      have hi : i < ws.length := by simpa using hi
      have : ws[i] = _ := Option.some.inj ((List.getElem?_eq_getElem hi).symm.trans b4)
      simp [this]
  obtain ⟨v1, v2, v3, v4, v5⟩ := fc_weights hin hc hout f1 hl
  intro i o
  by_cases hi : i < (K p).length
  · have ho3 := (init_ok f1).2.2.1
    by_cases ho : o < irrepsOut.dim
    · obtain ⟨x, x1, x2, x3, x4, -⟩ := (C12_from_array irrepsIn (unit irrepsIn.dim i)).1 (by simp [unit, Irreps.dim_eq_dimOf_expand])
      obtain ⟨y, y1, y2, y3, y4⟩ := z3 x x2 x3
      obtain ⟨y', u1, u2⟩ := C85_left_right f1 v3 v4 v2 (w := .list ws) (Or.inl (by rw [v1])) x z x2 z1 (by rw [x3]) (by rw [z2])
      rw [y1] at u1
      cases u1
      have e1 : y.array.getD o 0 = ((K p).getD i []).getD o 0 := by
        rw [y4]
        unfold vecMat
        rw [List.getD_eq_getElem _ _ (by simpa using ho)]
        simp only [List.getElem_map, List.getElem_range]
        rw [Finset.sum_eq_single i]
        · rw [x4, unit_getD (by rw [← n1]; exact hi), if_pos rfl, one_mul]
        · intro r hr hne
          rw [x4, unit_getD (by rw [← n1]; exact hi), if_neg hne, zero_mul]
        · intro h; exact absurd (Finset.mem_range.mpr hi) h
      rw [← e1]
      rw [← ho3] at ho
      obtain ⟨o', d, m, k, hd', hm, hk, rfl⟩ := exists_pos ho
      rw [u2.2.2 o' d hd' m hm ⟨k, hk⟩]
      refine List.sum_eq_zero fun v hv => ?_
      obtain ⟨q, hq, rfl⟩ := List.mem_map.mp hv
      have hq := (List.mem_filter.mp hq).1
      obtain ⟨i0, hi0, hq'⟩ := List.getElem_of_mem hq
      have hq2 : ∀ j, q.2.getD j 0 = 0 := by
        intro j
        have := hw0 i0 j
        rw [List.getElem_zip] at hq'
        rw [List.length_zip] at hi0
        rw [List.getD_eq_getElem ws [] (by omega)] at this
        rw [← hq']
        exact this
      unfold term
      refine mul_eq_zero_of_right _ (List.sum_eq_zero fun v hv => ?_)
      obtain ⟨r, hr, rfl⟩ := List.mem_map.mp hv
      obtain ⟨f', g1, -, -, -, -, -, g7⟩ := C85_fully_connected irrepsIn c.irrepsSh irrepsOut hc.norm c.a c.g hin hc.sh hout
      rw [f1] at g1
      cases g1
      rw [if_pos (g7 q.1 (List.of_mem_zip (by rw [Prod.mk.eta]; exact hq)).1).2.1, hq2, zero_mul]
    · have : ((K p).getD i []).length = irrepsOut.dim := by
        rw [List.getD_eq_getElem _ _ hi]
        exact n2 _ (List.getElem_mem hi)
      simp only [List.getD]
      rw [List.getElem?_eq_none]
      · rfl
      · simp only [List.getD] at this; omega
  · simp [List.getD, hi]

/-! ### the output -/

variable {β : Type} {n : Fin 3 → ℕ}

/-- The displacements of the kernel. -/
noncomputable def box (c : Conv) : Finset (Fin 3 → ℤ) := Fintype.piFinset fun i => Finset.Icc (-⌊c.diameter / 2 / c.steps i⌋) ⌊c.diameter / 2 / c.steps i⌋

theorem mem_box (c : Conv) (p : Fin 3 → ℤ) : p ∈ box c ↔ p ∈ c.lattice := by
  rw [mem_lattice]
  unfold box Conv.half
  simp [Fintype.mem_piFinset]

theorem lattice_sum (c : Conv) (F : (Fin 3 → ℤ) → ℝ) : (c.lattice.map F).sum = ∑ p ∈ box c, F p := by
  have h : box c = c.lattice.toFinset := by ext p; rw [mem_box, List.mem_toFinset]
  rw [h, List.sum_toFinset _ (lattice_nodup c)]

/-- The irrep is in the product of a term of the input and a term of the spherical harmonics. -/
def Reached (irrepsIn irrepsSh : Irreps) (ir : Irrep) : Prop :=
  ∃ a ∈ irrepsIn, ∃ b ∈ irrepsSh, ir.p = a.ir.p.mul b.ir.p ∧ ((a.ir.l : ℤ) - b.ir.l).natAbs ≤ ir.l ∧ ir.l ≤ a.ir.l + b.ir.l

theorem reachable_iff (irrepsIn irrepsSh : Irreps) (m : MulIrrep) :
    (irrepsIn.any fun a => irrepsSh.any fun b => decide (m.ir ∈ Irrep.mul a.ir b.ir)) = true ↔ Reached irrepsIn irrepsSh m.ir := by
  simp only [List.any_eq_true, decide_eq_true_eq, Reached]
  refine exists_congr fun a => and_congr_right fun _ => exists_congr fun b => and_congr_right fun _ => ?_
  rw [C02_mem_mul_iff]
  have hp : m.ir.p.toInt = a.ir.p.toInt * b.ir.p.toInt ↔ m.ir.p = a.ir.p.mul b.ir.p := by
    cases m.ir.p <;> cases a.ir.p <;> cases b.ir.p <;> decide
  rw [hp, and_comm]
  refine and_congr_right fun _ => ?_
  omega

/-- What a call computes. -/
theorem call_spec {c : Conv} (hc : Valid c) (ps : Params) (steps : Option (Fin 3 → ℝ)) (x : IArr (β × Grid n → ℝ)) (hx : x.Coherent) :
    ∃ (w z : IArr (β × Grid n → ℝ)) (K : (Fin 3 → ℤ) → List (List ℝ)) (y out : IArr (β × Grid n → ℝ)), x.removeZeroChunks = .ok w ∧ w.simplify = .ok z ∧ Inv z ∧ (∀ m ∈ z.irreps, 0 < m.mul) ∧
      c.kernel ps z.irreps (reachable c.irrepsOut z.irreps c.irrepsSh) steps = .ok K ∧ y.Coherent ∧ y.irreps = reachable c.irrepsOut z.irreps c.irrepsSh ∧
      y.array = conv c.lattice K z.array (reachable c.irrepsOut z.irreps c.irrepsSh).dim ∧ (∀ d ∈ y.chunks, d ≠ none) ∧
      c.call ps steps x = .ok out ∧ Inv out ∧ out.irreps = c.irrepsOut ∧ out.irreps.zip out.chunks = padPairs c.irrepsOut (y.irreps.zip y.chunks) := by
  obtain ⟨w, w1, w2, -⟩ := (show ∃ w, x.removeZeroChunks = .ok w ∧ Inv w ∧ True from by
    rw [removeZeroChunks_eq hx.inv]
    obtain ⟨y, h1, h2, -⟩ := fromChunks_pairs ((x.irreps.zip x.chunks).filter fun q => !q.2.isNone) (fun p hp => hx.inv.pairs.1 p (List.mem_filter.mp hp).1)
    exact ⟨y, h1, h2, trivial⟩)
  obtain ⟨z, z1, z2, z3, z4⟩ := rechunk_spec w2 (new := w.irreps.simplify) (Irreps.expand_simplify _).symm
  have hin : ∀ m ∈ z.irreps, 0 < m.mul := by rw [z3]; exact Irreps.simplify_pos _
  have hout : ∀ m ∈ reachable c.irrepsOut z.irreps c.irrepsSh, 0 < m.mul := fun m hm => hc.out m (List.mem_filter.mp hm).1
  obtain ⟨f, lin, K, -, -, k1, -⟩ := kernel_spec hc ps steps hin hout
  obtain ⟨y, y1, y2, y3, y4, -, y6⟩ := (C12_from_array (reachable c.irrepsOut z.irreps c.irrepsSh) (conv c.lattice K z.array (reachable c.irrepsOut z.irreps c.irrepsSh).dim)).1
    (by rw [conv_length, Irreps.dim_eq_dimOf_expand])
  obtain ⟨out, o1, o2, o3, o4⟩ := finish_spec (ms := c.irrepsOut) y2.inv y3
  refine ⟨w, z, K, y, out, w1, z1, z2, hin, k1, y2, y3, y4, y6, ?_, o2, o3, o4⟩
  unfold Conv.call
  have z1' : w.simplify = .ok z := z1
  simp only [w1, z1', k1, y1, bind, Except.bind]
  exact o1

/-- **C103 (values).** The call returns an array of `irreps_out` for every image.  With `z` the input without its zero chunks, simplified, and `K` its kernel: the terms of the output that are in a
product of a term of `z` and a term of `irreps_sh` hold, one after the other, the correlation of the image padded with zeros and of the kernel; the other terms are zero. -/
theorem C103_value {c : Conv} (hc : Valid c) (ps : Params) (steps : Option (Fin 3 → ℝ)) (x : IArr (β × Grid n → ℝ)) (hx : x.Coherent) :
    ∃ (w z : IArr (β × Grid n → ℝ)) (K : (Fin 3 → ℤ) → List (List ℝ)) (irrepsOut : Irreps) (out : IArr (β × Grid n → ℝ)), x.removeZeroChunks = .ok w ∧ w.simplify = .ok z ∧ irrepsOut.Sublist c.irrepsOut ∧ (∀ m ∈ c.irrepsOut, m ∈ irrepsOut ↔ Reached z.irreps c.irrepsSh m.ir) ∧
      c.kernel ps z.irreps irrepsOut steps = .ok K ∧ c.call ps steps x = .ok out ∧ out.Coherent ∧ out.irreps = c.irrepsOut ∧
      (∀ t ∈ out.terms, ¬ Reached z.irreps c.irrepsSh t.1.ir → ∀ v ∈ t.2, v = 0) ∧
      ∃ ts, List.Sublist ts out.terms ∧ ts.map Prod.fst = irrepsOut ∧ (∀ t ∈ out.terms, Reached z.irreps c.irrepsSh t.1.ir → t ∈ ts) ∧
        (ts.flatMap Prod.snd).length = irrepsOut.dim ∧ ∀ o < irrepsOut.dim, ∀ b q, (ts.flatMap Prod.snd).getD o 0 (b, q) =
          ∑ p ∈ box c, ∑ i ∈ range z.irreps.dim, ext (z.array.getD i 0) b (at3 q + p) * ((K p).getD i []).getD o 0 := by
  obtain ⟨w, z, K, y, out, h1, h2, h3, h4, h5, h6, h7, h8, -, h9, h10, h11, h12⟩ := call_spec hc ps steps x hx
  have hpp : (y.irreps.zip y.chunks).map Prod.fst = c.irrepsOut.filter fun m => z.irreps.any fun a => c.irrepsSh.any fun b => decide (m.ir ∈ Irrep.mul a.ir b.ir) := by
    rw [h6.inv.pairs.2.1, h7]; rfl
  obtain ⟨p1, p2⟩ := padPairs_filter _ hpp
  rw [← h12] at p1 p2
  have hterms := h10.pairs.2.2.2.1
  refine ⟨w, z, K, reachable c.irrepsOut z.irreps c.irrepsSh, out, h1, h2, List.filter_sublist, fun m hm => ?_, h5, h9, h10.coherent, h11, ?_, y.terms, ?_, ?_, ?_, ?_, ?_⟩
  · unfold reachable
    rw [List.mem_filter, reachable_iff]
    exact ⟨fun h => h.2, fun h => ⟨hm, h⟩⟩
  · intro t ht hn v hv
    rw [← hterms] at ht
    obtain ⟨q, hq, rfl⟩ := List.mem_map.mp ht
    have := p2 q hq (by
      rw [← Bool.not_eq_true, reachable_iff]
      exact hn)
    unfold tm at hv
    rw [this] at hv
    simp only [flatChunk] at hv
    exact List.eq_of_mem_replicate hv
  · rw [← hterms, ← h6.inv.pairs.2.2.2.1, ← p1]
    exact List.filter_sublist.map _
  · rw [← h6.inv.pairs.2.2.2.1, List.map_map]
    exact (h6.inv.pairs.2.1).trans h7
  · intro t ht hr
    rw [← hterms] at ht
    obtain ⟨q, hq, rfl⟩ := List.mem_map.mp ht
    rw [← h6.inv.pairs.2.2.2.1, ← p1]
    exact List.mem_map_of_mem (List.mem_filter.mpr ⟨hq, by rw [reachable_iff]; exact hr⟩)
  all_goals
    have hfl : y.terms.flatMap Prod.snd = y.array := by
      rw [← h6.inv.pairs.2.2.2.1, ← h6.inv.pairs.2.2.2.2.2, List.flatMap_def, List.map_map]
      rfl
    rw [hfl]
  · exact arr_length h6 h7
  · intro o ho b q
    rw [h8, conv_getD _ _ _ ho, lattice_sum, arr_length h3.coherent rfl]

/-! ### equivariance -/

theorem lattice_perm (c : Conv) (ρ : (Fin 3 → ℤ) ≃+ (Fin 3 → ℤ)) (h : ∀ p ∈ box c, ρ p ∈ box c) : (c.lattice.map ρ).Perm c.lattice := by
  have hn : (c.lattice.map ρ).Nodup := (lattice_nodup c).map ρ.injective
  refine (List.subperm_of_subset hn fun q hq => ?_).perm_of_length_le (by simp)
  obtain ⟨p, hp, rfl⟩ := List.mem_map.mp hq
  exact (mem_box c _).mp (h p ((mem_box c p).mpr hp))

/-- The chunks of an array without zero flags. -/
theorem flags_false {α : Type} [Zero α] {y : IArr α} (hy : Inv y) (h : ∀ d ∈ y.chunks, d ≠ none) : y.zeroFlags = y.irreps.map fun _ => false := by
  have hp := hy.pairs
  rw [← hp.2.2.2.2.1]
  conv_rhs => rw [← hp.2.1, List.map_map]
  refine List.map_congr_left fun q hq => ?_
  have : q.2 ∈ y.chunks := by rw [← hp.2.2.1]; exact List.mem_map_of_mem hq
  cases hc : q.2 with
  | none => exact absurd hc (h _ this)
  | some _ => rfl

theorem array_pairs {α : Type} [Zero α] {y : IArr α} (hy : Inv y) : y.array = ((y.irreps.zip y.chunks).map fun p => flatChunk p.1 p.2).flatten := hy.pairs.2.2.2.2.2.symm

/-- **C103 (equivariance).** Let `R` be an orthogonal matrix that is a symmetry of the lattice of voxels and of the box of the kernel: `ρ` is the map of the displacements, counted in steps.  Take any image
`x`, and the image `x'` in which the features of `x`, transformed by `R`, have been moved by `ρ` and by the translation `t`, without loss (the images, padded with zeros, correspond).  Then, at every pair of
corresponding voxels, the output for `x'` is the output for `x` transformed by `R`.  Reflections need `irreps_sh` with the parities of a vector. -/
theorem C103_equivariant {c : Conv} (hc : Valid c) (ps : Params) (steps : Option (Fin 3 → ℝ)) {R : Matrix (Fin 3) (Fin 3) ℝ} (hR : IsOrth R)
    (hdet : R.det = 1 ∨ ∀ m ∈ c.irrepsSh, m.ir.p = if m.ir.l % 2 = 1 then .o else .e)
    (ρ : (Fin 3 → ℤ) ≃+ (Fin 3 → ℤ)) (hρ : ∀ p, position (steps.getD c.steps) (ρ p) = R *ᵥ position (steps.getD c.steps) p)
    (hbox : ∀ p ∈ box c, ρ p ∈ box c) (t : Fin 3 → ℤ) {n n' : Fin 3 → ℕ}
    {x xR : IArr (β × Grid n → ℝ)} (hx : x.Coherent) (hxR : x.transformByMatrix R = .ok xR)
    {x' : IArr (β × Grid n' → ℝ)} (hx' : x'.Coherent) (hi : x'.irreps = x.irreps) (hf : x'.zeroFlags = x.zeroFlags)
    (hmove : ∀ i b ζ, ext (x'.array.getD i 0) b (ρ ζ + t) = ext (xR.array.getD i 0) b ζ) :
    ∃ (out outR : IArr (β × Grid n → ℝ)) (out' : IArr (β × Grid n' → ℝ)), c.call ps steps x = .ok out ∧ c.call ps steps x' = .ok out' ∧ out.transformByMatrix R = .ok outR ∧
      out'.irreps = outR.irreps ∧ ∀ o b (q : Grid n) (q' : Grid n'), at3 q' = ρ (at3 q) + t → out'.array.getD o 0 (b, q') = outR.array.getD o 0 (b, q) := by
  have hD := Act_matRows (α := β × Grid n → ℝ) fun ir => Wig.dMatrix ir R
  obtain ⟨w, z, K, y, out, h1, h2, h3, h4, h5, h6, h7, h8, h8', h9, h10, h11, h12⟩ := call_spec hc ps steps x hx
  obtain ⟨w', z', K', y', out', i1, i2, i3, i4, i5, i6, i7, i8, i8', i9, i10, i11, i12⟩ := call_spec hc ps steps x' hx'
  -- the transformed input
  obtain ⟨xR', a1, a2⟩ := transformBy_spec hD hx.inv
  have : xR' = xR := by
    have e : x.transformByMatrix R = .ok xR' := a1
    rw [hxR] at e
    exact (Except.ok.inj e).symm
  subst this
  obtain ⟨wR, b1, b2⟩ := tr_removeZeroChunks hD a2 h1
  obtain ⟨zR, c1, c2⟩ := tr_rechunk hD b2 (new := w.irreps.simplify) h2
  obtain ⟨zT, tz, tz2⟩ := transformBy_spec hD h3
  have tz : z.transformByMatrix R = .ok zT := tz
  obtain ⟨-, ez, -⟩ := c2.unique tz2
  -- both inputs on the padded lattice
  obtain ⟨X0, d1, d2⟩ := mp_mapCols (φ := fun (f : β × Grid n → ℝ) (bz : β × (Fin 3 → ℤ)) => ext f bz.1 bz.2) (by funext bz; unfold ext; split <;> rfl) a2.inv'
  have d3 : Mp (fun (f : β × Grid n' → ℝ) (bz : β × (Fin 3 → ℤ)) => ext f bz.1 (ρ bz.2 + t)) x' X0 := by
    refine ⟨hx'.inv, d2.inv', by rw [d2.irreps, a2.irreps, hi], by rw [d2.flags, a2.flags, hf], ?_⟩
    rw [d2.array]
    have hl : x'.array.length = xR'.array.length := by
      rw [arr_length hx' hi, arr_length a2.inv'.coherent a2.irreps]
    apply List.ext_getElem
    · simp [hl]
    · intro k hk hk'
      simp only [List.getElem_map]
      funext bz
      have := hmove k bz.1 bz.2
      rw [List.getD_eq_getElem _ _ (by simpa using hk'), List.getD_eq_getElem _ _ (by simpa using hk)] at this
      exact this.symm
  obtain ⟨X1, e1, e2⟩ := mp_removeZeroChunks (by funext bz; unfold ext; split <;> rfl) d2 b1
  obtain ⟨X1', e1', e2'⟩ := mp_removeZeroChunks (by funext bz; unfold ext; split <;> rfl) d3 i1
  rw [e1] at e1'
  cases e1'
  have hwi : w'.irreps = w.irreps := by rw [← e2'.irreps, e2.irreps, b2.irreps]
  obtain ⟨X2, g1, g2⟩ := mp_rechunk e2 c1
  obtain ⟨X2', g1', g2'⟩ := mp_rechunk e2' (new := w'.irreps.simplify) i2
  rw [hwi, g1] at g1'
  cases g1'
  have hzi : z'.irreps = z.irreps := by rw [← g2'.irreps, g2.irreps, c2.irreps]
  have hmz : ∀ i b ζ, ext (z'.array.getD i 0) b (ρ ζ + t) = ext (zT.array.getD i 0) b ζ := by
    intro i b ζ
    have hl : z'.array.length = zT.array.length := by
      rw [arr_length i3.coherent hzi, arr_length tz2.inv'.coherent tz2.irreps]
    have e := g2'.array.symm.trans g2.array
    rw [ez] at e
    by_cases hlt : i < z'.array.length
    · have := congrArg (fun l => (l.getD i 0) (b, ζ)) e
      simpa [List.getD, hlt, hl ▸ hlt] using this
    · have h0 : z'.array.getD i 0 = 0 := by simp [List.getD, hlt]
      have h0' : zT.array.getD i 0 = 0 := by rw [hl] at hlt; simp [List.getD, hlt]
      rw [h0, h0']
      unfold ext
      split <;> split <;> rfl
  -- the kernel
  have hKK : K' = K := by
    rw [hzi, h5] at i5
    exact (Except.ok.inj i5).symm
  subst hKK
  obtain ⟨f0, lin0, K0, k0, k0', k1, k2⟩ := C103_kernel hc ps steps h4 (irrepsOut := reachable c.irrepsOut z.irreps c.irrepsSh) (fun m hm => hc.out m (List.mem_filter.mp hm).1) (fun l => SH.Y_spec c.nrm l)
  rw [h5] at k1
  cases k1
  have hlen : ∀ p ∈ c.lattice, (K' p).length = z.irreps.dim := fun p hp => (k2 p fun i => abs_le.mpr ((mem_lattice c p).mp hp i)).1
  have hρl : ∀ p ∈ c.lattice, ρ p ∈ c.lattice := fun p hp => (mem_box c _).mp (hbox p ((mem_box c p).mpr hp))
  obtain ⟨yT, ty, ty2⟩ := transformBy_spec hD h6.inv
  have ty : y.transformByMatrix R = .ok yT := ty
  have main : ∀ o < (reachable c.irrepsOut z.irreps c.irrepsSh).dim, ∀ b (q : Grid n) (q' : Grid n'), at3 q' = ρ (at3 q) + t → y'.array.getD o 0 (b, q') = yT.array.getD o 0 (b, q) := by
    intro o ho b q q' hq
    rw [conv_transform (K := K') (K' := fun p => K' (ρ p)) (l := c.lattice) (irrepsIn := z.irreps) (irrepsOut := reachable c.irrepsOut z.irreps c.irrepsSh) (R := R)
      (fun p hp => kernel_intertwine hc h4 (fun m hm => hc.out m (List.mem_filter.mp hm).1) h5 hR hdet hp (hρl p hp) (by simp) (hρ p))
      (fun p hp => ⟨hlen p hp, hlen _ (hρl p hp)⟩) h3.coherent rfl tz h6 h7 h8 ty ho b q]
    rw [i8, hzi, conv_getD _ _ _ ho, arr_length i3.coherent hzi, ← ((lattice_perm c ρ hbox).map _).sum_eq, List.map_map]
    congr 1
    refine List.map_congr_left fun p hp => ?_
    refine Finset.sum_congr rfl fun i _ => ?_
    rw [← hmz i b (at3 q + p), hq, map_add]
    congr 2
    abel
  -- the padding
  obtain ⟨outR, r1, r2⟩ := transformBy_spec hD h10
  have r1 : out.transformByMatrix R = .ok outR := r1
  refine ⟨out, outR, out', h9, i9, r1, by rw [i11, r2.irreps, h11], fun o b q q' hq => ?_⟩
  obtain ⟨S, s1, s2⟩ := mp_mapCols (φ := fun f : β × Grid n → ℝ => f (b, q)) rfl ty2.inv'
  have s3 : Mp (fun f : β × Grid n' → ℝ => f (b, q')) y' S := by
    refine ⟨i6.inv, s2.inv', by rw [s2.irreps, ty2.irreps, h7, i7, hzi], ?_, ?_⟩
    · rw [s2.flags, ty2.flags, flags_false h6.inv h8', flags_false i6.inv i8', h7, i7, hzi]
    · rw [s2.array]
      have hl : yT.array.length = (reachable c.irrepsOut z.irreps c.irrepsSh).dim := arr_length ty2.inv'.coherent (ty2.irreps.trans h7)
      have hl' : y'.array.length = (reachable c.irrepsOut z.irreps c.irrepsSh).dim := by rw [arr_length i6 i7, hzi]
      apply List.ext_getElem
      · simp [hl, hl']
      · intro k hk hk'
        simp only [List.getElem_map]
        have := main k (by rw [← hl]; simpa using hk) b q q' hq
        rw [List.getD_eq_getElem _ _ (by simpa using hk'), List.getD_eq_getElem _ _ (by simpa using hk)] at this
        exact this.symm
  have hpairs : (outR.irreps.zip outR.chunks).map (MP fun f : β × Grid n → ℝ => f (b, q)) = (out'.irreps.zip out'.chunks).map (MP fun f : β × Grid n' → ℝ => f (b, q')) := by
    rw [r2.pairs, h12, i12, ← padPairs_map (T _) (fun _ => rfl) (fun _ => rfl), ← ty2.pairs, ← padPairs_map (MP fun f : β × Grid n → ℝ => f (b, q)) (fun _ => rfl) (fun _ => rfl),
      ← padPairs_map (MP fun f : β × Grid n' → ℝ => f (b, q')) (fun _ => rfl) (fun _ => rfl), ← s2.pairs, ← s3.pairs]
  have harr : outR.array.map (fun f => f (b, q)) = out'.array.map fun f => f (b, q') := by
    have F := congrArg (fun ps : List (MulIrrep × Chunk ℝ) => (ps.map fun p => flatChunk p.1 p.2).flatten) hpairs
    simp only [List.map_map, Function.comp_def] at F
    rw [array_pairs r2.inv', array_pairs i10, List.map_flatten, List.map_flatten, List.map_map, List.map_map]
    refine Eq.trans (congrArg List.flatten (List.map_congr_left fun p _ => ?_)) (F.trans (congrArg List.flatten (List.map_congr_left fun p _ => ?_)))
    · exact (flatChunk_MP (φ := fun f : β × Grid n → ℝ => f (b, q)) rfl p).symm
    · exact flatChunk_MP (φ := fun f : β × Grid n' → ℝ => f (b, q')) rfl p
  have hl : out'.array.length = outR.array.length := by
    rw [arr_length i10.coherent i11, arr_length r2.inv'.coherent (r2.irreps.trans h11)]
  by_cases hlt : o < out'.array.length
  · have := congrArg (fun l => l.getD o 0) harr
    rw [getD_map0 (fun f : β × Grid n → ℝ => f (b, q)) _ (hl ▸ hlt), getD_map0 (fun f : β × Grid n' → ℝ => f (b, q')) _ hlt] at this
    exact this.symm
  · have h0 : out'.array.getD o 0 = 0 := by simp [List.getD, hlt]
    have h0' : outR.array.getD o 0 = 0 := by rw [hl] at hlt; simp [List.getD, hlt]
    rw [h0, h0']
    rfl

/-- **C103 (translations).** When `x'` is `x` moved by `t`, without loss, the output moves by `t`. -/
theorem C103_translation {c : Conv} (hc : Valid c) (ps : Params) (steps : Option (Fin 3 → ℝ)) (t : Fin 3 → ℤ) {n n' : Fin 3 → ℕ}
    {x : IArr (β × Grid n → ℝ)} (hx : x.Coherent) {x' : IArr (β × Grid n' → ℝ)} (hx' : x'.Coherent) (hi : x'.irreps = x.irreps) (hf : x'.zeroFlags = x.zeroFlags)
    (hmove : ∀ i b ζ, ext (x'.array.getD i 0) b (ζ + t) = ext (x.array.getD i 0) b ζ) :
    ∃ (out : IArr (β × Grid n → ℝ)) (out' : IArr (β × Grid n' → ℝ)), c.call ps steps x = .ok out ∧ c.call ps steps x' = .ok out' ∧
      ∀ o b (q : Grid n) (q' : Grid n'), at3 q' = at3 q + t → out'.array.getD o 0 (b, q') = out.array.getD o 0 (b, q) := by
  obtain ⟨xR, r1, r2⟩ := C59_identity x hx
  have h1 : IsOrth (1 : Matrix (Fin 3) (Fin 3) ℝ) := by unfold IsOrth; simp
  obtain ⟨out, outR, out', o1, o2, o3, -, o5⟩ := C103_equivariant hc ps steps h1 (Or.inl (by simp)) (AddEquiv.refl _) (fun p => by simp) (fun p hp => hp) t hx r1 hx' hi hf
    (fun i b ζ => by rw [r2.2.1]; exact hmove i b ζ)
  obtain ⟨w, z, K, y, out0, -, -, -, -, -, -, -, -, -, h9, h10, -⟩ := call_spec hc ps steps x hx
  rw [o1] at h9
  cases h9
  obtain ⟨oR, s1, s2⟩ := C59_identity out h10.coherent
  rw [o3] at s1
  cases s1
  exact ⟨out, out', o1, o2, fun o b q q' h => by rw [o5 o b q q' h, s2.2.1]⟩

/-- The quarter turn about the last axis. -/
def turn : (Fin 3 → ℤ) ≃+ (Fin 3 → ℤ) where
  toFun p := ![-p 1, p 0, p 2]
  invFun p := ![p 1, -p 0, p 2]
  left_inv p := by funext i; fin_cases i <;> simp
  right_inv p := by funext i; fin_cases i <;> simp
  map_add' p q := by funext i; fin_cases i <;> simp; ring

/-- Its matrix. -/
def turnMat : Matrix (Fin 3) (Fin 3) ℝ := !![0, -1, 0; 1, 0, 0; 0, 0, 1]

/-- The voxel that the quarter turn brings to `q`, in a cube of `N` voxels. -/
def turnBack {N : ℕ} (q : Grid fun _ => N) : Grid fun _ => N := fun i => ![q 1, (q 0).rev, q 2] i

/-- **C103 (a quarter turn of a cube).** The hypotheses of `C103_equivariant` are met by every image of `N × N × N` voxels and the quarter turn about the last axis, when the steps of the
two other axes are equal: the convolution of the turned image is the turned convolution. -/
theorem C103_quarter_turn {c : Conv} (hc : Valid c) (ps : Params) (hst : c.steps 0 = c.steps 1) {N : ℕ} {x xR x' : IArr (β × Grid (fun _ => N) → ℝ)} (hx : x.Coherent)
    (hxR : x.transformByMatrix turnMat = .ok xR) (hx' : xR.mapCols (fun (f : β × Grid (fun _ => N) → ℝ) (bq : β × Grid fun _ => N) => f (bq.1, turnBack bq.2)) = .ok x') :
    ∃ out outR out' : IArr (β × Grid (fun _ => N) → ℝ), c.call ps none x = .ok out ∧ c.call ps none x' = .ok out' ∧ out.transformByMatrix turnMat = .ok outR ∧
      ∀ o b q, out'.array.getD o 0 (b, q) = outR.array.getD o 0 (b, turnBack q) := by
  have hR : IsOrth turnMat := by
    unfold IsOrth turnMat
    ext i j
    fin_cases i <;> fin_cases j <;> simp [Matrix.mul_apply, Fin.sum_univ_three]
  have hdet : turnMat.det = 1 := by unfold turnMat; simp [Matrix.det_fin_three]
  obtain ⟨y, y1, y2, y3, y4, -⟩ := C59_transform turnMat x hx
  rw [hxR] at y1
  cases y1
  obtain ⟨y', m1, m2⟩ := mp_mapCols (φ := fun (f : β × Grid (fun _ => N) → ℝ) (bq : β × Grid fun _ => N) => f (bq.1, turnBack bq.2)) rfl y2.inv
  rw [hx'] at m1
  cases m1
  obtain ⟨out, outR, out', o1, o2, o3, -, o5⟩ := C103_equivariant hc ps none hR (Or.inl hdet) turn
    (fun p => by
      funext i
      fin_cases i <;> simp [position, turn, turnMat, Matrix.mulVec, dotProduct, Fin.sum_univ_three, hst])
    (fun p hp => by
      unfold box at hp ⊢
      rw [Fintype.mem_piFinset] at hp ⊢
      have h0 := hp 0
      have h1 := hp 1
      have h2 := hp 2
      simp only [Finset.mem_Icc, hst] at h0 h1 h2 ⊢
      intro i
      fin_cases i
      · simp only [turn, AddEquiv.coe_mk, Equiv.coe_fn_mk]
        simp [hst]; omega
      · simpa [turn] using h0
      · simpa [turn] using h2)
    ![(N : ℤ) - 1, 0, 0] hx hxR m2.inv'.coherent (by rw [m2.irreps, y3]) (by rw [m2.flags, y4])
    (fun i b ζ => by
      have e : x'.array.getD i 0 = fun bq => xR.array.getD i 0 (bq.1, turnBack bq.2) := by
        rw [m2.array]
        by_cases hlt : i < xR.array.length
        · simp [List.getD, hlt]
        · simp [List.getD, hlt]; rfl
      rw [e]
      unfold ext
      have hiff : (∀ j : Fin 3, 0 ≤ (turn ζ + ![(N : ℤ) - 1, 0, 0]) j ∧ (turn ζ + ![(N : ℤ) - 1, 0, 0]) j < (N : ℤ)) ↔ ∀ j : Fin 3, 0 ≤ ζ j ∧ ζ j < (N : ℤ) := by
        simp only [Fin.forall_fin_succ, turn]
        simp
        omega
      by_cases h : ∀ j : Fin 3, 0 ≤ ζ j ∧ ζ j < (N : ℤ)
      · rw [dif_pos (hiff.mpr h), dif_pos h]
        refine congrArg (fun g => xR.array.getD i 0 (b, g)) ?_
        funext j
        have h0 := h 0
        have h1 := h 1
        apply Fin.ext
        fin_cases j <;> simp [turnBack, turn, Fin.rev] <;> omega
      · rw [dif_neg (fun h' => h (hiff.mp h')), dif_neg h])
  refine ⟨out, outR, out', o1, o2, o3, fun o b q => o5 o b (turnBack q) q ?_⟩
  funext j
  fin_cases j <;> simp [at3, turnBack, turn, Fin.rev] <;> omega

/-- A convolution with `irreps_sh = "0e + 1o + 2e"`, whose output has a term that the scalars and the vectors do not reach. -/
noncomputable def demo : Conv where
  irrepsOut := [⟨2, ⟨0, .e⟩⟩, ⟨1, ⟨4, .o⟩⟩, ⟨3, ⟨1, .o⟩⟩]
  irrepsSh := [⟨1, ⟨0, .e⟩⟩, ⟨1, ⟨1, .o⟩⟩, ⟨1, ⟨2, .e⟩⟩]
  diameter := 5
  numRadialBasis := .dict [(0, 2), (1, 1), (2, 3)]
  relativeStarts := .const 0
  steps := fun _ => 1
  n := .component
  a := 0
  g := 0
  cfg := none
  nrm := .component

/-- It is usable. -/
example : Valid demo := by
  refine ⟨fun _ => one_ne_zero, by decide, by decide, by decide, (fun a h => by cases h), ⟨.o, by decide⟩, ?_, fun m _ => ⟨0, rfl⟩⟩
  intro m hm
  simp [demo] at hm
  rcases hm with rfl | rfl | rfl <;> exact ⟨_, rfl⟩

end E3nn.Voxel
