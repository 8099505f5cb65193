import Verif.Lemmas.Voxel
import Verif.Spec.Voxel

/-! # Lemmas for C103: the kernel -/

namespace E3nn.Voxel
open E3nn.IArr E3nn.Wig E3nn.LTP Finset Matrix

/-! ### the spherical harmonics of the lattice -/

/-- The three columns of the lattice. -/
noncomputable def latticeInput (st : Fin 3 → ℝ) : SH.Input (Fin 3 → ℤ) := .raw [fun p => position st p 0, fun p => position st p 1, fun p => position st p 2]

theorem vecOf_lattice (st : Fin 3 → ℝ) (p : Fin 3 → ℤ) : SH.vecOf (latticeInput st).cols p = position st p := by
  funext k
  fin_cases k <;> rfl

theorem sh_lattice {c : Conv} (hc : Valid c) (st : Fin 3 → ℝ) :
    ∃ sh, SH.sphericalHarmonics c.cfg (.irreps c.irrepsSh) (latticeInput st) true c.nrm none = .ok sh ∧ sh.Coherent ∧ sh.irreps = c.irrepsSh ∧
      (∀ b ∈ sh.zeroFlags, b = false) ∧ sh.blocks = SH.shBlocks (SH.Y c.nrm) c.irrepsSh fun p => SH.point true (position st p) := by
  obtain ⟨q, hq⟩ := hc.parity
  obtain ⟨y, y1, y2, y3, y4, y5⟩ := SH.sh_run (algorithm := none) (cfg := c.cfg) (by intro a ha; exact hc.alg a (by simpa using ha)) (fun l => SH.Y_spec c.nrm l)
    (out := .irreps c.irrepsSh) (input := latticeInput st) (ms := c.irrepsSh) rfl (p := q) (fun m hm => SH.parity_rule (hq m hm)) ⟨rfl, fun x h => by cases h⟩ true
  refine ⟨y, y1, y2, y3, ?_, ?_⟩
  · by_cases h0 : c.irrepsSh.numIrreps = 0
    · have : c.irrepsSh = [] := by
        cases h : c.irrepsSh with
        | nil => rfl
        | cons m ms =>
          have := hc.sh m (by rw [h]; simp)
          rw [h] at h0
          simp [Irreps.numIrreps] at h0
          omega
      have hl := y2.inv.flags.lengths.2
      rw [y3, this] at hl
      intro b hb
      rw [List.eq_nil_of_length_eq_zero hl] at hb
      simp at hb
    · rw [y4 h0]
      intro b hb
      obtain ⟨-, -, rfl⟩ := List.mem_map.mp hb
      rfl
  · rw [y5]
    congr 1
    funext p
    rw [vecOf_lattice]

/-- The slice at a point of the lattice. -/
theorem sh_slice {c : Conv} {st : Fin 3 → ℝ} {sh : IArr ((Fin 3 → ℤ) → ℝ)} (h1 : sh.Coherent) (h2 : sh.irreps = c.irrepsSh)
    (h3 : ∀ b ∈ sh.zeroFlags, b = false) (h4 : sh.blocks = SH.shBlocks (SH.Y c.nrm) c.irrepsSh fun p => SH.point true (position st p)) (p : Fin 3 → ℤ) :
    ∃ z, mapCols (fun col : (Fin 3 → ℤ) → ℝ => col p) sh = .ok z ∧ z.Coherent ∧ z.irreps = c.irrepsSh ∧ (∀ w, z.rechunk c.irrepsSh = .ok w → none ∉ w.chunks) ∧
      z.blocks = (expand c.irrepsSh).map fun ir => (ir, List.ofFn (SH.Y c.nrm ir.l (SH.point true (position st p)))) := by
  obtain ⟨z, z1, z2⟩ := mp_mapCols (φ := fun col : (Fin 3 → ℤ) → ℝ => col p) rfl h1.inv
  have hi : z.irreps = c.irrepsSh := by rw [z2.irreps, h2]
  refine ⟨z, z1, z2.inv'.coherent, hi, fun w hw => ?_, ?_⟩
  · have : w = z := by
      unfold rechunk at hw
      rw [if_neg (by rw [hi]; simp), if_pos hi] at hw
      exact (Except.ok.inj hw).symm
    subst this
    intro hn
    have hp := z2.inv'.pairs
    rw [← hp.2.2.1] at hn
    obtain ⟨q, hq, hq'⟩ := List.mem_map.mp hn
    have : true ∈ w.zeroFlags := by
      rw [← hp.2.2.2.2.1]
      exact List.mem_map.mpr ⟨q, hq, by rw [hq']; rfl⟩
    rw [z2.flags] at this
    exact Bool.noConfusion (h3 _ this)
  · rw [z2.blocks, h4]
    unfold SH.shBlocks
    rw [List.map_map]
    refine List.map_congr_left fun ir _ => ?_
    simp only [Function.comp, List.map_ofFn]
    rfl

theorem dMatrix_vec {q : Parity} {R : Matrix (Fin 3) (Fin 3) ℝ} (hR : IsOrth R) (h : R.det = 1 ∨ q = .o) : dMatrix ⟨1, q⟩ R = R := by
  obtain ⟨a, b, -⟩ := C39_defining hR
  cases q with
  | o => exact a
  | e =>
    rcases h with h | h
    · rw [b, h, one_smul]
    · cases h

/-- The spherical harmonics of the rotated point are the rotated spherical harmonics. -/
theorem slice_rot {c : Conv} {st : Fin 3 → ℝ} {z z' zt : IArr ℝ} {p p' : Fin 3 → ℤ} {R : Matrix (Fin 3) (Fin 3) ℝ} (hR : IsOrth R) {q : Parity}
    (hq : ∀ m ∈ c.irrepsSh, m.ir.p = if m.ir.l % 2 = 1 then q else .e) (hdet : R.det = 1 ∨ q = .o)
    (hz : z.Coherent) (hzb : z.blocks = (expand c.irrepsSh).map fun ir => (ir, List.ofFn (SH.Y c.nrm ir.l (SH.point true (position st p)))))
    (hz' : z'.Coherent) (hzb' : z'.blocks = (expand c.irrepsSh).map fun ir => (ir, List.ofFn (SH.Y c.nrm ir.l (SH.point true (position st p')))))
    (hp : position st p' = R *ᵥ position st p) (ht : z.transformByMatrix R = .ok zt) : z'.array = zt.array := by
  obtain ⟨y, a1, a2, a3, -, a5⟩ := C59_transform R z hz
  rw [ht] at a1
  cases a1
  rw [← a2.inv.array_eq_blocks, ← hz'.inv.array_eq_blocks, a5, hzb, hzb']
  apply congrArg List.flatten
  simp only [List.map_map]
  refine List.map_congr_left fun ir hir => ?_
  have hirp : ir.p = q.pow ir.l := by
    unfold expand at hir
    obtain ⟨m, hm, h⟩ := List.mem_flatMap.mp hir
    obtain ⟨-, rfl⟩ := List.mem_replicate.mp h
    exact SH.parity_rule (hq m hm)
  simp only [Function.comp]
  rw [matVec_ofFn]
  congr 1
  funext k
  have e := SH.Y_equivariant c.nrm q hR ir.l (SH.point true (position st p))
  rw [dMatrix_vec hR hdet, ← SH.point_rot true hR, ← hp, ← hirp] at e
  rw [e]
  simp [Matrix.mulVec, dotProduct]

/-! ### the weights -/

theorem norm2_rot {R : Matrix (Fin 3) (Fin 3) ℝ} (hR : IsOrth R) (v : Fin 3 → ℝ) : norm2 (R *ᵥ v) = norm2 v := by
  unfold norm2
  congr 1
  have e : ∀ w : Fin 3 → ℝ, w 0 ^ 2 + w 1 ^ 2 + w 2 ^ 2 = w ⬝ᵥ w := fun w => by simp [dotProduct, Fin.sum_univ_three, sq]
  have hD' : Rᵀ * R = 1 := mul_eq_one_comm.mp hR
  rw [e, e, Matrix.dotProduct_mulVec, Matrix.vecMul_mulVec, hD', Matrix.vecMul_one]

/-- The weights at a point. -/
theorem weights_ok {c : Conv} (hc : Valid c) (ps : Params) (st : Fin 3 → ℝ) {irrepsIn irrepsOut : Irreps} {f : FTP}
    (hf : fullyConnected irrepsIn c.irrepsSh irrepsOut none none none c.n c.a c.g = .ok f) (p : Fin 3 → ℤ) :
    ∃ ws, c.weightsAt ps st f p = .ok ws ∧
      ws.map List.length = f.instructions.map fun ins => ins.size := by
  have hv := init_valid hf
  obtain ⟨-, k2, -, -⟩ := init_ok hf
  have : ∀ l : List Ins, (∀ ins ∈ l, ins ∈ f.instructions) → ∃ ws, (l.mapM fun ins => (irAt f.irreps2 ins.i2).bind fun ir2 => c.tpWeight ps st p ir2 ins) = .ok ws ∧
      ws.map List.length = l.map fun ins => ins.size := by
    intro l
    induction l with
    | nil => intro _; exact ⟨[], rfl, rfl⟩
    | cons ins l ih =>
      intro hl
      obtain ⟨ws, w1, w2⟩ := ih fun i hi => hl i (by simp [hi])
      obtain ⟨a, b, d, -, hb, -⟩ := hv ins (hl ins (by simp))
      have hmem : b ∈ c.irrepsSh := by rw [← k2]; exact List.mem_of_getElem? hb
      obtain ⟨num, hnum⟩ := hc.number b hmem
      obtain ⟨s, hs⟩ := hc.start b hmem
      have e1 : irAt f.irreps2 ins.i2 = .ok b.ir := by unfold irAt; rw [hb]
      have e2 : ∃ r, c.tpWeight ps st p b.ir ins = .ok r ∧ r.length = ins.size := by
        unfold Conv.tpWeight
        rw [hnum, hs]
        exact ⟨_, rfl, by simp⟩
      obtain ⟨r, r1, r2⟩ := e2
      refine ⟨r :: ws, ?_, by simp [r2, w2]⟩
      rw [List.mapM_cons]
      simp only [e1, bind, Except.bind, r1] at w1 ⊢
      rw [w1]
      rfl
  exact this _ fun _ h => h

/-- The weights depend on the distance to the centre. -/
theorem weights_congr {c : Conv} (ps : Params) (st : Fin 3 → ℝ) {p p' : Fin 3 → ℤ} (h : norm2 (position st p') = norm2 (position st p)) (f : FTP) :
    c.weightsAt ps st f p' = c.weightsAt ps st f p := by
  unfold Conv.weightsAt Conv.tpWeight
  rw [h]

theorem weightList_all {f : FTP} (hw : ∀ ins ∈ f.instructions, ins.hasWeight = true) {ws : List (List ℝ)} (hl : ws.length = f.instructions.length) : weightList f ws = ws := by
  unfold weightList
  rw [List.filter_eq_self.mpr fun q hq => hw _ (List.of_mem_zip hq).1]
  exact List.map_snd_zip hl.le

/-- What is known of the kernel. -/
structure KernelAt (c : Conv) (ps : Params) (st : Fin 3 → ℝ) (irrepsIn irrepsOut : Irreps) (f : FTP) (K : (Fin 3 → ℤ) → List (List ℝ)) (p : Fin 3 → ℤ) (ws : List (List ℝ)) (z : IArr ℝ) : Prop where
  weights : c.weightsAt ps st f p = .ok ws
  lengths : ws.map List.length = f.instructions.map fun ins => ins.size
  coh : z.Coherent
  irreps : z.irreps = c.irrepsSh
  chunks : ∀ w, z.rechunk c.irrepsSh = .ok w → none ∉ w.chunks
  blocks : z.blocks = (expand c.irrepsSh).map fun ir => (ir, List.ofFn (SH.Y c.nrm ir.l (SH.point true (position st p))))
  value : p ≠ 0 → f.right ws z = .ok (K p)

theorem find_zip {p : Fin 3 → ℤ} {l : List (Fin 3 → ℤ)} (g : (Fin 3 → ℤ) → List (List ℝ)) (hp : p ∈ l) :
    (l.zip (l.map g)).find? (fun q => q.1 == p) = some (p, g p) := by
  induction l with
  | nil => simp at hp
  | cons a l ih =>
    simp only [List.map_cons, List.zip_cons_cons, List.find?_cons]
    by_cases h : a = p
    · subst h; simp
    · have : (a == p) = false := by simpa using h
      simp only [this]
      exact ih (by
        rcases List.mem_cons.mp hp with h' | h'
        · exact absurd h'.symm h
        · exact h')

/-- **The kernel** is defined. -/
theorem kernel_spec {c : Conv} (hc : Valid c) (ps : Params) (steps : Option (Fin 3 → ℝ)) {irrepsIn irrepsOut : Irreps}
    (hin : ∀ m ∈ irrepsIn, 0 < m.mul) (hout : ∀ m ∈ irrepsOut, 0 < m.mul) :
    ∃ f lin K, fullyConnected irrepsIn c.irrepsSh irrepsOut none none none c.n c.a c.g = .ok f ∧
      FLin.init irrepsIn irrepsOut none .none c.a c.g = .ok lin ∧
      c.kernel ps irrepsIn irrepsOut steps = .ok K ∧
      (∀ p ∈ c.lattice, ∃ ws z, KernelAt c ps (steps.getD c.steps) irrepsIn irrepsOut f K p ws z) ∧
      (0 ∈ c.lattice → lin.matrix (lin.instructions.map fun ins => (List.range (FLin.size ins)).map fun j => ps.self ins.iIn ins.iOut j) = .ok (K 0)) := by
  obtain ⟨f, f1, f2, f3, f4, -, -, f7⟩ := C85_fully_connected irrepsIn c.irrepsSh irrepsOut hc.norm c.a c.g hin hc.sh hout
  obtain ⟨lin, l1, l2, l3⟩ := C28_init_returns irrepsIn irrepsOut none c.a c.g
  obtain ⟨sh, s1, s2, s3, s4, s5⟩ := sh_lattice hc (steps.getD c.steps)
  have l1' : FLin.init irrepsIn irrepsOut none .none c.a c.g = .ok lin := l1
  have hcen : ∃ A, lin.matrix (lin.instructions.map fun ins => (List.range (FLin.size ins)).map fun j => ps.self ins.iIn ins.iOut j) = .ok A := by
    obtain ⟨x, x1, x2, x3, -⟩ := (C12_zeros_ones (α := ℝ) irrepsIn).1
    obtain ⟨A, y, y1, -⟩ := C29_matrix l1' (lin.instructions.map fun ins => (List.range (FLin.size ins)).map fun j => ps.self ins.iIn ins.iOut j)
      (by unfold WeightShapes; rw [List.map_map]; refine List.map_congr_left fun ins _ => ?_; simp [FLin.size]) x x2 (by rw [x3])
    exact ⟨A, y1⟩
  obtain ⟨A, hA⟩ := hcen
  have hpt : ∀ p, ∃ M ws z, c.kernelAt ps (steps.getD c.steps) f sh A p = .ok M ∧ (p = 0 → M = A) ∧
      KernelAt c ps (steps.getD c.steps) irrepsIn irrepsOut f (fun _ => M) p ws z := by
    intro p
    obtain ⟨ws, w1, w2⟩ := weights_ok hc ps (steps.getD c.steps) f1 p
    obtain ⟨z, z1, z2, z3, z4, z5⟩ := sh_slice s2 s3 s4 s5 p
    have hwl : weightList f ws = ws := weightList_all (fun ins hi => (f7 ins hi).2.1) (by simpa using congrArg List.length w2)
    have hW : WeightsFor f ws := by
      unfold WeightsFor
      rw [w2]
      refine List.map_congr_left fun ins hi => ?_
      rw [if_pos (f7 ins hi).2.1, size_eq]
    obtain ⟨M, m1, -⟩ := C102_right f1 f2 (fun ins hi => by rw [(f7 ins hi).1]; trivial) hW z z2 (by rw [z3]) z4
    rw [hwl] at m1
    refine ⟨if p = 0 then A else M, ws, z, ?_, fun h => if_pos h, w1, w2, z2, z3, z4, z5, fun h => by rw [m1, if_neg h]⟩
    unfold Conv.kernelAt
    simp only [w1, bind, Except.bind, z1, m1]
    rfl
  choose G hG using hpt
  have hm := E3nn.SH.mapM_ok (fun p => c.kernelAt ps (steps.getD c.steps) f sh A p) G c.lattice (fun p _ => by obtain ⟨_, _, h, -⟩ := hG p; exact h)
  refine ⟨f, lin, fun p => match (c.lattice.zip (c.lattice.map G)).find? fun q => q.1 == p with
      | some q => q.2
      | none => [], f1, l1', ?_, ?_, ?_⟩
  · unfold Conv.kernel
    have hs : ¬(c.steps 0 = 0 ∨ c.steps 1 = 0 ∨ c.steps 2 = 0) := by
      rw [not_or, not_or]
      exact ⟨hc.steps 0, hc.steps 1, hc.steps 2⟩
    simp only [if_neg hs, f1, bind, Except.bind]
    have s1' := s1
    unfold latticeInput at s1'
    simp only [s1', l1', hA, hm]
    rfl
  · intro p hp
    obtain ⟨ws, z, -, -, h⟩ := hG p
    refine ⟨ws, z, h.weights, h.lengths, h.coh, h.irreps, h.chunks, h.blocks, fun hne => ?_⟩
    rw [h.value hne]
    simp only [find_zip G hp]
  · intro h0
    obtain ⟨ws, z, -, h, -⟩ := hG 0
    rw [hA]
    simp only [find_zip G h0]
    rw [h rfl]

/-- **The kernel intertwines** the actions of a symmetry of the lattice. -/
theorem kernel_intertwine {c : Conv} (hc : Valid c) {ps : Params} {steps : Option (Fin 3 → ℝ)} {irrepsIn irrepsOut : Irreps}
    (hin : ∀ m ∈ irrepsIn, 0 < m.mul) (hout : ∀ m ∈ irrepsOut, 0 < m.mul) {K : (Fin 3 → ℤ) → List (List ℝ)} (hK : c.kernel ps irrepsIn irrepsOut steps = .ok K)
    {R : Matrix (Fin 3) (Fin 3) ℝ} (hR : IsOrth R) (hdet : R.det = 1 ∨ ∀ m ∈ c.irrepsSh, m.ir.p = if m.ir.l % 2 = 1 then .o else .e)
    {p p' : Fin 3 → ℤ} (hp : p ∈ c.lattice) (hp' : p' ∈ c.lattice) (h0 : p = 0 ↔ p' = 0)
    (hpos : position (steps.getD c.steps) p' = R *ᵥ position (steps.getD c.steps) p) : Intertwine R irrepsIn irrepsOut (K p) (K p') := by
  obtain ⟨f, lin, K', f1, l1, k1, k2, k3⟩ := kernel_spec hc ps steps hin hout
  rw [hK] at k1
  cases k1
  obtain ⟨f', g1, g2, g3, g4, -, -, g7⟩ := C85_fully_connected irrepsIn c.irrepsSh irrepsOut hc.norm c.a c.g hin hc.sh hout
  rw [f1] at g1
  cases g1
  by_cases hz : p = 0
  · have hz' := h0.mp hz
    subst hz hz'
    exact linear_intertwine l1 _ (by unfold WeightShapes; rw [List.map_map]; refine List.map_congr_left fun ins _ => ?_; simp [FLin.size]) hR (k3 hp)
  · have hz' : p' ≠ 0 := fun h => hz (h0.mpr h)
    obtain ⟨ws, z, a⟩ := k2 p hp
    obtain ⟨ws', z', a'⟩ := k2 p' hp'
    have hww : ws' = ws := by
      have := a'.weights
      rw [weights_congr (c := c) ps (steps.getD c.steps) (p := p) (p' := p') (by rw [hpos, norm2_rot hR]) f, a.weights] at this
      exact (Except.ok.inj this).symm
    subst hww
    have hwl : weightList f ws' = ws' := weightList_all (fun ins hi => (g7 ins hi).2.1) (by simpa using congrArg List.length a.lengths)
    have hW : WeightsFor f ws' := by
      unfold WeightsFor
      rw [a.lengths]
      refine List.map_congr_left fun ins hi => ?_
      rw [if_pos (g7 ins hi).2.1, size_eq]
    obtain ⟨q, hq, hd⟩ : ∃ q : Parity, (∀ m ∈ c.irrepsSh, m.ir.p = if m.ir.l % 2 = 1 then q else .e) ∧ (R.det = 1 ∨ q = .o) := by
      rcases hdet with h | h
      · obtain ⟨q, hq⟩ := hc.parity
        exact ⟨q, hq, Or.inl h⟩
      · exact ⟨.o, h, Or.inr rfl⟩
    obtain ⟨zt, t1, -⟩ := C59_transform R z a.coh
    exact right_intertwine f1 g2 (fun ins hi => by rw [(g7 ins hi).1]; trivial) (fused := false) g3 hW z zt z' a.coh (by rw [a.irreps]) a.chunks hR t1 a'.coh (by rw [a'.irreps])
      (slice_rot hR hq hd a.coh a.blocks a'.coh a'.blocks hpos t1) a'.chunks (by rw [hwl]; exact a.value hz) (by rw [hwl]; exact a'.value hz')

end E3nn.Voxel
