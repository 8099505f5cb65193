import Verif.Lemmas.TPSH
import Verif.Props.C04_C11
import Verif.Props.C67

/-!
# C71: `tensor_product_with_spherical_harmonics`

The function rotates its input so that the vector points along the pole, multiplies there (where the
Clebsch-Gordan tensor contracted with the spherical harmonics is a diagonal or an anti-diagonal), and rotates
back.  It is compared with `tensor_product(input, spherical_harmonics(range(degree + 1), vector, True))`.
-/

namespace E3nn.TPSH

open E3nn.IArr E3nn.Rot E3nn.Wig E3nn.SH E3nn.SU2 E3nn.TP Matrix

/-- The components of a vector without leading axes. -/
def vec (v : IArr Col) : Fin 3 → ℝ := fun k => v.array.getD k 0 ()

/-- The direction used for a vector: its own, and the `z` axis for the zero vector. -/
noncomputable def usedDirection (w : Fin 3 → ℝ) : Fin 3 → ℝ := open Classical in if w = 0 then ![0, 0, 1] else direction w

theorem dMatrix_one (p : Parity) {R : Mat} (h : IsRotation R) : Wig.dMatrix ⟨1, p⟩ R = R := by
  cases p
  · rw [(C39_defining h.1).2.1, h.2, one_smul]
  · exact (C39_defining h.1).1

theorem lockMat_rot (lock : Bool) : IsRotation (lockMat lock) := by
  unfold lockMat
  split
  · exact anglesToMatrix_rot _ _ _
  · exact ⟨by simp, by simp⟩

theorem transpose_rot {R : Mat} (h : IsRotation R) : IsRotation R.transpose :=
  ⟨transpose_orth h.1, by rw [Matrix.det_transpose]; exact h.2⟩

theorem array_three {p : Parity} {v : IArr Col} (hv : v.Coherent) (hi : v.irreps = [⟨1, ⟨1, p⟩⟩]) :
    v.array = List.ofFn fun k : Fin 3 => v.array.getD k 0 := by
  have hl : v.array.length = 3 := by rw [hv.array_length, hi]; simp [expand, dimOf, Irrep.dim]
  obtain ⟨f, e⟩ := exists_ofFn hl
  rw [e]
  congr 1
  funext k
  rw [getD_ofFn]

theorem blocks_three {p : Parity} {v : IArr Col} (hv : v.Coherent) (hi : v.irreps = [⟨1, ⟨1, p⟩⟩]) :
    v.blocks = [(⟨1, p⟩, List.ofFn fun k : Fin 3 => v.array.getD k 0)] := by
  have h := array_three hv hi
  unfold IArr.blocks
  rw [hi]
  conv_lhs => rw [h]
  simp only [expand, List.flatMap_cons, List.flatMap_nil, List.replicate_one, List.append_nil, blocksOf]
  rw [List.take_of_length_le (by simp)]

/-- A vector follows the matrix. -/
theorem vec_act {p : Parity} {v v' : IArr Col} (hv : v.Coherent) (hi : v.irreps = [⟨1, ⟨1, p⟩⟩]) (hv' : v'.Coherent)
    (hi' : v'.irreps = v.irreps) {R : Mat} (hR : IsRotation R) (hb : v'.blocks = act R v.blocks) : vec v' = R *ᵥ vec v := by
  rw [blocks_three hv hi, blocks_three hv' (by rw [hi', hi])] at hb
  unfold act at hb
  simp only [List.map_cons, List.map_nil, List.cons.injEq, Prod.mk.injEq, and_true, true_and] at hb
  rw [dMatrix_one p hR] at hb
  have h2 := matVec_ofFn (α := Col) R (fun k : Fin 3 => v.array.getD k 0)
  have h3 := hb.trans h2
  have h4 := List.ofFn_injective h3
  funext k
  unfold vec
  rw [congrFun h4 k]
  simp [Matrix.mulVec, dotProduct, vec]

theorem vec_normalize {p : Parity} {v : IArr Col} (hv : v.Coherent) (hi : v.irreps = [⟨1, ⟨1, p⟩⟩]) :
    TPSH.normalize v.array = List.ofFn fun k : Fin 3 => (fun _ => Rot.normalize (vec v) k : Col) := by
  unfold TPSH.normalize
  rw [array_three hv hi, List.map_ofFn, List.map_ofFn]
  congr 1
  funext k u
  simp only [Function.comp_apply, Rot.normalize, List.sum_ofFn, Fin.sum_univ_three, vec]
  rw [← getD_ofFn (fun k : Fin 3 => v.array.getD k 0) 0 k]
  rfl

theorem align {w : Fin 3 → ℝ} {lock : Bool} (hl : lock = decide (|Rot.normalize w 1| > 0.99)) {u : Fin 3 → ℝ}
    (hu : u = (lockMat lock)ᵀ *ᵥ Rot.normalize w) :
    (lockMat lock * anglesToMatrix (xyzToAngles u).1 (xyzToAngles u).2 0) *ᵥ ![0, 1, 0] = usedDirection w := by
  rw [← Matrix.mulVec_mulVec]
  by_cases hw : w = 0
  · subst hw
    have hn : Rot.normalize 0 = 0 := normalize_zero
    rw [hn] at hl hu
    have : lock = false := by rw [hl]; simp; norm_num
    subst this
    have e : xyzToAngles 0 = (0, Real.pi / 2) := by
      have h1 : (⟨1, 0⟩ : ℂ) = 1 := rfl
      simp [xyzToAngles, normalize_zero, clip, unitToAngles, Rot.arctan2, h1]
    rw [hu, Matrix.mulVec_zero, e, anglesToMatrix_ey]
    simp [usedDirection, lockMat, anglesToXyz]
  · have hd : Rot.normalize w = direction w := normalize_direction hw
    have hun : vnormSq u = 1 := by
      rw [hu, hd]
      have h1 : vnormSq ((lockMat lock)ᵀ *ᵥ direction w) = vnormSq (direction w) := by
        have ho : (lockMat lock) * (lockMat lock)ᵀ = 1 := (lockMat_rot lock).1
        have e : ∀ z : Fin 3 → ℝ, vnormSq z = z ⬝ᵥ z := by intro z; simp [vnormSq, dotProduct, Fin.sum_univ_three]; ring
        rw [e, e, Matrix.dotProduct_mulVec, Matrix.vecMul_transpose, Matrix.mulVec_mulVec, ho, Matrix.one_mulVec]
      rw [h1, direction_unit hw]
    have hne : u ≠ 0 := by rintro rfl; simp [vnormSq] at hun
    rw [anglesToMatrix_ey, (xyzToAngles_spec hne).1, normalize_of_unit hun, hu, Matrix.mulVec_mulVec, (lockMat_rot lock).1, Matrix.one_mulVec, hd]
    simp [usedDirection, hw]

theorem expand_ones (ms : Irreps) (h : ∀ m ∈ ms, m.mul = 1) : expand ms = ms.map MulIrrep.ir := by
  induction ms with
  | nil => rfl
  | cons m ms ih =>
    rw [expand_cons, ih fun m' h' => h m' (List.mem_cons_of_mem _ h'), h m (by simp)]
    rfl

variable {cfg : Option (List String)} {nrm : Normalization} {f : (l : ℕ) → (Fin 3 → ℝ) → Fin (2 * l + 1) → ℝ}

/-- The general form: for every direction. -/
theorem tpSH_spec (halg : ∀ a, cfg = some a → AlgOk a) (hf : ∀ l, IsSphericalHarmonics (sphLength nrm l) l (f l))
    {input vector s : IArr Col} (hx : input.Coherent) (hv : vector.Coherent) {p : Parity}
    (hvi : vector.irreps = [⟨1, ⟨1, p⟩⟩]) (degree : ℕ) (hs : s.Coherent)
    (hsi : s.irreps = (List.range (degree + 1)).map fun l => ⟨1, ⟨l, p.pow l⟩⟩)
    (hsb : s.blocks = (List.range (degree + 1)).map fun l => (⟨l, p.pow l⟩, List.ofFn fun k => fun _ => f l (usedDirection (vec vector)) k)) :
    ∃ y t r, tpSH cfg nrm input vector degree = (if input.irreps = [] then .error .nameError else .ok y) ∧
      tensorProduct (realCtx Col) .component none false input s = .ok t ∧
      t.regroup = .ok r ∧ SameData y r := by
  -- the vector
  have hvl : (TPSH.normalize vector.array).length = dimOf (expand vector.irreps) := by
    rw [hvi, vec_normalize hv hvi]; simp [expand, dimOf, Irrep.dim]
  obtain ⟨v1, a1, a2, a3, a4, -⟩ := (C12_from_array vector.irreps (TPSH.normalize vector.array)).1 hvl
  have hv1i : v1.irreps = [⟨1, ⟨1, p⟩⟩] := by rw [a3, hvi]
  have hv1 : vec v1 = Rot.normalize (vec vector) := by
    funext k
    unfold vec
    rw [a4, vec_normalize hv hvi, getD_ofFn]
    rfl
  generalize hlock : decide (|v1.array.getD 1 0 ()| > 0.99) = lock
  have hlock' : lock = decide (|Rot.normalize (vec vector) 1| > 0.99) := by rw [← hlock, ← hv1]; rfl
  obtain ⟨in1, b1, b2, b3, b4, b5⟩ := fix_spec lock true hx
  obtain ⟨v2, c1, c2, c3, c4, -⟩ := fix_spec lock true a2
  have hG := lockMat_rot lock
  have hv2 : vec v2 = (lockMat lock)ᵀ *ᵥ Rot.normalize (vec vector) := by
    rw [← hv1]; exact vec_act a2 hv1i c2 c3 (transpose_rot hG) c4
  generalize hab : xyzToAngles (fun k : Fin 3 => v2.array.getD k 0 ()) = ab
  have hA : IsRotation (anglesToMatrix ab.1 ab.2 0) := anglesToMatrix_rot _ _ _
  have hey := align hlock' hv2
  rw [show xyzToAngles (vec v2) = ab from hab] at hey
  generalize hAm : anglesToMatrix ab.1 ab.2 0 = A at hA hey
  obtain ⟨in2, d1, d2, d3, d4, d5⟩ := act_transform Aᵀ b2
  -- the spherical harmonics at the pole
  obtain ⟨pole, e1, e2, e3, e4, -⟩ := (C12_from_array v2.irreps [fun _ => 0, fun _ => 1, (fun _ => 0 : Col)]).1 (by rw [c3, hv1i]; rfl)
  have hms : ∀ m ∈ ((List.range (degree + 1)).map fun l => (⟨1, ⟨l, p.pow l⟩⟩ : MulIrrep)), m.mul = 1 := by
    intro m hm
    obtain ⟨l, -, rfl⟩ := List.mem_map.mp hm
    rfl
  generalize hmsd : ((List.range (degree + 1)).map fun l => (⟨1, ⟨l, p.pow l⟩⟩ : MulIrrep)) = ms at hms hsi
  have hpi : pole.irreps = [⟨1, ⟨1, p⟩⟩] := by rw [e3, c3, hv1i]
  obtain ⟨shs, g1, g2, g3, g4, g5⟩ := sh_run (cfg := cfg) (algorithm := none) (by simpa using halg) hf (out := .ints (List.range (degree + 1)))
    (input := .arr pole) (ms := ms)
    (by simp only [outIrreps, hpi, checkIsVector_ok]; rw [← hmsd]; rfl) (p := p) (by
      intro m hm
      rw [← hmsd] at hm
      obtain ⟨l, -, rfl⟩ := List.mem_map.mp hm
      rfl) ⟨by rw [Input.cols, e4]; rfl, by intro x hx; cases hx; exact hpi⟩ true
  have hey' : ∀ u : Unit, point true (vecOf (Input.arr pole).cols u) = ![0, 1, 0] := by
    intro u
    have : vecOf (Input.arr pole).cols u = ![0, 1, 0] := by
      funext k; unfold vecOf Input.cols; simp only [e4]; fin_cases k <;> rfl
    rw [this]
    simp [point]
  have hg5 : shs.blocks = ms.map fun m => (m.ir, poleRow m.ir.l (sphLength nrm m.ir.l)) := by
    rw [g5, shBlocks, expand_ones ms hms, List.map_map]
    apply List.map_congr_left
    intro m _
    simp only [Function.comp_apply, hey', (hf m.ir.l).pole]
    rfl
  have hg4 : shs.zeroFlags = ms.map fun _ => false := by
    apply g4
    rw [Irreps.numIrreps_eq_length_expand, expand_ones ms hms, List.length_map, ← hmsd]; simp
  have hg6 : shs.array = ms.flatMap fun m => poleRow m.ir.l (sphLength nrm m.ir.l) := by
    rw [← g2.inv.array_eq_blocks, hg5, List.map_map, List.flatMap_def]; rfl
  have hpairs : shs.irreps.zip shs.chunks = ms.map fun m => (m, some [poleRow m.ir.l (sphLength nrm m.ir.l)]) := by
    rw [g2.inv.chunks_eq, g3, hg6, hg4, comp_single ms (fun m => poleRow m.ir.l (sphLength nrm m.ir.l)) (fun m hm => ⟨hms m hm, by simp [poleRow, Irrep.dim]⟩)]
    conv_lhs => rw [← List.map_id ms]
    rw [List.map_map, List.zip_map']
    rfl
  -- the entries
  have hin2 : ∀ q ∈ in2.irreps.zip in2.chunks, q.2 ≠ none := by
    intro q hq hn
    have h1 : q.2.isNone ∈ in2.zeroFlags := by
      rw [← d2.inv.pairs.2.2.2.2.1]; exact List.mem_map.mpr ⟨q, hq, rfl⟩
    rw [d4] at h1
    have := b5 _ h1
    rw [hn] at this
    cases this
  have hent := entries_eq (P1 := in2.irreps.zip in2.chunks) (P2 := shs.irreps.zip shs.chunks) (fun ir => sphLength nrm ir.l) d2.inv.pairs.1 hin2 (by
    intro q hq
    rw [hpairs] at hq
    obtain ⟨m, hm, rfl⟩ := List.mem_map.mp hq
    exact ⟨hms m hm, rfl⟩)
  -- the product at the pole
  obtain ⟨z1, z2, t0, i1, i2, i3, i4, i5, i6, i7, -⟩ := tensorProduct_spec (realCtx_shape Col).ok (n := .component) (by decide) none false d2.inv g2.inv
  cases i1; cases i2
  have hshaped := tpEntries_shaped (realCtx_shape Col).ok .component none d2.inv.pairs.1 g2.inv.pairs.1
  obtain ⟨u, u1, u2, -⟩ := fromChunks_pairs _ hshaped
  have hsort : u.sort = .ok t0 := by
    unfold finish at i5
    simp only [u1, bind, Except.bind] at i5
    cases hh : u.sort with
    | error e => rw [hh] at i5; cases i5
    | ok t => rw [hh] at i5; exact i5
  obtain ⟨y1, j1, j2, j3, j4, j5, j6⟩ := C17_regroup u u2.coherent
  obtain ⟨t0', k1, k2, k3, k4, k5, -⟩ := C17_sort u u2.coherent
  rw [hsort] at k1; cases k1
  obtain ⟨r0, m1, m2, m3, m4, m5, m6⟩ := C17_regroup t0 k2
  have hsd : SameData y1 r0 := by
    have hkeys : y1.blocks.map Prod.fst = r0.blocks.map Prod.fst := by
      have hp : (y1.blocks.map Prod.fst).Perm (r0.blocks.map Prod.fst) := (j3.trans (m3.trans k3).symm).map _
      refine List.Perm.eq_of_pairwise (le := fun a b : Irrep => b.lt a = false) ?_ j4 m4 hp
      intro a b _ _ h1 h2
      rw [Irrep.lt_false_iff_enc] at h1 h2
      exact Irrep.enc_inj (le_antisymm h1 h2)
    have hb : y1.blocks = r0.blocks := by
      apply ext_filters hkeys
      intro ir
      rw [j5, m5, k5]
    have hir : y1.irreps = r0.irreps := by
      rw [Irreps.regroup_eq] at j6 m6
      have e1 := Except.ok.inj j6
      have e2 := Except.ok.inj m6
      rw [← e1, ← e2]
      rw [Irreps.simplify_eq_iff]
      have h1 : expand y1.irreps = expand r0.irreps := by rw [← blocks_irs, ← blocks_irs, hb]
      rw [← e1, ← e2, Irreps.expand_simplify, Irreps.expand_simplify] at h1
      exact h1
    exact SameData.of_blocks j2 m2 hir hb
  -- back
  obtain ⟨y2, n1, n2, n3, -, n5⟩ := act_transform A j2
  obtain ⟨y3, o1, o2, o3, o4, -⟩ := fix_spec lock false n2
  -- the product in place
  have hQ : IsRotation (lockMat lock * A) := hG.mul hA
  have bl1 : ∀ b ∈ input.blocks, b.2.length = b.1.dim := fun b hb => block_length hx hb
  obtain ⟨t0'', x1', x2', y', y'', q1, q2, q3, q4, q5, q6⟩ := C59_tensor_product (K := Col) (n := .component) (by decide) none false hQ.1 in2 shs d2 g2
  rw [i6] at q1; cases q1
  have s1 : SameData x1' input := by
    obtain ⟨w, w1, w2, w3, -, w5⟩ := act_transform (lockMat lock * A) d2
    rw [q2] at w1; cases w1
    refine SameData.of_blocks w2 hx (by rw [w3, d3, b3]) ?_
    rw [w5, d5, b4]
    simp only [if_true]
    rw [← act_mul (transpose_orth hA.1) (transpose_orth hG.1) bl1, ← Matrix.transpose_mul, ← act_mul hQ.1 (transpose_orth hQ.1) bl1, hQ.1, act_one bl1]
  have s2 : SameData x2' s := by
    obtain ⟨w, w1, w2, w3, -, w5⟩ := act_transform (lockMat lock * A) g2
    rw [q3] at w1; cases w1
    refine SameData.of_blocks w2 hs (by rw [w3, g3, hsi]) ?_
    rw [w5, hg5, hsb, ← hmsd, List.map_map, act, List.map_map]
    apply List.map_congr_left
    intro l _
    simp only [Function.comp_apply, Prod.mk.injEq, true_and]
    unfold poleRow
    rw [matVec_ofFn (α := Col)]
    congr 1
    funext k u
    have h := congrFun ((hf l).equivariant p _ hQ.1 ![0, 1, 0]) k
    rw [dMatrix_one p hQ, hey] at h
    rw [h]
    simp only [Matrix.mulVec, dotProduct, (hf l).pole, Finset.sum_apply, Pi.smul_apply, smul_eq_mul]
  obtain ⟨y'2, t, r1, r2, r3⟩ := C46_tensor_product (ctx := realCtx Col) (realCtx_shape Col) (n := .component) (by decide) none false s1 s2
  rw [q4] at r1; cases r1
  -- regroup and the action
  obtain ⟨t1, r', q, v1', v2', v3', v4'⟩ := C59_structural (fun x : IArr Col => x.regroup) C22_regroup (lockMat lock * A) t0 k2 r0 m1
  rw [q5] at v1'; cases v1'
  have hy'' : y''.Coherent := by
    obtain ⟨w, w1, w2, -⟩ := act_transform (lockMat lock * A) k2
    rw [q5] at w1; cases w1; exact w2
  have sd1 : SameData y'' t := ⟨hy'', r3.2.1, by rw [← q6.1]; exact r3.2.2.1, by rw [← q6.2.1]; exact r3.2.2.2⟩
  obtain ⟨r, hr, sd2⟩ := (C46_sort_regroup (α := Col)).2 y'' t sd1 r' v2'
  refine ⟨y3, t, r, ?_, r2, hr, ?_⟩
  · unfold tpSH
    have hcond : vector.irreps = [⟨1, ⟨1, .o⟩⟩] ∨ vector.irreps = [⟨1, ⟨1, .e⟩⟩] := by
      rw [hvi]; cases p <;> simp
    have hA0 : ∀ (b : Bool) (x : IArr Col), x.transformByAngles (.arr ab.1) (.arr ab.2) (.py 0) 0 b = x.transformByMatrix (if b then Aᵀ else A) := by
      intro b x
      rw [angles_zero]
      simp only [Angle.val, hAm]
    have hne2 : in2.irreps = [] ↔ input.irreps = [] := by rw [d3, b3]
    rw [if_neg (not_not.mpr hcond)]
    simp only [a1, bind, Except.bind, hlock, b1, c1, hab, hA0, if_true, d1, e1, g1, hent, hne2, u1, j1, Bool.false_eq_true, if_false, n1, o1]
  · obtain ⟨w, w1, w2, w3, -, w5⟩ := act_transform (lockMat lock * A) m2
    rw [v3'] at w1; cases w1
    have bl2 : ∀ b ∈ y1.blocks, b.2.length = b.1.dim := fun b hb => block_length j2 hb
    have e1 : y3.blocks = q.blocks := by
      rw [o4, n5, w5, ← hsd.blocks, act_mul hG.1 hA.1 bl2]
      rfl
    have e2 : y3.irreps = q.irreps := by rw [o3, n3, w3, hsd.2.2.1]
    have e3 := SameData.of_blocks o2 w2 e2 e1
    exact ⟨o2, sd2.2.1, by rw [e2, ← v4'.1]; exact sd2.2.2.1, by rw [e3.2.2.2, ← v4'.2.1]; exact sd2.2.2.2⟩

/-- The documentation: `tensor_product(input, spherical_harmonics(range(degree + 1), vector, True))`. -/
noncomputable def documented (cfg : Option (List String)) (nrm : Normalization) (regroup : Bool) (input vector : IArr Col) (degree : ℕ) :
    Except PyErr (IArr Col) := do
  let s ← sphericalHarmonics cfg (.ints (List.range (degree + 1))) (.arr vector) true nrm none
  tensorProduct (realCtx Col) .component none regroup input s

theorem sh_ok (halg : ∀ a, cfg = some a → AlgOk a) (hf : ∀ l, IsSphericalHarmonics (sphLength nrm l) l (f l)) {vector : IArr Col}
    (hv : vector.Coherent) {p : Parity} (hvi : vector.irreps = [⟨1, ⟨1, p⟩⟩]) (degree : ℕ) :
    ∃ s, sphericalHarmonics cfg (.ints (List.range (degree + 1))) (.arr vector) true nrm none = .ok s ∧ s.Coherent ∧
      s.irreps = ((List.range (degree + 1)).map fun l => ⟨1, ⟨l, p.pow l⟩⟩) ∧
      s.blocks = (List.range (degree + 1)).map fun l => (⟨l, p.pow l⟩, List.ofFn fun k => fun _ => f l (point true (vec vector)) k) := by
  obtain ⟨s, g1, g2, g3, g4, g5⟩ := sh_run (cfg := cfg) (algorithm := none) (by simpa using halg) hf (out := .ints (List.range (degree + 1)))
    (input := .arr vector) (ms := (List.range (degree + 1)).map fun l => (⟨1, ⟨l, p.pow l⟩⟩ : MulIrrep))
    (by simp only [outIrreps, hvi, checkIsVector_ok]; rfl) (p := p) (by
      intro m hm
      obtain ⟨l, -, rfl⟩ := List.mem_map.mp hm
      rfl) ⟨by rw [Input.cols, array_three hv hvi]; simp, by intro x hx; cases hx; exact hvi⟩ true
  refine ⟨s, g1, g2, g3, ?_⟩
  rw [g5, shBlocks, expand_ones _ (by
    intro m hm
    obtain ⟨l, -, rfl⟩ := List.mem_map.mp hm
    rfl), List.map_map, List.map_map]
  rfl

/-- **C71 (value).** For every input that has a term, every nonzero vector (of parity even or odd, whether or not it is close to the pole) and
every degree: the function returns, and its result is the tensor product of the input with the spherical harmonics of the vector (without
regrouping the input), regrouped. -/
theorem C71_value (halg : ∀ a, cfg = some a → AlgOk a) {input vector : IArr Col} (hx : input.Coherent) (hne : input.irreps ≠ [])
    (hv : vector.Coherent) {p : Parity} (hvi : vector.irreps = [⟨1, ⟨1, p⟩⟩]) (h0 : vec vector ≠ 0) (degree : ℕ) :
    ∃ y t r, tpSH cfg nrm input vector degree = .ok y ∧ documented cfg nrm false input vector degree = .ok t ∧ t.regroup = .ok r ∧
      y.Coherent ∧ y.irreps = r.irreps ∧ y.array = r.array := by
  have hf : ∀ l, IsSphericalHarmonics (sphLength nrm l) l (Y nrm l) := fun l => Y_spec nrm l
  obtain ⟨s, s1, s2, s3, s4⟩ := sh_ok halg hf hv hvi degree
  have hd : usedDirection (vec vector) = point true (vec vector) := by
    simp [usedDirection, h0, direction, point, vnormSq]
  obtain ⟨y, t, r, y1, y2, y3, y4⟩ := tpSH_spec halg hf hx hv hvi degree s2 s3 (by rw [s4, hd])
  rw [if_neg hne] at y1
  exact ⟨y, t, r, y1, by unfold documented; simp only [s1, bind, Except.bind, y2], y3, y4.1, y4.2.2.1, y4.2.2.2⟩

theorem regroup_same {x : IArr Col} (hx : x.Coherent) (hr : x.irreps.regroup = .ok x.irreps) : ∃ z, x.regroup = .ok z ∧ SameData z x := by
  obtain ⟨z, z1, z2, z3, z4, z5, z6⟩ := C17_regroup x hx
  have hi : z.irreps = x.irreps := by rw [hr] at z6; exact (Except.ok.inj z6).symm
  refine ⟨z, z1, SameData.of_blocks z2 hx hi ?_⟩
  apply ext_filters
  · rw [blocks_irs, blocks_irs, hi]
  · exact z5

theorem regroup_of_sorted {ms : Irreps} (h : ms.Pairwise fun a b => a.ir.lt b.ir = true) (hp : ∀ m ∈ ms, 0 < m.mul) : ms.regroup = .ok ms := by
  obtain ⟨g, g1, g2, g3, g4⟩ := C07_regroup_spec ms
  rw [g1, Irreps.eq_of_count g2 h g3 hp g4]

theorem sh_irreps_sorted (p : Parity) (n : ℕ) :
    ((List.range n).map fun l => (⟨1, ⟨l, p.pow l⟩⟩ : MulIrrep)).Pairwise fun a b => a.ir.lt b.ir = true := by
  rw [List.pairwise_map]
  apply List.pairwise_lt_range.imp
  intro a b h
  rw [Irrep.lt_iff_enc]
  unfold Irrep.enc
  simp only
  split <;> split <;> omega

/-- **C71 (the documented equivalence).** If moreover the irreps of the input are regrouped (sorted, without repetition nor empty terms), the result is
`tensor_product(input, spherical_harmonics(range(degree + 1), vector, True))`, as documented. -/
theorem C71_documented (halg : ∀ a, cfg = some a → AlgOk a) {input vector : IArr Col} (hx : input.Coherent) (hne : input.irreps ≠ [])
    (hreg : input.irreps.regroup = .ok input.irreps)
    (hv : vector.Coherent) {p : Parity} (hvi : vector.irreps = [⟨1, ⟨1, p⟩⟩]) (h0 : vec vector ≠ 0) (degree : ℕ) :
    ∃ y r, tpSH cfg nrm input vector degree = .ok y ∧ documented cfg nrm true input vector degree = .ok r ∧
      y.irreps = r.irreps ∧ y.array = r.array := by
  have hf : ∀ l, IsSphericalHarmonics (sphLength nrm l) l (Y nrm l) := fun l => Y_spec nrm l
  obtain ⟨s, s1, s2, s3, s4⟩ := sh_ok halg hf hv hvi degree
  obtain ⟨y, t, r, y1, y2, y3, y4, y5, y6⟩ := C71_value (nrm := nrm) halg hx hne hv hvi h0 degree
  have e : ∀ b, documented cfg nrm b input vector degree = tensorProduct (realCtx Col) .component none b input s := by
    intro b; unfold documented; simp only [s1, bind, Except.bind]
  rw [e] at y2
  rw [e]
  have hsr : s.irreps.regroup = .ok s.irreps := by
    rw [s3]
    apply regroup_of_sorted (sh_irreps_sorted p _)
    intro m hm
    obtain ⟨l, -, rfl⟩ := List.mem_map.mp hm
    exact Nat.one_pos
  obtain ⟨zi, i1, i2⟩ := regroup_same hx hreg
  obtain ⟨zs, j1, j2⟩ := regroup_same s2 hsr
  obtain ⟨t', t'', k1, k2, k3⟩ := C46_tensor_product (ctx := realCtx Col) (realCtx_shape Col) (n := .component) (by decide) none false i2 j2
  rw [y2] at k2; cases k2
  obtain ⟨r', r1, r2⟩ := (C46_sort_regroup (α := Col)).2 t t' k3.symm r y3
  refine ⟨y, r', y1, ?_, by rw [y5, r2.2.2.1], by rw [y6, r2.2.2.2]⟩
  unfold tensorProduct at k1 ⊢
  simp only [prepare, bind, Except.bind, Bool.false_eq_true, if_false, if_true, i1, j1, finish, pure, Except.pure] at k1 ⊢
  split at k1
  · cases k1
  · split at k1
    · cases k1
    · split at k1
      · cases k1
      · cases k1; simp only [*]

/-- **C71 (zero vector).** For the zero vector the function does not use the spherical harmonics of zero: its result is the tensor product with
the spherical harmonics of the `z` axis. -/
theorem C71_zero (halg : ∀ a, cfg = some a → AlgOk a) {input vector z : IArr Col} (hx : input.Coherent) (hne : input.irreps ≠ [])
    (hv : vector.Coherent) {p : Parity} (hvi : vector.irreps = [⟨1, ⟨1, p⟩⟩]) (h0 : vec vector = 0)
    (hz : z.Coherent) (hzi : z.irreps = [⟨1, ⟨1, p⟩⟩]) (hzv : vec z = ![0, 0, 1]) (degree : ℕ) :
    ∃ y y', tpSH cfg nrm input vector degree = .ok y ∧ tpSH cfg nrm input z degree = .ok y' ∧ y.irreps = y'.irreps ∧ y.array = y'.array := by
  have hf : ∀ l, IsSphericalHarmonics (sphLength nrm l) l (Y nrm l) := fun l => Y_spec nrm l
  obtain ⟨s, s1, s2, s3, s4⟩ := sh_ok halg hf hz hzi degree
  have hnz : (![0, 0, 1] : Fin 3 → ℝ) ≠ 0 := by intro e; simpa using congrFun e 2
  have hd : usedDirection (vec z) = point true (vec z) := by
    simp [usedDirection, hzv, hnz, direction, point, vnormSq]
  have hd0 : usedDirection (vec vector) = point true (vec z) := by
    rw [h0, hzv]; simp [usedDirection, point]
  obtain ⟨y, t, r, y1, y2, y3, y4⟩ := tpSH_spec halg hf hx hv hvi degree s2 s3 (by rw [s4, hd0])
  obtain ⟨y', t', r', k1, k2, k3, k4⟩ := tpSH_spec halg hf hx hz hzi degree s2 s3 (by rw [s4, hd])
  rw [if_neg hne] at y1 k1
  rw [y2] at k2; cases k2
  rw [y3] at k3; cases k3
  exact ⟨y, y', y1, k1, by rw [y4.2.2.1, k4.2.2.1], by rw [y4.2.2.2, k4.2.2.2]⟩

/-- **C71 (equivariance).** For a nonzero vector: transforming the input and the vector by the same orthogonal matrix transforms the result. -/
theorem C71_equivariant (halg : ∀ a, cfg = some a → AlgOk a) {input vector : IArr Col} (hx : input.Coherent) (hne : input.irreps ≠ [])
    (hv : vector.Coherent) {p : Parity} (hvi : vector.irreps = [⟨1, ⟨1, p⟩⟩]) (h0 : vec vector ≠ 0) (degree : ℕ)
    {R : Mat} (hR : R * Rᵀ = 1) :
    ∃ y input' vector' y' y'', tpSH cfg nrm input vector degree = .ok y ∧ input.transformByMatrix R = .ok input' ∧
      vector.transformByMatrix R = .ok vector' ∧ tpSH cfg nrm input' vector' degree = .ok y' ∧ y.transformByMatrix R = .ok y'' ∧
      y'.irreps = y''.irreps ∧ y'.array = y''.array := by
  have hf : ∀ l, IsSphericalHarmonics (sphLength nrm l) l (Y nrm l) := fun l => Y_spec nrm l
  obtain ⟨input', a1, a2, a3, -, a5⟩ := act_transform R hx
  obtain ⟨vector', b1, b2, b3, -, b5⟩ := act_transform R hv
  have hvv : vec vector' = Wig.dMatrix ⟨1, p⟩ R *ᵥ vec vector := by
    rw [blocks_three hv hvi, blocks_three b2 (by rw [b3, hvi])] at b5
    unfold act at b5
    simp only [List.map_cons, List.map_nil, List.cons.injEq, Prod.mk.injEq, and_true, true_and] at b5
    have e := matVec_ofFn (α := Col) (Wig.dMatrix ⟨1, p⟩ R) (fun k : Fin 3 => vector.array.getD k 0)
    rw [e] at b5
    have := List.ofFn_injective b5
    funext k
    have h := congrFun (congrFun this k) ()
    unfold vec
    rw [h]
    simp [Matrix.mulVec, dotProduct, Finset.sum_apply]
  have hD := (C39_orthogonal ⟨1, p⟩ hR).1
  have h0' : vec vector' ≠ 0 := by
    intro e
    apply h0
    rw [hvv] at e
    have := congrArg (fun w => (Wig.dMatrix ⟨1, p⟩ R)ᵀ *ᵥ w) e
    simp only [Matrix.mulVec_mulVec, Matrix.mulVec_zero] at this
    rw [mul_eq_one_comm.mp hD, Matrix.one_mulVec] at this
    exact this
  obtain ⟨s, s1, s2, s3, s4⟩ := sh_ok (nrm := nrm) halg hf hv hvi degree
  obtain ⟨s', s1', s2', s3', s4'⟩ := sh_ok (nrm := nrm) halg hf b2 (by rw [b3, hvi]) degree
  obtain ⟨y, t, r, y1, y2, y3, y4, y5, y6⟩ := C71_value (nrm := nrm) halg hx hne hv hvi h0 degree
  obtain ⟨y', t', r', z1, z2, z3, z4, z5, z6⟩ := C71_value (nrm := nrm) halg a2 (by rw [a3]; exact hne) b2 (by rw [b3, hvi]) h0' degree
  have y2' : tensorProduct (realCtx Col) .component none false input s = .ok t := by
    unfold documented at y2; simpa only [s1, bind, Except.bind] using y2
  have z2' : tensorProduct (realCtx Col) .component none false input' s' = .ok t' := by
    unfold documented at z2; simpa only [s1', bind, Except.bind] using z2
  obtain ⟨t0, x1', x2', u, u', q1, q2, q3, q4, q5, q6⟩ := C59_tensor_product (K := Col) (n := .component) (by decide) none false hR input s hx s2
  rw [y2'] at q1; cases q1
  rw [a1] at q2; cases q2
  have hs : SameData x2' s' := by
    obtain ⟨w, w1, w2, w3, -, w5⟩ := act_transform R s2
    rw [q3] at w1; cases w1
    refine SameData.of_blocks w2 s2' (by rw [w3, s3, s3']) ?_
    rw [w5, s4, s4', act, List.map_map]
    apply List.map_congr_left
    intro l _
    simp only [Function.comp_apply, Prod.mk.injEq, true_and]
    rw [matVec_ofFn (α := Col)]
    congr 1
    funext k u
    rw [hvv, point_rot true hD, (hf l).equivariant p R hR]
    simp only [Matrix.mulVec, dotProduct, Finset.sum_apply, Pi.smul_apply, smul_eq_mul]
  obtain ⟨u2, t2, k1, k2, k3⟩ := C46_tensor_product (ctx := realCtx Col) (realCtx_shape Col) (n := .component) (by decide) none false ⟨a2, a2, rfl, rfl⟩ hs
  rw [q4] at k1; cases k1
  rw [z2'] at k2; cases k2
  have ht : t.Coherent := by
    obtain ⟨_, _, t0, _, _, _, _, _, e1, e2, _⟩ := tensorProduct_spec (realCtx_shape Col).ok (n := .component) (by decide) none false hx.inv s2.inv
    rw [y2'] at e1; cases e1; exact e2.coherent
  obtain ⟨r0, g1, g2, -⟩ := C17_regroup t ht
  rw [y3] at g1; cases g1
  obtain ⟨t1, r1, r2, v1, v2, v3, v4⟩ := C59_structural (fun x : IArr Col => x.regroup) C22_regroup R t ht r y3
  rw [q5] at v1; cases v1
  have hu' : u'.Coherent := by
    obtain ⟨w, w1, w2, -⟩ := act_transform R ht
    rw [q5] at w1; cases w1; exact w2
  have hsame : SameData u' t' := ⟨hu', k3.2.1, by rw [← q6.1]; exact k3.2.2.1, by rw [← q6.2.1]; exact k3.2.2.2⟩
  obtain ⟨r3, m1, m2⟩ := (C46_sort_regroup (α := Col)).2 u' t' hsame r1 v2
  beta_reduce at m1
  rw [z3] at m1; cases m1
  have hyr : SameData y r := ⟨y4, g2, y5, y6⟩
  obtain ⟨w, w1, w2, w3, -, w5⟩ := act_transform R y4
  obtain ⟨w', w1', w2', w3', -, w5'⟩ := act_transform R g2
  rw [v3] at w1'; cases w1'
  have hw : SameData w r2 := SameData.of_blocks w2 w2' (by rw [w3, w3', y5]) (by rw [w5, w5', hyr.blocks])
  refine ⟨y, input', vector', y', w, y1, a1, b1, z1, w1, ?_, ?_⟩
  · rw [z5, ← m2.2.2.1, v4.1, hw.2.2.1]
  · rw [z6, ← m2.2.2.2, v4.2.1, hw.2.2.2]

theorem sphLength_ne (nrm : Normalization) (l : ℕ) : sphLength nrm l ≠ 0 := by
  have := Real.pi_pos
  cases nrm <;> simp only [sphLength, ne_eq] <;> first | positivity | (apply ne_of_gt; positivity)

/-- A product of a scalar `1` with a block of degree 1, component by component. -/
theorem scalar_times (p : Parity) (w : Fin 3 → ℝ) :
    bilinear (tpCoef (realCtx Col) .component ⟨0, .e⟩ ⟨1, p⟩ ⟨1, p⟩) ((realCtx Col).cg 0 1 1) 0 1 1 [1]
      (List.ofFn fun k : Fin 3 => (fun _ => w k : Col)) = List.ofFn fun k : Fin 3 => (fun _ => w k : Col) := by
  have h := bilinear_coefK (K := Col) (Real.sqrt 3) 0 1 1 (fun _ => 1) (fun k : Fin 3 => (fun _ => w k : Col))
  have hc : tpCoef (realCtx Col) .component ⟨0, .e⟩ ⟨1, p⟩ ⟨1, p⟩ = algebraMap ℝ Col (Real.sqrt 3) := by
    simp only [tpCoef, realCtx]; congr 2; norm_num
  rw [hc]
  refine Eq.trans (by simp) (h.trans ?_)
  congr 1
  funext c u
  have h3 : Real.sqrt 3 ≠ 0 := by positivity
  have hs : Real.sqrt (2 * ((1 : ℕ) : ℝ) + 1) = Real.sqrt 3 := by norm_num
  simp only [(C58_scalar 1 _ _ c).1, hs, Finset.univ_unique, Finset.sum_singleton, Finset.sum_apply, Pi.smul_apply, Pi.mul_apply, Pi.one_apply, one_mul,
    smul_eq_mul, mul_ite, mul_zero, ite_mul, zero_mul, Finset.sum_ite_eq', Finset.mem_univ, if_true]
  field_simp
  simp

/-- **C71 (the documented equivalence fails at zero).** For the input `1x0e` of value `1`, the zero vector and degree 1, the function returns, the
documented product returns, and the results differ. -/
theorem C71_zero_differs (halg : ∀ a, cfg = some a → AlgOk a) {input vector : IArr Col} (hx : input.Coherent) (hxi : input.irreps = [⟨1, ⟨0, .e⟩⟩])
    (hxa : input.array = [1]) (hv : vector.Coherent) {p : Parity} (hvi : vector.irreps = [⟨1, ⟨1, p⟩⟩]) (h0 : vec vector = 0) :
    ∃ y r, tpSH cfg nrm input vector 1 = .ok y ∧ documented cfg nrm true input vector 1 = .ok r ∧ y.irreps = r.irreps ∧ y.array ≠ r.array := by
  have hf : ∀ l, IsSphericalHarmonics (sphLength nrm l) l (Y nrm l) := fun l => Y_spec nrm l
  obtain ⟨z, c1, c2, c3, c4, -⟩ := (C12_from_array [⟨1, ⟨1, p⟩⟩] [(fun _ => 0 : Col), fun _ => 0, fun _ => 1]).1 (by simp [expand, dimOf, Irrep.dim])
  have hzv : vec z = ![0, 0, 1] := by
    funext k
    show z.array.getD k 0 () = _
    rw [c4]
    fin_cases k <;> rfl
  have hnz : (![0, 0, 1] : Fin 3 → ℝ) ≠ 0 := by intro e; simpa using congrFun e 2
  have hreg : input.irreps.regroup = .ok input.irreps := by
    rw [hxi]; exact regroup_of_sorted (by simp) (by simp)
  have hne : input.irreps ≠ [] := by rw [hxi]; simp
  obtain ⟨y, y', e1, e2, e3, e4⟩ := C71_zero (nrm := nrm) halg hx hne hv hvi h0 c2 c3 hzv 1
  obtain ⟨y'', r, g1, g2, g3, g4⟩ := C71_documented (nrm := nrm) halg hx hne hreg c2 c3 (by rw [hzv]; exact hnz) 1
  rw [e2] at g1; cases g1
  obtain ⟨s, s1, s2, s3, s4⟩ := sh_ok (nrm := nrm) halg hf c2 c3 1
  obtain ⟨s0, s1', s2', s3', s4'⟩ := sh_ok (nrm := nrm) halg hf hv hvi 1
  have hb : input.blocks = [(⟨0, .e⟩, [1])] := by
    unfold IArr.blocks; rw [hxi, hxa]; rfl
  have key : ∀ (w : IArr Col) (q : IArr Col), w.Coherent → ∀ v : Fin 3 → ℝ, w.blocks = (List.range (1 + 1)).map (fun l => (⟨l, p.pow l⟩, List.ofFn fun k => fun _ => Y nrm l v k)) →
      tensorProduct (realCtx Col) .component none true input w = .ok q →
      ∃ b0, q.blocks.Perm [(⟨0, .e⟩, b0), (⟨1, p⟩, List.ofFn fun k => (fun _ => Y nrm 1 v k : Col))] := by
    intro w q hw v hwb hq
    obtain ⟨q', q1, q2, -⟩ := C33_values (realCtx_shape Col) (n := .component) (by decide) none true input w hx hw
    rw [hq] at q1; cases q1
    rw [hb, hwb] at q2
    have i0 : irsOut none ⟨0, .e⟩ ⟨0, .e⟩ = [⟨0, .e⟩] := by decide
    have i1 : irsOut none ⟨0, .e⟩ ⟨1, p⟩ = [⟨1, p⟩] := by cases p <;> decide
    have hp : p.pow 1 = p := pow_odd p (by decide)
    have hp0 : p.pow 0 = .e := pow_even p (by decide)
    simp only [List.range_succ, List.range_zero, List.nil_append, List.map_cons, List.map_nil, List.cons_append, List.flatMap_cons, List.flatMap_nil, List.append_nil,
      hp, hp0, i0, i1, Nat.zero_add] at q2
    have e := scalar_times p (Y nrm 1 v)
    have q3 := q2
    erw [e] at q3
    exact ⟨_, q3⟩
  have t1 : tensorProduct (realCtx Col) .component none true input s = .ok r := by
    unfold documented at g2; simpa only [s1, bind, Except.bind] using g2
  obtain ⟨_, _, r0, _, _, _, _, _, m1, m2, _⟩ := tensorProduct_spec (realCtx_shape Col).ok (n := .component) (by decide) none true hx.inv s2'.inv
  obtain ⟨b, k1⟩ := key s r s2 _ s4 t1
  obtain ⟨b', k2⟩ := key s0 r0 s2' _ s4' m1
  have hz0 : point true (vec vector) = 0 := by rw [h0]; simp [point]
  have hz1 : point true (vec z) = ![0, 0, 1] := by rw [hzv]; simp [point]
  have hr0 : r.irreps = r0.irreps := C33_irreps_determined (realCtx_shape Col) (n := .component) (by decide) none input s input s0 r r0 hx s2 hx s2' t1 m1
    (.inl ⟨fun _ => rfl, fun ir => by rw [s3, s3']⟩)
  refine ⟨y, r0, e1, by unfold documented; simp only [s1', bind, Except.bind, m1], by rw [e3, g3, hr0], ?_⟩
  intro e
  have hbl : r.blocks = r0.blocks := by unfold IArr.blocks; rw [hr0, ← g4, ← e4, e]
  rw [hbl] at k1
  have hmem := k2.mem_iff.mp (k1.mem_iff.mpr (List.mem_cons_of_mem _ (List.mem_singleton.mpr rfl)))
  simp only [List.mem_cons, Prod.mk.injEq, Irrep.mk.injEq, one_ne_zero, false_and, List.not_mem_nil, or_false, true_and, false_or] at hmem
  have hY := List.ofFn_injective hmem
  have n1 := C48_norm nrm (hf 1) (point true (vec z))
  have n0 := C48_norm nrm (hf 1) (point true (vec vector))
  have : ∀ k, Y nrm 1 (point true (vec z)) k = Y nrm 1 (point true (vec vector)) k := fun k => congrFun (congrFun hY k) ()
  rw [Finset.sum_congr rfl fun k _ => by rw [this k], n0, hz0, hz1] at n1
  have h1 := sphLength_ne nrm 1
  simp at n1
  exact h1 (pow_eq_zero_iff (two_ne_zero) |>.mp n1.symm)

/-- **C71 (refusals).** Anything else than `1x1o` or `1x1e` is refused; an input without terms raises `UnboundLocalError`. -/
theorem C71_refuses (halg : ∀ a, cfg = some a → AlgOk a) (input vector : IArr Col) (degree : ℕ) :
    (vector.irreps ≠ [⟨1, ⟨1, .o⟩⟩] → vector.irreps ≠ [⟨1, ⟨1, .e⟩⟩] → tpSH cfg nrm input vector degree = .error .valueError) ∧
    (input.Coherent → input.irreps = [] → vector.Coherent → (∃ p, vector.irreps = [⟨1, ⟨1, p⟩⟩]) →
      tpSH cfg nrm input vector degree = .error .nameError) := by
  refine ⟨fun h1 h2 => ?_, fun hx he hv ⟨p, hvi⟩ => ?_⟩
  · unfold tpSH
    rw [if_pos (by simp [h1, h2])]
  · have hf : ∀ l, IsSphericalHarmonics (sphLength nrm l) l (Y nrm l) := fun l => Y_spec nrm l
    have hw : usedDirection (vec vector) ≠ 0 := by
      unfold usedDirection
      split
      · intro e; simpa using congrFun e 2
      · rename_i h
        intro e
        have := direction_unit h
        rw [e] at this
        simp [vnormSq] at this
    obtain ⟨v', a1, a2, a3, a4, -⟩ := (C12_from_array [⟨1, ⟨1, p⟩⟩] (List.ofFn fun k => (fun _ => usedDirection (vec vector) k : Col))).1
      (by simp [expand, dimOf, Irrep.dim])
    obtain ⟨s, s1, s2, s3, s4⟩ := sh_ok (nrm := nrm) halg hf a2 a3 degree
    have hv' : vec v' = usedDirection (vec vector) := by
      funext k; show v'.array.getD k 0 () = _; rw [a4, getD_ofFn]
    have hp : point true (vec v') = usedDirection (vec vector) := by
      have hu : vnormSq (usedDirection (vec vector)) = 1 := by
        unfold usedDirection
        split
        · simp [vnormSq]
        · rename_i h; exact direction_unit h
      rw [hv']
      unfold vnormSq at hu
      simp [point, hu]
    obtain ⟨y, t, r, y1, -⟩ := tpSH_spec halg hf hx hv hvi degree s2 s3 (by rw [s4, hp])
    rw [y1, if_pos he]

/-- The hypotheses of C71 are met: the input `1x0e + 2x1o`, the vectors `(1, 2, 3)` and zero, the default configuration. -/
example : ∃ input v z : IArr Col, input.Coherent ∧ input.irreps = [⟨1, ⟨0, .e⟩⟩, ⟨2, ⟨1, .o⟩⟩] ∧ input.irreps.regroup = .ok input.irreps ∧ input.irreps ≠ [] ∧
    v.Coherent ∧ v.irreps = [⟨1, ⟨1, .o⟩⟩] ∧ vec v ≠ 0 ∧ z.Coherent ∧ z.irreps = [⟨1, ⟨1, .o⟩⟩] ∧ vec z = 0 ∧
    (∀ a, (none : Option (List String)) = some a → AlgOk a) ∧ AlgOk ["recursive", "sparse", "custom_jvp"] := by
  obtain ⟨x, -, x2, x3, -⟩ := (C12_from_array (α := Col) [⟨1, ⟨0, .e⟩⟩, ⟨2, ⟨1, .o⟩⟩] [1, 2, 3, 4, 5, 6, 7]).1 (by decide)
  obtain ⟨v, -, v2, v3, v4, -⟩ := (C12_from_array (α := Col) [⟨1, ⟨1, .o⟩⟩] [1, 2, 3]).1 (by decide)
  obtain ⟨z, -, z2, z3, z4, -⟩ := (C12_from_array (α := Col) [⟨1, ⟨1, .o⟩⟩] [0, 0, 0]).1 (by decide)
  refine ⟨x, v, z, x2, x3, ?_, by rw [x3]; simp, v2, v3, ?_, z2, z3, ?_, by simp, by simp, by simp⟩
  · rw [x3]; exact regroup_of_sorted (by decide) (by decide)
  · intro e
    have := congrFun e 0
    unfold vec at this
    rw [v4] at this
    simp at this
  · funext k
    unfold vec
    rw [z4]
    fin_cases k <;> rfl

end E3nn.TPSH
