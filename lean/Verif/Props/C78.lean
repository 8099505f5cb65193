import Verif.Lemmas.S2Point

/-!
# C78: values at points, and rotations of signals
-/

namespace E3nn.S2

open E3nn.IArr E3nn.SH E3nn.Wig E3nn.Rot Matrix

variable {ι κ : Type}

/-- The evaluation of `to_s2point`: the entry of the row of a point and the column of a set of coefficients. -/
theorem to_point {cfg : Option (List String)} (hcfg : ∀ a, cfg = some a → AlgOk a) (nrm : Normalization) {n1 n2 : ℕ} {c : IArr (Fin n1 → ℝ)} (hc : c.Coherent)
    (hnd : (expand c.irreps).Nodup) {L : ℕ} (hL : IsLmax (expand c.irreps) L) {v a : Parity} (hp : SphereParity (expand c.irreps) v a)
    {pt : IArr (Fin n2 → ℝ)} (hpt : pt.Coherent) (hpi : pt.irreps = [⟨1, ⟨1, a⟩⟩]) {B : (l : ℕ) → (Fin 3 → ℝ) → Fin (2 * l + 1) → ℝ} (hB : IsBasis (basisLength nrm L) B) :
    ∃ y, toS2Point cfg nrm c pt = .ok y ∧ y.Coherent ∧ y.irreps = [⟨1, ⟨0, v⟩⟩] ∧
      y.array = [fun t => series B c.blocks (point true fun j => pt.array.getD j 0 t.divNat) t.modNat] := by
  obtain ⟨z, z1, z2, z3, z4, z5, z6, z7⟩ := regroup_unit hc
  have hone := z7.mpr hnd
  have hmem : ∀ ir, ir ∈ z.irreps.map (·.ir) ↔ ir ∈ expand c.irreps := fun ir => (mem_terms z5 ir).trans z4.mem_iff
  have hne : z.irreps ≠ [] := by
    rintro h0
    obtain ⟨ir, hir, -⟩ := hL.1
    have := (hmem ir).mpr hir
    rw [h0] at this; cases this
  have hck := (check_arg z.irreps v a).mpr ⟨(sphereParity_congr hmem v a).mpr hp, hne⟩
  obtain ⟨⟨sh, s1, s2, s3, s4⟩, -⟩ := C48_degrees (cfg := cfg) (algorithm := none) (by simpa using hcfg) (fun l => Y_spec .integral l) z.irreps.ls a pt hpt hpi true
  have hlm : sh.irreps.lmax = .ok L := by
    apply lmax_of
    have he : (expand sh.irreps).map Irrep.l = z.irreps.ls := by
      rw [← ls_eq, s3, ls_eq]
      unfold expand
      simp [List.flatMap_map, List.map_flatMap]
    have hm : ∀ l, (∃ ir ∈ expand sh.irreps, ir.l = l) ↔ ∃ ir ∈ expand c.irreps, ir.l = l := by
      intro l
      have h1 : (∃ ir ∈ expand sh.irreps, ir.l = l) ↔ l ∈ (expand sh.irreps).map Irrep.l := by simp
      rw [h1, he, ls_eq]
      simp only [List.mem_map, z4.mem_iff]
    refine ⟨(hm L).mpr hL.1, fun ir hir => ?_⟩
    obtain ⟨ir', h1, h2⟩ := (hm ir.l).mp ⟨ir, hir, rfl⟩
    rw [← h2]
    exact hL.2 ir' h1
  have hls : z.irreps.ls = z.blocks.map fun b => b.1.l := by
    rw [ls_eq, ← blocksOf_fst (expand z.irreps) z.array, List.map_map]; rfl
  have hlen : ∀ b ∈ z.blocks, b.2.length = 2 * b.1.l + 1 := fun b hb => blocksOf_row_length (expand z.irreps) z.array z2.array_length b hb
  obtain ⟨y, y1, y2, y3, y4, -⟩ := (C12_from_array [⟨1, ⟨0, v⟩⟩] [fun t : Fin (n2 * n1) => series B c.blocks (point true fun j => pt.array.getD j 0 t.divNat) t.modNat]).1 rfl
  refine ⟨y, ?_, y2, y3, y4⟩
  unfold toS2Point
  rw [z1]
  simp only [bind, Except.bind, hone, Bool.not_true, Bool.false_eq_true, if_false, hpi, hck, s1, hlm]
  rw [← y1]
  unfold IArr.ofArray
  congr 2
  funext t
  rw [← series_perm z3, ← Inv.array_eq_blocks z2.inv, ← List.flatMap_def]
  unfold scaleSh
  rw [s4, s3, hls, List.flatMap_map, List.map_map, List.flatMap_map]
  simp only [Function.comp_def, one_mul]
  have := dot_blocks z.blocks hlen (fun l k s => Y .integral l (point true fun j => pt.array.getD j 0 s) k) (normTo nrm L) t.divNat t.modNat
  refine this.trans ?_
  unfold series
  congr 1
  refine List.map_congr_left fun b hb => Finset.sum_congr rfl fun k _ => ?_
  rw [basis_eq hB]

/-- **C78 (`to_s2point`).** For coefficients of pairwise distinct irreps (in any order) whose parities are `p_val * p_arg ** l`, where `p_arg` is the parity of the point,
the result is the value of the series at the direction of the point, with the irreps `0e` or `0o` for the parity `p_val`.  When there is one set of coefficients, or one
point, the entry of the set `s` and the point `t` is at its documented place. -/
theorem C78_to_s2point {cfg : Option (List String)} (hcfg : ∀ a, cfg = some a → AlgOk a) (nrm : Normalization) {n1 n2 : ℕ} {c : IArr (Fin n1 → ℝ)} (hc : c.Coherent)
    (hnd : (expand c.irreps).Nodup) {L : ℕ} (hL : IsLmax (expand c.irreps) L) {v a : Parity} (hp : SphereParity (expand c.irreps) v a)
    {pt : IArr (Fin n2 → ℝ)} (hpt : pt.Coherent) (hpi : pt.irreps = [⟨1, ⟨1, a⟩⟩]) {B : (l : ℕ) → (Fin 3 → ℝ) → Fin (2 * l + 1) → ℝ} (hB : IsBasis (basisLength nrm L) B)
    (hn : n1 = 1 ∨ n2 = 1) :
    ∃ y, toS2Point cfg nrm c pt = .ok y ∧ y.Coherent ∧ y.irreps = [⟨1, ⟨0, v⟩⟩] ∧
      ∀ (s : Fin n1) (t : Fin n2) (k : Fin (n2 * n1)), (k : ℕ) = s * n2 + t → y.array.map (fun f => f k) = [series B c.blocks (point true fun j => pt.array.getD j 0 t) s] := by
  obtain ⟨y, y1, y2, y3, y4⟩ := to_point hcfg nrm hc hnd hL hp hpt hpi hB
  refine ⟨y, y1, y2, y3, fun s t k hk => ?_⟩
  rw [y4]
  simp only [List.map_cons, List.map_nil]
  have h1 : k.divNat = t := by
    apply Fin.ext
    change (k : ℕ) / n1 = t
    rcases hn with rfl | rfl
    · have h0 : (s : ℕ) = 0 := by have := s.2; omega
      rw [Nat.div_one, hk, h0]; omega
    · have := t.2; rw [hk]; have := s.2
      rw [Nat.div_eq_of_lt (by omega)]; omega
  have h2 : k.modNat = s := by
    apply Fin.ext
    change (k : ℕ) % n1 = s
    rcases hn with rfl | rfl
    · have := s.2; rw [Nat.mod_one]; omega
    · have := t.2; rw [hk]; have := s.2
      rw [Nat.mod_eq_of_lt (by omega)]; omega
  rw [h1, h2]

/-- **C78 (scrambled).** With several sets of coefficients and several points, the values are not at the documented places: the result has the shape `(*shape1, *shape2)` but is
filled with a row for each point.  Here for two sets of coefficients of `0e` and two points, the entry of the first set at the second point has the value of the second set. -/
theorem C78_scrambled {cfg : Option (List String)} (hcfg : ∀ a, cfg = some a → AlgOk a) :
    ∃ (c : IArr (Fin 2 → ℝ)) (pt : IArr (Fin 2 → ℝ)), c.Coherent ∧ pt.Coherent ∧ c.irreps = [⟨1, ⟨0, .e⟩⟩] ∧ pt.irreps = [⟨1, ⟨1, .o⟩⟩] ∧ ∃ y, toS2Point cfg .integral c pt = .ok y ∧
      ∀ B, IsBasis (basisLength .integral 0) B → ∃ (s t : Fin 2) (k : Fin (2 * 2)), (k : ℕ) = s * 2 + t ∧
        y.array.map (fun f => f k) ≠ [series B c.blocks (point true fun j => pt.array.getD j 0 t) s] := by
  obtain ⟨c, -, c2, c3, c4, -⟩ := (C12_from_array [⟨1, ⟨0, .e⟩⟩] [fun s : Fin 2 => (s : ℝ)]).1 rfl
  obtain ⟨pt, -, p2, p3, p4, -⟩ := (C12_from_array [⟨1, ⟨1, .o⟩⟩] [fun _ : Fin 2 => (1 : ℝ), fun _ => 0, fun _ => 0]).1 rfl
  have he : expand c.irreps = [⟨0, .e⟩] := by rw [c3]; rfl
  have hL : IsLmax (expand c.irreps) 0 := by rw [he]; exact ⟨⟨_, List.mem_cons_self, rfl⟩, by simp⟩
  have hpp : SphereParity (expand c.irreps) .e .o := by rw [he]; intro ir hir; simp at hir; subst hir; rfl
  obtain ⟨B0, hB0⟩ := basis_exists (basisLength .integral 0)
  obtain ⟨y, y1, -, -, y4⟩ := to_point hcfg .integral c2 (by rw [he]; simp) hL hpp p2 p3 hB0
  refine ⟨c, pt, c2, p2, c3, p3, y, y1, fun B hB => ⟨0, 1, 1, by decide, ?_⟩⟩
  have hBB : B = B0 := by funext l; exact C48_unique (hB l) (hB0 l)
  subst hBB
  rw [y4]
  simp only [List.map_cons, List.map_nil]
  have hbl : c.blocks = [(⟨0, .e⟩, [fun s : Fin 2 => (s : ℝ)])] := by unfold IArr.blocks; rw [he, c4]; rfl
  have hval : ∀ x, B 0 x 0 ≠ 0 := by
    intro x
    rw [basis_eq hB]
    have h1 : Y .integral 0 x 0 ^ 2 = sphLength .integral 0 ^ 2 := by
      have := C48_norm .integral (Y_spec .integral 0) x
      simpa using this
    have h2 : sphLength .integral 0 ≠ 0 := by unfold sphLength; positivity
    have h3 : Y .integral 0 x 0 ≠ 0 := by
      intro h; rw [h] at h1; exact h2 (pow_eq_zero_iff (two_ne_zero) |>.mp (by rw [← h1]; simp))
    exact mul_ne_zero (by unfold normTo; positivity) h3
  rw [hbl]
  have hmod : (Fin.modNat (m := 2) (n := 2) 1) = 1 := rfl
  simp [series, hmod]
  exact hval _

theorem check_arg_ok {ms : Irreps} {a : Parity} {r : Option Parity × Option Parity} (h : checkParities ms none (some a) = .ok r) : ∃ v, SphereParity (ms.map (·.ir)) v a := by
  have key : r = (none, none) ∨ ∃ v, r = (some v, some a) := by
    revert h
    unfold checkParities
    split
    · intro h; cases h
    · cases (paritiesOf ms 0).head? <;> cases (paritiesOf ms 1).head? <;> dsimp only
      · intro h; injection h with h; exact .inl h.symm
      · intro h; injection h with h; right; exact ⟨_, by rw [← h]; congr 2; rename_i o; cases o <;> cases a <;> rfl⟩
      · intro h; injection h with h; right; exact ⟨_, by rw [← h]; congr 2; rename_i o; cases o <;> cases a <;> rfl⟩
      · rename_i e o
        split
        · intro h; cases h
        · rename_i hq
          have hq : o = e.mul a := by simpa using hq
          subst hq
          intro h; injection h with h; right; exact ⟨_, by rw [← h]; congr 2; cases e <;> cases a <;> rfl⟩
  rcases key with rfl | ⟨v, rfl⟩
  · refine ⟨.e, ?_⟩
    rw [sphereParity_terms]
    revert h
    unfold checkParities
    split
    · intro h; cases h
    · rcases par_cases ms 0 with ⟨h, -⟩ | ⟨h, h'⟩ | ⟨p, h, -⟩
      · rename_i hc; simp at hc; omega
      · rcases par_cases ms 1 with ⟨g, -⟩ | ⟨g, g'⟩ | ⟨p, g, -⟩
        · rename_i hc; simp at hc; omega
        · exact fun _ => ⟨fun m hm hh => absurd hh (h' m hm), fun m hm hh => absurd hh (g' m hm)⟩
        · simp [h, g]
      · rcases par_cases ms 1 with ⟨g, -⟩ | ⟨g, g'⟩ | ⟨p, g, -⟩
        · rename_i hc; simp at hc; omega
        · simp [h, g]
        · simp only [h, g]
          simp
          split <;> simp
  · exact ⟨v, ((check_arg ms v a).mp h).1⟩

/-- **C78 (refusals).** Repeated irreps, a point whose irreps are not exactly one vector, and parities that are not `p_val * p_arg ** l` for the parity `p_arg` of the point
are refused (`ValueError`). -/
theorem C78_refuse (cfg : Option (List String)) (nrm : Normalization) {n1 n2 : ℕ} {c : IArr (Fin n1 → ℝ)} (hc : c.Coherent) (pt : IArr (Fin n2 → ℝ))
    (h : ¬ (expand c.irreps).Nodup ∨ (¬ ∃ a, pt.irreps = [⟨1, ⟨1, a⟩⟩]) ∨ ∃ a, pt.irreps = [⟨1, ⟨1, a⟩⟩] ∧ ¬ ∃ v, SphereParity (expand c.irreps) v a) :
    toS2Point cfg nrm c pt = .error .valueError := by
  obtain ⟨z, z1, z2, z3, z4, z5, z6, z7⟩ := regroup_unit hc
  have hmem : ∀ ir, ir ∈ z.irreps.map (·.ir) ↔ ir ∈ expand c.irreps := fun ir => (mem_terms z5 ir).trans z4.mem_iff
  unfold toS2Point
  rw [z1]
  simp only [bind, Except.bind]
  by_cases hone : (z.irreps.all fun m => m.mul == 1) = true
  swap
  · rw [if_pos (by simpa using hone)]
  rw [if_neg (by rw [hone]; simp)]
  have h := h.resolve_left (by simpa using z7.mp hone)
  rcases h with h | ⟨a, h1, h2⟩
  · split
    · rename_i a e
      exact absurd ⟨a, e⟩ h
    · rfl
  · simp only [h1]
    cases hk : checkParities z.irreps none (some a) with
    | error e =>
      have : e = .valueError := by
        revert hk
        unfold checkParities
        split
        · intro h; injection h with h; exact h.symm
        · dsimp only
          split <;> (try split) <;> intro h <;> first | cases h; rfl | cases h
      rw [this]
    | ok r =>
      exfalso
      apply h2
      obtain ⟨v, hv⟩ := check_arg_ok hk
      exact ⟨v, (sphereParity_congr hmem v a).mp hv⟩

theorem blocks_len {x : IArr (ι → ℝ)} (hx : x.Coherent) : ∀ b ∈ x.blocks, b.2.length = 2 * b.1.l + 1 := fun b hb =>
  blocksOf_row_length (expand x.irreps) x.array hx.array_length b hb

theorem blocks_fst (x : IArr (ι → ℝ)) : x.blocks.map Prod.fst = expand x.irreps := blocksOf_fst _ _

/-- The columns of a transformed vector. -/
theorem vec_rot {x x' : IArr (ι → ℝ)} (hx : x.Coherent) (hx' : x'.Coherent) {p : Parity} (hxi : x.irreps = [⟨1, ⟨1, p⟩⟩]) {R : Matrix (Fin 3) (Fin 3) ℝ}
    (hb' : x'.blocks = x.blocks.map fun b => (b.1, matVec (matRows (dMatrix b.1 R)) b.2)) (i : ι) :
    (fun j : Fin 3 => x'.array.getD j 0 i) = dMatrix ⟨1, p⟩ R *ᵥ fun j : Fin 3 => x.array.getD j 0 i := by
  obtain ⟨v, hv⟩ := exists_ofFn (vec_length hx hxi)
  have hb : x.blocks = [(⟨1, p⟩, List.ofFn v)] := by
    unfold IArr.blocks; rw [hxi, hv]; simp [expand, blocksOf]
  have h' : x'.array = List.ofFn fun i => ∑ j, dMatrix ⟨1, p⟩ R i j • v j := by
    rw [← hx'.inv.array_eq_blocks, hb', hb]
    simp only [List.map_cons, List.map_nil, List.flatMap_cons, List.flatMap_nil, List.append_nil]
    exact matVec_ofFn (dMatrix ⟨1, p⟩ R) v
  funext j
  rw [h', hv, getD_ofFn]
  simp only [getD_ofFn]
  simp [Matrix.mulVec, dotProduct]

/-- **C78 (equivariance of `to_s2point`).** For every orthogonal matrix (rotations and reflections), the value of the transformed coefficients at the transformed point is the transformed
value: the value itself for `p_val = 1`, times the determinant for `p_val = -1`. -/
theorem C78_point_equivariant {cfg : Option (List String)} (hcfg : ∀ a, cfg = some a → AlgOk a) (nrm : Normalization) {n1 n2 : ℕ} {c : IArr (Fin n1 → ℝ)} (hc : c.Coherent)
    (hnd : (expand c.irreps).Nodup) (hne : expand c.irreps ≠ []) {v a : Parity} (hp : SphereParity (expand c.irreps) v a)
    {pt : IArr (Fin n2 → ℝ)} (hpt : pt.Coherent) (hpi : pt.irreps = [⟨1, ⟨1, a⟩⟩]) {R : Matrix (Fin 3) (Fin 3) ℝ} (hR : R * Rᵀ = 1) :
    ∃ y c' pt' y' z, toS2Point cfg nrm c pt = .ok y ∧ c.transformByMatrix R = .ok c' ∧ pt.transformByMatrix R = .ok pt' ∧ toS2Point cfg nrm c' pt' = .ok y' ∧
      y.transformByMatrix R = .ok z ∧ y'.irreps = z.irreps ∧ y'.array = z.array := by
  obtain ⟨L, hL⟩ : ∃ L, IsLmax (expand c.irreps) L := by
    obtain ⟨L, hL⟩ : ∃ L, ((expand c.irreps).map Irrep.l).max? = some L := by
      cases h : ((expand c.irreps).map Irrep.l).max? with
      | none => rw [List.max?_eq_none_iff] at h; simp at h; exact absurd h hne
      | some L => exact ⟨L, rfl⟩
    rw [List.max?_eq_some_iff] at hL
    refine ⟨L, ?_, fun ir hir => hL.2 _ (List.mem_map.mpr ⟨ir, hir, rfl⟩)⟩
    obtain ⟨ir, hir, e⟩ := List.mem_map.mp hL.1
    exact ⟨ir, hir, e⟩
  obtain ⟨B, hB⟩ := basis_exists (basisLength nrm L)
  obtain ⟨c', c1, c2, c3, -, c5⟩ := C59_transform R c hc
  obtain ⟨pt', p1, p2, p3, -, p5⟩ := C59_transform R pt hpt
  obtain ⟨y, y1, y2, y3, y4⟩ := to_point hcfg nrm hc hnd hL hp hpt hpi hB
  obtain ⟨y', w1, w2, w3, w4⟩ := to_point hcfg nrm c2 (by rw [c3]; exact hnd) (by rw [c3]; exact hL) (by rw [c3]; exact hp) p2 (by rw [p3]; exact hpi) hB
  obtain ⟨z, z1, z2, z3, -, z5⟩ := C59_transform R y y2
  refine ⟨y, c', pt', y', z, y1, c1, p1, w1, z1, by rw [w3, z3, y3], ?_⟩
  rw [← z2.inv.array_eq_blocks, z5, w4]
  have hyb : y.blocks = [(⟨0, v⟩, y.array)] := by
    unfold IArr.blocks; rw [y3, y4]; simp [expand, blocksOf]
  have := Activ.DR_scalar (show IsOrth R from hR) v (fun t : Fin (n2 * n1) => series B c.blocks (point true fun j => pt.array.getD j 0 t.divNat) t.modNat)
  rw [hyb, y4]
  simp only [List.map_cons, List.map_nil, List.flatten_cons, List.flatten_nil, List.append_nil]
  refine Eq.trans ?_ this.symm
  congr 1
  funext t
  rw [vec_rot hpt p2 hpi p5, point_rot true (C39_orthogonal ⟨1, a⟩ hR).1, c5, series_rot hB hR c.blocks (by rw [blocks_fst]; exact hp) (blocks_len hc)]
  rfl

/-- **C78 (rotation of signals).** Transforming a band-limited signal with `transform_by_matrix(R, lmax)` gives the signal `x ↦ ± f(R'⁻¹ x)`, cut to the degrees up to `lmax`, on the same grid, with the same parities: `R'` is the matrix by which
`R` acts on the argument (`R` for `p_arg = -1`, `det R * R` for `p_arg = 1`), and the sign is that by which `R` acts on the value (`1` for `p_val = 1`, `det R` for `p_val = -1`). -/
theorem C78_transform {lg : LegGauss} (hlg : GaussLegendre lg) (x : Signal ι) {y w : Fin x.resBeta → ℝ} (hq : quadratureWeights lg x.quad x.resBeta = .ok (y, w)) (hrb : 0 < x.resBeta)
    {B : (l : ℕ) → (Fin 3 → ℝ) → Fin (2 * l + 1) → ℝ} {L' : ℕ} (hB : IsBasis (basisLength .integral L') B) (bs : List (Irrep × List (ι → ℝ)))
    (hx : ∀ b a i, x.values b a i = series B bs (gridVector (y b) (gridAlpha x.resAlpha a)) i) (lmax : ℕ)
    (hl : ∀ b ∈ bs, b.1.l + lmax ≤ gridDegree x.quad x.resBeta ∧ b.1.l + lmax < x.resAlpha) (hra : x.resAlpha % 2 = 1 ∧ 2 * lmax + 1 ≤ x.resAlpha)
    {R : Matrix (Fin 3) (Fin 3) ℝ} (hR : R * Rᵀ = 1) :
    transformSignal lg (fun c => c.transformByMatrix R) x lmax =
      .ok ⟨x.resBeta, x.resAlpha, fun b j i => Activ.scalarSign R x.pVal * series B (bs.filter fun b => b.1.l ≤ lmax) ((dMatrix ⟨1, x.pArg⟩ R)ᵀ *ᵥ gridVector (y b) (gridAlpha x.resAlpha j)) i, x.quad, x.pVal, x.pArg⟩ := by
  obtain ⟨-, s1, s2, s3⟩ := C77_s2_irreps lmax x.pVal x.pArg
  obtain ⟨c, c1, c2, c3, c4⟩ := C77_band_limited hlg .integral true none x s2 s3 s1 hq hrb (fun _ => by omega) hB bs hx (by omega) hl
  obtain ⟨d, d1, d2, d3, -, d5⟩ := C59_transform R c c2
  have hb : IsBasis (basisLength .integral lmax) B := hB
  have hpc : SphereParity (expand c.irreps) x.pVal x.pArg := by rw [c3]; exact sphereParity_expand s1
  rw [← c3, ← d3] at s1 s2 s3
  have ht := C76_to_s2grid hlg .integral true d2 s3 s2 (sphereParity_expand s1) (.inl ⟨rfl, rfl⟩) x.resAlpha hq (fun _ => hra) hb
  unfold transformSignal
  rw [c1]
  change (Except.bind (c.transformByMatrix R) _ : Except PyErr _) = _
  rw [d1]
  refine ht.trans ?_
  congr 2
  funext b j i
  have ho := (C39_orthogonal ⟨1, x.pArg⟩ hR).1
  have hg : gridVector (y b) (gridAlpha x.resAlpha j) = dMatrix ⟨1, x.pArg⟩ R *ᵥ ((dMatrix ⟨1, x.pArg⟩ R)ᵀ *ᵥ gridVector (y b) (gridAlpha x.resAlpha j)) := by
    rw [Matrix.mulVec_mulVec, ho, Matrix.one_mulVec]
  rw [d5]
  conv_lhs => rw [hg]
  rw [series_rot hb hR c.blocks (by rw [blocks_fst]; exact hpc) (blocks_len c2)]
  congr 1
  rw [c4, expand_s2, List.map_map]
  simp only [ratio, one_mul]
  exact series_coeffs bs (fun l => ⟨l, x.pVal.mul (x.pArg.pow l)⟩) (fun _ => rfl) lmax _ i

/-- **C78 (other parametrisations).** Transforming by Euler angles, by a unit quaternion, or by an angle around a unit axis, is transforming by the matrix of that rotation. -/
theorem C78_parametrisations (lg : LegGauss) (x : Signal ι) (lmax : ℕ) :
    (∀ a b c : Angle, transformSignal lg (fun z => z.transformByAngles a b c 0 false) x lmax = transformSignal lg (fun z => z.transformByMatrix (anglesToMatrix a.val b.val c.val)) x lmax) ∧
    (∀ q : Fin 4 → ℝ, qnormSq q = 1 → transformSignal lg (fun z => z.transformByQuaternion q 0) x lmax = transformSignal lg (fun z => z.transformByMatrix (quaternionToMatrix q)) x lmax) ∧
    (∀ (n : Fin 3 → ℝ) (t : ℝ), vnormSq n = 1 → transformSignal lg (fun z => z.transformByAxisAngle n t 0) x lmax = transformSignal lg (fun z => z.transformByMatrix (axisAngleToMatrix n t)) x lmax) := by
  refine ⟨fun a b c => ?_, fun q hq => ?_, fun n t hn => ?_⟩
  · congr 1; funext z; have := (C59_angles a b c 0 z).1; simpa using this
  · congr 1; funext z; have := C59_quaternion hq 0 z; simpa using this
  · congr 1; funext z; have := C59_axis_angle hn t 0 z; simpa using this

/-- The hypotheses of `C78_transform` are met: the signal of coefficients of `0e + 1o` on a grid of `4` by `3`, turned by a reflection. -/
example {lg : LegGauss} (hlg : GaussLegendre lg) :
    ∃ (s t : Signal Unit) (R : Matrix (Fin 3) (Fin 3) ℝ), R.det = -1 ∧ s.pVal = .e ∧ s.pArg = .o ∧ s.resBeta = 4 ∧ s.resAlpha = 3 ∧ transformSignal lg (fun c => c.transformByMatrix R) s 1 = .ok t := by
  obtain ⟨c, -, h2, h3, -, -, -⟩ := (C12_from_array [⟨1, ⟨1, .o⟩⟩, ⟨1, ⟨0, .e⟩⟩] [fun _ : Unit => (1 : ℝ), fun _ => 2, fun _ => 3, fun _ => 4]).1 (by decide)
  obtain ⟨B, hB⟩ := basis_exists (basisLength .integral 1)
  have he : expand c.irreps = [⟨1, .o⟩, ⟨0, .e⟩] := by rw [h3]; rfl
  have hq : quadratureWeights lg .soft 4 = .ok (fun i : Fin 4 => -Real.cos ((i + 0.5) / (4 : ℕ) * Real.pi), fun i : Fin 4 => softWeight 4 i / 2) := by unfold quadratureWeights; simp
  have hdet : (-1 : Matrix (Fin 3) (Fin 3) ℝ).det = -1 := by rw [Matrix.det_neg]; simp; norm_num
  have hx := C78_transform hlg (⟨4, 3, fun b j i => series B c.blocks (gridVector (-Real.cos (((b : Fin 4) + 0.5) / (4 : ℕ) * Real.pi)) (gridAlpha 3 j)) i, .soft, .e, .o⟩ : Signal Unit) hq (by show 0 < 4; decide) hB c.blocks
    (fun _ _ _ => rfl) 1 ?_ (by show 3 % 2 = 1 ∧ 2 * 1 + 1 ≤ 3; decide) (R := -1) (by simp)
  · exact ⟨_, _, _, hdet, rfl, rfl, rfl, rfl, hx⟩
  · intro b hb
    have : b.1 ∈ expand c.irreps := by rw [← blocks_fst]; exact List.mem_map.mpr ⟨b, hb, rfl⟩
    rw [he] at this
    simp at this
    rcases this with h | h <;> rw [h]
    · show 1 + 1 ≤ 3 ∧ 1 + 1 < 3; decide
    · show 0 + 1 ≤ 3 ∧ 0 + 1 < 3; decide

end E3nn.S2
