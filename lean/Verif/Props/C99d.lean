import Verif.Props.C99c

/-!
# C99: the value of `LinearSHTP(mix=True)` for a direction along the second axis
-/

namespace E3nn.LSH

open E3nn.IArr E3nn.Rot E3nn.Wig E3nn.SU2 E3nn.SH E3nn.TPSH Matrix

theorem condS_reach (p : Parity) (irx irz : Irrep) : condS p irx irz ↔ Reach p irx irz 0 := by
  unfold condS Reach
  constructor
  · intro h
    refine ⟨irx.l + irz.l, by simp, by simp, by omega, by omega, le_refl _, ?_⟩
    rw [pow_mod, h]
    cases irx.p <;> cases irz.p <;> rfl
  · rintro ⟨ly, -, h1, -, -, -, h2⟩
    rw [show (irx.l + irz.l) % 2 = ly % 2 by omega, ← pow_mod]
    exact (par_eq _ _ _).mpr h2

theorem condA_reach (p : Parity) (irx irz : Irrep) : condA p irx irz ↔ Reach p irx irz 1 := by
  unfold condA Reach
  constructor
  · rintro ⟨h, h0⟩
    refine ⟨irx.l + irz.l - 1, by rw [List.mem_range]; omega, by omega, by omega, by omega, by omega, ?_⟩
    rw [pow_mod, show (irx.l + irz.l - 1) % 2 = (irx.l + irz.l + 1) % 2 by omega, h]
    cases irx.p <;> cases irz.p <;> rfl
  · rintro ⟨ly, -, h1, h3, h4, h5, h2⟩
    refine ⟨?_, by omega⟩
    rw [show (irx.l + irz.l + 1) % 2 = ly % 2 by omega, ← pow_mod]
    exact (par_eq _ _ _).mpr h2

theorem addRow_getD {a b : List Col} (h : a.length = b.length) (k : ℕ) : (addRow a b).getD k 0 = a.getD k 0 + b.getD k 0 := by
  unfold addRow
  by_cases hk : k < a.length
  · rw [List.getD_eq_getElem _ 0 (by simp; omega), List.getElem_zipWith, List.getD_eq_getElem _ 0 hk, List.getD_eq_getElem _ 0 (by omega)]
  · rw [List.getD_eq_default _ _ (by simp; omega), List.getD_eq_default _ _ (by omega), List.getD_eq_default _ _ (by omega), add_zero]

theorem sumRows_getD {n : ℕ} {ls : List (List Col)} (hl : ∀ r ∈ ls, r.length = n) (k : ℕ) : (sumRows n ls).getD k 0 = (ls.map fun r => r.getD k 0).sum := by
  unfold sumRows
  have : ∀ (a : List Col), a.length = n → ∀ ls : List (List Col), (∀ r ∈ ls, r.length = n) → (ls.foldl addRow a).getD k 0 = a.getD k 0 + (ls.map fun r => r.getD k 0).sum := by
    intro a ha ls
    induction ls generalizing a with
    | nil => intro _; simp
    | cons r ls ih =>
      intro hl
      have hr := hl r (by simp)
      rw [List.foldl_cons, ih (addRow a r) (by simp [addRow, ha, hr]) (fun r' h' => hl r' (List.mem_cons_of_mem _ h')), addRow_getD (by rw [ha, hr]), List.map_cons, List.sum_cons, add_assoc]
  rw [this _ (by simp) ls hl]
  have : (List.replicate n (0 : Col)).getD k 0 = 0 := by simp [List.getD, List.getElem?_replicate]; split <;> rfl
  rw [this, zero_add]

theorem fold_ent {N W : ℕ} (z : List (List Col)) (hz : Shape N W z) (zs : List (List (List Col))) (h : ∀ z ∈ zs, Shape N W z) {v : ℕ} (hv : v < N) (k : ℕ) :
    ent (zs.foldl (fun a b => List.zipWith addRow a b) z) v k = ((z :: zs).map fun z => ent z v k).sum := by
  induction zs generalizing z with
  | nil => simp
  | cons z' zs ih =>
    have hz' := h z' (by simp)
    rw [List.foldl_cons, ih (List.zipWith addRow z z') (zipWith_shape hz hz') fun z'' h' => h z'' (List.mem_cons_of_mem _ h')]
    simp only [List.map_cons, List.sum_cons]
    rw [← add_assoc]
    congr 1
    unfold ent
    have e1 : v < z.length := by rw [hz.1]; exact hv
    have e2 : v < z'.length := by rw [hz'.1]; exact hv
    rw [List.getD_eq_getElem (List.zipWith _ _ _) [] (by simp; omega), List.getElem_zipWith, addRow_getD (by rw [hz.2 _ (List.getElem_mem _), hz'.2 _ (List.getElem_mem _)]),
      List.getD_eq_getElem z [] e1, List.getD_eq_getElem z' [] e2]

/-- The value of a symmetric path. -/
theorem MS_row (lx lz : ℕ) (w : ℕ → ℝ) {r : List Col} (hr : r.length = 2 * lx + 1) {k : ℕ} (hk : k < 2 * lz + 1) :
    (matVec (matRows (MS lx lz w)) r).getD k 0 () = if lz ≤ k + lx ∧ k ≤ lz + lx then w (dist k lz) * r.getD (k + lx - lz) 0 () else 0 := by
  obtain ⟨f, rfl⟩ := exists_ofFn hr
  have e := getD_ofFn (fun i => ∑ j, MS lx lz w i j • f j) (0 : Col) ⟨k, hk⟩
  rw [matVec_ofFn, e]
  simp only [Finset.sum_apply, Pi.smul_apply, smul_eq_mul]
  unfold MS
  split
  · rename_i h
    rw [Finset.sum_eq_single (⟨k + lx - lz, by omega⟩ : Fin (2 * lx + 1))]
    · have hg := getD_ofFn f (0 : Col) ⟨k + lx - lz, by omega⟩
      simp only at hg
      rw [if_pos (by simp only; omega), hg]
      rfl
    · intro j _ hj
      rw [if_neg, zero_mul]
      intro e'
      apply hj
      apply Fin.ext
      simp only at e' ⊢
      omega
    · intro h'; exact absurd (Finset.mem_univ _) h'
  · rename_i h
    apply Finset.sum_eq_zero
    intro j _
    have := j.isLt
    rw [if_neg (by simp only; omega), zero_mul]

/-- The value of an antisymmetric path. -/
theorem MA_row (lx lz : ℕ) (w : ℕ → ℝ) {r : List Col} (hr : r.length = 2 * lx + 1) {k : ℕ} (hk : k < 2 * lz + 1) :
    (matVec (matRows (MA lx lz w)) r).getD k 0 () =
      if lz ≤ k + lx ∧ k ≤ lz + lx ∧ k ≠ lz then (if k < lz then -w (dist k lz) else w (dist k lz)) * r.getD (lx + lz - k) 0 () else 0 := by
  obtain ⟨f, rfl⟩ := exists_ofFn hr
  have e := getD_ofFn (fun i => ∑ j, MA lx lz w i j • f j) (0 : Col) ⟨k, hk⟩
  rw [matVec_ofFn, e]
  simp only [Finset.sum_apply, Pi.smul_apply, smul_eq_mul]
  unfold MA
  by_cases h : lz ≤ k + lx ∧ k ≤ lz + lx ∧ k ≠ lz
  · rw [if_pos h, Finset.sum_eq_single (⟨lx + lz - k, by omega⟩ : Fin (2 * lx + 1))]
    · have hg := getD_ofFn f (0 : Col) ⟨lx + lz - k, by omega⟩
      simp only at hg
      rw [if_pos (by simp only; omega), hg]
      simp only [h.2.2, if_false]
      rfl
    · intro j _ hj
      rw [if_neg, zero_mul]
      intro e'
      apply hj
      apply Fin.ext
      simp only at e' ⊢
      omega
    · intro h'; exact absurd (Finset.mem_univ _) h'
  · rw [if_neg h]
    apply Finset.sum_eq_zero
    intro j _
    have := j.isLt
    simp only
    by_cases h1 : k + j.val = lx + lz
    · rw [if_pos h1, if_neg (by omega), if_pos (by omega), zero_mul]
    · rw [if_neg h1, zero_mul]

theorem pathRows_ent (mz : MulIrrep) (lx : ℕ) (M : ℕ → ℕ → Matrix (Fin (2 * mz.ir.l + 1)) (Fin (2 * lx + 1)) ℝ) (rows : List (List Col)) {v : ℕ} (hv : v < mz.mul) (k : ℕ) :
    ent (pathRows mz lx M rows) v k () = (rows.zipIdx.map fun ru => (matVec (α := Col) (matRows (M ru.2 v)) ru.1).getD k 0 ()).sum := by
  unfold ent pathRows
  rw [List.getD_eq_getElem (List.map _ _) [] (by simpa using hv), List.getElem_map, List.getElem_range, sumRows_getD]
  · rw [List.map_map]
    have : ∀ L : List Col, L.sum () = (L.map fun c => c ()).sum := by
      intro L; induction L with
      | nil => rfl
      | cons a L ih => simp only [List.sum_cons, List.map_cons, Pi.add_apply, ih]
    rw [this, List.map_map]; rfl
  · intro r hr
    obtain ⟨q, -, rfl⟩ := List.mem_map.mp hr
    rw [matVec_length]; simp [matRows]

/-- The contribution of a term of the input to the component `k` of the copy `v` of `irz`, for a direction along the second axis: the component of order `m` of the output is
the sum of the component of order `m` of the input times a weight that depends on `|m|`, and of the component of order `-m` times a weight that depends on `|m|` and that changes sign with `m`. -/
noncomputable def polar (p : Parity) (wS wA : ℕ → ℕ → ℝ) (irz : Irrep) (m : MulIrrep) (row : ℕ → ℕ → ℝ) (k : ℕ) : ℝ :=
  ∑ u ∈ Finset.range m.mul,
    ((if Reach p m.ir irz 0 ∧ irz.l ≤ k + m.ir.l ∧ k ≤ irz.l + m.ir.l then wS (dist k irz.l) u * row u (k + m.ir.l - irz.l) else 0) +
     (if Reach p m.ir irz 1 ∧ irz.l ≤ k + m.ir.l ∧ k ≤ irz.l + m.ir.l ∧ k ≠ irz.l then
       (if k < irz.l then -wA (dist k irz.l - 1) u else wA (dist k irz.l - 1) u) * row u (m.ir.l + irz.l - k) else 0))

theorem sum_zipIdx {β : Type} (L : List β) (f : β → ℕ → ℝ) (d : β) : (L.zipIdx.map fun q => f q.1 q.2).sum = ∑ u ∈ Finset.range L.length, f (L.getD u d) u := by
  have : ∀ (L : List β) (n : ℕ), ((L.zipIdx n).map fun q => f q.1 q.2).sum = ∑ u ∈ Finset.range L.length, f (L.getD u d) (u + n) := by
    intro L
    induction L with
    | nil => intro n; simp
    | cons a L ih =>
      intro n
      rw [List.zipIdx_cons, List.map_cons, List.sum_cons, ih, List.length_cons, Finset.sum_range_succ', add_comm]
      congr 1
      · apply Finset.sum_congr rfl
        intro u _
        rw [List.getD_cons_succ]
        congr 1; omega
      · simp
  simpa using this L 0

theorem mixOne_ent (par : Params) (p : Parity) (iz : ℕ) (mz : MulIrrep) (ix : ℕ) (m : MulIrrep) {rows : List (List Col)} (hl : rows.length = m.mul)
    (h : ∀ r ∈ rows, r.length = 2 * m.ir.l + 1) {v : ℕ} (hv : v < mz.mul) {k : ℕ} (hk : k < 2 * mz.ir.l + 1) :
    ((mixOne par p iz mz ix m (some rows)).map fun z => ent z.1 v k ()).sum =
      polar p (fun i u => par ix iz false i u v) (fun i u => par ix iz true i u v) mz.ir m (fun u i => (rows.getD u []).getD i 0 ()) k := by
  have hrow : ∀ u < m.mul, (rows.getD u []).length = 2 * m.ir.l + 1 := by
    intro u hu
    rw [List.getD_eq_getElem rows [] (by omega)]
    exact h _ (List.getElem_mem _)
  rw [mixOne_some par p iz mz ix m h, List.map_append, List.sum_append]
  unfold polar
  rw [Finset.sum_add_distrib]
  congr 1
  · by_cases hc : condS p m.ir mz.ir
    · rw [if_pos hc, List.map_cons, List.map_nil, List.sum_cons, List.sum_nil, add_zero, pathRows_ent mz m.ir.l _ rows hv,
        sum_zipIdx rows (fun r u => (matVec (α := Col) (matRows (MS m.ir.l mz.ir.l fun i => par ix iz false i u v)) r).getD k 0 ()) [], hl]
      apply Finset.sum_congr rfl
      intro u hu
      rw [MS_row m.ir.l mz.ir.l _ (hrow u (Finset.mem_range.mp hu)) hk]
      simp only [(condS_reach p m.ir mz.ir).mp hc, true_and]
    · rw [if_neg hc]
      simp only [List.map_nil, List.sum_nil]
      symm
      apply Finset.sum_eq_zero
      intro u _
      rw [if_neg]
      rintro ⟨h', -⟩
      exact hc ((condS_reach _ _ _).mpr h')
  · by_cases hc : condA p m.ir mz.ir
    · rw [if_pos hc, List.map_cons, List.map_nil, List.sum_cons, List.sum_nil, add_zero, pathRows_ent mz m.ir.l _ rows hv,
        sum_zipIdx rows (fun r u => (matVec (α := Col) (matRows (MA m.ir.l mz.ir.l fun i => par ix iz true (i - 1) u v)) r).getD k 0 ()) [], hl]
      apply Finset.sum_congr rfl
      intro u hu
      rw [MA_row m.ir.l mz.ir.l _ (hrow u (Finset.mem_range.mp hu)) hk]
      simp only [(condA_reach p m.ir mz.ir).mp hc, true_and]
    · rw [if_neg hc]
      simp only [List.map_nil, List.sum_nil]
      symm
      apply Finset.sum_eq_zero
      intro u _
      rw [if_neg]
      rintro ⟨h', -⟩
      exact hc ((condA_reach _ _ _).mpr h')

theorem flatMap_sum {α : Type} (L : List α) {β : Type} (g : α → List β) (f : β → ℝ) : ((L.flatMap g).map f).sum = (L.map fun a => ((g a).map f).sum).sum := by
  induction L with
  | nil => rfl
  | cons a L ih => rw [List.flatMap_cons, List.map_append, List.sum_append, ih, List.map_cons, List.sum_cons]

/-- **C99 (the value).** The value of `LinearSHTP` (`mix=True`) with one term in `irreps_out`, for a direction along the second axis.  Together with `C99_linear_equivariant` and
`C99_direction` this determines the result for all directions. -/
theorem C99_mix_value (par : Params) (mz : MulIrrep) (hmz : 0 < mz.mul) {p : Parity} {d x y : IArr Col} (hd : d.Coherent) (hdi : d.irreps = [⟨1, ⟨1, p⟩⟩])
    (hx : x.Coherent) (hnz : ∀ c ∈ x.chunks, c ≠ none) {s : ℝ} (hs : 0 < s) (hda : d.array = [fun _ => 0, fun _ => s, fun _ => 0])
    (hy : linearSHTP par [mz] true x d = .ok y) {v : ℕ} (hv : v < mz.mul) {k : ℕ} (hk : k < 2 * mz.ir.l + 1) :
    y.irreps = [mz] ∧ y.array.getD (v * (2 * mz.ir.l + 1) + k) 0 () =
      ((x.irreps.zip x.chunks).zipIdx.map fun q => polar p (fun i u => par q.2 0 false i u v) (fun i u => par q.2 0 true i u v) mz.ir q.1.1
        (fun u i => ((q.1.2.getD []).getD u []).getD i 0 ()) k).sum /
      Real.sqrt ((x.irreps.map fun m => m.mul * ((if Reach p m.ir mz.ir 0 then 1 else 0) + (if Reach p m.ir mz.ir 1 then 1 else 0))).sum : ℕ) := by
  obtain ⟨Q, hQ, hQd, hQs⟩ := frame_spec (good_linear par [mz] true) hd hdi
  obtain ⟨P, hP1, hP2, hP3, hP4, he, ho⟩ := hQs x hx
  simp only [if_true] at he ho
  have hud : usedDirection (vec d) = ![0, 1, 0] := by
    have e : vec d = ![0, s, 0] := by
      funext k; unfold TPSH.vec; rw [hda]; fin_cases k <;> rfl
    have hn : vec d ≠ 0 := by
      intro e'
      have := congrFun e' 1
      rw [e] at this
      simp at this
      exact hs.ne' this
    unfold usedDirection
    rw [if_neg hn, e]
    funext k
    unfold direction vnormSq
    have : (![0, s, 0] : Fin 3 → ℝ) 0 ^ 2 + (![0, s, 0] : Fin 3 → ℝ) 1 ^ 2 + (![0, s, 0] : Fin 3 → ℝ) 2 ^ 2 = s ^ 2 := by simp
    rw [this, Real.sqrt_sq hs.le]
    fin_cases k <;> simp [hs.ne']
  rw [hud] at hQd
  have hstab : Stab p Q := ⟨hQ.1, by rw [dMatrix_one p hQ, hQd]⟩
  have hpairs := hx.inv.pairs
  have hfull : Full (x.irreps.zip x.chunks) := by
    intro q hq
    exact hnz _ (List.of_mem_zip hq).2
  have bl : ∀ b ∈ x.blocks, b.2.length = b.1.dim := fun b hb => block_length hx hb
  have hPx : actP Q P = x.irreps.zip x.chunks := by
    apply pairs_of_blk (actP_shaped _ hP1) hpairs.1 (actP_full _ hP2) hfull (by rw [actP_fst, hP3, hpairs.2.1])
    rw [actP_blk _ hP1 hP2, hP4, ← act_mul hQ.1 (transpose_orth hQ.1) bl, hQ.1, act_one bl, hx.inv.blocks_pairs]
  have hact := (mixEntries_act par [mz] hstab hP1).1
  rw [hPx] at hact
  cases hm : mixEntries par [mz] p P with
  | error e => rw [linearSHTP] at hy; simp only [if_true] at hy; rw [he e hm] at hy; cases hy
  | ok es =>
    rw [hm] at hact
    obtain ⟨u, rg, y', -, hu, hui, hub, hrr, hrc, hy', hyc, hyi, hyb⟩ := ho es hm
    have : y = y' := by rw [linearSHTP] at hy; simp only [if_true] at hy; rw [hy] at hy'; exact Except.ok.inj hy'
    subst this
    obtain ⟨r', hr', -, hperm, -, hfil, hri⟩ := C17_regroup u hu
    have : rg = r' := by rw [hrr] at hr'; exact Except.ok.inj hr'
    subst this
    obtain ⟨he1, he2, he3⟩ := (mixEntries_act par [mz] hstab hP1).2 es hm
    obtain ⟨e0, rfl⟩ : ∃ e0, es = [e0] := by
      cases es with
      | nil => simp at he3
      | cons q P => cases P with
        | nil => exact ⟨q, rfl⟩
        | cons a b => simp at he3
    simp only [List.map_cons, List.map_nil, List.cons.injEq, and_true] at he3
    obtain ⟨m0, c0⟩ := e0
    simp only at he3
    subst he3
    cases c0 with
    | none => exact absurd rfl (he2 _ List.mem_cons_self)
    | some rows0 =>
      have hir : y.irreps = [m0] := by
        rw [hyi]
        obtain ⟨g, hg, hg1, hg2, hg3⟩ := C07_regroup_spec u.irreps
        rw [hui] at hri
        have h1 : Irreps.regroup [m0] = .ok [m0] := by
          obtain ⟨g, hg, hg1, hg2, hg3⟩ := C07_regroup_spec [m0]
          rw [hg]
          congr 1
          refine Irreps.eq_of_count hg1 (by simp) hg2 (by simp [hmz]) hg3
        rw [List.map_cons, List.map_nil] at hri
        rw [h1] at hri
        exact (Except.ok.inj hri).symm
      refine ⟨hir, ?_⟩
      have hall : ∀ b ∈ u.blocks, b.1 = m0.ir := by
        rw [hub, List.flatMap_cons, List.flatMap_nil, List.append_nil, blk_some (he1 _ List.mem_cons_self)]
        intro b hb
        obtain ⟨C, -, rfl⟩ := List.mem_map.mp hb
        rfl
      have hrb : rg.blocks = u.blocks := by
        have := hfil m0.ir
        rw [List.filter_eq_self.mpr (fun b hb => by simpa using hall b (hperm.mem_iff.mp hb)), List.filter_eq_self.mpr (fun b hb => by simpa using hall b hb)] at this
        exact this
      have hya : y.array = (rows0.map (rowD Q m0.ir)).flatten := by
        rw [← hyc.inv.array_eq_blocks, hyb, hrb, hub, List.flatMap_cons, List.flatMap_nil, List.append_nil, blk_some (he1 _ List.mem_cons_self)]
        unfold act
        rw [List.map_map, List.map_map]; rfl
      have hflat := FLin.flatten_getD (K := Col) (rows0.map (rowD Q m0.ir)) (2 * m0.ir.l + 1)
        (by intro r hr; obtain ⟨C, -, rfl⟩ := List.mem_map.mp hr; exact rowD_length _ _ _) v k hk
      rw [hya, hflat]
      -- the chunk computed from the input itself
      have hmx : (if x.irreps.zip x.chunks = [] then (.error .nameError : Except PyErr (MulIrrep × Chunk Col)) else mixChunk m0 (mixPaths par p 0 m0 (x.irreps.zip x.chunks))) =
          .ok (m0, some (rows0.map (rowD Q m0.ir))) := by
        unfold mixEntries at hact
        simp only [List.zipIdx_cons, List.zipIdx_nil, List.mapM_cons, List.mapM_nil] at hact
        generalize (if x.irreps.zip x.chunks = [] then (.error .nameError : Except PyErr (MulIrrep × Chunk Col)) else mixChunk m0 (mixPaths par p 0 m0 (x.irreps.zip x.chunks))) = E at hact ⊢
        cases E with
        | error e => cases hact
        | ok q =>
          have h' := Except.ok.inj hact
          simp only [actP, List.map_cons, List.map_nil, List.cons.injEq, and_true, Option.map_some] at h'
          rw [h']
      split at hmx
      · cases hmx
      · have hshape := mixPaths_shape par p 0 m0 hpairs.1
        have hsnd : ((mixPaths par p 0 m0 (x.irreps.zip x.chunks)).map Prod.snd).sum =
            (x.irreps.map fun m => m.mul * ((if Reach p m.ir m0.ir 0 then 1 else 0) + (if Reach p m.ir m0.ir 1 then 1 else 0))).sum := by
          rw [mixPaths_one]
          conv_rhs => rw [← hpairs.2.1]
          generalize x.irreps.zip x.chunks = Z at hfull ⊢
          rw [List.map_flatMap]
          have : ∀ (Z : List (MulIrrep × Chunk Col)) (n : ℕ), Full Z → ((Z.zipIdx n).flatMap fun q => (mixOne par p 0 m0 q.2 q.1.1 q.1.2).map Prod.snd).sum =
              ((Z.map Prod.fst).map fun m => m.mul * ((if Reach p m.ir m0.ir 0 then 1 else 0) + (if Reach p m.ir m0.ir 1 then 1 else 0))).sum := by
            intro Z
            induction Z with
            | nil => intro n _; rfl
            | cons q Z ih =>
              intro n hZ
              rw [List.zipIdx_cons, List.flatMap_cons, List.sum_append, ih _ (fun q' h' => hZ q' (List.mem_cons_of_mem _ h')), mixOne_snd par p 0 m0 n q.1 (hZ q List.mem_cons_self)]
              simp only [List.map_cons, List.sum_cons]
              congr 1
              simp only [← condS_reach, ← condA_reach]
              by_cases c1 : condS p q.1.ir m0.ir <;> by_cases c2 : condA p q.1.ir m0.ir <;> simp [c1, c2] <;> ring
          exact this Z 0 hfull
        have hval : ((mixPaths par p 0 m0 (x.irreps.zip x.chunks)).map fun z => ent z.1 v k ()).sum =
            ((x.irreps.zip x.chunks).zipIdx.map fun q => polar p (fun i u => par q.2 0 false i u v) (fun i u => par q.2 0 true i u v) m0.ir q.1.1
              (fun u i => ((q.1.2.getD []).getD u []).getD i 0 ()) k).sum := by
          rw [mixPaths_one, flatMap_sum]
          congr 1
          apply List.map_congr_left
          rintro ⟨⟨m, c⟩, ix⟩ hq
          have hq' := List.fst_mem_of_mem_zipIdx hq
          cases c with
          | none => exact absurd rfl (hfull _ hq')
          | some rows =>
            obtain ⟨g1, g2⟩ := shaped_rows hpairs.1 hq' rfl
            exact mixOne_ent par p 0 m0 ix m g1 g2 hv hk
        rw [← hsnd, ← hval]
        clear hact hval
        cases hmp : mixPaths par p 0 m0 (x.irreps.zip x.chunks) with
        | nil => rw [hmp] at hmx; simp [mixChunk, sumTensors] at hmx
        | cons z zs =>
          rw [hmp] at hmx hshape
          unfold mixChunk at hmx
          simp only [List.map_cons, sumTensors] at hmx
          split at hmx
          · cases hmx
          · have h' := Except.ok.inj hmx
            simp only [Prod.mk.injEq, Option.some.injEq, true_and] at h'
            have hs1 : ∀ z' ∈ zs.map Prod.fst, Shape m0.mul (2 * m0.ir.l + 1) z' := by
              intro z' hz'
              obtain ⟨z0, h0, rfl⟩ := List.mem_map.mp hz'
              exact hshape z0 (List.mem_cons_of_mem _ h0)
            have hf2 := (foldZ_act 1 m0.ir z.1 (hshape z List.mem_cons_self) (zs.map Prod.fst) hs1).2
            have hfe := fold_ent z.1 (hshape z List.mem_cons_self) (zs.map Prod.fst) hs1 hv k
            rw [← h']
            rw [List.getD_eq_getElem (List.map _ _) [] (by rw [List.length_map, hf2.1]; exact hv), List.getElem_map]
            have hvv : v < ((zs.map Prod.fst).foldl (fun a b => List.zipWith addRow a b) z.1).length := by rw [hf2.1]; exact hv
            have hkk : k < (((zs.map Prod.fst).foldl (fun a b => List.zipWith addRow a b) z.1)[v]'hvv).length := by
              rw [hf2.2 _ (List.getElem_mem _)]; exact hk
            rw [List.getD_eq_getElem (List.map _ _) 0 (by rw [List.length_map]; exact hkk), List.getElem_map]
            have hent : ent ((zs.map Prod.fst).foldl (fun a b => List.zipWith addRow a b) z.1) v k = (((zs.map Prod.fst).foldl (fun a b => List.zipWith addRow a b) z.1)[v]'hvv)[k]'hkk := by
              unfold ent
              rw [List.getD_eq_getElem _ [] (by rw [hf2.1]; exact hv), List.getD_eq_getElem _ 0 hkk]
            rw [← hent, hfe]
            congr 1
            have : ∀ L : List Col, L.sum () = (L.map fun c => c ()).sum := by
              intro L; induction L with
              | nil => rfl
              | cons a L ih => simp only [List.sum_cons, List.map_cons, Pi.add_apply, ih]
            rw [this, List.map_map, List.map_cons, List.map_cons, List.map_map]
            rfl

/-! ### the hypotheses are met -/

/-- A vector, an input `2x1o + 1x2e`, and the number of copies of `2e` that `shtp` returns: two from each vector (degrees 1 and 3), three from the tensor (degrees 0, 2 and 4). -/
example : ∃ d x y : IArr Col, d.Coherent ∧ d.irreps = [⟨1, ⟨1, .o⟩⟩] ∧ (∃ k < 3, d.array.getD k 0 () ≠ 0) ∧ d.array = [fun _ => 0, fun _ => 2, fun _ => 0] ∧ x.Coherent ∧ x.irreps = [⟨2, ⟨1, .o⟩⟩, ⟨1, ⟨2, .e⟩⟩] ∧
    (∀ c ∈ x.chunks, c ≠ none) ∧ shtp x d [⟨2, .e⟩] = .ok y ∧ y.irreps.count ⟨2, .e⟩ = 7 := by
  obtain ⟨d, -, d2, d3, d4, -⟩ := (C12_from_array (α := Col) [⟨1, ⟨1, .o⟩⟩] [fun _ => 0, fun _ => 2, fun _ => 0]).1 (by decide)
  obtain ⟨x, -, x2, x3, x4, x5⟩ := (C12_from_array (α := Col) [⟨2, ⟨1, .o⟩⟩, ⟨1, ⟨2, .e⟩⟩] (List.replicate 11 fun _ => 1)).1 (by decide)
  obtain ⟨y, hy, -, -, -, hc⟩ := (C99_shtp_irreps [⟨2, .e⟩] d2 d3 x2).2 (by simp) (by rw [x3]; simp)
  refine ⟨d, x, y, d2, d3, ⟨1, by norm_num, by rw [d4]; simp⟩, d4, x2, x3, x5.2, hy, ?_⟩
  · rw [hc, x3, if_pos (by simp)]
    decide

/-- The hypothesis of completeness is met by the product with the spherical harmonics of degree 0, that is the identity. -/
example : ∀ R : Matrix (Fin 3) (Fin 3) ℝ, R * Rᵀ = 1 → ∀ v : Fin 3 → ℝ, v ⬝ᵥ v = 1 →
    (fun _ => (1 : Matrix (Fin 5) (Fin 5) ℝ)) (Wig.dMatrix ⟨1, .o⟩ R *ᵥ v) * Wig.dMatrix ⟨2, .e⟩ R = Wig.dMatrix ⟨2, .e⟩ R * (fun _ => 1) v := by
  intro R _ v _
  exact (Matrix.one_mul _).trans (Matrix.mul_one _).symm

end E3nn.LSH
