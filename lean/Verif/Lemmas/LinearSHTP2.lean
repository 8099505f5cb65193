import Verif.Lemmas.LinearSHTP

/-!
# Lemmas about `LinearSHTP` and `shtp`: the loops commute with the transformations that keep the pole
-/

namespace E3nn.LSH

open E3nn.IArr E3nn.Rot E3nn.Wig E3nn.SU2 E3nn.SH E3nn.TPSH Matrix

/-- The action on the rows of an irrep. -/
noncomputable def rowD (S : Mat) (ir : Irrep) (r : List Col) : List Col := matVec (matRows (Wig.dMatrix ir S)) r

theorem rowD_length (S : Mat) (ir : Irrep) (r : List Col) : (rowD S ir r).length = 2 * ir.l + 1 := by
  unfold rowD; rw [matVec_length]; simp [matRows]

/-- The action on a list of terms. -/
noncomputable def actP (S : Mat) (P : List (MulIrrep × Chunk Col)) : List (MulIrrep × Chunk Col) :=
  P.map fun q => (q.1, q.2.map fun rows => rows.map (rowD S q.1.ir))

theorem commute_row {p : Parity} {irx irz : Irrep} {M : Matrix (Fin (2 * irz.l + 1)) (Fin (2 * irx.l + 1)) ℝ} (hM : PoleMap p irx irz M) {S : Mat} (hS : Stab p S)
    {r : List Col} (hr : r.length = 2 * irx.l + 1) : matVec (matRows M) (rowD S irx r) = rowD S irz (matVec (matRows M) r) := by
  unfold rowD
  rw [← matVec_mul _ _ hr, ← matVec_mul _ _ hr, hM S hS]

theorem shaped_rows {P : List (MulIrrep × Chunk Col)} (h : Shaped P) {q : MulIrrep × Chunk Col} (hq : q ∈ P) {rows : List (List Col)} (hr : q.2 = some rows) :
    rows.length = q.1.mul ∧ ∀ r ∈ rows, r.length = 2 * q.1.ir.l + 1 := by
  have hs := h q hq
  rw [hr] at hs
  simpa [shapeOk, Irrep.dim] using hs

theorem flatMap_actP {P : List (MulIrrep × Chunk Col)} {F : MulIrrep → Chunk Col → List (MulIrrep × Chunk Col)} {S : Mat}
    (h : ∀ q ∈ P, F q.1 (q.2.map fun rows => rows.map (rowD S q.1.ir)) = actP S (F q.1 q.2)) :
    (actP S P).flatMap (fun q => F q.1 q.2) = actP S (P.flatMap fun q => F q.1 q.2) := by
  unfold actP at h ⊢
  rw [List.flatMap_map, List.map_flatMap]
  exact List.flatMap_congr h

theorem actP_append (S : Mat) (A B : List (MulIrrep × Chunk Col)) : actP S (A ++ B) = actP S A ++ actP S B := by simp [actP]

/-- The terms of `shtp` for one irrep and one term of the input. -/
def shtpOne (irz : Irrep) (p : Parity) (m : MulIrrep) (c : Chunk Col) : List (MulIrrep × Chunk Col) :=
  match c with
  | none => []
  | some rows =>
    let irx := m.ir
    let l := min irx.l irz.l
    let x := rows.map (slRow irx.l l)
    (if condS p irx irz then [(⟨m.mul * (l + 1), irz⟩, some (x.flatMap (shtpS irz.l l)))] else []) ++
    (if condA p irx irz then [(⟨m.mul * l, irz⟩, some (x.flatMap (shtpA irz.l l)))] else [])

theorem shtpEntries_one (filter : List Irrep) (p : Parity) (P : List (MulIrrep × Chunk Col)) :
    shtpEntries filter p P = filter.flatMap fun irz => P.flatMap fun q => shtpOne irz p q.1 q.2 := rfl

theorem shtpOne_some (irz : Irrep) (p : Parity) (m : MulIrrep) {rows : List (List Col)} (h : ∀ r ∈ rows, r.length = 2 * m.ir.l + 1) :
    shtpOne irz p m (some rows) =
      (if condS p m.ir irz then [(⟨m.mul * (min m.ir.l irz.l + 1), irz⟩, some (rows.flatMap fun r =>
        (List.range (min m.ir.l irz.l + 1)).map fun k => matVec (matRows (MS m.ir.l irz.l fun n => if n = k then 1 else 0)) r))] else []) ++
      (if condA p m.ir irz then [(⟨m.mul * min m.ir.l irz.l, irz⟩, some (rows.flatMap fun r =>
        (List.range (min m.ir.l irz.l)).map fun k => matVec (matRows (MA m.ir.l irz.l fun n => if n = k + 1 then -1 else 0)) r))] else []) := by
  unfold shtpOne
  simp only [List.flatMap_map]
  rw [List.flatMap_congr fun r hr => shtpS_eq m.ir.l irz.l (h r hr), List.flatMap_congr fun r hr => shtpA_eq m.ir.l irz.l (h r hr)]

theorem shtpOne_act (irz : Irrep) {p : Parity} {S : Mat} (hS : Stab p S) (m : MulIrrep) {c : Chunk Col} (h : ∀ rows, c = some rows → ∀ r ∈ rows, r.length = 2 * m.ir.l + 1) :
    shtpOne irz p m (c.map fun rows => rows.map (rowD S m.ir)) = actP S (shtpOne irz p m c) := by
  cases c with
  | none => rfl
  | some rows =>
    have hr := h rows rfl
    have hr' : ∀ r ∈ rows.map (rowD S m.ir), r.length = 2 * m.ir.l + 1 := by
      intro r h'
      obtain ⟨r0, -, rfl⟩ := List.mem_map.mp h'
      exact rowD_length _ _ _
    rw [Option.map_some, shtpOne_some irz p m hr, shtpOne_some irz p m hr', actP_append]
    have key : ∀ (n : ℕ) (M : ℕ → Matrix (Fin (2 * irz.l + 1)) (Fin (2 * m.ir.l + 1)) ℝ), (∀ k, PoleMap p m.ir irz (M k)) →
        ((rows.map (rowD S m.ir)).flatMap fun r => (List.range n).map fun k => matVec (matRows (M k)) r) =
        (rows.flatMap fun r => (List.range n).map fun k => matVec (matRows (M k)) r).map (rowD S irz) := by
      intro n M hM
      rw [List.flatMap_map, List.map_flatMap]
      apply List.flatMap_congr
      intro r h'
      rw [List.map_map]
      apply List.map_congr_left
      intro k _
      exact commute_row (hM k) hS (hr r h')
    congr 1
    · split
      · rename_i hc
        rw [key _ _ fun k => poleMap_MS hc _]
        rfl
      · rfl
    · split
      · rename_i hc
        rw [key _ _ fun k => poleMap_MA hc _]
        rfl
      · rfl

theorem shtpEntries_act (filter : List Irrep) {p : Parity} {S : Mat} (hS : Stab p S) {P : List (MulIrrep × Chunk Col)} (h : Shaped P) :
    shtpEntries filter p (actP S P) = actP S (shtpEntries filter p P) := by
  rw [shtpEntries_one, shtpEntries_one]
  conv_rhs => unfold actP
  rw [List.map_flatMap]
  apply List.flatMap_congr
  intro irz _
  exact flatMap_actP fun q hq => shtpOne_act irz hS q.1 fun rows e => (shaped_rows h hq e).2

theorem shapeOk_some {m : MulIrrep} {rows : List (List Col)} (h1 : rows.length = m.mul) (h2 : ∀ r ∈ rows, r.length = 2 * m.ir.l + 1) : shapeOk m (some rows) = true := by
  simp [shapeOk, Irrep.dim, h1]; exact h2

theorem length_matVec {m n : ℕ} (M : Matrix (Fin m) (Fin n) ℝ) (r : List Col) : (matVec (matRows M) r).length = m := by
  rw [matVec_length]; simp [matRows]

theorem flatMap_length_const {α β : Type} (L : List α) (f : α → List β) (n : ℕ) (h : ∀ a ∈ L, (f a).length = n) : (L.flatMap f).length = L.length * n := by
  rw [List.length_flatMap, List.map_congr_left (g := fun _ => n) h]; simp

theorem shtpEntries_shaped (filter : List Irrep) (p : Parity) {P : List (MulIrrep × Chunk Col)} (h : Shaped P) : Shaped (shtpEntries filter p P) := by
  rw [shtpEntries_one]
  intro e he
  obtain ⟨irz, -, he⟩ := List.mem_flatMap.mp he
  obtain ⟨⟨m, c⟩, hq, he⟩ := List.mem_flatMap.mp he
  cases c with
  | none => simp [shtpOne] at he
  | some rows =>
    obtain ⟨h1, h2⟩ := shaped_rows h hq rfl
    simp only at he h1 h2
    rw [shtpOne_some irz p m h2] at he
    rcases List.mem_append.mp he with he | he
    · split at he
      · rw [List.mem_singleton.mp he]
        apply shapeOk_some
        · rw [flatMap_length_const _ _ (min m.ir.l irz.l + 1) (by simp), h1]
        · intro r hr
          obtain ⟨r0, -, hr⟩ := List.mem_flatMap.mp hr
          obtain ⟨k, -, rfl⟩ := List.mem_map.mp hr
          exact length_matVec _ _
      · simp at he
    · split at he
      · rw [List.mem_singleton.mp he]
        apply shapeOk_some
        · rw [flatMap_length_const _ _ (min m.ir.l irz.l) (by simp), h1]
        · intro r hr
          obtain ⟨r0, -, hr⟩ := List.mem_flatMap.mp hr
          obtain ⟨k, -, rfl⟩ := List.mem_map.mp hr
          exact length_matVec _ _
      · simp at he

/-! ### `mix=False` -/

/-- The terms of `LinearSHTP(mix=False)` for one irrep and one term of the input. -/
def sepOne (par : Params) (irz : Irrep) (iz : ℕ) (p : Parity) (ix : ℕ) (m : MulIrrep) (c : Chunk Col) : List (MulIrrep × Chunk Col) :=
  match c with
  | none => []
  | some rows =>
    let irx := m.ir
    let l := min irx.l irz.l
    let x := rows.map (slRow irx.l l)
    let zS := (einsumSep x fun u => weightS l fun i => par ix iz false i u 0).map (padRow irz.l l)
    let zA := (einsumSep (x.map List.reverse) fun u => weightA l fun i => par ix iz true i u 0).map (padRow irz.l l)
    (if condS p irx irz then [(⟨zS.length, irz⟩, some zS)] else []) ++ (if condA p irx irz then [(⟨zA.length, irz⟩, some zA)] else [])

theorem sepEntries_one (par : Params) (out : Irreps) (p : Parity) (P : List (MulIrrep × Chunk Col)) :
    sepEntries par out p P = out.zipIdx.flatMap fun mz => P.zipIdx.flatMap fun q => sepOne par mz.1.ir mz.2 p q.2 q.1.1 q.1.2 := rfl

theorem einsumSep_S (lx lz : ℕ) (w : ℕ → ℕ → ℝ) {rows : List (List Col)} (h : ∀ r ∈ rows, r.length = 2 * lx + 1) :
    (einsumSep (rows.map (slRow lx (min lx lz))) fun u => weightS (min lx lz) (w u)).map (padRow lz (min lx lz)) =
      rows.zipIdx.map fun ru => matVec (matRows (MS lx lz (w ru.2))) ru.1 := by
  unfold einsumSep
  rw [List.zipIdx_map, List.map_map, List.map_map]
  apply List.map_congr_left
  intro ru hru
  exact rowS_eq lx lz (w ru.2) (h _ (List.fst_mem_of_mem_zipIdx hru))

theorem einsumSep_A (lx lz : ℕ) (w : ℕ → ℕ → ℝ) {rows : List (List Col)} (h : ∀ r ∈ rows, r.length = 2 * lx + 1) :
    (einsumSep ((rows.map (slRow lx (min lx lz))).map List.reverse) fun u => weightA (min lx lz) (w u)).map (padRow lz (min lx lz)) =
      rows.zipIdx.map fun ru => matVec (matRows (MA lx lz fun n => w ru.2 (n - 1))) ru.1 := by
  unfold einsumSep
  rw [List.zipIdx_map, List.zipIdx_map, List.map_map, List.map_map, List.map_map]
  apply List.map_congr_left
  intro ru hru
  exact rowA_eq lx lz (w ru.2) (h _ (List.fst_mem_of_mem_zipIdx hru))

theorem sepOne_some (par : Params) (irz : Irrep) (iz : ℕ) (p : Parity) (ix : ℕ) (m : MulIrrep) {rows : List (List Col)} (h : ∀ r ∈ rows, r.length = 2 * m.ir.l + 1) :
    sepOne par irz iz p ix m (some rows) =
      (if condS p m.ir irz then [(⟨rows.length, irz⟩, some (rows.zipIdx.map fun ru => matVec (matRows (MS m.ir.l irz.l fun i => par ix iz false i ru.2 0)) ru.1))] else []) ++
      (if condA p m.ir irz then [(⟨rows.length, irz⟩, some (rows.zipIdx.map fun ru => matVec (matRows (MA m.ir.l irz.l fun i => par ix iz true (i - 1) ru.2 0)) ru.1))] else []) := by
  unfold sepOne
  simp only
  rw [einsumSep_S m.ir.l irz.l (fun u i => par ix iz false i u 0) h, einsumSep_A m.ir.l irz.l (fun u i => par ix iz true i u 0) h]
  simp

theorem sepOne_act (par : Params) (irz : Irrep) (iz : ℕ) {p : Parity} (ix : ℕ) {S : Mat} (hS : Stab p S) (m : MulIrrep) {c : Chunk Col}
    (h : ∀ rows, c = some rows → ∀ r ∈ rows, r.length = 2 * m.ir.l + 1) :
    sepOne par irz iz p ix m (c.map fun rows => rows.map (rowD S m.ir)) = actP S (sepOne par irz iz p ix m c) := by
  cases c with
  | none => rfl
  | some rows =>
    have hr := h rows rfl
    have hr' : ∀ r ∈ rows.map (rowD S m.ir), r.length = 2 * m.ir.l + 1 := by
      intro r h'
      obtain ⟨r0, -, rfl⟩ := List.mem_map.mp h'
      exact rowD_length _ _ _
    rw [Option.map_some, sepOne_some par irz iz p ix m hr, sepOne_some par irz iz p ix m hr', actP_append]
    have key : ∀ (M : ℕ → Matrix (Fin (2 * irz.l + 1)) (Fin (2 * m.ir.l + 1)) ℝ), (∀ k, PoleMap p m.ir irz (M k)) →
        ((rows.map (rowD S m.ir)).zipIdx.map fun ru => matVec (matRows (M ru.2)) ru.1) =
        (rows.zipIdx.map fun ru => matVec (matRows (M ru.2)) ru.1).map (rowD S irz) := by
      intro M hM
      rw [List.zipIdx_map, List.map_map, List.map_map]
      apply List.map_congr_left
      intro ru h'
      exact commute_row (hM ru.2) hS (hr _ (List.fst_mem_of_mem_zipIdx h'))
    congr 1
    · split
      · rename_i hc
        rw [key (fun u => MS m.ir.l irz.l fun i => par ix iz false i u 0) fun k => poleMap_MS hc _, List.length_map]
        rfl
      · rfl
    · split
      · rename_i hc
        rw [key (fun u => MA m.ir.l irz.l fun i => par ix iz true (i - 1) u 0) fun k => poleMap_MA hc _, List.length_map]
        rfl
      · rfl

theorem zipIdx_actP (S : Mat) (P : List (MulIrrep × Chunk Col)) : (actP S P).zipIdx = P.zipIdx.map fun q => ((q.1.1, q.1.2.map fun rows => rows.map (rowD S q.1.1.ir)), q.2) := by
  unfold actP
  rw [List.zipIdx_map]
  rfl

theorem sepEntries_act (par : Params) (out : Irreps) {p : Parity} {S : Mat} (hS : Stab p S) {P : List (MulIrrep × Chunk Col)} (h : Shaped P) :
    sepEntries par out p (actP S P) = actP S (sepEntries par out p P) := by
  rw [sepEntries_one, sepEntries_one]
  conv_rhs => unfold actP
  rw [List.map_flatMap]
  apply List.flatMap_congr
  intro mz _
  rw [zipIdx_actP, List.flatMap_map, List.map_flatMap]
  apply List.flatMap_congr
  intro q hq
  exact sepOne_act par mz.1.ir mz.2 q.2 hS q.1.1 fun rows e => (shaped_rows h (List.fst_mem_of_mem_zipIdx hq) e).2

theorem sepEntries_shaped (par : Params) (out : Irreps) (p : Parity) {P : List (MulIrrep × Chunk Col)} (h : Shaped P) : Shaped (sepEntries par out p P) := by
  rw [sepEntries_one]
  intro e he
  obtain ⟨mz, -, he⟩ := List.mem_flatMap.mp he
  obtain ⟨⟨⟨m, c⟩, ix⟩, hq, he⟩ := List.mem_flatMap.mp he
  cases c with
  | none => simp [sepOne] at he
  | some rows =>
    obtain ⟨h1, h2⟩ := shaped_rows h (List.fst_mem_of_mem_zipIdx hq) rfl
    simp only at he h1 h2
    rw [sepOne_some par mz.1.ir mz.2 p ix m h2] at he
    rcases List.mem_append.mp he with he | he <;> split at he
    · rw [List.mem_singleton.mp he]
      apply shapeOk_some (by simp)
      intro r hr
      obtain ⟨k, -, rfl⟩ := List.mem_map.mp hr
      exact length_matVec _ _
    · simp at he
    · rw [List.mem_singleton.mp he]
      apply shapeOk_some (by simp)
      intro r hr
      obtain ⟨k, -, rfl⟩ := List.mem_map.mp hr
      exact length_matVec _ _
    · simp at he

/-! ### `mix=True` -/

theorem addRow_length {a b : List Col} {n : ℕ} (ha : a.length = n) (hb : b.length = n) : (addRow a b).length = n := by simp [addRow, ha, hb]

theorem fold_addRow {n k : ℕ} (f : List Col → List Col) (hf : ∀ a b, a.length = n → b.length = n → f (addRow a b) = addRow (f a) (f b)) (hk : ∀ a, a.length = n → (f a).length = k) (z : List Col) (hz : z.length = n)
    (ls : List (List Col)) (hl : ∀ r ∈ ls, r.length = n) : f (ls.foldl addRow z) = (ls.map f).foldl addRow (f z) ∧ (ls.foldl addRow z).length = n := by
  induction ls generalizing z with
  | nil => exact ⟨rfl, hz⟩
  | cons r ls ih =>
    have hr := hl r (by simp)
    obtain ⟨i1, i2⟩ := ih (addRow z r) (addRow_length hz hr) fun r' h' => hl r' (List.mem_cons_of_mem _ h')
    refine ⟨?_, i2⟩
    simp only [List.foldl_cons, List.map_cons]
    rw [i1, hf z r hz hr]

theorem zipWith_replicate_zero (n : ℕ) : List.zipWith (fun x y : Col => x + y) (List.replicate n 0) (List.replicate n 0) = List.replicate n 0 := by
  simp

theorem padRow_add (lz l : ℕ) {a b : List Col} (h : a.length = b.length) : padRow lz l (addRow a b) = addRow (padRow lz l a) (padRow lz l b) := by
  unfold padRow addRow
  split
  · rw [List.zipWith_append (by simp [h]), List.zipWith_append (by simp), zipWith_replicate_zero]
  · rfl

theorem padRow_length {lz l : ℕ} (hl : l ≤ lz) {a : List Col} (h : a.length = 2 * l + 1) : (padRow lz l a).length = 2 * lz + 1 := by
  unfold padRow
  split
  · simp [h]; omega
  · omega

theorem padRow_zero {lz l : ℕ} (hl : l ≤ lz) : padRow lz l (List.replicate (2 * l + 1) 0) = List.replicate (2 * lz + 1) 0 := by
  unfold padRow
  split
  · rw [List.replicate_append_replicate, List.replicate_append_replicate]; congr 1; omega
  · have : l = lz := by omega
    rw [this]

/-- The sum of some rows. -/
def sumRows (n : ℕ) (ls : List (List Col)) : List Col := ls.foldl addRow (List.replicate n 0)

theorem rowD_add (S : Mat) (ir : Irrep) {a b : List Col} (h : a.length = b.length) : rowD S ir (addRow a b) = addRow (rowD S ir a) (rowD S ir b) :=
  matVec_add _ _ _ h

theorem rowD_zero (S : Mat) (ir : Irrep) : rowD S ir (List.replicate (2 * ir.l + 1) 0) = List.replicate (2 * ir.l + 1) 0 := by
  have e : List.replicate (2 * ir.l + 1) (0 : Col) = List.ofFn fun _ : Fin (2 * ir.l + 1) => (0 : Col) := (List.ofFn_const _ _).symm
  unfold rowD
  rw [e, matVec_ofFn]
  simp

theorem rowD_sumRows (S : Mat) (ir : Irrep) {ls : List (List Col)} (hl : ∀ r ∈ ls, r.length = 2 * ir.l + 1) :
    rowD S ir (sumRows (2 * ir.l + 1) ls) = sumRows (2 * ir.l + 1) (ls.map (rowD S ir)) := by
  unfold sumRows
  rw [(fold_addRow (n := 2 * ir.l + 1) (k := 2 * ir.l + 1) (rowD S ir) (fun a b ha hb => rowD_add S ir (by rw [ha, hb])) (fun a _ => rowD_length _ _ _) _ (by simp) ls hl).1, rowD_zero]

theorem sumRows_length {n : ℕ} {ls : List (List Col)} (hl : ∀ r ∈ ls, r.length = n) : (sumRows n ls).length = n :=
  (fold_addRow (n := n) (k := n) id (fun _ _ _ _ => rfl) (fun _ h => h) _ (by simp) ls hl).2

theorem mulRow_length {r : List Col} {w : List ℝ} {n : ℕ} (h1 : r.length = n) (h2 : w.length = n) : (mulRow r w).length = n := by simp [mulRow, h1, h2]

theorem slRow_length {lx lz : ℕ} {r : List Col} (hr : r.length = 2 * lx + 1) : (slRow lx (min lx lz) r).length = 2 * min lx lz + 1 :=
  (slRow_getD (by omega) hr).1

theorem einsumMix_S (lx lz mulz : ℕ) (w : ℕ → ℕ → ℕ → ℝ) {rows : List (List Col)} (h : ∀ r ∈ rows, r.length = 2 * lx + 1) :
    (einsumMix (2 * min lx lz + 1) mulz (rows.map (slRow lx (min lx lz))) fun u v => weightS (min lx lz) (w u v)).map (padRow lz (min lx lz)) =
      (List.range mulz).map fun v => sumRows (2 * lz + 1) (rows.zipIdx.map fun ru => matVec (matRows (MS lx lz (w ru.2 v))) ru.1) := by
  unfold einsumMix
  rw [List.map_map]
  apply List.map_congr_left
  intro v _
  simp only [Function.comp_apply]
  rw [(fold_addRow (n := 2 * min lx lz + 1) (k := 2 * lz + 1) (padRow lz (min lx lz)) (fun a b ha hb => padRow_add _ _ (by rw [ha, hb])) (fun a ha => padRow_length (by omega) ha) _ (by simp) _ ?_).1,
    padRow_zero (by omega)]
  · unfold sumRows
    congr 1
    exact einsumSep_S lx lz (fun u => w u v) h
  · intro r hr
    obtain ⟨ru, hru, rfl⟩ := List.mem_map.mp hr
    obtain ⟨r0, hr0, e⟩ := List.mem_map.mp (List.fst_mem_of_mem_zipIdx hru)
    exact mulRow_length (by rw [← e]; exact slRow_length (h r0 hr0)) (by rw [weightS_eq]; simp)

theorem einsumMix_A (lx lz mulz : ℕ) (w : ℕ → ℕ → ℕ → ℝ) {rows : List (List Col)} (h : ∀ r ∈ rows, r.length = 2 * lx + 1) :
    (einsumMix (2 * min lx lz + 1) mulz ((rows.map (slRow lx (min lx lz))).map List.reverse) fun u v => weightA (min lx lz) (w u v)).map (padRow lz (min lx lz)) =
      (List.range mulz).map fun v => sumRows (2 * lz + 1) (rows.zipIdx.map fun ru => matVec (matRows (MA lx lz fun n => w ru.2 v (n - 1))) ru.1) := by
  unfold einsumMix
  rw [List.map_map]
  apply List.map_congr_left
  intro v _
  simp only [Function.comp_apply]
  rw [(fold_addRow (n := 2 * min lx lz + 1) (k := 2 * lz + 1) (padRow lz (min lx lz)) (fun a b ha hb => padRow_add _ _ (by rw [ha, hb])) (fun a ha => padRow_length (by omega) ha) _ (by simp) _ ?_).1,
    padRow_zero (by omega)]
  · unfold sumRows
    congr 1
    exact einsumSep_A lx lz (fun u => w u v) h
  · intro r hr
    obtain ⟨ru, hru, rfl⟩ := List.mem_map.mp hr
    obtain ⟨r1, hr1, e⟩ := List.mem_map.mp (List.fst_mem_of_mem_zipIdx hru)
    obtain ⟨r0, hr0, e0⟩ := List.mem_map.mp hr1
    exact mulRow_length (by rw [← e, ← e0, List.length_reverse]; exact slRow_length (h r0 hr0)) (by rw [weightA_eq]; simp)

/-- The terms of `zs` for one term of the input. -/
def mixOne (par : Params) (p : Parity) (iz : ℕ) (mz : MulIrrep) (ix : ℕ) (m : MulIrrep) (c : Chunk Col) : List (List (List Col) × ℕ) :=
  match c with
  | none => []
  | some rows =>
    let irx := m.ir
    let l := min irx.l mz.ir.l
    let x := rows.map (slRow irx.l l)
    (if condS p irx mz.ir then
      [((einsumMix (2 * l + 1) mz.mul x fun u v => weightS l fun i => par ix iz false i u v).map (padRow mz.ir.l l), m.mul)] else []) ++
    (if condA p irx mz.ir then
      [((einsumMix (2 * l + 1) mz.mul (x.map List.reverse) fun u v => weightA l fun i => par ix iz true i u v).map (padRow mz.ir.l l), m.mul)] else [])

theorem mixPaths_one (par : Params) (p : Parity) (iz : ℕ) (mz : MulIrrep) (P : List (MulIrrep × Chunk Col)) :
    mixPaths par p iz mz P = P.zipIdx.flatMap fun q => mixOne par p iz mz q.2 q.1.1 q.1.2 := rfl

/-- The rows of a path. -/
noncomputable def pathRows (mz : MulIrrep) (lx : ℕ) (M : ℕ → ℕ → Matrix (Fin (2 * mz.ir.l + 1)) (Fin (2 * lx + 1)) ℝ) (rows : List (List Col)) : List (List Col) :=
  (List.range mz.mul).map fun v => sumRows (2 * mz.ir.l + 1) (rows.zipIdx.map fun ru => matVec (matRows (M ru.2 v)) ru.1)

theorem pathRows_shape (mz : MulIrrep) (lx : ℕ) (M : ℕ → ℕ → Matrix (Fin (2 * mz.ir.l + 1)) (Fin (2 * lx + 1)) ℝ) (rows : List (List Col)) :
    Shape mz.mul (2 * mz.ir.l + 1) (pathRows mz lx M rows) := by
  refine ⟨by simp [pathRows], fun r hr => ?_⟩
  obtain ⟨v, -, rfl⟩ := List.mem_map.mp hr
  apply sumRows_length
  intro r' hr'
  obtain ⟨ru, -, rfl⟩ := List.mem_map.mp hr'
  exact length_matVec _ _

theorem pathRows_act {p : Parity} {S : Mat} (hS : Stab p S) (mz m : MulIrrep) {M : ℕ → ℕ → Matrix (Fin (2 * mz.ir.l + 1)) (Fin (2 * m.ir.l + 1)) ℝ}
    (hM : ∀ u v, PoleMap p m.ir mz.ir (M u v)) {rows : List (List Col)} (h : ∀ r ∈ rows, r.length = 2 * m.ir.l + 1) :
    pathRows mz m.ir.l M (rows.map (rowD S m.ir)) = (pathRows mz m.ir.l M rows).map (rowD S mz.ir) := by
  unfold pathRows
  rw [List.map_map]
  apply List.map_congr_left
  intro v _
  simp only [Function.comp_apply]
  rw [rowD_sumRows]
  · congr 1
    rw [List.zipIdx_map, List.map_map, List.map_map]
    apply List.map_congr_left
    intro ru hru
    exact commute_row (hM ru.2 v) hS (h _ (List.fst_mem_of_mem_zipIdx hru))
  · intro r hr
    obtain ⟨ru, -, rfl⟩ := List.mem_map.mp hr
    exact length_matVec _ _

theorem mixOne_some (par : Params) (p : Parity) (iz : ℕ) (mz : MulIrrep) (ix : ℕ) (m : MulIrrep) {rows : List (List Col)} (h : ∀ r ∈ rows, r.length = 2 * m.ir.l + 1) :
    mixOne par p iz mz ix m (some rows) =
      (if condS p m.ir mz.ir then [(pathRows mz m.ir.l (fun u v => MS m.ir.l mz.ir.l fun i => par ix iz false i u v) rows, m.mul)] else []) ++
      (if condA p m.ir mz.ir then [(pathRows mz m.ir.l (fun u v => MA m.ir.l mz.ir.l fun i => par ix iz true (i - 1) u v) rows, m.mul)] else []) := by
  unfold mixOne
  simp only
  rw [einsumMix_S m.ir.l mz.ir.l mz.mul (fun u v i => par ix iz false i u v) h, einsumMix_A m.ir.l mz.ir.l mz.mul (fun u v i => par ix iz true i u v) h]
  rfl

/-- The action on the paths. -/
noncomputable def actZ (S : Mat) (ir : Irrep) (zs : List (List (List Col) × ℕ)) : List (List (List Col) × ℕ) := zs.map fun z => (z.1.map (rowD S ir), z.2)

theorem mixOne_act (par : Params) {p : Parity} (iz : ℕ) (mz : MulIrrep) (ix : ℕ) {S : Mat} (hS : Stab p S) (m : MulIrrep) {c : Chunk Col}
    (h : ∀ rows, c = some rows → ∀ r ∈ rows, r.length = 2 * m.ir.l + 1) :
    mixOne par p iz mz ix m (c.map fun rows => rows.map (rowD S m.ir)) = actZ S mz.ir (mixOne par p iz mz ix m c) := by
  cases c with
  | none => rfl
  | some rows =>
    have hr := h rows rfl
    have hr' : ∀ r ∈ rows.map (rowD S m.ir), r.length = 2 * m.ir.l + 1 := by
      intro r h'
      obtain ⟨r0, -, rfl⟩ := List.mem_map.mp h'
      exact rowD_length _ _ _
    rw [Option.map_some, mixOne_some par p iz mz ix m hr, mixOne_some par p iz mz ix m hr', actZ, List.map_append]
    congr 1
    · split
      · rename_i hc
        rw [pathRows_act hS mz m (fun u v => poleMap_MS hc _) hr]
        rfl
      · rfl
    · split
      · rename_i hc
        rw [pathRows_act hS mz m (fun u v => poleMap_MA hc _) hr]
        rfl
      · rfl

theorem mixPaths_act (par : Params) {p : Parity} (iz : ℕ) (mz : MulIrrep) {S : Mat} (hS : Stab p S) {P : List (MulIrrep × Chunk Col)} (h : Shaped P) :
    mixPaths par p iz mz (actP S P) = actZ S mz.ir (mixPaths par p iz mz P) := by
  rw [mixPaths_one, mixPaths_one, zipIdx_actP, List.flatMap_map]
  conv_rhs => unfold actZ
  rw [List.map_flatMap]
  apply List.flatMap_congr
  intro q hq
  exact mixOne_act par iz mz q.2 hS q.1.1 fun rows e => (shaped_rows h (List.fst_mem_of_mem_zipIdx hq) e).2

theorem mixPaths_shape (par : Params) (p : Parity) (iz : ℕ) (mz : MulIrrep) {P : List (MulIrrep × Chunk Col)} (h : Shaped P) :
    ∀ z ∈ mixPaths par p iz mz P, Shape mz.mul (2 * mz.ir.l + 1) z.1 := by
  rw [mixPaths_one]
  intro e he
  obtain ⟨⟨⟨m, c⟩, ix⟩, hq, he⟩ := List.mem_flatMap.mp he
  cases c with
  | none => simp [mixOne] at he
  | some rows =>
    obtain ⟨h1, h2⟩ := shaped_rows h (List.fst_mem_of_mem_zipIdx hq) rfl
    simp only at he h1 h2
    rw [mixOne_some par p iz mz ix m h2] at he
    rcases List.mem_append.mp he with he | he <;> split at he
    · rw [List.mem_singleton.mp he]; have := pathRows_shape mz m.ir.l (fun u v => MS m.ir.l mz.ir.l fun i => par ix iz false i u v) rows; exact this
    · simp at he
    · rw [List.mem_singleton.mp he]; have := pathRows_shape mz m.ir.l (fun u v => MA m.ir.l mz.ir.l fun i => par ix iz true (i - 1) u v) rows; exact this
    · simp at he

theorem zipWith_shape {N W : ℕ} {a b : List (List Col)} (ha : Shape N W a) (hb : Shape N W b) : Shape N W (List.zipWith addRow a b) := by
  refine ⟨by simp [ha.1, hb.1], fun r hr => ?_⟩
  obtain ⟨i, h1, rfl⟩ := List.mem_iff_getElem.mp hr
  rw [List.getElem_zipWith]
  exact addRow_length (ha.2 _ (List.getElem_mem _)) (hb.2 _ (List.getElem_mem _))

theorem foldZ_act (S : Mat) (ir : Irrep) {N : ℕ} (z : List (List Col)) (hz : Shape N (2 * ir.l + 1) z) (zs : List (List (List Col))) (h : ∀ z ∈ zs, Shape N (2 * ir.l + 1) z) :
    (zs.map fun z => z.map (rowD S ir)).foldl (fun a b => List.zipWith addRow a b) (z.map (rowD S ir)) = (zs.foldl (fun a b => List.zipWith addRow a b) z).map (rowD S ir) ∧
      Shape N (2 * ir.l + 1) (zs.foldl (fun a b => List.zipWith addRow a b) z) := by
  induction zs generalizing z with
  | nil => exact ⟨rfl, hz⟩
  | cons z' zs ih =>
    have hz' := h z' (by simp)
    obtain ⟨i1, i2⟩ := ih (List.zipWith addRow z z') (zipWith_shape hz hz') fun z'' h' => h z'' (List.mem_cons_of_mem _ h')
    refine ⟨?_, i2⟩
    simp only [List.map_cons, List.foldl_cons]
    rw [← i1]
    congr 1
    rw [List.zipWith_map, List.map_zipWith]
    apply List.ext_getElem (by simp)
    intro i j1 j2
    simp only [List.getElem_zipWith]
    rw [rowD_add]
    simp at j1
    rw [hz.2 _ (List.getElem_mem _), hz'.2 _ (List.getElem_mem _)]

/-- Division by a number, as a linear map. -/
noncomputable def divL (s : ℝ) : Col →ₗ[ℝ] Col := s⁻¹ • LinearMap.id

theorem divL_eq (s : ℝ) : (fun (c : Col) (u : Unit) => c u / s) = divL s := by
  funext c u
  simp [divL, div_eq_inv_mul]

theorem rowD_div (S : Mat) (ir : Irrep) (s : ℝ) (r : List Col) : rowD S ir (r.map fun c u => c u / s) = (rowD S ir r).map fun c u => c u / s := by
  rw [divL_eq]
  exact (matVec_map (divL s) _ r).symm

theorem mixChunk_act (S : Mat) (mz : MulIrrep) {zs : List (List (List Col) × ℕ)} (h : ∀ z ∈ zs, Shape mz.mul (2 * mz.ir.l + 1) z.1) :
    (zs = [] ∧ mixChunk mz (actZ S mz.ir zs) = .error .attributeError ∧ mixChunk mz zs = .error .attributeError) ∨
    (zs ≠ [] ∧ (zs.map Prod.snd).sum = 0 ∧ mixChunk mz (actZ S mz.ir zs) = .error .undefined ∧ mixChunk mz zs = .error .undefined) ∨
    (zs ≠ [] ∧ (zs.map Prod.snd).sum ≠ 0 ∧
      ∃ rows, mixChunk mz zs = .ok (mz, some rows) ∧ Shape mz.mul (2 * mz.ir.l + 1) rows ∧ mixChunk mz (actZ S mz.ir zs) = .ok (mz, some (rows.map (rowD S mz.ir)))) := by
  cases zs with
  | nil => exact Or.inl ⟨rfl, rfl, rfl⟩
  | cons z zs =>
    right
    have hsnd : (actZ S mz.ir (z :: zs)).map Prod.snd = (z :: zs).map Prod.snd := by
      unfold actZ; rw [List.map_map]; rfl
    by_cases hd : ((z :: zs).map Prod.snd).sum = 0
    · left
      refine ⟨by simp, hd, ?_, ?_⟩
      · unfold mixChunk
        rw [hsnd]
        simp only [actZ, List.map_cons, sumTensors]
        exact if_pos hd
      · unfold mixChunk
        simp only [List.map_cons, sumTensors]
        exact if_pos hd
    right
    refine ⟨by simp, hd, ?_⟩
    obtain ⟨f1, f2⟩ := foldZ_act S mz.ir z.1 (h z (by simp)) (zs.map Prod.fst) (by
      intro z' hz'
      obtain ⟨z0, h0, rfl⟩ := List.mem_map.mp hz'
      exact h z0 (List.mem_cons_of_mem _ h0))
    have hmix : mixChunk mz (z :: zs) = .ok (mz, some (((zs.map Prod.fst).foldl (fun a b => List.zipWith addRow a b) z.1).map fun r =>
        r.map fun c u => c u / Real.sqrt (((z :: zs).map Prod.snd).sum : ℕ))) := by
      unfold mixChunk
      simp only [List.map_cons, sumTensors]
      exact if_neg hd
    refine ⟨_, hmix, ?_, ?_⟩
    · refine ⟨by rw [List.length_map]; exact f2.1, fun r hr => ?_⟩
      obtain ⟨r0, h0, rfl⟩ := List.mem_map.mp hr
      rw [List.length_map]; exact f2.2 r0 h0
    · unfold mixChunk
      rw [hsnd]
      simp only [actZ, List.map_cons, sumTensors, List.map_map]
      rw [List.map_map] at f1
      have e1 : (Prod.fst ∘ fun z : List (List Col) × ℕ => (z.1.map (rowD S mz.ir), z.2)) = (fun z => z.map (rowD S mz.ir)) ∘ Prod.fst := rfl
      rw [e1, f1, List.map_map]
      refine (if_neg hd).trans ?_
      congr 4
      funext r
      simp only [Function.comp_apply]
      rw [rowD_div]

theorem actP_nil_iff (S : Mat) (P : List (MulIrrep × Chunk Col)) : actP S P = [] ↔ P = [] := by simp [actP]

theorem mixEntries_act (par : Params) (out : Irreps) {p : Parity} {S : Mat} (hS : Stab p S) {P : List (MulIrrep × Chunk Col)} (h : Shaped P) :
    mixEntries par out p (actP S P) = (mixEntries par out p P).map (actP S) ∧ ∀ es, mixEntries par out p P = .ok es → Shaped es ∧ (∀ q ∈ es, q.2 ≠ none) ∧ es.map Prod.fst = out := by
  unfold mixEntries
  have key : ∀ L : List (MulIrrep × ℕ),
      L.mapM (fun mz => if actP S P = [] then (.error .nameError : Except PyErr (MulIrrep × Chunk Col)) else mixChunk mz.1 (mixPaths par p mz.2 mz.1 (actP S P))) =
      (L.mapM fun mz => if P = [] then (.error .nameError : Except PyErr (MulIrrep × Chunk Col)) else mixChunk mz.1 (mixPaths par p mz.2 mz.1 P)).map (actP S) ∧
      ∀ es, (L.mapM fun mz => if P = [] then (.error .nameError : Except PyErr (MulIrrep × Chunk Col)) else mixChunk mz.1 (mixPaths par p mz.2 mz.1 P)) = .ok es →
        Shaped es ∧ (∀ q ∈ es, q.2 ≠ none) ∧ es.map Prod.fst = L.map Prod.fst := by
    intro L
    induction L with
    | nil =>
      refine ⟨rfl, fun es he => ?_⟩
      cases he
      exact ⟨fun _ h => by simp at h, fun _ h => by simp at h, rfl⟩
    | cons mz L ih =>
      obtain ⟨ih1, ih2⟩ := ih
      simp only [List.mapM_cons, bind, Except.bind, actP_nil_iff] at ih1 ih2 ⊢
      by_cases hP : P = []
      · simp only [if_pos hP]
        exact ⟨rfl, fun es he => by cases he⟩
      · simp only [if_neg hP] at ih1 ih2 ⊢
        rw [mixPaths_act par mz.2 mz.1 hS h]
        rcases mixChunk_act S mz.1 (mixPaths_shape par p mz.2 mz.1 h) with ⟨-, h1, h2⟩ | ⟨-, -, h1, h2⟩ | ⟨-, -, rows, h1, h2, h3⟩
        · rw [h1, h2]
          exact ⟨rfl, fun es he => by cases he⟩
        · rw [h1, h2]
          exact ⟨rfl, fun es he => by cases he⟩
        · rw [h1, h3, ih1]
          cases hL : (L.mapM fun mz => mixChunk mz.1 (mixPaths par p mz.2 mz.1 P)) with
          | error e => exact ⟨rfl, fun es he => by cases he⟩
          | ok es' =>
            refine ⟨rfl, fun es he => ?_⟩
            cases he
            obtain ⟨j1, j3, j2⟩ := ih2 es' hL
            refine ⟨?_, ?_, by simp [j2]⟩
            rotate_left
            · intro q hq
              rcases List.mem_cons.mp hq with rfl | hq
              · simp
              · exact j3 q hq
            intro q hq
            rcases List.mem_cons.mp hq with rfl | hq
            · exact shapeOk_some h2.1 h2.2
            · exact j1 q hq
  obtain ⟨k1, k2⟩ := key out.zipIdx
  refine ⟨k1, fun es he => ?_⟩
  obtain ⟨k3, k5, k4⟩ := k2 es he
  exact ⟨k3, k5, by rw [k4, List.zipIdx_map_fst]⟩

end E3nn.LSH
