import Verif.Lemmas.Rechunk
import Mathlib.Algebra.Group.Basic

/-! # The operations of `IArr` preserve `Inv` and act on the terms as expected -/

namespace E3nn
namespace IArr

set_option linter.unusedSectionVars false

variable {α β : Type}

section zero
variable [Zero α] [Zero β]

/-! ### column-wise maps -/

theorem FlagsOk.map {f : α → β} (hf : f 0 = 0) {ms : Irreps} {a : List α} {zs : List Bool}
    (h : FlagsOk ms a zs) : FlagsOk ms (a.map f) zs := by
  induction ms generalizing a zs with
  | nil =>
    cases zs with
    | nil => simp only [FlagsOk] at h ⊢; subst h; rfl
    | cons => exact absurd h (by simp [FlagsOk])
  | cons m ms ih =>
    cases zs with
    | nil => exact absurd h (by simp [FlagsOk])
    | cons z zs =>
      simp only [FlagsOk] at h ⊢
      refine ⟨by simpa using h.1, ?_, ?_⟩
      · intro hz v hv
        rw [← List.map_take] at hv
        obtain ⟨w, hw, rfl⟩ := List.mem_map.mp hv
        rw [h.2.1 hz w hw, hf]
      · rw [← List.map_drop]; exact ih h.2.2

theorem comp_map (f : α → β) (ms : Irreps) (a : List α) (zs : List Bool) :
    comp ms (a.map f) zs =
      (comp ms a zs).map fun c => c.map fun rows => rows.map fun r => r.map f := by
  induction ms generalizing a zs with
  | nil => simp [comp]
  | cons m ms ih =>
    cases zs with
    | nil => simp [comp]
    | cons z zs =>
      simp only [comp, List.map_cons]
      rw [← List.map_drop, ih, rows_map]
      congr 1
      cases z <;> simp

theorem mapCols_spec {f : α → β} (hf : f 0 = 0) {x : IArr α} (hx : Inv x) :
    ∃ y, mapCols f x = .ok y ∧ Inv y ∧ y.irreps = x.irreps ∧ y.array = x.array.map f ∧
      y.zeroFlags = x.zeroFlags := by
  have h := hx.flags.map hf
  unfold mapCols
  cases hc : x.chunks? with
  | none => exact ⟨_, make_nocache h, inv_nocache h, rfl, rfl, rfl⟩
  | some cs =>
    have := hx.cache cs hc
    subst this
    simp only [mapChunks, Option.map_some]
    rw [← comp_map]
    exact ⟨_, make_cache h, inv_cache h, rfl, rfl, rfl⟩

/-! ### append, take and drop of terms -/

theorem flagsOk_append {u v : Irreps} {a b : List α} {z w : List Bool} (h1 : FlagsOk u a z)
    (h2 : FlagsOk v b w) : FlagsOk (u ++ v) (a ++ b) (z ++ w) ∧
    comp (u ++ v) (a ++ b) (z ++ w) = comp u a z ++ comp v b w := by
  induction u generalizing a z with
  | nil =>
    cases z with
    | nil => simp only [FlagsOk] at h1; subst h1; simpa [comp] using h2
    | cons => exact absurd h1 (by simp [FlagsOk])
  | cons m u ih =>
    cases z with
    | nil => exact absurd h1 (by simp [FlagsOk])
    | cons z zs =>
      simp only [FlagsOk] at h1
      obtain ⟨k1, k2, k3⟩ := h1
      obtain ⟨i1, i2⟩ := ih k3
      have e : (a ++ b).drop m.dim = a.drop m.dim ++ b := by
        rw [List.drop_append_of_le_length k1]
      have e' : (a ++ b).take m.dim = a.take m.dim := List.take_append_of_le_length k1
      simp only [List.cons_append, FlagsOk, comp, e, e']
      refine ⟨⟨by simp; omega, k2, i1⟩, ?_⟩
      rw [i2]
      congr 1
      have : rows m.mul m.ir.dim (a ++ b) = rows m.mul m.ir.dim a := by
        rw [← rows_take m.mul m.ir.dim m.dim (a ++ b) (Nat.le_refl _), e']
        exact rows_take _ _ _ _ (Nat.le_refl _)
      rw [this]

theorem flagsOk_split {u v : Irreps} {a : List α} {zs : List Bool} (h : FlagsOk (u ++ v) a zs) :
    FlagsOk u (a.take (Irreps.dim u)) (zs.take u.length) ∧
    FlagsOk v (a.drop (Irreps.dim u)) (zs.drop u.length) := by
  induction u generalizing a zs with
  | nil => simpa [FlagsOk, Irreps.dim] using h
  | cons m u ih =>
    cases zs with
    | nil => exact absurd h (by simp [FlagsOk])
    | cons z zs =>
      simp only [List.cons_append, FlagsOk] at h
      obtain ⟨k1, k2, k3⟩ := h
      obtain ⟨i1, i2⟩ := ih k3
      rw [Irreps.dim_cons]
      simp only [List.length_cons, List.take_succ_cons, List.drop_succ_cons, FlagsOk]
      refine ⟨⟨by simp; omega, ?_, ?_⟩, ?_⟩
      · rw [List.take_take, Nat.min_eq_left (by omega)]; exact k2
      · rw [List.drop_take, Nat.add_sub_cancel_left]; exact i1
      · rw [← List.drop_drop]; exact i2

theorem comp_split {u v : Irreps} {a : List α} {zs : List Bool} (h : FlagsOk (u ++ v) a zs) :
    comp (u ++ v) a zs = comp u (a.take (Irreps.dim u)) (zs.take u.length) ++
      comp v (a.drop (Irreps.dim u)) (zs.drop u.length) := by
  obtain ⟨h1, h2⟩ := flagsOk_split h
  have := (flagsOk_append h1 h2).2
  rwa [List.take_append_drop, List.take_append_drop] at this

omit [Zero α] [Zero β] in
theorem termsOf_append (u v : Irreps) (a : List α) :
    termsOf (u ++ v) a = termsOf u a ++ termsOf v (a.drop (Irreps.dim u)) := by
  induction u generalizing a with
  | nil => simp [termsOf, Irreps.dim]
  | cons m u ih =>
    rw [Irreps.dim_cons]
    simp only [List.cons_append, termsOf, ih, List.drop_drop]
    rfl

omit [Zero α] [Zero β] in
theorem termsOf_take (u : Irreps) (a : List α) (k : Nat) (h : Irreps.dim u ≤ k) :
    termsOf u (a.take k) = termsOf u a := by
  induction u generalizing a k with
  | nil => rfl
  | cons m u ih =>
    rw [Irreps.dim_cons] at h
    simp only [termsOf]
    have h' : m.mul * (2 * m.ir.l + 1) + Irreps.dim u ≤ k := h
    rw [List.take_take, List.drop_take, ih _ _ (by omega)]
    congr 3
    omega

theorem flagsOk_mid {u v w : Irreps} {a : List α} {zs : List Bool} (h : FlagsOk (u ++ v ++ w) a zs) :
    FlagsOk v ((a.drop (Irreps.dim u)).take (Irreps.dim v)) ((zs.drop u.length).take v.length) ∧
    comp v ((a.drop (Irreps.dim u)).take (Irreps.dim v)) ((zs.drop u.length).take v.length) =
      ((comp (u ++ v ++ w) a zs).drop u.length).take v.length ∧
    termsOf v ((a.drop (Irreps.dim u)).take (Irreps.dim v)) =
      ((termsOf (u ++ v ++ w) a).drop u.length).take v.length := by
  rw [List.append_assoc] at h ⊢
  obtain ⟨h1, h2⟩ := flagsOk_split h
  obtain ⟨h3, h4⟩ := flagsOk_split h2
  refine ⟨h3, ?_, ?_⟩
  · rw [comp_split h, comp_split h2, List.drop_left' (comp_length h1.lengths.2),
      List.take_left' (comp_length h3.lengths.2)]
  · rw [termsOf_append, termsOf_append, List.drop_left' (termsOf_length _ _),
      List.take_left' (termsOf_length _ _), termsOf_take _ _ _ (Nat.le_refl _)]

/-! ### concatenate -/

theorem concat_flags (xs : List (IArr α)) (hx : ∀ x ∈ xs, Inv x) :
    FlagsOk (xs.map IArr.irreps).flatten (xs.map IArr.array).flatten (xs.map IArr.zeroFlags).flatten ∧
    comp (xs.map IArr.irreps).flatten (xs.map IArr.array).flatten (xs.map IArr.zeroFlags).flatten =
      (xs.map IArr.chunks).flatten := by
  induction xs with
  | nil => exact ⟨rfl, rfl⟩
  | cons x xs ih =>
    obtain ⟨i1, i2⟩ := ih fun y hy => hx y (by simp [hy])
    have h := hx x (by simp)
    obtain ⟨e1, e2⟩ := flagsOk_append h.flags i1
    simp only [List.map_cons, List.flatten_cons]
    exact ⟨e1, by rw [e2, i2, h.chunks_eq]⟩

theorem concatenate_spec {xs : List (IArr α)} (hne : xs ≠ []) (hx : ∀ x ∈ xs, Inv x) :
    ∃ y, concatenate xs = .ok y ∧ Inv y ∧ y.irreps = (xs.map IArr.irreps).flatten ∧
      y.array = (xs.map IArr.array).flatten ∧ y.zeroFlags = (xs.map IArr.zeroFlags).flatten := by
  obtain ⟨e1, e2⟩ := concat_flags xs hx
  unfold concatenate
  rw [if_neg (by simpa using hne), ← e2]
  exact ⟨_, make_cache e1, inv_cache e1, rfl, rfl, rfl⟩

theorem blocksOf_concat (xs : List (IArr α)) (hx : ∀ x ∈ xs, Inv x) :
    blocksOf (expand (xs.map IArr.irreps).flatten) (xs.map IArr.array).flatten =
      xs.flatMap IArr.blocks := by
  induction xs with
  | nil => rfl
  | cons x xs ih =>
    have h := (hx x (by simp)).flags.lengths.1
    rw [Irreps.dim_eq_dimOf_expand] at h
    simp only [List.map_cons, List.flatten_cons, List.flatMap_cons]
    have e : expand (x.irreps ++ (xs.map IArr.irreps).flatten) =
        expand x.irreps ++ expand (xs.map IArr.irreps).flatten := by simp [expand]
    rw [e, blocksOf_append, List.drop_left' h, ih fun y hy => hx y (by simp [hy])]
    congr 1
    rw [← blocksOf_take _ _ _ (Nat.le_refl _), List.take_left' h]
    rfl

/-! ### operations through lists of (term, chunk) -/

omit [Zero α] [Zero β] in
theorem zip_swap' {γ δ : Type} (l : List γ) (k : List δ) : (l.zip k).map Prod.swap = k.zip l := by
  induction l generalizing k with
  | nil => simp
  | cons a l ih => cases k <;> simp [ih]

theorem filterMap_of_pairs {x : IArr α} (hx : Inv x) (p : MulIrrep → Bool) :
    ∃ y, fromChunks (x.irreps.filter p)
        (((x.chunks.zip x.irreps).filter fun cm => p cm.2).map Prod.fst) = .ok y ∧ Inv y ∧
      y.irreps = x.irreps.filter p ∧ y.terms = x.terms.filter (fun t => p t.1) := by
  obtain ⟨p1, p2, p3, p4, p5, p6⟩ := hx.pairs
  set ps := x.irreps.zip x.chunks with hps
  obtain ⟨y, h1, h2, h3, h4, -⟩ := fromChunks_pairs (ps.filter fun q => p q.1)
    (fun q hq => p1 q (List.mem_of_mem_filter hq))
  have e1 : (ps.filter fun q => p q.1).map Prod.fst = x.irreps.filter p := by
    rw [← p2, List.filter_map]; rfl
  have e2 : (ps.filter fun q => p q.1).map Prod.snd =
      ((x.chunks.zip x.irreps).filter fun cm => p cm.2).map Prod.fst := by
    have : x.chunks.zip x.irreps = ps.map Prod.swap := by
      rw [hps]; exact (zip_swap' _ _).symm
    rw [this, List.filter_map, List.map_map]
    rfl
  have e3 : (ps.filter fun q => p q.1).map tm = x.terms.filter (fun t => p t.1) := by
    rw [← p4, List.filter_map]; rfl
  rw [e1, e2] at h1
  exact ⟨y, h1, h2, by rw [h3, e1], by rw [h4, e3]⟩

theorem sliceByChunk_spec {x : IArr α} (hx : Inv x) (s : PySlice) :
    ∃ y, sliceByChunk x s = .ok y ∧ Inv y ∧
      y.irreps = pySlice x.irreps (s.bounds x.irreps.length).1 (s.bounds x.irreps.length).2 ∧
      y.terms = pySlice x.terms (s.bounds x.irreps.length).1 (s.bounds x.irreps.length).2 := by
  obtain ⟨p1, p2, p3, p4, p5, p6⟩ := hx.pairs
  set ps := x.irreps.zip x.chunks with hps
  unfold sliceByChunk pySlice
  simp only
  generalize (s.bounds x.irreps.length).1 = i
  generalize (s.bounds x.irreps.length).2 = j
  obtain ⟨y, h1, h2, h3, h4, -⟩ := fromChunks_pairs ((ps.take j).drop i)
    (fun q hq => p1 q (List.mem_of_mem_take (List.mem_of_mem_drop hq)))
  rw [List.map_drop, List.map_take, p2, List.map_drop, List.map_take, p3] at h1
  refine ⟨y, h1, h2, ?_, ?_⟩
  · rw [h3, List.map_drop, List.map_take, p2]
  · rw [h4, List.map_drop, List.map_take, p4]

theorem removeZeroChunks_spec {x : IArr α} (hx : Inv x) :
    ∃ y, removeZeroChunks x = .ok y ∧ Inv y ∧
      y.terms = ((x.terms.zip x.zeroFlags).filter fun tz => !tz.2).map Prod.fst ∧
      (∀ z ∈ y.zeroFlags, z = false) := by
  obtain ⟨p1, p2, p3, p4, p5, p6⟩ := hx.pairs
  set ps := x.irreps.zip x.chunks with hps
  obtain ⟨y, h1, h2, h3, h4, h5, h6, -⟩ := fromChunks_pairs (ps.filter fun q => !q.2.isNone)
    (fun q hq => p1 q (List.mem_of_mem_filter hq))
  have key : ∀ {γ : Type} (g : MulIrrep × Chunk α → γ),
      (((ps.map g).zip (ps.map fun p => p.2.isNone)).filter fun tz => !tz.2).map Prod.fst =
      (ps.filter fun q => !q.2.isNone).map g := by
    intro γ g
    rw [List.zip_map', List.filter_map, List.map_map]
    rfl
  refine ⟨y, ?_, h2, ?_, ?_⟩
  · unfold removeZeroChunks
    have k1 := key Prod.fst
    have k2 := key Prod.snd
    rw [p2, p5] at k1
    rw [p3, p5] at k2
    rw [k1, k2, h1]
  · rw [h4, ← p4, ← p5, key]
  · rw [h6]
    intro z hz
    obtain ⟨q, hq, rfl⟩ := List.mem_map.mp hz
    have := (List.mem_filter.mp hq).2
    simpa using this

/-! ### sort -/

theorem sort_stable (x : Irreps) (ir : Irrep) :
    x.sortedTriples.filter (fun t => decide (t.1 = ir)) =
      (Irreps.triples x).filter (fun t => decide (t.1 = ir)) := by
  have hp := (Irreps.sortedTriples_perm x).filter (fun t => decide (t.1 = ir))
  have h1 := (Irreps.sortedTriples_sorted x).filter (fun t => decide (t.1 = ir))
  have hnd : (Irreps.triples x).Pairwise (fun a b => a.2.1 < b.2.1) := by
    have := List.pairwise_lt_range (n := x.length)
    rw [← Irreps.triples_idx, List.pairwise_map] at this
    exact this
  have h2 := hnd.filter (fun t => decide (t.1 = ir))
  refine hp.eq_of_pairwise (le := fun a b => a.1 = b.1 → a.2.1 ≤ b.2.1) ?_ ?_ ?_
  · intro a b ha hb h3 h4
    have ha' := List.mem_filter.mp ha
    have hb' := List.mem_filter.mp hb
    simp only [decide_eq_true_eq] at ha' hb'
    have he : a.1 = b.1 := by rw [ha'.2, hb'.2]
    have : a.2.1 = b.2.1 := Nat.le_antisymm (h3 he) (h4 he.symm)
    have ga := Irreps.triples_get ((Irreps.sortedTriples_perm x).mem_iff.mp ha'.1)
    have gb := Irreps.triples_get hb'.1
    rw [this, gb] at ga
    simp only [Option.some.injEq, MulIrrep.mk.injEq] at ga
    exact Prod.ext he (Prod.ext this ga.1.symm)
  · refine h1.imp ?_
    intro a b hab he
    rw [Irreps.sortLt_false_iff, he] at hab
    omega
  · refine h2.imp ?_
    intro a b hab _
    exact Nat.le_of_lt hab

/-- The chunk at a position. -/
def chunkAt (x : IArr α) (i : Nat) : Chunk α := (x.chunks[i]?).getD none

theorem pick_eq {x : IArr α} (inv : List Nat) (h : ∀ i ∈ inv, i < x.chunks.length) :
    pick x.chunks inv = .ok (inv.map (chunkAt x)) := by
  unfold pick
  induction inv with
  | nil => rfl
  | cons i inv ih =>
    have hi := h i (by simp)
    rw [List.mapM_cons, ih fun j hj => h j (by simp [hj])]
    simp only [List.getElem?_eq_getElem hi, List.map_cons, chunkAt, Option.getD_some]
    rfl

theorem sort_spec {x : IArr α} (hx : Inv x) :
    ∃ y, x.sort = .ok y ∧ Inv y ∧ y.irreps = Irreps.sortIrreps x.irreps ∧
      y.terms.Perm x.terms ∧
      (∀ ir, y.terms.filter (fun t => decide (t.1.ir = ir)) =
        x.terms.filter fun t => decide (t.1.ir = ir)) := by
  obtain ⟨p1, p2, p3, p4, p5, p6⟩ := hx.pairs
  have hcl : x.chunks.length = x.irreps.length := by
    rw [hx.chunks_eq]; exact comp_length hx.flags.lengths.2
  set ps := x.irreps.zip x.chunks with hps
  let g : Irrep × Nat × Nat → MulIrrep × Chunk α := fun t => (⟨t.2.2, t.1⟩, chunkAt x t.2.1)
  have hg : ∀ t ∈ Irreps.triples x.irreps, ps[t.2.1]? = some (g t) := by
    intro t ht
    have h1 := Irreps.triples_get ht
    have hlt : t.2.1 < x.irreps.length := by
      rcases Nat.lt_or_ge t.2.1 x.irreps.length with h | h
      · exact h
      · rw [List.getElem?_eq_none h] at h1; simp at h1
    have h2 : x.chunks[t.2.1]? = some (chunkAt x t.2.1) := by
      rw [chunkAt, List.getElem?_eq_getElem (by omega)]; rfl
    rw [hps, List.getElem?_zip_eq_some]
    exact ⟨h1, h2⟩
  have htr : (Irreps.triples x.irreps).map g = ps := by
    apply List.ext_getElem?
    intro i
    rw [List.getElem?_map]
    have hidx := congrArg (fun l => l[i]?) (Irreps.triples_idx x.irreps)
    simp only [List.getElem?_map] at hidx
    cases ht : (Irreps.triples x.irreps)[i]? with
    | none =>
      rw [ht] at hidx
      have hlen : x.irreps.length ≤ i := by
        simpa using (List.getElem?_eq_none_iff.mp hidx.symm)
      rw [List.getElem?_eq_none (by rw [hps, List.length_zip]; omega)]
      rfl
    | some t =>
      rw [ht] at hidx
      have hi : t.2.1 = i := by
        have h' := (List.getElem?_eq_some_iff.mp hidx.symm).2
        simpa using h'.symm
      have := hg t (List.mem_of_getElem? ht)
      rw [hi] at this
      rw [this]; rfl
  have hperm := (Irreps.sortedTriples_perm x.irreps)
  have hsh : Shaped (x.irreps.sortedTriples.map g) := by
    intro q hq
    obtain ⟨t, ht, rfl⟩ := List.mem_map.mp hq
    have := hg t (hperm.mem_iff.mp ht)
    exact p1 _ (List.mem_of_getElem? this)
  obtain ⟨y, h1, h2, h3, h4, -⟩ := fromChunks_pairs _ hsh
  refine ⟨y, ?_, h2, ?_, ?_, ?_⟩
  · unfold IArr.sort
    rw [Irreps.sort_eq]
    have hb : ∀ i ∈ Irreps.sortInv x.irreps, i < x.chunks.length := by
      intro i hi
      have := (Irreps.sortInv_perm x.irreps).mem_iff.mp hi
      rw [hcl]; exact List.mem_range.mp this
    show (do
      let cs ← pick x.chunks (Irreps.sortInv x.irreps)
      fromChunks (Irreps.sortIrreps x.irreps) cs) = _
    rw [pick_eq _ hb]
    show fromChunks (Irreps.sortIrreps x.irreps) _ = _
    rw [← h1]
    unfold Irreps.sortIrreps Irreps.sortInv
    rw [List.map_map, List.map_map, List.map_map]
    rfl
  · rw [h3, List.map_map]; rfl
  · rw [h4, ← p4, ← htr]
    exact (hperm.map g).map tm
  · intro ir
    rw [h4, ← p4, ← htr, List.filter_map, List.filter_map, List.filter_map, List.filter_map]
    have : (((fun t => decide (t.1.ir = ir)) ∘ tm) ∘ g : Irrep × Nat × Nat → Bool) =
        fun t => decide (t.1 = ir) := by funext t; rfl
    rw [this, sort_stable]

/-! ### from terms to blocks -/

omit [Zero α] [Zero β] in
theorem blocks_filter (x : IArr α) (ir : Irrep) :
    x.blocks.filter (fun b => decide (b.1 = ir)) =
      (x.terms.filter (fun t => decide (t.1.ir = ir))).flatMap fun md =>
        blocksOf (List.replicate md.1.mul md.1.ir) md.2 := by
  rw [blocks_eq]
  induction x.terms with
  | nil => rfl
  | cons t ts ih =>
    rw [List.flatMap_cons, List.filter_append, ih, List.filter_cons]
    have hall : ∀ b ∈ blocksOf (List.replicate t.1.mul t.1.ir) t.2, b.1 = t.1.ir := by
      intro b hb
      rw [blocksOf_replicate] at hb
      obtain ⟨r, _, rfl⟩ := List.mem_map.mp hb
      rfl
    by_cases h : t.1.ir = ir
    · rw [if_pos (by simpa using h), List.flatMap_cons,
        List.filter_eq_self.mpr (fun b hb => by simp [hall b hb, h])]
    · rw [if_neg (by simpa using h),
        List.filter_eq_nil_iff.mpr (fun b hb => by simp [hall b hb, h])]
      rfl

omit [Zero α] [Zero β] in
theorem blocks_irs (x : IArr α) : x.blocks.map Prod.fst = expand x.irreps := blocksOf_fst _ _

theorem Inv.array_eq_blocks {x : IArr α} (h : Inv x) : (x.blocks.map Prod.snd).flatten = x.array :=
  blocksOf_flatten _ _ (by rw [h.flags.lengths.1, Irreps.dim_eq_dimOf_expand])

omit [Zero α] [Zero β] in
theorem terms_fst (x : IArr α) : x.terms.map Prod.fst = x.irreps := by
  unfold IArr.terms
  generalize x.array = a
  induction x.irreps generalizing a with
  | nil => rfl
  | cons m ms ih => simp [termsOf, ih]

omit [Zero α] [Zero β] in
theorem blocks_of_terms_eq {x y : IArr α} (h : y.terms = x.terms) : y.blocks = x.blocks := by
  rw [blocks_eq, blocks_eq, h]

/-! ### extend_with_zeros -/

omit [Zero α] [Zero β] in
theorem extendLoop_spec (cur : List (MulIrrep × Chunk α)) (new : Irreps) :
    (extendLoop cur new).1.length = new.length ∧
    ((extendLoop cur new).2 = [] ↔ (cur.map Prod.fst).Sublist new) ∧
    ((extendLoop cur new).2 = [] → ∃ sel : List Bool, sel.length = new.length ∧
      ((((new.zip (extendLoop cur new).1).zip sel).filter Prod.snd).map Prod.fst = cur) ∧
      (∀ q ∈ (new.zip (extendLoop cur new).1).zip sel, q.2 = false → q.1.2 = none)) := by
  induction new generalizing cur with
  | nil =>
    simp only [extendLoop, List.sublist_nil, List.map_eq_nil_iff, List.length_nil, true_and]
    refine fun h => ⟨[], rfl, ?_, ?_⟩ <;> simp [h]
  | cons n ns ih =>
    cases cur with
    | nil =>
      simp only [extendLoop, List.length_map, List.map_nil, List.nil_sublist, true_and]
      refine fun _ => ⟨List.replicate (n :: ns).length false, by simp, ?_, ?_⟩
      · rw [List.map_eq_nil_iff, List.filter_eq_nil_iff]
        intro q hq
        have := (List.of_mem_zip hq).2
        have := List.eq_of_mem_replicate this
        simp [this]
      · intro q hq _
        have h1 := (List.of_mem_zip (List.of_mem_zip hq).1).2
        obtain ⟨_, _, e⟩ := List.mem_map.mp h1
        exact e.symm
    | cons p cur =>
      obtain ⟨m, c⟩ := p
      simp only [extendLoop]
      by_cases h : m = n
      · rw [if_pos h]
        obtain ⟨i1, i2, i3⟩ := ih cur
        simp only [List.length_cons, i1, List.map_cons, h, List.cons_sublist_cons, i2, true_and]
        intro hs
        obtain ⟨sel, s1, s2, s3⟩ := i3 (i2.mpr hs)
        refine ⟨true :: sel, by simp [s1], ?_, ?_⟩
        · simp [s2]
        · intro q hq
          simp only [List.zip_cons_cons, List.mem_cons] at hq
          rcases hq with rfl | hq
          · simp
          · exact s3 q hq
      · rw [if_neg h]
        obtain ⟨i1, i2, i3⟩ := ih ((m, c) :: cur)
        have hiff : ((((m, c) :: cur).map Prod.fst).Sublist (n :: ns)) ↔
            (((m, c) :: cur).map Prod.fst).Sublist ns := by
          simp only [List.map_cons]
          constructor
          · intro hs
            cases hs with
            | cons _ hs => exact hs
            | cons_cons _ hs => exact absurd rfl h
          · intro hs; exact hs.cons n
        refine ⟨by simp [i1], by rw [hiff]; exact i2, ?_⟩
        intro hs
        obtain ⟨sel, s1, s2, s3⟩ := i3 hs
        refine ⟨false :: sel, by simp [s1], ?_, ?_⟩
        · simpa using s2
        · intro q hq
          simp only [List.zip_cons_cons, List.mem_cons] at hq
          rcases hq with rfl | hq
          · simp
          · exact s3 q hq

/-- The chunks given by the loop are well shaped. -/
theorem extendLoop_shaped (cur : List (MulIrrep × Chunk α)) (new : Irreps) (h : Shaped cur) :
    Shaped (new.zip (extendLoop cur new).1) := by
  induction new generalizing cur with
  | nil => simp [Shaped]
  | cons n ns ih =>
    cases cur with
    | nil =>
      intro q hq
      have := (List.of_mem_zip hq).2
      simp only [extendLoop] at this
      obtain ⟨_, _, e⟩ := List.mem_map.mp this
      rw [← e]; rfl
    | cons p cur =>
      obtain ⟨m, c⟩ := p
      simp only [extendLoop]
      by_cases hm : m = n
      · rw [if_pos hm]
        intro q hq
        simp only [List.zip_cons_cons, List.mem_cons] at hq
        rcases hq with rfl | hq
        · have := h (m, c) (by simp); rw [← hm]; exact this
        · exact ih cur (fun q hq => h q (by simp [hq])) q hq
      · rw [if_neg hm]
        intro q hq
        simp only [List.zip_cons_cons, List.mem_cons] at hq
        rcases hq with rfl | hq
        · rfl
        · exact ih _ h q hq

theorem extendWithZeros_spec {x : IArr α} (hx : Inv x) (new : Irreps) :
    (x.irreps.Sublist new → ∃ y, x.extendWithZeros new = .ok y ∧ Inv y ∧ y.irreps = new ∧
      ∃ sel : List Bool, sel.length = new.length ∧
        ((y.terms.zip sel).filter Prod.snd).map Prod.fst = x.terms ∧
        ∀ q ∈ y.terms.zip sel, q.2 = false → ∀ v ∈ q.1.2, v = 0) ∧
    (¬ x.irreps.Sublist new → x.extendWithZeros new = .error .valueError) := by
  obtain ⟨p1, p2, p3, p4, p5, p6⟩ := hx.pairs
  obtain ⟨l1, l2, l3⟩ := extendLoop_spec (x.irreps.zip x.chunks) new
  rw [p2] at l2
  have hsh := extendLoop_shaped _ new p1
  unfold extendWithZeros
  constructor
  · intro hs
    have h0 := l2.mpr hs
    obtain ⟨sel, s1, s2, s3⟩ := l3 h0
    simp only [h0, List.length_nil, gt_iff_lt, Nat.lt_irrefl, if_false]
    obtain ⟨y, h1, h2, h3, h4, -⟩ := fromChunks_pairs _ hsh
    rw [List.map_fst_zip (by omega), List.map_snd_zip (by omega)] at h1
    refine ⟨y, h1, h2, by rw [h3, List.map_fst_zip (by omega)], sel, s1, ?_, ?_⟩
    · rw [h4, ← p4, List.zip_map_left, List.filter_map, List.map_map]
      conv => rhs; rw [← s2]
      rw [List.map_map]
      rfl
    · intro q hq hf v hv
      rw [h4, List.zip_map_left] at hq
      obtain ⟨⟨⟨m, c⟩, b⟩, hq', rfl⟩ := List.mem_map.mp hq
      have := s3 _ hq' hf
      simp only at this
      subst this
      simp only [Prod.map_apply, tm, flatChunk] at hv
      exact List.eq_of_mem_replicate hv
  · intro hs
    have h0 : (extendLoop (x.irreps.zip x.chunks) new).2 ≠ [] := fun h => hs (l2.mp h)
    simp only [gt_iff_lt]
    rw [if_pos (List.length_pos_iff.mpr h0)]

end zero

/-! ### add and sub -/

theorem zipFlags {γ : Type} {f : α → β → γ} [Zero α] [Zero β] [Zero γ] (hf : f 0 0 = 0)
    {ms : Irreps} {a : List α} {b : List β} {zs ws : List Bool} (h1 : FlagsOk ms a zs) (h2 : FlagsOk ms b ws) :
    FlagsOk ms (List.zipWith f a b) (List.zipWith (· && ·) zs ws) := by
  induction ms generalizing a b zs ws with
  | nil =>
    cases zs with
    | cons => exact absurd h1 (by simp [FlagsOk])
    | nil =>
      simp only [FlagsOk] at h1; subst h1; simp [FlagsOk]
  | cons m ms ih =>
    cases zs with
    | nil => exact absurd h1 (by simp [FlagsOk])
    | cons z zs =>
      cases ws with
      | nil => exact absurd h2 (by simp [FlagsOk])
      | cons w ws =>
        simp only [FlagsOk] at h1 h2
        simp only [List.zipWith_cons_cons, FlagsOk]
        refine ⟨by rw [List.length_zipWith]; omega, ?_, ?_⟩
        · intro hzw v hv
          simp only [Bool.and_eq_true] at hzw
          rw [List.take_zipWith] at hv
          obtain ⟨i, hi, rfl⟩ := List.mem_iff_getElem.mp hv
          rw [List.getElem_zipWith, h1.2.1 hzw.1 _ (List.getElem_mem _),
            h2.2.1 hzw.2 _ (List.getElem_mem _), hf]
        · rw [List.drop_zipWith]; exact ih h1.2.2 h2.2.2

theorem zipWith_left_id {f : α → α → α} {e : α} (hf : ∀ v, f e v = v) (a b : List α)
    (h : ∀ v ∈ a, v = e) (hl : b.length ≤ a.length) : List.zipWith f a b = b := by
  induction b generalizing a with
  | nil => simp
  | cons v b ih =>
    cases a with
    | nil => simp at hl
    | cons w a =>
      rw [List.zipWith_cons_cons, h w (by simp), hf, ih a (fun v hv => h v (by simp [hv])) (by simpa using hl)]

theorem rows_take_self {m d : Nat} (a : List α) : rows m d (a.take (m * d)) = rows m d a :=
  rows_take _ _ _ _ (Nat.le_refl _)

theorem comp_add [AddMonoid α] {ms : Irreps} {a b : List α} {zs ws : List Bool}
    (h1 : FlagsOk ms a zs) (h2 : FlagsOk ms b ws) :
    List.zipWith addChunk (comp ms a zs) (comp ms b ws) =
      comp ms (List.zipWith (· + ·) a b) (List.zipWith (· && ·) zs ws) := by
  induction ms generalizing a b zs ws with
  | nil => simp [comp]
  | cons m ms ih =>
    cases zs with
    | nil => exact absurd h1 (by simp [FlagsOk])
    | cons z zs =>
      cases ws with
      | nil => exact absurd h2 (by simp [FlagsOk])
      | cons w ws =>
        simp only [FlagsOk] at h1 h2
        simp only [List.zipWith_cons_cons, comp, List.drop_zipWith, ih h1.2.2 h2.2.2]
        congr 1
        have key : rows m.mul m.ir.dim (List.zipWith (· + ·) a b) =
            rows m.mul m.ir.dim (List.zipWith (· + ·) (a.take m.dim) (b.take m.dim)) := by
          rw [← List.take_zipWith]; exact (rows_take_self _).symm
        cases z <;> cases w <;> simp only [Bool.and_true, Bool.and_false, Bool.false_eq_true, if_false, if_true, addChunk]
        · rw [rows_zipWith]
        · congr 1
          rw [key, List.zipWith_comm (f := fun x y : α => x + y) (bs := b.take m.dim) (as := a.take m.dim), zipWith_left_id (f := fun (x y : α) => y + x) (e := 0) (by simp) _ _ (h2.2.1 rfl) (by simp; omega)]
          exact (rows_take_self _).symm
        · congr 1
          rw [key, zipWith_left_id (e := (0 : α)) (by simp) _ _ (h1.2.1 rfl) (by simp; omega)]
          exact (rows_take_self _).symm

theorem comp_sub [AddGroup α] {ms : Irreps} {a b : List α} {zs ws : List Bool}
    (h1 : FlagsOk ms a zs) (h2 : FlagsOk ms b ws) :
    List.zipWith subChunk (comp ms a zs) (comp ms b ws) =
      comp ms (List.zipWith (· - ·) a b) (List.zipWith (· && ·) zs ws) := by
  induction ms generalizing a b zs ws with
  | nil => simp [comp]
  | cons m ms ih =>
    cases zs with
    | nil => exact absurd h1 (by simp [FlagsOk])
    | cons z zs =>
      cases ws with
      | nil => exact absurd h2 (by simp [FlagsOk])
      | cons w ws =>
        simp only [FlagsOk] at h1 h2
        simp only [List.zipWith_cons_cons, comp, List.drop_zipWith, ih h1.2.2 h2.2.2]
        congr 1
        have key : rows m.mul m.ir.dim (List.zipWith (· - ·) a b) =
            rows m.mul m.ir.dim (List.zipWith (· - ·) (a.take m.dim) (b.take m.dim)) := by
          rw [← List.take_zipWith]; exact (rows_take_self _).symm
        cases z <;> cases w <;> simp only [Bool.and_true, Bool.and_false, Bool.false_eq_true, if_false, if_true, subChunk]
        · rw [rows_zipWith]
        · congr 1
          rw [key, List.zipWith_comm (f := fun x y : α => x - y) (bs := b.take m.dim) (as := a.take m.dim), zipWith_left_id (f := fun (x y : α) => y - x) (e := 0) (by simp) _ _ (h2.2.1 rfl) (by simp; omega)]
          exact (rows_take_self _).symm
        · congr 1
          have : List.zipWith (fun x y : α => x - y) (a.take m.dim) (b.take m.dim) =
              (b.take m.dim).map fun v => -v := by
            have e : List.zipWith (fun x y : α => x - y) (a.take m.dim) (b.take m.dim) =
                List.zipWith (fun x y : α => x + y) (a.take m.dim) ((b.take m.dim).map fun v => -v) := by
              rw [List.zipWith_map_right]; simp only [sub_eq_add_neg]
            rw [e, zipWith_left_id (e := (0 : α)) (by simp) _ _ (h1.2.1 rfl) (by simp; omega)]
          rw [key, this, rows_map]
          congr 1
          exact (rows_take_self _).symm

theorem add_spec [AddMonoid α] {x y : IArr α} (hx : Inv x) (hy : Inv y) (h : x.irreps = y.irreps) :
    ∃ z, add x y = .ok z ∧ Inv z ∧ z.irreps = x.irreps ∧
      z.array = List.zipWith (· + ·) x.array y.array := by
  have hyf := hy.flags
  rw [← h] at hyf
  have hf := zipFlags (f := fun a b : α => a + b) (by simp) hx.flags hyf
  unfold add
  rw [if_neg (by simpa using h)]
  simp only
  cases hcx : x.chunks? with
  | none => exact ⟨_, make_nocache hf, inv_nocache hf, rfl, rfl⟩
  | some cx =>
    cases hcy : y.chunks? with
    | none => exact ⟨_, make_nocache hf, inv_nocache hf, rfl, rfl⟩
    | some cy =>
      rw [hx.cache cx hcx, hy.cache cy hcy, ← h]
      simp only
      rw [comp_add hx.flags hyf]
      exact ⟨_, make_cache hf, inv_cache hf, rfl, rfl⟩

theorem sub_spec [AddGroup α] {x y : IArr α} (hx : Inv x) (hy : Inv y) (h : x.irreps = y.irreps) :
    ∃ z, sub x y = .ok z ∧ Inv z ∧ z.irreps = x.irreps ∧
      z.array = List.zipWith (· - ·) x.array y.array := by
  have hyf := hy.flags
  rw [← h] at hyf
  have hf := zipFlags (f := fun a b : α => a - b) (by simp) hx.flags hyf
  unfold sub
  rw [if_neg (by simpa using h)]
  simp only
  cases hcx : x.chunks? with
  | none => exact ⟨_, make_nocache hf, inv_nocache hf, rfl, rfl⟩
  | some cx =>
    cases hcy : y.chunks? with
    | none => exact ⟨_, make_nocache hf, inv_nocache hf, rfl, rfl⟩
    | some cy =>
      rw [hx.cache cx hcx, hy.cache cy hcy, ← h]
      simp only
      rw [comp_sub hx.flags hyf]
      exact ⟨_, make_cache hf, inv_cache hf, rfl, rfl⟩

end IArr
end E3nn
