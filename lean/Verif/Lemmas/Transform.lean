import Verif.Model.Transform
import Verif.Lemmas.Axis
import Mathlib.Algebra.Module.LinearMap.Defs

/-! # Structural operations commute with the transformation of every row -/

namespace E3nn
namespace IArr

set_option linter.unusedSectionVars false

variable {α : Type} [Zero α]

/-- The action preserves the length of rows and maps zero rows to zero rows. -/
structure Act (D : Irrep → List α → List α) : Prop where
  len : ∀ ir r, r.length = ir.dim → (D ir r).length = ir.dim
  zero : ∀ ir, D ir (List.replicate ir.dim 0) = List.replicate ir.dim 0

/-- The action on a (term, chunk) pair. -/
def T (D : Irrep → List α → List α) (p : MulIrrep × Chunk α) : MulIrrep × Chunk α := (p.1, actRows D p)

/-- The action on blocks. -/
def TB (D : Irrep → List α → List α) (b : Irrep × List α) : Irrep × List α := (b.1, D b.1 b.2)

/-- `x'` is the transform of `x`. -/
structure Tr (D : Irrep → List α → List α) (x x' : IArr α) : Prop where
  inv : Inv x
  inv' : Inv x'
  pairs : x'.irreps.zip x'.chunks = (x.irreps.zip x.chunks).map (T D)

variable {D : Irrep → List α → List α}

theorem T_shaped (hD : Act D) {ps : List (MulIrrep × Chunk α)} (h : Shaped ps) : Shaped (ps.map (T D)) := by
  intro q hq
  obtain ⟨⟨m, c⟩, hp, rfl⟩ := List.mem_map.mp hq
  have := h _ hp
  cases c with
  | none => rfl
  | some c =>
    simp only [shapeOk, Bool.and_eq_true, beq_iff_eq, List.all_eq_true] at this
    simp only [T, actRows, Option.map_some, shapeOk, List.length_map, this.1, beq_self_eq_true,
      Bool.true_and, List.all_eq_true, beq_iff_eq, List.mem_map]
    rintro r ⟨r', hr', rfl⟩
    exact hD.len _ _ (this.2 r' hr')

theorem Tr.irreps {x x' : IArr α} (h : Tr D x x') : x'.irreps = x.irreps := by
  have a := h.inv'.pairs.2.1
  rw [h.pairs, List.map_map] at a
  exact a.symm.trans h.inv.pairs.2.1

theorem Tr.chunks {x x' : IArr α} (h : Tr D x x') :
    x'.chunks = (x.irreps.zip x.chunks).map (actRows D) := by
  rw [← h.inv'.pairs.2.2.1, h.pairs, List.map_map]
  rfl

theorem Tr.flags {x x' : IArr α} (h : Tr D x x') : x'.zeroFlags = x.zeroFlags := by
  rw [← h.inv'.pairs.2.2.2.2.1, h.pairs, List.map_map, ← h.inv.pairs.2.2.2.2.1]
  apply List.map_congr_left
  rintro ⟨m, c⟩ _
  cases c <;> rfl

theorem blk_none (m : MulIrrep) :
    blk (m, (none : Chunk α)) = List.replicate m.mul (m.ir, List.replicate m.ir.dim 0) := by
  simp only [blk, flatChunk, blocksOf_replicate]
  have : rows m.mul m.ir.dim (List.replicate m.dim (0 : α)) = List.replicate m.mul (List.replicate m.ir.dim 0) := by
    unfold MulIrrep.dim
    generalize m.mul = k
    induction k with
    | zero => rfl
    | succ k ih =>
      rw [List.replicate_succ, ← ih]
      simp only [rows]
      rw [List.take_replicate, List.drop_replicate]
      congr 2
      · rw [Nat.succ_mul]; omega
      · rw [Nat.succ_mul]; congr 1; omega
  rw [this, List.map_replicate]

theorem blk_T (hD : Act D) {p : MulIrrep × Chunk α} (h : shapeOk p.1 p.2 = true) :
    blk (T D p) = (blk p).map (TB D) := by
  obtain ⟨m, c⟩ := p
  cases c with
  | none =>
    simp only [T, actRows, Option.map_none, blk_none, List.map_replicate, TB, hD.zero]
  | some c =>
    have hs : shapeOk m (some (c.map (D m.ir))) = true :=
      T_shaped hD (ps := [(m, some c)]) (by simpa [Shaped] using h) (m, some (c.map (D m.ir))) (by simp [T, actRows])
    simp only [T, actRows, Option.map_some]
    rw [blk_some h, blk_some hs]
    simp [TB, Function.comp_def]

theorem Tr.blocks (hD : Act D) {x x' : IArr α} (h : Tr D x x') : x'.blocks = x.blocks.map (TB D) := by
  rw [h.inv'.blocks_pairs, h.inv.blocks_pairs, h.pairs, List.flatMap_map, List.map_flatMap]
  apply List.flatMap_congr
  intro p hp
  exact blk_T hD (h.inv.pairs.1 _ hp)

/-- The transform exists. -/
theorem transformBy_spec (hD : Act D) {x : IArr α} (hx : Inv x) :
    ∃ x', transformBy D x = .ok x' ∧ Tr D x x' := by
  obtain ⟨y, h1, h2, h3, h4, h5, h6, h7, h8⟩ := fromChunks_pairs _ (T_shaped hD hx.pairs.1)
  have e1 : ((x.irreps.zip x.chunks).map (T D)).map Prod.fst = x.irreps := by
    rw [List.map_map]; conv => rhs; rw [← hx.pairs.2.1]
    rfl
  have e2 : ((x.irreps.zip x.chunks).map (T D)).map Prod.snd = (x.irreps.zip x.chunks).map (actRows D) := by
    rw [List.map_map]; rfl
  refine ⟨y, ?_, hx, h2, ?_⟩
  · unfold transformBy; rw [← h1, e1, e2]
  · rw [h3, h7, List.zip_map']; simp

/-- An invariant array is determined by irreps, flags and blocks. -/
theorem Inv.ext_blocks {x y : IArr α} (hx : Inv x) (hy : Inv y) (h1 : x.irreps = y.irreps)
    (h2 : x.zeroFlags = y.zeroFlags) (h3 : x.blocks = y.blocks) : x.array = y.array ∧ x.chunks = y.chunks := by
  have ha : x.array = y.array := by rw [← hx.array_eq_blocks, h3, hy.array_eq_blocks]
  exact ⟨ha, by rw [hx.chunks_eq, hy.chunks_eq, h1, h2, ha]⟩

theorem Tr.of_blocks (hD : Act D) {x x' : IArr α} (hx : Inv x) (hx' : Inv x') (h1 : x'.irreps = x.irreps)
    (h2 : x'.zeroFlags = x.zeroFlags) (h3 : x'.blocks = x.blocks.map (TB D)) : Tr D x x' := by
  obtain ⟨z, -, ht⟩ := transformBy_spec hD hx
  have hb := ht.blocks hD
  obtain ⟨-, hc⟩ := hx'.ext_blocks ht.inv' (by rw [h1, ht.irreps]) (by rw [h2, ht.flags]) (by rw [h3, hb])
  refine ⟨hx, hx', ?_⟩
  rw [hc, h1, ← ht.irreps, ht.pairs, ht.irreps]

/-- Two transforms of the same array cannot be told apart. -/
theorem Tr.unique {x y z : IArr α} (h1 : Tr D x y) (h2 : Tr D x z) :
    y.irreps = z.irreps ∧ y.array = z.array ∧ y.zeroFlags = z.zeroFlags ∧ y.chunks = z.chunks := by
  have hi : y.irreps = z.irreps := by rw [h1.irreps, h2.irreps]
  have hc : y.chunks = z.chunks := by rw [h1.chunks, h2.chunks]
  obtain ⟨a, b⟩ := h1.inv'.array_of_chunks h2.inv' hi hc
  exact ⟨hi, a, b, hc⟩

/-! ### the operations -/

/-- `from_chunks` of transformed chunks. -/
theorem tr_fromChunks (hD : Act D) {ps : List (MulIrrep × Chunk α)} (h : Shaped ps) :
    ∃ y y', fromChunks (ps.map Prod.fst) (ps.map Prod.snd) = .ok y ∧
      fromChunks (ps.map Prod.fst) ((ps.map (T D)).map Prod.snd) = .ok y' ∧ Tr D y y' ∧
      y.irreps.zip y.chunks = ps := by
  obtain ⟨y, h1, h2, h3, h4, h5, h6, h7, h8⟩ := fromChunks_pairs _ h
  obtain ⟨y', k1, k2, k3, k4, k5, k6, k7, k8⟩ := fromChunks_pairs _ (T_shaped hD h)
  have e1 : (ps.map (T D)).map Prod.fst = ps.map Prod.fst := by rw [List.map_map]; rfl
  rw [e1] at k1
  have hz : y.irreps.zip y.chunks = ps := by rw [h3, h7, List.zip_map']; simp
  refine ⟨y, y', h1, k1, ⟨h2, k2, ?_⟩, hz⟩
  rw [hz, k3, k7, List.zip_map']; simp

theorem rechunk_flags {x y : IArr α} {new : Irreps} (h : x.rechunk new = .ok y) :
    y.zeroFlags = if x.irreps = new then x.zeroFlags else rechunkFlags x.irreps x.zeroFlags new := by
  unfold rechunk at h
  split at h
  · simp at h
  split at h
  · rename_i h2; rw [if_pos h2]; injection h with h; rw [h]
  · rename_i h2
    rw [if_neg h2]
    simp only at h
    split at h
    · obtain ⟨e, -⟩ := make_ok_eq h; rw [e]; rfl
    · split at h
      · simp at h
      · obtain ⟨e, -⟩ := make_ok_eq h; rw [e]; rfl

theorem tr_rechunk (hD : Act D) {x x' y : IArr α} (h : Tr D x x') {new : Irreps} (hy : x.rechunk new = .ok y) :
    ∃ y', x'.rechunk new = .ok y' ∧ Tr D y y' := by
  by_cases hs : expand x.irreps = expand new
  · obtain ⟨z, z1, z2, z3, z4⟩ := rechunk_spec h.inv hs
    obtain ⟨w, w1, w2, w3, w4⟩ := rechunk_spec h.inv' (new := new) (by rw [h.irreps, hs])
    rw [z1] at hy; injection hy with hy; subst hy
    refine ⟨w, w1, Tr.of_blocks hD z2 w2 (by rw [z3, w3]) ?_ ?_⟩
    · rw [rechunk_flags z1, rechunk_flags w1, h.irreps, h.flags]
    · have e1 : z.blocks = x.blocks := by unfold IArr.blocks; rw [z3, z4, hs]
      have e2 : w.blocks = x'.blocks := by unfold IArr.blocks; rw [w3, w4, h.irreps, hs]
      rw [e1, e2, h.blocks hD]
  · unfold rechunk at hy
    rw [if_pos (fun e => hs ((Irreps.simplify_eq_iff _ _).mp e))] at hy
    simp at hy

theorem zip_get {x : IArr α} (hx : Inv x) {i : Nat} (hi : i < x.irreps.length) :
    (x.irreps.zip x.chunks)[i]? = some (x.irreps[i], chunkAt x i) := by
  have hcl : x.chunks.length = x.irreps.length := by
    rw [hx.chunks_eq]; exact comp_length hx.flags.lengths.2
  rw [List.getElem?_zip_eq_some]
  exact ⟨List.getElem?_eq_getElem hi, by rw [chunkAt, List.getElem?_eq_getElem (by omega)]; rfl⟩

theorem chunks_length {x : IArr α} (hx : Inv x) : x.chunks.length = x.irreps.length := by
  rw [hx.chunks_eq]; exact comp_length hx.flags.lengths.2

theorem sort_pairs {x : IArr α} (hx : Inv x) :
    Shaped (x.irreps.sortedTriples.map fun t => ((⟨t.2.2, t.1⟩ : MulIrrep), chunkAt x t.2.1)) ∧
    x.sort = fromChunks ((x.irreps.sortedTriples.map fun t => ((⟨t.2.2, t.1⟩ : MulIrrep), chunkAt x t.2.1)).map Prod.fst)
      ((x.irreps.sortedTriples.map fun t => ((⟨t.2.2, t.1⟩ : MulIrrep), chunkAt x t.2.1)).map Prod.snd) := by
  constructor
  · intro q hq
    obtain ⟨t, ht, rfl⟩ := List.mem_map.mp hq
    have h1 := Irreps.triples_get ((Irreps.sortedTriples_perm x.irreps).mem_iff.mp ht)
    have hlt : t.2.1 < x.irreps.length := by
      rcases Nat.lt_or_ge t.2.1 x.irreps.length with h | h
      · exact h
      · rw [List.getElem?_eq_none h] at h1; simp at h1
    have h2 := hx.pairs.1 _ (List.mem_of_getElem? (zip_get hx hlt))
    rw [List.getElem?_eq_getElem hlt] at h1
    injection h1 with h1
    rw [h1] at h2
    exact h2
  · unfold IArr.sort
    rw [Irreps.sort_eq]
    have hb : ∀ i ∈ Irreps.sortInv x.irreps, i < x.chunks.length := by
      intro i hi
      have := (Irreps.sortInv_perm x.irreps).mem_iff.mp hi
      rw [chunks_length hx]; exact List.mem_range.mp this
    show (do
      let cs ← pick x.chunks (Irreps.sortInv x.irreps)
      fromChunks (Irreps.sortIrreps x.irreps) cs) = _
    rw [pick_eq _ hb]
    show fromChunks (Irreps.sortIrreps x.irreps) _ = _
    unfold Irreps.sortIrreps Irreps.sortInv
    rw [List.map_map, List.map_map, List.map_map]
    rfl

theorem chunkAt_tr {x x' : IArr α} (h : Tr D x x') {i : Nat} (hi : i < x.irreps.length) :
    chunkAt x' i = actRows D (x.irreps[i], chunkAt x i) := by
  unfold chunkAt
  rw [h.chunks, List.getElem?_map, zip_get h.inv hi]
  rfl

theorem tr_sort (hD : Act D) {x x' y : IArr α} (h : Tr D x x') (hy : x.sort = .ok y) :
    ∃ y', x'.sort = .ok y' ∧ Tr D y y' := by
  obtain ⟨s1, s2⟩ := sort_pairs h.inv
  obtain ⟨-, s4⟩ := sort_pairs h.inv'
  obtain ⟨z, z', z1, z2, z3, -⟩ := tr_fromChunks hD s1
  rw [s2, z1] at hy; injection hy with hy; subst hy
  refine ⟨z', ?_, z3⟩
  rw [s4, ← z2, h.irreps]
  congr 1
  · simp [List.map_map, Function.comp_def]
  · rw [List.map_map, List.map_map, List.map_map]
    apply List.map_congr_left
    intro t ht
    have h1 := Irreps.triples_get ((Irreps.sortedTriples_perm x.irreps).mem_iff.mp ht)
    have hlt : t.2.1 < x.irreps.length := by
      rcases Nat.lt_or_ge t.2.1 x.irreps.length with h | h
      · exact h
      · rw [List.getElem?_eq_none h] at h1; simp at h1
    rw [List.getElem?_eq_getElem hlt] at h1
    injection h1 with h1
    simp only [Function.comp_apply, T]
    rw [chunkAt_tr h hlt, h1]

theorem tr_regroup (hD : Act D) {x x' y : IArr α} (h : Tr D x x') (hy : x.regroup = .ok y) :
    ∃ y', x'.regroup = .ok y' ∧ Tr D y y' := by
  obtain ⟨z, z1, -⟩ := sort_spec h.inv
  obtain ⟨z', z1', ht⟩ := tr_sort hD h z1
  unfold IArr.regroup at *
  rw [z1] at hy
  obtain ⟨y', y1, y2⟩ := tr_rechunk hD ht hy
  refine ⟨y', ?_, y2⟩
  rw [z1']
  show z'.rechunk _ = _
  rw [ht.irreps]; exact y1

/-- Selections of (term, chunk) pairs that do not look at the data. -/
theorem tr_select (hD : Act D) {ps : List (MulIrrep × Chunk α)} (h : Shaped ps) {ms : Irreps}
    {cs cs' : List (Chunk α)} (h1 : ps.map Prod.fst = ms) (h2 : ps.map Prod.snd = cs)
    (h3 : (ps.map (T D)).map Prod.snd = cs') {y : IArr α} (hy : fromChunks ms cs = .ok y) :
    ∃ y', fromChunks ms cs' = .ok y' ∧ Tr D y y' := by
  subst h1 h2 h3
  obtain ⟨z, z', z1, z2, z3, -⟩ := tr_fromChunks hD h
  rw [z1] at hy; injection hy with hy; subst hy
  exact ⟨z', z2, z3⟩

theorem fromChunks_shaped {ms : Irreps} {cs : List (Chunk α)} {y : IArr α} (h : fromChunks ms cs = .ok y) :
    ms.length = cs.length ∧ Shaped (ms.zip cs) := by
  by_contra hc
  rw [fromChunks_bad true hc] at h; simp at h

/-- `from_chunks` of chunks that correspond term by term. -/
theorem tr_chunks (hD : Act D) {ms : Irreps} {cs cs' : List (Chunk α)}
    (h3 : ms.length = cs.length → (ms.zip cs).map (actRows D) = cs') {y : IArr α} (hy : fromChunks ms cs = .ok y) :
    ∃ y', fromChunks ms cs' = .ok y' ∧ Tr D y y' := by
  obtain ⟨h1, h2⟩ := fromChunks_shaped hy
  refine tr_select hD h2 (List.map_fst_zip (by omega)) (List.map_snd_zip (by omega)) ?_ hy
  rw [← h3 h1, List.map_map]; rfl

theorem filter'_form {ms new : Irreps} {keep drop : Option Irreps.FilterArg} {L : Option Int}
    (h : ms.filter' keep drop L = .ok new) : ∃ p : MulIrrep → Bool, new = ms.filter p := by
  unfold Irreps.filter' at h
  split_ifs at h
  · injection h with h; exact ⟨fun _ => true, by rw [← h]; simp⟩
  · split at h
    · injection h with h; exact ⟨_, h.symm⟩
    · injection h with h; exact ⟨_, h.symm⟩
    · split at h
      · injection h with h; exact ⟨_, h.symm⟩
      · injection h with h; exact ⟨_, h.symm⟩
      · split at h
        · injection h with h; exact ⟨_, h.symm⟩
        · injection h with h; exact ⟨fun _ => true, by rw [← h]; simp⟩

theorem contains_self {new : Irreps} {m : MulIrrep} (h : m ∈ new) : new.contains m.ir = true := by
  simp only [Irreps.contains, List.contains_eq_mem, decide_eq_true_eq]
  exact List.mem_map_of_mem h

theorem kept_eq {x : IArr α} (q : MulIrrep → Bool) :
    ((x.chunks.zip x.irreps).filter fun cm => q cm.2).map Prod.fst =
      ((x.irreps.zip x.chunks).filter fun p => q p.1).map Prod.snd := by
  rw [← zip_swap', List.filter_map, List.map_map]; rfl

theorem tr_filter (hD : Act D) {x x' y : IArr α} (h : Tr D x x') {keep drop : Option Irreps.FilterArg}
    {L : Option Int} (hy : x.filter keep drop L = .ok y) :
    ∃ y', x'.filter keep drop L = .ok y' ∧ Tr D y y' := by
  unfold IArr.filter at *
  split at hy
  · rename_i hn
    injection hy with hy; subst hy
    exact ⟨x', by rw [if_pos hn], h⟩
  · rename_i hn
    rw [if_neg hn]
    split at hy
    · simp at hy
    · rename_i new hnew
      have hnew' : x'.irreps.filter' keep drop L = .ok new := by rw [h.irreps]; exact hnew
      rw [hnew']
      simp only
      rw [kept_eq (fun m => new.contains m.ir)] at hy
      rw [kept_eq (fun m => new.contains m.ir), h.pairs, List.filter_map]
      obtain ⟨hl, hs⟩ := fromChunks_shaped hy
      obtain ⟨p, hp⟩ := filter'_form hnew
      have hk : ((x.irreps.zip x.chunks).filter fun p => new.contains p.1.ir).map Prod.fst =
          x.irreps.filter fun m => new.contains m.ir := by
        conv => rhs; rw [← h.inv.pairs.2.1]
        rw [List.filter_map]; rfl
      have hsub : new.Sublist (x.irreps.filter fun m => new.contains m.ir) := by
        have e : new = (x.irreps.filter fun m => new.contains m.ir).filter p := by
          rw [List.filter_filter]
          conv => lhs; rw [hp]
          apply List.filter_congr
          intro m hm
          by_cases hpm : p m = true
          · have : m ∈ new := by rw [hp]; exact List.mem_filter.mpr ⟨hm, hpm⟩
            simp [hpm, contains_self this]
          · simp [hpm]
        conv => lhs; rw [e]
        exact List.filter_sublist
      have heq := hsub.eq_of_length (by
        rw [← hk, List.length_map, hl, List.length_map])
      refine tr_select hD (ps := (x.irreps.zip x.chunks).filter fun p => new.contains p.1.ir)
        (fun q hq => h.inv.pairs.1 q (List.mem_of_mem_filter hq)) ?_ rfl ?_ hy
      · rw [hk]; exact heq.symm
      · rw [List.map_map, List.map_map]; rfl

theorem tr_removeZeroChunks (hD : Act D) {x x' y : IArr α} (h : Tr D x x') (hy : x.removeZeroChunks = .ok y) :
    ∃ y', x'.removeZeroChunks = .ok y' ∧ Tr D y y' := by
  have key : ∀ {z : IArr α}, Inv z → removeZeroChunks z =
      fromChunks (((z.irreps.zip z.chunks).filter fun q => !q.2.isNone).map Prod.fst)
        (((z.irreps.zip z.chunks).filter fun q => !q.2.isNone).map Prod.snd) := by
    intro z hz
    obtain ⟨p1, p2, p3, p4, p5, p6⟩ := hz.pairs
    have key : ∀ {γ : Type} (ps : List (MulIrrep × Chunk α)) (g : MulIrrep × Chunk α → γ),
        (((ps.map g).zip (ps.map fun p => p.2.isNone)).filter fun tz => !tz.2).map Prod.fst =
        (ps.filter fun q => !q.2.isNone).map g := by
      intro γ ps g
      rw [List.zip_map', List.filter_map, List.map_map]
      rfl
    unfold removeZeroChunks
    rw [← key _ Prod.fst, ← key _ Prod.snd, p2, p3, p5]
  rw [key h.inv] at hy
  rw [key h.inv', h.pairs, List.filter_map]
  have e : (fun q : MulIrrep × Chunk α => !q.2.isNone) ∘ T D = fun q => !q.2.isNone := by
    funext ⟨m, c⟩; cases c <;> rfl
  rw [e, show (((x.irreps.zip x.chunks).filter fun q => !q.2.isNone).map (T D)).map Prod.fst =
    ((x.irreps.zip x.chunks).filter fun q => !q.2.isNone).map Prod.fst by rw [List.map_map]; rfl]
  exact tr_select hD (fun q hq => h.inv.pairs.1 q (List.mem_of_mem_filter hq)) rfl rfl rfl hy

theorem tr_sliceByChunk (hD : Act D) {x x' y : IArr α} (h : Tr D x x') {s : PySlice}
    (hy : x.sliceByChunk s = .ok y) : ∃ y', x'.sliceByChunk s = .ok y' ∧ Tr D y y' := by
  unfold sliceByChunk at *
  simp only [h.irreps] at *
  refine tr_select hD (ps := ((x.irreps.zip x.chunks).take (s.bounds x.irreps.length).2).drop (s.bounds x.irreps.length).1)
    (fun q hq => h.inv.pairs.1 q (List.mem_of_mem_take (List.mem_of_mem_drop hq))) ?_ ?_ ?_ hy
  · rw [List.map_drop, List.map_take, h.inv.pairs.2.1]
  · rw [List.map_drop, List.map_take, h.inv.pairs.2.2.1]
  · rw [h.chunks, List.map_map, List.map_drop, List.map_take]; rfl

theorem sliceByMulLoop_T (start stop i : Nat) (ps : List (MulIrrep × Chunk α)) :
    sliceByMulLoop start stop i (ps.map (T D)) =
      (sliceByMulLoop start stop i ps).map fun r => r.map fun q =>
        (q.1, q.2.map fun rows => rows.map (D q.1.2)) := by
  induction ps generalizing i with
  | nil => rfl
  | cons p ps ih =>
    obtain ⟨m, c⟩ := p
    simp only [List.map_cons, T, actRows, sliceByMulLoop]
    split
    · rw [ih]
      cases sliceByMulLoop start stop (i + m.mul) ps <;> rfl
    · split
      · cases c with
        | none => rfl
        | some c =>
          simp only [Option.map_some]
          rw [ih]
          cases sliceByMulLoop start stop (i + m.mul) ps with
          | error e => rfl
          | ok r =>
            simp only [Except.map, bind, Except.bind, pure, Except.pure, List.map_cons, Option.map_some,
              List.map_drop, List.map_take]
      · exact ih _

theorem ofPairs_irs {l : List (Int × Irrep)} {ms : Irreps} (h : Irreps.ofPairs l = .ok ms) :
    ms.map MulIrrep.ir = l.map Prod.snd := by
  unfold Irreps.ofPairs at h
  induction l generalizing ms with
  | nil => simp [pure, Except.pure] at h; subst h; rfl
  | cons p l ih =>
    rw [List.mapM_cons] at h
    simp only [bind, Except.bind] at h
    split at h
    · simp at h
    · rename_i m hm
      split at h
      · simp at h
      · rename_i ms' hms
        simp only [pure, Except.pure, Except.ok.injEq] at h
        subst h
        simp only [List.map_cons, ih hms]
        congr 1
        split at hm
        · injection hm with hm; rw [← hm]
        · simp at hm

theorem zip_actRows {ms : Irreps} {r : List ((Int × Irrep) × Chunk α)}
    (h : ms.map MulIrrep.ir = (r.map Prod.fst).map Prod.snd) :
    (ms.zip (r.map Prod.snd)).map (actRows D) =
      (r.map fun q => (q.1, q.2.map fun rows => rows.map (D q.1.2))).map Prod.snd := by
  induction ms generalizing r with
  | nil =>
    cases r with
    | nil => rfl
    | cons => simp at h
  | cons m ms ih =>
    cases r with
    | nil => simp at h
    | cons q r =>
      simp only [List.map_cons, List.cons.injEq] at h
      simp only [List.map_cons, List.zip_cons_cons, ih h.2, actRows, h.1]

theorem tr_sliceByMul (hD : Act D) {x x' y : IArr α} (h : Tr D x x') {s : PySlice}
    (hy : x.sliceByMul s = .ok y) : ∃ y', x'.sliceByMul s = .ok y' ∧ Tr D y y' := by
  unfold sliceByMul at *
  split at hy
  · simp at hy
  · rename_i h0
    rw [if_neg h0]
    split at hy
    · rename_i h1
      rw [if_pos h1, h.pairs]
      simp only [sliceByMulLoop_T, h.irreps, bind, Except.bind] at *
      split at hy
      · simp at hy
      · rename_i r hr
        rw [hr]
        simp only [Except.map]
        split at hy
        · simp at hy
        · rename_i ms hms
          have e : (r.map fun q => (q.1, q.2.map fun rows => rows.map (D q.1.2))).map Prod.fst = r.map Prod.fst := by
            rw [List.map_map]; rfl
          rw [e, hms]
          exact tr_chunks hD (fun _ => zip_actRows (ofPairs_irs hms)) hy
    · simp at hy

theorem extendLoop_T (cur : List (MulIrrep × Chunk α)) (new : Irreps) :
    extendLoop (cur.map (T D)) new =
      ((new.zip (extendLoop cur new).1).map (actRows D), (extendLoop cur new).2.map (T D)) := by
  induction new generalizing cur with
  | nil => simp [extendLoop]
  | cons n ns ih =>
    cases cur with
    | nil =>
      simp only [List.map_nil, extendLoop, List.map_cons, List.zip_cons_cons, Prod.mk.injEq, and_true,
        List.cons.injEq]
      refine ⟨rfl, ?_⟩
      clear ih
      induction ns with
      | nil => rfl
      | cons a ns ih => simp only [List.map_cons, List.zip_cons_cons, ← ih]; rfl
    | cons p cur =>
      obtain ⟨m, c⟩ := p
      simp only [List.map_cons, T, extendLoop]
      by_cases hm : m = n
      · rw [if_pos hm, if_pos hm, ih]
        simp only [List.zip_cons_cons, List.map_cons, hm]
      · rw [if_neg hm, if_neg hm]
        have := ih ((m, c) :: cur)
        simp only [List.map_cons, T] at this
        rw [this]
        simp only [List.zip_cons_cons, List.map_cons]
        rfl

theorem tr_extendWithZeros (hD : Act D) {x x' y : IArr α} (h : Tr D x x') {new : Irreps}
    (hy : x.extendWithZeros new = .ok y) : ∃ y', x'.extendWithZeros new = .ok y' ∧ Tr D y y' := by
  unfold extendWithZeros at *
  rw [h.pairs, extendLoop_T]
  simp only [List.length_map] at *
  split at hy
  · simp at hy
  · rename_i h0
    rw [if_neg h0]
    exact tr_chunks hD (fun _ => rfl) hy

theorem tr_make {ms : Irreps} {a a' : List α} {zs zs' : List Bool}
    {cs cs' : List (Chunk α)} {y y' : IArr α} (hi : Inv y) (hi' : Inv y')
    (hy : make ms a (some zs) (some cs) = .ok y) (hy' : make ms a' (some zs') (some cs') = .ok y')
    (hc : ms.zip cs' = (ms.zip cs).map (T D)) : Tr D y y' := by
  obtain ⟨e, -⟩ := make_ok_eq hy
  obtain ⟨e', -⟩ := make_ok_eq hy'
  refine ⟨hi, hi', ?_⟩
  subst e e'
  exact hc

theorem zip_take_drop {γ δ : Type} (l : List γ) (k : List δ) (i n : Nat) :
    ((l.drop i).take n).zip ((k.drop i).take n) = ((l.zip k).drop i).take n := by
  rw [List.zip_eq_zipWith, List.zip_eq_zipWith, List.drop_zipWith, List.take_zipWith]

theorem zip_drop_take {γ δ : Type} (l : List γ) (k : List δ) (i n : Nat) :
    ((l.take n).drop i).zip ((k.take n).drop i) = ((l.zip k).take n).drop i := by
  rw [List.zip_eq_zipWith, List.zip_eq_zipWith, List.take_zipWith, List.drop_zipWith]

theorem tr_getIrreps {x x' y : IArr α} (h : Tr D x x') {pat : Irreps}
    (hy : x.getIrreps pat = .ok y) : ∃ y', x'.getIrreps pat = .ok y' ∧ Tr D y y' := by
  have ho : ∃ i, occurrences x.irreps pat = [i] := by
    unfold IArr.getIrreps at hy
    split at hy
    · exact ⟨_, by assumption⟩
    · simp at hy
  obtain ⟨i, ho⟩ := ho
  obtain ⟨z, z1, z2, -⟩ := getIrreps_spec h.inv ho
  rw [z1] at hy; injection hy with hy; subst hy
  have ho' : occurrences x'.irreps pat = [i] := by rw [h.irreps]; exact ho
  obtain ⟨w, w1, w2, -⟩ := getIrreps_spec h.inv' ho'
  refine ⟨w, w1, ?_⟩
  unfold IArr.getIrreps at z1 w1
  rw [ho] at z1
  rw [ho'] at w1
  refine tr_make z2 w2 z1 w1 ?_
  have hm := ((occurrences_mem x.irreps pat i).mp (by rw [ho]; simp)).2
  conv => lhs; rw [← hm]
  conv => rhs; rw [← hm]
  have hl : ((x.irreps.drop i).take pat.length).length = pat.length := by rw [hm]
  rw [hl, zip_take_drop, zip_take_drop, ← h.irreps, h.pairs, List.map_take, List.map_drop, h.irreps]

theorem tr_getSliceAux (hD : Act D) (start stop fuel : Nat) {x x' y : IArr α} (h : Tr D x x')
    (hy : getSliceAux start stop fuel x = .ok y) :
    ∃ y', getSliceAux start stop fuel x' = .ok y' ∧ Tr D y y' := by
  induction fuel generalizing x x' with
  | zero => simp [getSliceAux] at hy
  | succ fuel ih =>
    simp only [getSliceAux] at *
    rw [h.irreps]
    have hok := scan_ok x.irreps start stop (x.irreps.length + 1) 0 none (by omega) (by simp)
      (by simp) (by simp)
    rw [← range_eq] at hok
    split at hy
    · simp at hy
    · simp only [bind, Except.bind] at *
      split at hy
      · simp at hy
      · rename_i new hnew
        split at hy
        · simp at hy
        · rename_i z hz
          obtain ⟨z', z1, z2⟩ := tr_rechunk hD h hz
          simp only [z1]
          exact ih z2 hy
    · rename_i a b hsc
      rw [hsc] at hok
      obtain ⟨o1, o2, o3, o4⟩ := hok
      obtain ⟨u, u1, u2⟩ := found_spec h.inv o1 o2 o3 o4
      obtain ⟨w, w1, w2⟩ := found_spec h.inv' (start := start) (stop := stop) o1 (by rw [h.irreps]; exact o2)
        (by rw [h.irreps]; exact o3) (by rw [h.irreps]; exact o4)
      rw [u1] at hy; injection hy with hy; subst hy
      rw [h.irreps] at w1
      refine ⟨w, w1, tr_make u2.1 w2.1 u1 w1 ?_⟩
      rw [zip_drop_take, zip_drop_take, ← h.irreps, h.pairs, List.map_drop, List.map_take, h.irreps]

theorem Inv.length_array {x : IArr α} (h : Inv x) : x.array.length = Irreps.dim x.irreps := h.flags.lengths.1

theorem tr_getSlice (hD : Act D) {x x' y : IArr α} (h : Tr D x x') {s : PySlice}
    (hy : x.getSlice s = .ok y) : ∃ y', x'.getSlice s = .ok y' ∧ Tr D y y' := by
  unfold getSlice at *
  rw [h.inv'.length_array, h.irreps, ← h.inv.length_array]
  exact tr_getSliceAux hD _ _ _ h hy

/-- Lists of arrays that are transforms of one another. -/
inductive TrList (D : Irrep → List α → List α) : List (IArr α) → List (IArr α) → Prop
  | nil : TrList D [] []
  | cons {x x' xs xs'} : Tr D x x' → TrList D xs xs' → TrList D (x :: xs) (x' :: xs')

theorem TrList.facts {xs xs' : List (IArr α)} (h : TrList D xs xs') :
    (∀ x ∈ xs, Inv x) ∧ (∀ x ∈ xs', Inv x) ∧ xs'.length = xs.length ∧
    (xs'.map IArr.irreps).flatten = (xs.map IArr.irreps).flatten ∧
    (xs'.map IArr.irreps).flatten.zip (xs'.map IArr.chunks).flatten =
      ((xs.map IArr.irreps).flatten.zip (xs.map IArr.chunks).flatten).map (T D) := by
  induction h with
  | nil => simp
  | cons ht hl ih =>
    obtain ⟨i1, i2, i3, i4, i5⟩ := ih
    refine ⟨?_, ?_, by simp [i3], by simp only [List.map_cons, List.flatten_cons, i4, ht.irreps], ?_⟩
    · intro z hz; rcases List.mem_cons.mp hz with rfl | hz
      · exact ht.inv
      · exact i1 z hz
    · intro z hz; rcases List.mem_cons.mp hz with rfl | hz
      · exact ht.inv'
      · exact i2 z hz
    · simp only [List.map_cons, List.flatten_cons]
      rw [List.zip_append (chunks_length ht.inv').symm, List.zip_append (chunks_length ht.inv).symm,
        ht.pairs, i5, List.map_append]

theorem tr_concatenate {xs xs' : List (IArr α)} (h : TrList D xs xs') {y : IArr α}
    (hy : concatenate xs = .ok y) : ∃ y', concatenate xs' = .ok y' ∧ Tr D y y' := by
  obtain ⟨i1, i2, i3, i4, i5⟩ := h.facts
  have hne : xs ≠ [] := by rintro rfl; simp [concatenate] at hy
  have hne' : xs' ≠ [] := by
    intro e; rw [e] at i3; exact hne (List.length_eq_zero_iff.mp i3.symm)
  obtain ⟨u, u1, u2, -⟩ := concatenate_spec hne i1
  obtain ⟨w, w1, w2, -⟩ := concatenate_spec hne' i2
  rw [u1] at hy; injection hy with hy; subst hy
  refine ⟨w, w1, ?_⟩
  unfold concatenate at u1 w1
  rw [if_neg (by simpa using hne)] at u1
  rw [if_neg (by simpa using hne')] at w1
  obtain ⟨e, -⟩ := make_ok_eq u1
  obtain ⟨e', -⟩ := make_ok_eq w1
  refine ⟨u2, w2, ?_⟩
  subst e e'
  exact i5

/-! ### linear operations -/

theorem blocksOf_zipWith {f : α → α → α} (s : List Irrep) (a b : List α) :
    blocksOf s (List.zipWith f a b) =
      List.zipWith (fun p q => (p.1, List.zipWith f p.2 q.2)) (blocksOf s a) (blocksOf s b) := by
  induction s generalizing a b with
  | nil => rfl
  | cons ir s ih =>
    simp only [blocksOf, List.take_zipWith, List.drop_zipWith, ih, List.zipWith_cons_cons]

theorem blocksOf_map {f : α → α} (s : List Irrep) (a : List α) :
    blocksOf s (a.map f) = (blocksOf s a).map fun p => (p.1, p.2.map f) := by
  induction s generalizing a with
  | nil => rfl
  | cons ir s ih => simp only [blocksOf, ← List.map_take, ← List.map_drop, ih, List.map_cons]

theorem blocksOf_row_length (s : List Irrep) (a : List α) (h : a.length = dimOf s) :
    ∀ b ∈ blocksOf s a, b.2.length = b.1.dim := by
  induction s generalizing a with
  | nil => simp [blocksOf]
  | cons ir s ih =>
    intro b hb
    have hd : dimOf (ir :: s) = (2 * ir.l + 1) + dimOf s := by simp [dimOf]
    rw [hd] at h
    simp only [blocksOf, List.mem_cons] at hb
    rcases hb with rfl | hb
    · simp only [List.length_take]; unfold Irrep.dim; omega
    · exact ih _ (by rw [List.length_drop]; omega) b hb

theorem zipWith_map_congr {γ δ : Type} {F : γ → γ → γ} {G : δ → δ → δ} {h : γ → δ} (l k : List γ)
    (hh : ∀ p ∈ l.zip k, h (F p.1 p.2) = G (h p.1) (h p.2)) :
    (List.zipWith F l k).map h = List.zipWith G (l.map h) (k.map h) := by
  induction l generalizing k with
  | nil => simp
  | cons a l ih =>
    cases k with
    | nil => simp
    | cons b k =>
      simp only [List.zipWith_cons_cons, List.map_cons]
      rw [hh (a, b) (by simp), ih k fun p hp => hh p (by simp [hp])]

theorem tr_zip (hD : Act D) {f : α → α → α}
    (hlin : ∀ ir a b, a.length = ir.dim → b.length = ir.dim →
      D ir (List.zipWith f a b) = List.zipWith f (D ir a) (D ir b))
    {x x' y y' z z' : IArr α} (h : Tr D x x') (k : Tr D y y') (he : x.irreps = y.irreps)
    (hz : Inv z) (hz' : Inv z') (i1 : z.irreps = x.irreps) (i2 : z'.irreps = x'.irreps)
    (a1 : z.array = List.zipWith f x.array y.array) (a2 : z'.array = List.zipWith f x'.array y'.array)
    (f1 : z'.zeroFlags = z.zeroFlags) : Tr D z z' := by
  refine Tr.of_blocks hD hz hz' (by rw [i2, i1, h.irreps]) f1 ?_
  have hx := h.blocks hD
  have hy := k.blocks hD
  unfold IArr.blocks at *
  rw [i2, i1, a1, a2, blocksOf_zipWith, blocksOf_zipWith, hx]
  rw [k.irreps, ← he] at hy
  rw [h.irreps] at hx ⊢
  rw [hy]
  symm
  apply zipWith_map_congr
  rintro ⟨p, q⟩ hpq
  have hfst : p.1 = q.1 := by
    have e : (blocksOf (expand x.irreps) x.array).map Prod.fst = (blocksOf (expand x.irreps) y.array).map Prod.fst := by
      rw [blocksOf_fst, blocksOf_fst]
    generalize blocksOf (expand x.irreps) x.array = l at *
    generalize blocksOf (expand x.irreps) y.array = l' at *
    clear * - hpq e
    induction l generalizing l' with
    | nil => simp at hpq
    | cons a l ih =>
      cases l' with
      | nil => simp at hpq
      | cons b l' =>
        simp only [List.map_cons, List.cons.injEq] at e
        simp only [List.zip_cons_cons, List.mem_cons, Prod.mk.injEq] at hpq
        rcases hpq with ⟨rfl, rfl⟩ | hpq
        · exact e.1
        · exact ih _ hpq e.2
  have hp := blocksOf_row_length _ _ (by rw [h.inv.length_array, Irreps.dim_eq_dimOf_expand]) p (List.of_mem_zip hpq).1
  have hq := blocksOf_row_length _ _ (by rw [k.inv.length_array, Irreps.dim_eq_dimOf_expand, he]) q (List.of_mem_zip hpq).2
  simp only [TB]
  rw [hlin _ _ _ hp (by rw [hq, hfst]), hfst]

theorem tr_map (hD : Act D) {f : α → α}
    (hlin : ∀ ir a, a.length = ir.dim → D ir (a.map f) = (D ir a).map f)
    {x x' z z' : IArr α} (h : Tr D x x') (hz : Inv z) (hz' : Inv z') (i1 : z.irreps = x.irreps)
    (i2 : z'.irreps = x'.irreps) (a1 : z.array = x.array.map f) (a2 : z'.array = x'.array.map f)
    (f1 : z'.zeroFlags = z.zeroFlags) : Tr D z z' := by
  refine Tr.of_blocks hD hz hz' (by rw [i2, i1, h.irreps]) f1 ?_
  have hx := h.blocks hD
  unfold IArr.blocks at *
  rw [i2, i1, a1, a2, blocksOf_map, blocksOf_map, hx, List.map_map, List.map_map]
  apply List.map_congr_left
  intro p hp
  have hp' := blocksOf_row_length _ _ (by rw [h.inv.length_array, Irreps.dim_eq_dimOf_expand]) p hp
  simp only [Function.comp_apply, TB, hlin _ _ hp']

theorem tr_mapCols (hD : Act D) {f : α → α} (hf : f 0 = 0)
    (hlin : ∀ ir a, a.length = ir.dim → D ir (a.map f) = (D ir a).map f)
    {x x' y : IArr α} (h : Tr D x x') (hy : mapCols f x = .ok y) :
    ∃ y', mapCols f x' = .ok y' ∧ Tr D y y' := by
  obtain ⟨z, z1, z2, z3, z4, z5⟩ := mapCols_spec hf h.inv
  obtain ⟨w, w1, w2, w3, w4, w5⟩ := mapCols_spec hf h.inv'
  rw [z1] at hy; injection hy with hy; subst hy
  exact ⟨w, w1, tr_map hD hlin h z2 w2 z3 w3 z4 w4 (by rw [w5, z5, h.flags])⟩

end IArr

/-! ### matrices -/

section matrices
variable {R α : Type} [Semiring R] [AddCommMonoid α] [Module R α]
open IArr

theorem matVec_length (M : List (List R)) (v : List α) : (matVec M v).length = M.length := by
  simp [matVec]

theorem dot_zero (row : List R) (n : Nat) :
    (List.zipWith (fun a b => a • b) row (List.replicate n (0 : α))).sum = 0 := by
  induction row generalizing n with
  | nil => simp
  | cons a row ih =>
    cases n with
    | zero => simp
    | succ n => simp [List.replicate_succ, ih]

theorem dot_map {β : Type} [AddCommMonoid β] [Module R β] (g : α →ₗ[R] β) (row : List R) (v : List α) :
    g (List.zipWith (fun a b => a • b) row v).sum = (List.zipWith (fun a b => a • b) row (v.map g)).sum := by
  induction row generalizing v with
  | nil => simp
  | cons a row ih =>
    cases v with
    | nil => simp
    | cons b v => simp [ih]

theorem dot_add (row : List R) (v w : List α) (h : v.length = w.length) :
    (List.zipWith (fun a b => a • b) row (List.zipWith (· + ·) v w)).sum =
      (List.zipWith (fun a b => a • b) row v).sum + (List.zipWith (fun a b => a • b) row w).sum := by
  induction row generalizing v w with
  | nil => simp
  | cons a row ih =>
    cases v with
    | nil => cases w with
      | nil => simp
      | cons => simp at h
    | cons b v =>
      cases w with
      | nil => simp at h
      | cons c w =>
        simp only [List.zipWith_cons_cons, List.sum_cons, smul_add, ih v w (by simpa using h)]
        exact add_add_add_comm _ _ _ _

theorem matVec_add (M : List (List R)) (v w : List α) (h : v.length = w.length) :
    matVec M (List.zipWith (· + ·) v w) = List.zipWith (· + ·) (matVec M v) (matVec M w) := by
  unfold matVec
  induction M with
  | nil => rfl
  | cons row M ih => simp only [List.map_cons, List.zipWith_cons_cons, dot_add row v w h, ih]

theorem matVec_map {β : Type} [AddCommMonoid β] [Module R β] (g : α →ₗ[R] β) (M : List (List R)) (v : List α) :
    (matVec M v).map g = matVec M (v.map g) := by
  unfold matVec
  rw [List.map_map]
  apply List.map_congr_left
  intro row _
  exact dot_map g row v

theorem matVec_act {M : Irrep → List (List R)} (hM : ∀ ir, (M ir).length = ir.dim) :
    Act (fun ir => matVec (α := α) (M ir)) := by
  refine ⟨fun ir r _ => by rw [matVec_length, hM], fun ir => ?_⟩
  apply List.ext_getElem
  · simp [matVec_length, hM]
  · intro i h1 h2
    simp [matVec, dot_zero]

end matrices

end E3nn
