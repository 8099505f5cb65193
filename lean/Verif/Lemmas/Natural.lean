import Verif.Lemmas.TensorProduct

/-! # Operations act row by row: they commute with a map of the columns -/

namespace E3nn
namespace IArr

set_option linter.unusedSectionVars false

variable {α β : Type} [Zero α] [Zero β]

/-- Map the entries of a chunk. -/
def mapChunk (φ : α → β) (c : Chunk α) : Chunk β := c.map fun rows => rows.map fun r => r.map φ

/-- Map the entries of a (term, chunk) pair. -/
def MP (φ : α → β) (p : MulIrrep × Chunk α) : MulIrrep × Chunk β := (p.1, mapChunk φ p.2)

/-- `x'` is `x` with `φ` applied to the columns. -/
structure Mp (φ : α → β) (x : IArr α) (x' : IArr β) : Prop where
  inv : Inv x
  inv' : Inv x'
  irreps : x'.irreps = x.irreps
  flags : x'.zeroFlags = x.zeroFlags
  array : x'.array = x.array.map φ

variable {φ : α → β}

theorem Mp.chunks {x : IArr α} {x' : IArr β} (h : Mp φ x x') : x'.chunks = x.chunks.map (mapChunk φ) := by
  rw [h.inv'.chunks_eq, h.inv.chunks_eq, h.irreps, h.flags, h.array, comp_map]
  rfl

theorem Mp.pairs {x : IArr α} {x' : IArr β} (h : Mp φ x x') : x'.irreps.zip x'.chunks = (x.irreps.zip x.chunks).map (MP φ) := by
  rw [h.chunks, h.irreps, List.zip_map_right]
  rfl

theorem flatChunk_MP (h0 : φ 0 = 0) (p : MulIrrep × Chunk α) : flatChunk (MP φ p).1 (MP φ p).2 = (flatChunk p.1 p.2).map φ := by
  obtain ⟨m, c⟩ := p
  cases c with
  | none => simp [MP, mapChunk, flatChunk, h0]
  | some c => simp [MP, mapChunk, flatChunk, List.map_flatten]

theorem MP_shaped {ps : List (MulIrrep × Chunk α)} (h : Shaped ps) : Shaped (ps.map (MP φ)) := by
  intro q hq
  obtain ⟨⟨m, c⟩, hp, rfl⟩ := List.mem_map.mp hq
  have := h _ hp
  cases c with
  | none => rfl
  | some c =>
    simp only [shapeOk, Bool.and_eq_true, beq_iff_eq, List.all_eq_true] at this
    simp only [MP, mapChunk, Option.map_some, shapeOk, List.length_map, this.1, beq_self_eq_true,
      Bool.true_and, List.all_eq_true, beq_iff_eq, List.mem_map]
    rintro r ⟨r', hr', rfl⟩
    simp [this.2 r' hr']

theorem Mp.of_pairs (h0 : φ 0 = 0) {x : IArr α} {x' : IArr β} (hx : Inv x) (hx' : Inv x')
    (h : x'.irreps.zip x'.chunks = (x.irreps.zip x.chunks).map (MP φ)) : Mp φ x x' := by
  obtain ⟨-, a2, -, -, a5, a6⟩ := hx.pairs
  obtain ⟨-, b2, -, -, b5, b6⟩ := hx'.pairs
  rw [h, List.map_map] at b2 b5 b6
  refine ⟨hx, hx', b2.symm.trans a2, ?_, ?_⟩
  · rw [← b5, ← a5]
    refine List.map_congr_left ?_
    rintro ⟨m, c⟩ -
    cases c <;> rfl
  · rw [← b6, ← a6, List.map_flatten, List.map_map]
    exact congrArg List.flatten (List.map_congr_left fun p _ => flatChunk_MP h0 p)

theorem Mp.blocks {x : IArr α} {x' : IArr β} (h : Mp φ x x') : x'.blocks = x.blocks.map fun b => (b.1, b.2.map φ) := by
  unfold IArr.blocks
  rw [h.irreps, h.array]
  generalize x.array = a
  generalize expand x.irreps = s
  induction s generalizing a with
  | nil => rfl
  | cons ir s ih => simp only [blocksOf, ← List.map_take, ← List.map_drop, ih, List.map_cons]

/-- The result is unique. -/
theorem Mp.unique {x : IArr α} {y z : IArr β} (h1 : Mp φ x y) (h2 : Mp φ x z) :
    y.irreps = z.irreps ∧ y.array = z.array ∧ y.zeroFlags = z.zeroFlags ∧ y.chunks = z.chunks :=
  ⟨by rw [h1.irreps, h2.irreps], by rw [h1.array, h2.array], by rw [h1.flags, h2.flags], by rw [h1.chunks, h2.chunks]⟩

/-- Two arrays with the same content are related to the same arrays. -/
theorem Mp.congr {x : IArr α} {y z : IArr β} (h1 : Mp φ x y) (hz : Inv z) (a : z.irreps = y.irreps) (b : z.array = y.array) (c : z.zeroFlags = y.zeroFlags) : Mp φ x z :=
  ⟨h1.inv, hz, a.trans h1.irreps, c.trans h1.flags, b.trans h1.array⟩

/-! ### the operations -/

theorem mp_mapCols (h0 : φ 0 = 0) {x : IArr α} (hx : Inv x) : ∃ y, mapCols φ x = .ok y ∧ Mp φ x y := by
  obtain ⟨y, y1, y2, y3, y4, y5⟩ := mapCols_spec h0 hx
  exact ⟨y, y1, hx, y2, y3, y5, y4⟩

theorem mp_fromChunks (h0 : φ 0 = 0) {ps : List (MulIrrep × Chunk α)} (h : Shaped ps) {ms : Irreps} {cs : List (Chunk α)} {cs' : List (Chunk β)}
    (h1 : ps.map Prod.fst = ms) (h2 : ps.map Prod.snd = cs) (h3 : (ps.map (MP φ)).map Prod.snd = cs') {y : IArr α} (hy : fromChunks ms cs = .ok y) :
    ∃ y', fromChunks ms cs' = .ok y' ∧ Mp φ y y' := by
  subst h1 h2 h3
  obtain ⟨z, h1, h2, h3, h4, h5, h6, h7, h8⟩ := fromChunks_pairs _ h
  obtain ⟨y', k1, k2, k3, k4, k5, k6, k7, k8⟩ := fromChunks_pairs _ (MP_shaped (φ := φ) h)
  rw [h1] at hy
  cases hy
  have e1 : (ps.map (MP φ)).map Prod.fst = ps.map Prod.fst := by rw [List.map_map]; rfl
  rw [e1] at k1
  refine ⟨y', k1, Mp.of_pairs h0 h2 k2 ?_⟩
  rw [h3, h7, k3, k7, List.zip_map', List.zip_map']; simp

theorem mp_rechunk {x y : IArr α} {x' : IArr β} (h : Mp φ x x') {new : Irreps} (hy : x.rechunk new = .ok y) :
    ∃ y', x'.rechunk new = .ok y' ∧ Mp φ y y' := by
  by_cases hs : expand x.irreps = expand new
  · obtain ⟨z, z1, z2, z3, z4⟩ := rechunk_spec h.inv hs
    obtain ⟨w, w1, w2, w3, w4⟩ := rechunk_spec h.inv' (new := new) (by rw [h.irreps, hs])
    rw [z1] at hy; injection hy with hy; subst hy
    refine ⟨w, w1, z2, w2, by rw [z3, w3], ?_, ?_⟩
    · rw [rechunk_flags z1, rechunk_flags w1, h.irreps, h.flags]
    · rw [w4, z4, h.array]
  · unfold rechunk at hy
    rw [if_pos (fun e => hs ((Irreps.simplify_eq_iff _ _).mp e))] at hy
    simp at hy

theorem chunkAt_mp {x : IArr α} {x' : IArr β} (h : Mp φ x x') (i : Nat) : chunkAt x' i = mapChunk φ (chunkAt x i) := by
  unfold chunkAt
  rw [h.chunks, List.getElem?_map]
  cases x.chunks[i]? <;> rfl

theorem mp_sort (h0 : φ 0 = 0) {x y : IArr α} {x' : IArr β} (h : Mp φ x x') (hy : x.sort = .ok y) : ∃ y', x'.sort = .ok y' ∧ Mp φ y y' := by
  obtain ⟨s1, s2⟩ := sort_pairs h.inv
  obtain ⟨-, s4⟩ := sort_pairs h.inv'
  rw [s2] at hy
  rw [s4, h.irreps, List.map_map, List.map_map]
  rw [List.map_map] at hy
  refine mp_fromChunks h0 s1 ?_ rfl ?_ hy
  · rw [List.map_map]; rfl
  · rw [List.map_map, List.map_map]
    refine List.map_congr_left fun t _ => ?_
    simp only [Function.comp, MP, chunkAt_mp h]

theorem mp_regroup (h0 : φ 0 = 0) {x y : IArr α} {x' : IArr β} (h : Mp φ x x') (hy : x.regroup = .ok y) : ∃ y', x'.regroup = .ok y' ∧ Mp φ y y' := by
  obtain ⟨z, z1, -⟩ := sort_spec h.inv
  obtain ⟨z', z1', ht⟩ := mp_sort h0 h z1
  unfold IArr.regroup at *
  rw [z1] at hy
  obtain ⟨y', y1, y2⟩ := mp_rechunk ht hy
  refine ⟨y', ?_, y2⟩
  rw [z1']
  show z'.rechunk _ = _
  rw [ht.irreps]; exact y1

theorem mp_filter (h0 : φ 0 = 0) {x y : IArr α} {x' : IArr β} (h : Mp φ x x') {keep drop : Option Irreps.FilterArg}
    {L : Option Int} (hy : x.filter keep drop L = .ok y) : ∃ y', x'.filter keep drop L = .ok y' ∧ Mp φ y y' := by
  unfold IArr.filter at *
  split at hy
  · rename_i hn
    injection hy with hy; subst hy
    exact ⟨x', by rw [if_pos hn], h⟩
  · rename_i hn
    rw [if_neg hn]
    split at hy
    · simp at hy
    · rename_i new hnew
      have hnew' : x'.irreps.filter' keep drop L = .ok new := by rw [h.irreps]; exact hnew
      rw [hnew']
      simp only
      rw [kept_eq (fun m => new.contains m.ir)] at hy
      rw [kept_eq (fun m => new.contains m.ir), h.pairs, List.filter_map]
      obtain ⟨hl, hs⟩ := fromChunks_shaped hy
      obtain ⟨p, hp⟩ := filter'_form hnew
      have hk : ((x.irreps.zip x.chunks).filter fun p => new.contains p.1.ir).map Prod.fst =
          x.irreps.filter fun m => new.contains m.ir := by
        conv => rhs; rw [← h.inv.pairs.2.1]
        rw [List.filter_map]; rfl
      have hsub : new.Sublist (x.irreps.filter fun m => new.contains m.ir) := by
        have e : new = (x.irreps.filter fun m => new.contains m.ir).filter p := by
          rw [List.filter_filter]
          conv => lhs; rw [hp]
          apply List.filter_congr
          intro m hm
          by_cases hpm : p m = true
          · have : m ∈ new := by rw [hp]; exact List.mem_filter.mpr ⟨hm, hpm⟩
            simp [hpm, contains_self this]
          · simp [hpm]
        conv => lhs; rw [e]
        exact List.filter_sublist
      have heq := hsub.eq_of_length (by
        rw [← hk, List.length_map, hl, List.length_map])
      refine mp_fromChunks h0 (ps := (x.irreps.zip x.chunks).filter fun p => new.contains p.1.ir)
        (fun q hq => h.inv.pairs.1 q (List.mem_of_mem_filter hq)) ?_ rfl ?_ hy
      · rw [hk]; exact heq.symm
      · rw [List.map_map, List.map_map]; rfl

theorem removeZeroChunks_eq {z : IArr α} (hz : Inv z) : removeZeroChunks z =
    fromChunks (((z.irreps.zip z.chunks).filter fun q => !q.2.isNone).map Prod.fst)
      (((z.irreps.zip z.chunks).filter fun q => !q.2.isNone).map Prod.snd) := by
  obtain ⟨p1, p2, p3, p4, p5, p6⟩ := hz.pairs
  have key : ∀ {γ : Type} (ps : List (MulIrrep × Chunk α)) (g : MulIrrep × Chunk α → γ),
      (((ps.map g).zip (ps.map fun p => p.2.isNone)).filter fun tz => !tz.2).map Prod.fst =
      (ps.filter fun q => !q.2.isNone).map g := by
    intro γ ps g
    rw [List.zip_map', List.filter_map, List.map_map]
    rfl
  unfold removeZeroChunks
  rw [← key _ Prod.fst, ← key _ Prod.snd, p2, p3, p5]

theorem mp_removeZeroChunks (h0 : φ 0 = 0) {x y : IArr α} {x' : IArr β} (h : Mp φ x x') (hy : x.removeZeroChunks = .ok y) :
    ∃ y', x'.removeZeroChunks = .ok y' ∧ Mp φ y y' := by
  rw [removeZeroChunks_eq h.inv] at hy
  rw [removeZeroChunks_eq h.inv', h.pairs, List.filter_map]
  have e : (fun q : MulIrrep × Chunk β => !q.2.isNone) ∘ MP φ = fun q => !q.2.isNone := by
    funext ⟨m, c⟩; cases c <;> rfl
  rw [e, show (((x.irreps.zip x.chunks).filter fun q => !q.2.isNone).map (MP φ)).map Prod.fst =
    ((x.irreps.zip x.chunks).filter fun q => !q.2.isNone).map Prod.fst by rw [List.map_map]; rfl]
  exact mp_fromChunks h0 (fun q hq => h.inv.pairs.1 q (List.mem_of_mem_filter hq)) rfl rfl rfl hy

theorem mp_concatenate {xs : List (IArr α)} {xs' : List (IArr β)} (h : List.Forall₂ (Mp φ) xs xs') {y : IArr α}
    (hy : concatenate xs = .ok y) : ∃ y', concatenate xs' = .ok y' ∧ Mp φ y y' := by
  have hne : xs ≠ [] := by rintro rfl; simp [concatenate] at hy
  have hne' : xs' ≠ [] := by
    rintro rfl
    exact hne (List.forall₂_nil_right_iff.mp h)
  have key : (∀ x ∈ xs, Inv x) ∧ (∀ x ∈ xs', Inv x) ∧ (xs'.map IArr.irreps).flatten = (xs.map IArr.irreps).flatten ∧
      (xs'.map IArr.array).flatten = ((xs.map IArr.array).flatten).map φ ∧ (xs'.map IArr.zeroFlags).flatten = (xs.map IArr.zeroFlags).flatten := by
    clear hy hne hne'
    induction h with
    | nil => simp
    | cons ht _ ih =>
      obtain ⟨i1, i2, i3, i4, i5⟩ := ih
      refine ⟨?_, ?_, by simp only [List.map_cons, List.flatten_cons, i3, ht.irreps], by simp only [List.map_cons, List.flatten_cons, i4, ht.array, List.map_append],
        by simp only [List.map_cons, List.flatten_cons, i5, ht.flags]⟩
      · intro z hz; rcases List.mem_cons.mp hz with rfl | hz
        · exact ht.inv
        · exact i1 z hz
      · intro z hz; rcases List.mem_cons.mp hz with rfl | hz
        · exact ht.inv'
        · exact i2 z hz
  obtain ⟨i1, i2, i3, i4, i5⟩ := key
  obtain ⟨u, u1, u2, u3, u4, u5⟩ := concatenate_spec hne i1
  obtain ⟨w, w1, w2, w3, w4, w5⟩ := concatenate_spec hne' i2
  rw [u1] at hy; injection hy with hy; subst hy
  exact ⟨w, w1, u2, w2, by rw [u3, w3, i3], by rw [u5, w5, i5], by rw [u4, w4, i4]⟩

end IArr

section ring
open IArr
variable {K L : Type} [CommRing K] [CommRing L] (φ : K →+* L)

theorem linComb_map (d : ℕ) (cs : List K) (rs : List (List K)) :
    FLin.linComb d (cs.map φ) (rs.map fun r => r.map φ) = (FLin.linComb d cs rs).map φ := by
  induction cs generalizing rs with
  | nil => simp [FLin.linComb]
  | cons c cs ih =>
    cases rs with
    | nil => simp [FLin.linComb]
    | cons r rs =>
      simp only [List.map_cons, FLin.linComb, ih]
      apply List.ext_getElem
      · simp
      · intro i h1 h2
        simp

namespace FLin

/-- The layer with its constants mapped. -/
def mapK (f : FLin K) : FLin L := ⟨f.irrepsIn, f.irrepsOut, f.instructions.map fun i => ⟨i.iIn, i.iOut, i.pathShape, φ i.pathWeight, φ i.weightStd⟩⟩

theorem mapK_good {f : FLin K} (hf : Good f) : Good (mapK φ f) := by
  intro ins hins
  obtain ⟨i, hi, rfl⟩ := List.mem_map.mp hins
  exact hf i hi

theorem mapK_weights {f : FLin K} {ws : List (List K)} (hw : WeightsOk f ws) : WeightsOk (mapK φ f) (ws.map fun w => w.map φ) := by
  unfold WeightsOk at *
  rw [List.map_map, mapK, List.map_map, show (List.length ∘ fun w : List K => w.map φ) = List.length by funext; simp, hw]
  rfl

theorem einsum_map (mulOut d : ℕ) (w x : List (List K)) : einsumUW mulOut d (w.map fun r => r.map φ) (x.map fun r => r.map φ) = (einsumUW mulOut d w x).map fun r => r.map φ := by
  unfold einsumUW
  rw [List.map_map]
  refine List.map_congr_left fun j _ => ?_
  rw [Function.comp, ← linComb_map, List.map_map, List.map_map]
  congr 1
  refine List.map_congr_left fun r _ => ?_
  simp only [Function.comp, List.getD, List.getElem?_map]
  cases r[j]? <;> simp

theorem pathRows_map (f : FLin K) (cs : List (Chunk K)) (iw : LinIns K × List K) :
    pathRows (mapK φ f) (cs.map (mapChunk φ)) (⟨iw.1.iIn, iw.1.iOut, iw.1.pathShape, φ iw.1.pathWeight, φ iw.1.weightStd⟩, iw.2.map φ) = mapChunk φ (pathRows f cs iw) := by
  unfold pathRows
  simp only [mapK]
  cases iw.1.iIn with
  | none =>
    simp only [mapChunk, Option.map_some, ← rows_map, List.map_map]
    congr 3
    funext a
    simp
  | some i =>
    simp only
    have : (cs.map (mapChunk φ)).getD i none = mapChunk φ (cs.getD i none) := by
      simp only [List.getD, List.getElem?_map]
      cases cs[i]? <;> rfl
    rw [this]
    cases cs.getD i none with
    | none => rfl
    | some x =>
      simp only [mapChunk, Option.map_some, rows_map, einsum_map, List.map_map]
      congr 2
      funext r
      simp [Function.comp_def]

theorem addRows_map (a b : List (List K)) : addRows (a.map fun r => r.map φ) (b.map fun r => r.map φ) = (addRows a b).map fun r => r.map φ := by
  unfold addRows
  rw [List.map_zipWith, List.zipWith_map]
  congr 1
  funext r s
  rw [List.map_zipWith, List.zipWith_map]
  congr 1
  funext u v
  simp

theorem sumChunks_map (cs : List (Chunk K)) : sumChunks (cs.map (mapChunk φ)) = mapChunk φ (sumChunks cs) := by
  unfold sumChunks
  have : (cs.map (mapChunk φ)).filterMap id = (cs.filterMap id).map fun rows => rows.map fun r => r.map φ := by
    induction cs with
    | nil => rfl
    | cons c cs ih =>
      cases c with
      | none => simpa only [List.map_cons, mapChunk, Option.map_none, List.filterMap_cons, id] using ih
      | some r => simp only [List.map_cons, mapChunk, Option.map_some, List.filterMap_cons, id] at ih ⊢; rw [← ih]
  rw [this]
  cases cs.filterMap id with
  | nil => rfl
  | cons x l =>
    simp only [List.map_cons, mapChunk, Option.map_some]
    congr 1
    induction l generalizing x with
    | nil => rfl
    | cons y l ih => simp only [List.map_cons, List.foldl_cons, addRows_map, ih]

theorem outPairs_map (f : FLin K) (cs : List (Chunk K)) (ws : List (List K)) :
    outPairs (mapK φ f) (cs.map (mapChunk φ)) (ws.map fun w => w.map φ) = (outPairs f cs ws).map (MP φ) := by
  unfold outPairs
  rw [List.map_map]
  refine List.map_congr_left fun mo _ => ?_
  simp only [Function.comp, MP, Prod.mk.injEq, true_and]
  rw [← sumChunks_map, mapK]
  simp only
  rw [List.zip_map, List.filter_map, List.map_map, List.map_map]
  congr 1
  refine List.map_congr_left fun iw _ => ?_
  exact pathRows_map φ f cs iw

theorem mp_call {f : FLin K} (hf : Good f) {ws : List (List K)} (hw : WeightsOk f ws) {x y : IArr K} {x' : IArr L} (h : Mp φ x x') (hy : f.call ws x = .ok y) :
    ∃ y', (mapK φ f).call (ws.map fun w => w.map φ) x' = .ok y' ∧ Mp φ y y' := by
  have hs : ∃ xr, x.rechunk f.irrepsIn = .ok xr := by
    unfold call at hy
    cases h : x.rechunk f.irrepsIn with
    | error e => rw [h] at hy; cases hy
    | ok xr => exact ⟨xr, rfl⟩
  obtain ⟨xr, hr⟩ := hs
  have he := (rechunk_irreps h.inv hr).2.2.2
  obtain ⟨xr1, y1, a1, a2, a3, a4, a5, a6, a7, a8, -⟩ := call_spec hf h.inv he hw
  obtain ⟨xr2, y2, b1, b2, b3, b4, b5, b6, b7, b8, -⟩ := call_spec (mapK_good φ hf) h.inv' (by rw [h.irreps]; exact he) (mapK_weights φ hw)
  rw [hy] at a5
  cases a5
  rw [hr] at a1
  cases a1
  obtain ⟨w, w1, w2⟩ := mp_rechunk h hr
  rw [show (mapK φ f).irrepsIn = f.irrepsIn from rfl, w1] at b1
  cases b1
  refine ⟨y2, b5, Mp.of_pairs (map_zero φ) a6 b6 ?_⟩
  rw [a8, b8, w2.chunks, outPairs_map]

end FLin

namespace TP

theorem contract_map (d : ℕ) (C : List (List (List K))) (a b : List K) :
    contract d (C.map fun m => m.map fun r => r.map φ) (a.map φ) (b.map φ) = (contract d C a b).map φ := by
  unfold contract
  rw [← linComb_map, List.map_map, List.map_map]
  congr 1
  refine List.map_congr_left fun m _ => ?_
  simp only [Function.comp, linComb_map]

/-- The tables of the products, mapped. -/
structure CtxMap (c : TPCtx K) (c' : TPCtx L) : Prop where
  cg : ∀ l1 l2 l3, c'.cg l1 l2 l3 = (c.cg l1 l2 l3).map fun m => m.map fun r => r.map φ
  sqrt : ∀ q, c'.sqrt q = φ (c.sqrt q)

variable {φ}

theorem scaleCg_map (c : K) (C : List (List (List K))) :
    scaleCg (φ c) (C.map fun m => m.map fun r => r.map φ) = (scaleCg c C).map fun m => m.map fun r => r.map φ := by
  unfold scaleCg
  simp only [List.map_map]
  refine List.map_congr_left fun m _ => ?_
  simp only [Function.comp_def, List.map_map]
  refine List.map_congr_left fun r _ => ?_
  simp [Function.comp_def]

theorem normC_map {c : TPCtx K} {c' : TPCtx L} (h : CtxMap φ c c') (n : IrNorm) (ir1 ir2 ir : Irrep) :
    normC c' n ir1 ir2 ir = (normC c n ir1 ir2 ir).map fun m => m.map fun r => r.map φ := by
  cases n
  · simp only [normC, h.cg, h.sqrt, scaleCg_map]
  · simp only [normC, h.cg, h.sqrt, scaleCg_map]
  · simp only [normC, h.cg]
  · simp only [normC, h.cg]

theorem outer_map (a b : List (List K)) : outer (a.map fun r => r.map φ) (b.map fun r => r.map φ) = (outer a b).map fun q => (q.1.map φ, q.2.map φ) := by
  simp only [outer, List.flatMap_map, List.map_flatMap, List.map_map]
  rfl

theorem pathVal_map {C : List (List (List K))} {pair : Pairing K} {pair' : Pairing L}
    (hp : ∀ a b, pair' (a.map fun r => r.map φ) (b.map fun r => r.map φ) = (pair a b).map fun q => (q.1.map φ, q.2.map φ)) (mul : ℕ)
    (p1 p2 : MulIrrep × Chunk K) (ir : Irrep) :
    pathVal (C.map fun m => m.map fun r => r.map φ) pair' mul (MP φ p1) (MP φ p2) ir = MP φ (pathVal C pair mul p1 p2 ir) := by
  obtain ⟨m1, c1⟩ := p1
  obtain ⟨m2, c2⟩ := p2
  cases c1 with
  | none => rfl
  | some a =>
    cases c2 with
    | none => rfl
    | some b =>
      simp only [MP, mapChunk, Option.map_some, pathVal, hp]
      unfold rowsOf
      rw [List.map_map, List.map_map]
      congr 2
      refine List.map_congr_left fun q _ => ?_
      simp only [Function.comp, contract_map]

theorem mp_prepare (rg : Bool) {x z : IArr K} {x' : IArr L} (h : Mp φ x x') (hz : prepare rg x = .ok z) : ∃ z', prepare rg x' = .ok z' ∧ Mp φ z z' := by
  cases rg with
  | false => cases hz; exact ⟨x', rfl, h⟩
  | true => exact mp_regroup (map_zero φ) h hz

theorem mp_finish (rg : Bool) {ps : List (MulIrrep × Chunk K)} (h : Shaped ps) {y : IArr K}
    (hy : finish rg ps = .ok y) : ∃ y', finish rg (ps.map (MP φ)) = .ok y' ∧ Mp φ y y' := by
  obtain ⟨u, u1, -⟩ := fromChunks_pairs ps h
  have e1 : (ps.map (MP φ)).map Prod.fst = ps.map Prod.fst := by rw [List.map_map]; rfl
  obtain ⟨u', u2, u3⟩ := mp_fromChunks (φ := φ) (map_zero φ) h rfl rfl rfl u1
  obtain ⟨v, v1, -⟩ := sort_spec u3.inv
  obtain ⟨v', v1', hv⟩ := mp_sort (map_zero φ) u3 v1
  unfold finish at *
  rw [e1, u2]
  rw [u1] at hy
  simp only [bind, Except.bind, v1, v1'] at *
  cases rg with
  | false => cases hy; exact ⟨v', rfl, hv⟩
  | true => exact mp_regroup (map_zero φ) hv hy

theorem tpEntries_map {c : TPCtx K} {c' : TPCtx L} (h : CtxMap φ c c') (n : IrNorm) (filter : Option (List Irrep)) (P1 P2 : List (MulIrrep × Chunk K)) :
    tpEntries c' n filter (P1.map (MP φ)) (P2.map (MP φ)) = (tpEntries c n filter P1 P2).map (MP φ) := by
  unfold tpEntries
  have ht : triples filter (P1.map (MP φ)) (P2.map (MP φ)) =
      (triples filter P1 P2).map fun t => (MP φ t.1, MP φ t.2.1, t.2.2) := by
    simp only [triples, List.flatMap_map, List.map_flatMap, List.map_map]
    rfl
  rw [ht, List.map_map, List.map_map]
  refine List.map_congr_left fun t _ => ?_
  simp only [Function.comp]
  rw [show (MP φ t.1).1 = t.1.1 from rfl, show (MP φ t.2.1).1 = t.2.1.1 from rfl, normC_map h]
  exact pathVal_map outer_map _ _ _ _

theorem mp_tensorProduct {c : TPCtx K} {c' : TPCtx L} (hc : CgOk c) (hc' : CgOk c') (h : CtxMap φ c c') {n : IrNorm}
    (hn : n ≠ .other) (filter : Option (List Irrep)) (rg : Bool) {x1 x2 y : IArr K} {x1' x2' : IArr L}
    (t1 : Mp φ x1 x1') (t2 : Mp φ x2 x2') (hy : tensorProduct c n filter rg x1 x2 = .ok y) :
    ∃ y', tensorProduct c' n filter rg x1' x2' = .ok y' ∧ Mp φ y y' := by
  obtain ⟨z1, z2, w, a1, a2, a3, a4, a5, a6, -⟩ := tensorProduct_spec hc hn filter rg t1.inv t2.inv
  obtain ⟨z1', z2', w', b1, b2, b3, b4, b5, b6, -⟩ := tensorProduct_spec hc' hn filter rg t1.inv' t2.inv'
  rw [hy] at a6; cases a6
  refine ⟨w', b6, ?_⟩
  obtain ⟨u1, c1, d1⟩ := mp_prepare rg t1 a1
  rw [b1] at c1; cases c1
  obtain ⟨u2, c2, d2⟩ := mp_prepare rg t2 a2
  rw [b2] at c2; cases c2
  obtain ⟨v, v1, v2⟩ := mp_finish (φ := φ) rg (tpEntries_shaped hc n filter a3.pairs.1 a4.pairs.1) a5
  rw [← tpEntries_map h n filter, ← d1.pairs, ← d2.pairs, b5] at v1
  cases v1; exact v2

theorem elEntries_map {c : TPCtx K} {c' : TPCtx L} (h : CtxMap φ c c') (n : IrNorm) (filter : Option (List Irrep)) (P1 P2 : List (MulIrrep × Chunk K)) :
    elEntries c' n filter (P1.map (MP φ)) (P2.map (MP φ)) = (elEntries c n filter P1 P2).map (MP φ) := by
  unfold elEntries
  have ht : ((P1.map (MP φ)).zip (P2.map (MP φ))).flatMap (fun pq => (irsOut filter pq.1.1.ir pq.2.1.ir).map fun ir => (pq, ir)) =
      ((P1.zip P2).flatMap fun pq => (irsOut filter pq.1.1.ir pq.2.1.ir).map fun ir => (pq, ir)).map
        fun t => ((MP φ t.1.1, MP φ t.1.2), t.2) := by
    simp only [List.zip_map, List.flatMap_map, List.map_flatMap, List.map_map]
    rfl
  rw [ht, List.map_map, List.map_map]
  refine List.map_congr_left fun t _ => ?_
  simp only [Function.comp]
  rw [show (MP φ t.1.1).1 = t.1.1.1 from rfl, show (MP φ t.1.2).1 = t.1.2.1 from rfl, normC_map h]
  exact pathVal_map (φ := φ) (pair := List.zip) (pair' := List.zip) (fun a b => by rw [List.zip_map]; rfl) _ _ _ _

theorem mp_elementwise {c : TPCtx K} {c' : TPCtx L} (hc : CgOk c) (hc' : CgOk c') (h : CtxMap φ c c') {n : IrNorm}
    (hn : n ≠ .other) (filter : Option (List Irrep)) {x1 x2 y : IArr K} {x1' x2' : IArr L}
    (t1 : Mp φ x1 x1') (t2 : Mp φ x2 x2') (hy : elementwise c n filter x1 x2 = .ok y) :
    ∃ y', elementwise c' n filter x1' x2' = .ok y' ∧ Mp φ y y' := by
  obtain ⟨hnum, r, hr⟩ := elementwise_align hy
  obtain ⟨u, v, w, a1, a2, a3, a4, a5, a6, a7, a8, a9, a10, -⟩ := elementwise_spec hc hn filter t1.inv t2.inv hnum hr
  obtain ⟨u', v', w', b1, b2, b3, b4, b5, b6, b7, b8, b9, b10, -⟩ :=
    elementwise_spec hc' hn filter t1.inv' t2.inv' (by rw [t1.irreps, t2.irreps]; exact hnum)
      (r := r) (by rw [t1.irreps, t2.irreps]; exact hr)
  rw [hy] at a8; cases a8
  refine ⟨w', b8, Mp.of_pairs (map_zero φ) a9 b9 ?_⟩
  obtain ⟨c, c1, c2⟩ := mp_rechunk t1 a6
  rw [b6] at c1; cases c1
  obtain ⟨d, d1, d2⟩ := mp_rechunk t2 a7
  rw [b7] at d1; cases d1
  rw [b10, a10, c2.pairs, d2.pairs, elEntries_map h]

end TP
end ring
end E3nn
