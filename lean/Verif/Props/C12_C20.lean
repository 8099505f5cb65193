import Verif.Lemmas.IArrSlice

/-!
# C12, C13, C15 – C20, C23: views, rechunking, indexing and structural operations of `IrrepsArray`

`x.Coherent` (Spec/IArr.lean) is the invariant of every `IrrepsArray`: C14 shows that all reachable
ones have it.
-/

namespace E3nn
open IArr

variable {α : Type}

/-! ## C12 -/

/-- One chunk per term, each `None` or of shape `(mul, 2l+1)`. -/
def ChunksFit (irreps : Irreps) (cs : List (Chunk α)) : Prop :=
  cs.length = irreps.length ∧
  ∀ (i : Nat) (m : MulIrrep) (rows : List (List α)), irreps[i]? = some m → cs[i]? = some (some rows) →
    rows.length = m.mul ∧ ∀ r ∈ rows, r.length = 2 * m.ir.l + 1

/-- Independent reading of the flattened chunks: zeros for `None`. -/
def chunkData [Zero α] (m : MulIrrep) : Chunk α → List α
  | none => List.replicate (m.mul * (2 * m.ir.l + 1)) 0
  | some rows => rows.flatten

theorem chunkData_eq [Zero α] : (chunkData : MulIrrep → Chunk α → List α) = flatChunk := by
  funext m c; cases c <;> rfl

theorem chunksFit_iff (irreps : Irreps) (cs : List (Chunk α)) :
    ChunksFit irreps cs ↔ irreps.length = cs.length ∧ Shaped (irreps.zip cs) := by
  constructor
  · rintro ⟨h1, h2⟩
    refine ⟨h1.symm, ?_⟩
    intro q hq
    obtain ⟨i, hi⟩ := List.mem_iff_getElem?.mp hq
    obtain ⟨m, c⟩ := q
    rw [List.getElem?_zip_eq_some] at hi
    cases c with
    | none => rfl
    | some r =>
      obtain ⟨a, b⟩ := h2 i m r hi.1 hi.2
      simp only [shapeOk, a, beq_self_eq_true, Bool.true_and, List.all_eq_true, beq_iff_eq]
      exact b
  · rintro ⟨h1, h2⟩
    refine ⟨h1.symm, ?_⟩
    intro i m r hm hr
    have hq : (irreps.zip cs)[i]? = some (m, some r) := by
      rw [List.getElem?_zip_eq_some]; exact ⟨hm, hr⟩
    have := h2 _ (List.mem_of_getElem? hq)
    simp only [shapeOk, Bool.and_eq_true, beq_iff_eq, List.all_eq_true] at this
    exact this

/-- `from_chunks` succeeds iff the chunks fit the irreps; the array is the concatenation of the
flattened chunks (zeros for `None`), `.chunks` gives the chunks back and a chunk is flagged zero
iff it is `None`. -/
theorem C12_from_chunks [Zero α] (irreps : Irreps) (cs : List (Chunk α)) :
    (ChunksFit irreps cs → ∃ y, fromChunks irreps cs = .ok y ∧ y.Coherent ∧ y.irreps = irreps ∧
      y.array = ((irreps.zip cs).map fun mc => chunkData mc.1 mc.2).flatten ∧ y.chunks = cs ∧
      y.zeroFlags = cs.map Option.isNone) ∧
    (¬ ChunksFit irreps cs → fromChunks irreps cs = .error .valueError) := by
  rw [chunksFit_iff]
  constructor
  · rintro ⟨h1, h2⟩
    obtain ⟨y, e1, e2, e3, e4, e5, e6, e7, e8⟩ := fromChunks_pairs _ h2
    rw [List.map_fst_zip (by omega), List.map_snd_zip (by omega)] at e1
    refine ⟨y, e1, e2.coherent, ?_, ?_, ?_, ?_⟩
    · rw [e3, List.map_fst_zip (by omega)]
    · rw [e5, chunkData_eq]
    · rw [e7, List.map_snd_zip (by omega)]
    · rw [e6]
      have : cs = (irreps.zip cs).map Prod.snd := (List.map_snd_zip (by omega)).symm
      conv => rhs; rw [this]
      rw [List.map_map]; rfl
  · exact fromChunks_bad true

/-- `IrrepsArray(irreps, array)` succeeds iff the last axis has the dimension of the irreps; the
chunks flattened one after the other are the array. -/
theorem C12_from_array [Zero α] (irreps : Irreps) (a : List α) :
    (a.length = dimOf (expand irreps) → ∃ y, ofArray irreps a = .ok y ∧ y.Coherent ∧
      y.irreps = irreps ∧ y.array = a ∧
      ((irreps.zip y.chunks).map fun mc => chunkData mc.1 mc.2).flatten = a ∧
      (∀ c ∈ y.chunks, c ≠ none)) ∧
    (a.length ≠ dimOf (expand irreps) → ofArray irreps a = .error .valueError) := by
  rw [← Irreps.dim_eq_dimOf_expand]
  constructor
  · intro h
    obtain ⟨h1, h2⟩ := make_noflags h
    refine ⟨_, h1, h2.coherent, rfl, rfl, ?_, ?_⟩
    · have := h2.pairs.2.2.2.2.2
      rw [chunkData_eq]; exact this
    · intro c hc hn
      subst hn
      have h5 := h2.pairs.2.2.2.2.1
      have h3 := h2.pairs.2.2.1
      rw [← h3] at hc
      obtain ⟨q, hq, e⟩ := List.mem_map.mp hc
      have : q.2.isNone ∈ (⟨irreps, a, none, none⟩ : IArr α).zeroFlags := by
        rw [← h5]; exact List.mem_map_of_mem (f := fun p : MulIrrep × Chunk α => p.2.isNone) hq
      rw [e] at this
      simp [IArr.zeroFlags] at this
  · exact make_badlength

/-- `zeros(irreps)` is the array of zeros with every term flagged; `ones(irreps)` is the array of ones with no
term flagged; both are coherent. -/
theorem C12_zeros_ones [Zero α] [One α] (irreps : Irreps) :
    (∃ y : IArr α, zeros irreps = .ok y ∧ y.Coherent ∧ y.irreps = irreps ∧ y.array = List.replicate (dimOf (expand irreps)) 0 ∧
      y.zeroFlags = List.replicate irreps.length true ∧ y.chunks = List.replicate irreps.length none) ∧
    (∃ y : IArr α, ones irreps = .ok y ∧ y.Coherent ∧ y.irreps = irreps ∧ y.array = List.replicate (dimOf (expand irreps)) 1 ∧
      y.zeroFlags = List.replicate irreps.length false) := by
  have hz : ∀ ms : Irreps, FlagsOk ms (List.replicate ms.dim (0 : α)) (List.replicate ms.length true) := by
    intro ms
    induction ms with
    | nil => simp [FlagsOk, Irreps.dim]
    | cons m ms ih =>
      have e : Irreps.dim (m :: ms) = m.dim + Irreps.dim ms := by simp [Irreps.dim, MulIrrep.dim]
      simp only [List.length_cons, List.replicate_succ, FlagsOk]
      refine ⟨by simp [e], fun _ v hv => ?_, ?_⟩
      · exact (List.mem_replicate.mp (List.mem_of_mem_take hv)).2
      · rw [e, List.drop_replicate, Nat.add_sub_cancel_left]; exact ih
  have ho : ∀ ms : Irreps, FlagsOk ms (List.replicate ms.dim (1 : α)) (List.replicate ms.length false) := by
    intro ms
    induction ms with
    | nil => simp [FlagsOk, Irreps.dim]
    | cons m ms ih =>
      have e : Irreps.dim (m :: ms) = m.dim + Irreps.dim ms := by simp [Irreps.dim, MulIrrep.dim]
      simp only [List.length_cons, List.replicate_succ, FlagsOk]
      refine ⟨by simp [e], fun h => by simp at h, ?_⟩
      rw [e, List.drop_replicate, Nat.add_sub_cancel_left]; exact ih
  constructor
  · have hi : Inv (⟨irreps, List.replicate irreps.dim (0 : α), some (List.replicate irreps.length true), none⟩ : IArr α) := inv_nocache (hz irreps)
    refine ⟨_, make_nocache (hz irreps), hi.coherent, rfl, ?_, rfl, ?_⟩
    · simp only; rw [Irreps.dim_eq_dimOf_expand]
    · rw [hi.chunks_eq]
      have : ∀ (ms : Irreps) (a : List α), comp ms a (List.replicate ms.length true) = List.replicate ms.length none := by
        intro ms
        induction ms with
        | nil => intro a; rfl
        | cons m ms ih => intro a; simp only [List.length_cons, List.replicate_succ, comp, ih, if_true]
      exact this _ _
  · have hi : Inv (⟨irreps, List.replicate irreps.dim (1 : α), some (List.replicate irreps.length false), none⟩ : IArr α) := inv_nocache (ho irreps)
    refine ⟨_, make_nocache (ho irreps), hi.coherent, rfl, ?_, rfl⟩
    simp only; rw [Irreps.dim_eq_dimOf_expand]

/-- `as_irreps_array(a)` of a plain array makes every column an even scalar. -/
theorem C12_as_irreps_array [Zero α] (a : List α) :
    ∃ y, asIrrepsArray a = .ok y ∧ y.Coherent ∧ y.irreps = [⟨a.length, ⟨0, .e⟩⟩] ∧ y.array = a ∧ y.blocks = a.map fun c => (⟨0, .e⟩, [c]) := by
  obtain ⟨y, h1, h2, h3, h4, -⟩ := (C12_from_array [⟨a.length, ⟨0, .e⟩⟩] a).1 (by simp [expand, dimOf, Irrep.dim])
  refine ⟨y, h1, h2, h3, h4, ?_⟩
  unfold IArr.blocks
  rw [h3, h4]
  have : ∀ a : List α, blocksOf (List.replicate a.length ⟨0, .e⟩) a = a.map fun c => ((⟨0, .e⟩ : Irrep), [c]) := by
    intro a
    induction a with
    | nil => rfl
    | cons c a ih => simpa [List.replicate_succ, blocksOf] using ih
  simpa [expand] using this a

/-- Flattening the chunks of any coherent `IrrepsArray` gives its array; a `None` chunk is an
all-zero slice. -/
theorem C12_chunks_array [Zero α] (x : IArr α) (hx : x.Coherent) :
    ((x.irreps.zip x.chunks).map fun mc => chunkData mc.1 mc.2).flatten = x.array := by
  have := hx.inv.pairs.2.2.2.2.2
  rw [chunkData_eq]; exact this

example : ChunksFit [⟨1, ⟨0, .e⟩⟩, ⟨2, ⟨1, .o⟩⟩] ([none, some [[1, 2, 3], [4, 5, 6]]] : List (Chunk Int)) := by
  refine ⟨rfl, ?_⟩
  intro i m rows hm hr
  match i with
  | 0 => simp at hr
  | 1 => simp at hm hr; subst hm hr; simp
  | i + 2 => simp at hm

/-! ## C13 -/

/-- `rechunk` succeeds exactly when both irreps denote the same sequence of irreps; it returns the
requested irreps, never changes the array, and the views of the result tell the truth. -/
theorem C13_rechunk [Zero α] (x : IArr α) (hx : x.Coherent) (new : Irreps) :
    (expand x.irreps = expand new → ∃ y, x.rechunk new = .ok y ∧ y.Coherent ∧ y.irreps = new ∧
      y.array = x.array ∧ y.blocks = x.blocks) ∧
    (expand x.irreps ≠ expand new → x.rechunk new = .error .assertion) := by
  constructor
  · intro h
    obtain ⟨y, y1, y2, y3, y4⟩ := rechunk_spec hx.inv h
    exact ⟨y, y1, y2.coherent, y3, y4, by unfold IArr.blocks; rw [y3, y4, h]⟩
  · intro h
    unfold rechunk
    rw [if_pos]
    intro hs
    exact h ((Irreps.simplify_eq_iff _ _).mp hs)

/-- `simplify` and `unify` always succeed, change neither the array nor the sequence of
(irrep, components) blocks, and have the irreps of `Irreps.simplify`/`unify`. -/
theorem C17_simplify_unify [Zero α] (x : IArr α) (hx : x.Coherent) :
    (∃ y, x.simplify = .ok y ∧ y.Coherent ∧ y.irreps = x.irreps.simplify ∧ y.array = x.array ∧
      y.blocks = x.blocks) ∧
    (∃ y, x.unify = .ok y ∧ y.Coherent ∧ y.irreps = x.irreps.unify ∧ y.array = x.array ∧
      y.blocks = x.blocks) :=
  ⟨(C13_rechunk x hx _).1 (Irreps.expand_simplify _).symm, (C13_rechunk x hx _).1 (Irreps.expand_unify _).symm⟩

/-! ## C15 -/

/-- The terms `pat` start at term number `i` of `ms`. -/
def OccursAt (ms pat : Irreps) (i : Nat) : Prop := ∃ u v, ms = u ++ pat ++ v ∧ u.length = i

theorem occurs_iff {ms pat : Irreps} (hp : pat ≠ []) (i : Nat) :
    OccursAt ms pat i ↔ i ∈ occurrences ms pat := by
  rw [occurrences_mem]
  constructor
  · rintro ⟨u, v, rfl, rfl⟩
    have : 0 < pat.length := List.length_pos_iff.mpr hp
    refine ⟨by simp; omega, ?_⟩
    rw [List.append_assoc, List.drop_left' rfl, List.take_left' rfl]
  · rintro ⟨h1, h2⟩
    refine ⟨ms.take i, ms.drop (i + pat.length), ?_, by rw [List.length_take]; omega⟩
    conv => lhs; rw [← List.take_append_drop i ms]
    rw [List.append_assoc]
    congr 1
    conv => lhs; rw [← List.take_append_drop pat.length (ms.drop i), h2]
    rw [List.drop_drop]

theorem occurrences_nodup (ms pat : Irreps) : (occurrences ms pat).Nodup :=
  List.nodup_range.filter _

/-- `x[..., irreps]` (with at least one term) succeeds iff the terms occur exactly once as
consecutive terms, and then the result is exactly these terms with their data. -/
theorem C15_index_irreps [Zero α] (x : IArr α) (hx : x.Coherent) (pat : Irreps) (hp : pat ≠ []) :
    (∀ i, OccursAt x.irreps pat i → (∀ j, OccursAt x.irreps pat j → j = i) →
      ∃ y, x.getIrreps pat = .ok y ∧ y.Coherent ∧ y.irreps = pat ∧
        y.terms = (x.terms.drop i).take pat.length) ∧
    ((¬ ∃ i, OccursAt x.irreps pat i ∧ ∀ j, OccursAt x.irreps pat j → j = i) →
      x.getIrreps pat = .error .indexError) := by
  simp only [occurs_iff hp]
  have hnd := occurrences_nodup x.irreps pat
  constructor
  · intro i hi huniq
    have : occurrences x.irreps pat = [i] := by
      cases hl : occurrences x.irreps pat with
      | nil => rw [hl] at hi; simp at hi
      | cons a l =>
        rw [hl] at hi huniq hnd
        have ha := huniq a (by simp)
        cases l with
        | nil => rw [ha]
        | cons b l =>
          have hb := huniq b (by simp)
          rw [ha, hb] at hnd; simp at hnd
    obtain ⟨y, y1, y2, y3, y4⟩ := getIrreps_spec hx.inv this
    exact ⟨y, y1, y2.coherent, y3, y4⟩
  · intro h
    unfold getIrreps
    cases hl : occurrences x.irreps pat with
    | nil => rfl
    | cons a l =>
      cases l with
      | nil => exact absurd ⟨a, by rw [hl]; simp, by rw [hl]; simp⟩ h
      | cons b l => rfl

/-- Disagreement with the property at the empty pattern: it occurs everywhere, but the code
answers as soon as the array has exactly one term. -/
theorem C15_empty_pattern_witness :
    (∀ i ≤ 1, OccursAt [⟨1, ⟨0, .e⟩⟩] [] i) ∧
    (IArr.getIrreps (⟨[⟨1, ⟨0, .e⟩⟩], [(7 : Int)], none, none⟩ : IArr Int) []).toOption.isSome = true := by
  refine ⟨?_, by decide⟩
  intro i hi
  exact ⟨List.take i [⟨1, ⟨0, .e⟩⟩], List.drop i [⟨1, ⟨0, .e⟩⟩], by simp, by simp; omega⟩

/-! ## C16 -/

/-- `x[..., a:b]`: let `a`, `b` be the resolved bounds.  If irreps number `i .. j-1` occupy exactly
the components `a .. b-1`, the slice succeeds and its blocks are exactly these. -/
theorem C16_slice_ok [Zero α] (x : IArr α) (hx : x.Coherent) (s : PySlice) (i j : Nat)
    (hij : i ≤ j) (hj : j ≤ (expand x.irreps).length)
    (ha : dimOf ((expand x.irreps).take i) = (s.bounds x.array.length).1)
    (hb : dimOf ((expand x.irreps).take j) = (s.bounds x.array.length).2) :
    ∃ y, x.getSlice s = .ok y ∧ y.Coherent ∧ y.blocks = pySlice x.blocks i j ∧
      y.array = pySlice x.array (s.bounds x.array.length).1 (s.bounds x.array.length).2 := by
  have hi := hx.inv
  have hlen := hi.flags.lengths.1
  obtain ⟨h1, h2, h3⟩ := getSliceAux_spec (s.bounds x.array.length).1 (s.bounds x.array.length).2 3 hi
    (defect_le _ _ _)
  have hle : (s.bounds x.array.length).1 ≤ (s.bounds x.array.length).2 := by
    rw [← ha, ← hb]
    rcases Nat.lt_or_ge i j with h | h
    · exact Nat.le_of_lt (dimOf_mono _ h hj)
    · have : i = j := by omega
      rw [this]
  obtain ⟨y, hy⟩ := h3 hle ⟨i, by omega, ha⟩ ⟨j, hj, hb⟩ (by rw [← hlen]; exact (bounds_le s _).2)
  obtain ⟨r1, r2, i', j', q1, q2, q3, q4, q5⟩ := h1 y hy
  have ei : i' = i := dimOf_inj (expand x.irreps) (by omega) (by omega) (by rw [q3, ha])
  have ej : j' = j := dimOf_inj _ q2 hj (by rw [q4, hb])
  subst ei ej
  exact ⟨y, hy, r1.coherent, q5, r2⟩

/-- Whenever the slice returns, both bounds are borders between irreps, in order. -/
theorem C16_slice_only_borders [Zero α] (x : IArr α) (hx : x.Coherent) (s : PySlice) (y : IArr α)
    (hy : x.getSlice s = .ok y) :
    ∃ i j, i ≤ j ∧ j ≤ (expand x.irreps).length ∧
      dimOf ((expand x.irreps).take i) = (s.bounds x.array.length).1 ∧
      dimOf ((expand x.irreps).take j) = (s.bounds x.array.length).2 := by
  obtain ⟨h1, -, -⟩ := getSliceAux_spec (s.bounds x.array.length).1 (s.bounds x.array.length).2 3 hx.inv
    (defect_le _ _ _)
  obtain ⟨-, -, i', j', q1, q2, q3, q4, -⟩ := h1 y hy
  exact ⟨i', j', q1, q2, q3, q4⟩

/-- The recursion of the slicing code always ends. -/
theorem C16_slice_terminates [Zero α] (x : IArr α) (hx : x.Coherent) (s : PySlice) :
    x.getSlice s ≠ .error .diverges :=
  (getSliceAux_spec _ _ 3 hx.inv (defect_le _ _ _)).2.1

/-- `2x1e`, components `3:6`: the second vector. -/
example : ((⟨[⟨2, ⟨1, .e⟩⟩], [1, 2, 3, 4, 5, 6], none, none⟩ : IArr Int).getSlice
    ⟨some 3, some 6, none⟩).toOption.map IArr.array = some [4, 5, 6] := by decide

/-! ## C17 -/

/-- `sort` moves whole irreps: the (irrep, components) blocks of the result are those of the input,
in non-decreasing order of irrep, and for each irrep in the original order. -/
theorem C17_sort [Zero α] (x : IArr α) (hx : x.Coherent) :
    ∃ y, x.sort = .ok y ∧ y.Coherent ∧ y.blocks.Perm x.blocks ∧
      (y.blocks.map Prod.fst).Pairwise (fun a b => b.lt a = false) ∧
      (∀ ir, y.blocks.filter (fun b => decide (b.1 = ir)) =
        x.blocks.filter fun b => decide (b.1 = ir)) ∧
      ∃ r, x.irreps.sort = .ok r ∧ y.irreps = r.irreps := by
  obtain ⟨y, y1, y2, y3, y4, y5⟩ := sort_spec hx.inv
  refine ⟨y, y1, y2.coherent, ?_, ?_, ?_, ⟨_, Irreps.sort_eq _, y3⟩⟩
  · rw [blocks_eq, blocks_eq]; exact y4.flatMap_right _
  · rw [blocks_irs, y3]
    have h := Irreps.sortIrreps_sorted x.irreps
    generalize Irreps.sortIrreps x.irreps = l at h
    induction l with
    | nil => simp [expand]
    | cons m l ih =>
      rw [List.pairwise_cons] at h
      rw [expand_cons, List.pairwise_append]
      refine ⟨?_, ih h.2, ?_⟩
      · apply List.pairwise_of_forall_mem_list
        intro a ha b hb
        rw [List.eq_of_mem_replicate ha, List.eq_of_mem_replicate hb, Irrep.lt_false_iff_enc]
      · intro a ha b hb
        rw [List.eq_of_mem_replicate ha]
        obtain ⟨m', hm', hb'⟩ := List.mem_flatMap.mp hb
        rw [List.eq_of_mem_replicate hb']
        exact h.1 m' hm'
  · intro ir
    rw [blocks_filter, blocks_filter, y5]

/-- `regroup` is `sort` followed by `simplify`: same blocks as `sort`, with the irreps of
`Irreps.regroup`. -/
theorem C17_regroup [Zero α] (x : IArr α) (hx : x.Coherent) :
    ∃ y, x.regroup = .ok y ∧ y.Coherent ∧ y.blocks.Perm x.blocks ∧
      (y.blocks.map Prod.fst).Pairwise (fun a b => b.lt a = false) ∧
      (∀ ir, y.blocks.filter (fun b => decide (b.1 = ir)) =
        x.blocks.filter fun b => decide (b.1 = ir)) ∧
      x.irreps.regroup = .ok y.irreps := by
  obtain ⟨z, z1, z2, z3, z4, z5, r, hr, z6⟩ := C17_sort x hx
  obtain ⟨⟨y, y1, y2, y3, y4, y5⟩, -⟩ := C17_simplify_unify z z2
  refine ⟨y, ?_, y2, ?_, ?_, ?_, ?_⟩
  · unfold IArr.regroup; rw [z1]; exact y1
  · rw [y5]; exact z3
  · rw [y5]; exact z4
  · rw [y5]; exact z5
  · rw [y3, z6]
    unfold Irreps.regroup
    rw [hr]; rfl

/-! ## C18 -/

/-- The irreps criteria accepted by `filter`: by irreps to keep, to drop, or by degree. -/
inductive IrCrit where
  | keep (s : List Irrep)
  | drop (s : List Irrep)
  | lmax (L : Int)

def IrCrit.sat : IrCrit → Irrep → Prop
  | .keep s, ir => ir ∈ s
  | .drop s, ir => ir ∉ s
  | .lmax L, ir => (ir.l : Int) ≤ L

instance (k : IrCrit) (ir : Irrep) : Decidable (k.sat ir) := by
  cases k <;> unfold IrCrit.sat <;> infer_instance

/-- `x.filter(criterion)`. -/
def filterBy [Zero α] (x : IArr α) : IrCrit → Except PyErr (IArr α)
  | .keep s => x.filter (some (.irs s)) none none
  | .drop s => x.filter none (some (.irs s)) none
  | .lmax L => x.filter none none (some L)

/-- Filtering by irreps keeps exactly the terms whose irrep satisfies the criterion, with their
data, in order. -/
theorem C18_filter [Zero α] (x : IArr α) (hx : x.Coherent) (k : IrCrit) :
    ∃ y, filterBy x k = .ok y ∧ y.Coherent ∧ y.terms = x.terms.filter (fun t => decide (k.sat t.1.ir)) ∧
      y.irreps = x.irreps.filter fun m => decide (k.sat m.ir) := by
  obtain ⟨y, y1, y2, y3, y4⟩ := filterMap_of_pairs hx.inv fun m => decide (k.sat m.ir)
  refine ⟨y, ?_, y2.coherent, y4, y3⟩
  have hfilt : ∀ cm ∈ x.chunks.zip x.irreps,
      (Irreps.contains (x.irreps.filter fun m => decide (k.sat m.ir)) cm.2.ir) =
      decide (k.sat cm.2.ir) := by
    rintro ⟨c, m⟩ hcm
    have hm := (List.of_mem_zip hcm).2
    rw [Bool.eq_iff_iff]
    simp only [Irreps.contains, List.contains_iff_mem, List.mem_map, List.mem_filter, decide_eq_true_eq]
    constructor
    · rintro ⟨m', ⟨_, h⟩, e⟩; rw [← e]; exact h
    · intro h; exact ⟨m, ⟨hm, h⟩, rfl⟩
  have key : ∀ (a b : Option Irreps.FilterArg) (c : Option Int),
      (a.isNone && b.isNone && c.isNone) = false →
      x.irreps.filter' a b c = .ok (x.irreps.filter fun m => decide (k.sat m.ir)) →
      x.filter a b c = .ok y := by
    intro a b c h1 h2
    unfold IArr.filter
    rw [if_neg (by simp [h1]), h2]
    simp only
    rw [List.filter_congr hfilt]
    exact y1
  cases k with
  | keep s =>
    refine key _ _ _ rfl ?_
    simp [Irreps.filter', IrCrit.sat, List.contains_eq_mem]
  | drop s =>
    refine key _ _ _ rfl ?_
    simp only [Irreps.filter', IrCrit.sat, List.contains_eq_mem, Option.isNone_none, Option.isNone_some,
      Option.isSome_none, Option.isSome_some, Bool.and_false, Bool.false_and, Bool.false_eq_true,
      if_false]
    congr 1
    apply List.filter_congr
    intro m _
    by_cases h : m.ir ∈ s <;> simp [h]
  | lmax L =>
    refine key _ _ _ rfl ?_
    simp [Irreps.filter', IrCrit.sat]

/-- Without a criterion `filter` is the identity; with two it raises. -/
theorem C18_filter_none [Zero α] (x : IArr α) : x.filter none none none = .ok x := rfl

/-- Disagreement: with a callable that looks at the multiplicity (`keep=lambda mul_ir: mul_ir.mul == 2`
on `1x0e+2x0e`) `Irreps.filter` works but `IrrepsArray.filter` raises. -/
theorem C18_callable_witness :
    Irreps.filter' [⟨1, ⟨0, .e⟩⟩, ⟨2, ⟨0, .e⟩⟩] (some (.pred fun m => m.mul == 2)) none none =
      .ok [⟨2, ⟨0, .e⟩⟩] ∧
    IArr.filter (⟨[⟨1, ⟨0, .e⟩⟩, ⟨2, ⟨0, .e⟩⟩], [(1 : Int), 2, 3], none, none⟩ : IArr Int)
      (some (.pred fun m => m.mul == 2)) none none = .error .valueError := by
  constructor <;> decide

/-! ## C19 -/

/-- `extend_with_zeros(new)` succeeds iff the terms of the array are a subsequence of `new`; the
terms of the result are `new`, some of them (`sel`) are those of `x` in order and the others are
zero. -/
theorem C19_extend_with_zeros [Zero α] (x : IArr α) (hx : x.Coherent) (new : Irreps) :
    (x.irreps.Sublist new → ∃ y, x.extendWithZeros new = .ok y ∧ y.Coherent ∧ y.irreps = new ∧
      ∃ sel : List Bool, sel.length = new.length ∧
        ((y.terms.zip sel).filter Prod.snd).map Prod.fst = x.terms ∧
        ∀ q ∈ y.terms.zip sel, q.2 = false → ∀ v ∈ q.1.2, v = 0) ∧
    (¬ x.irreps.Sublist new → x.extendWithZeros new = .error .valueError) := by
  obtain ⟨h1, h2⟩ := extendWithZeros_spec hx.inv new
  refine ⟨?_, h2⟩
  intro h
  obtain ⟨y, y1, y2, y3, y4⟩ := h1 h
  exact ⟨y, y1, y2.coherent, y3, y4⟩

/-! ## C20 -/

theorem zip_spec_flag {x : IArr α} [Zero α] (hx : Inv x) (k : Nat) (m : MulIrrep) :
    (x.irreps.zip x.chunks)[k]? = some (m, none) ↔
      x.irreps[k]? = some m ∧ x.zeroFlags[k]? = some true := by
  obtain ⟨p1, p2, p3, p4, p5, p6⟩ := hx.pairs
  rw [← p5, List.getElem?_map]
  constructor
  · intro h
    rw [h]
    rw [List.getElem?_zip_eq_some] at h
    exact ⟨h.1, rfl⟩
  · rintro ⟨h1, h2⟩
    obtain ⟨⟨m', c⟩, hq, e⟩ := Option.map_eq_some_iff.mp h2
    have hq' := hq
    rw [List.getElem?_zip_eq_some] at hq'
    simp only at hq' e
    rw [h1] at hq'
    simp only [Option.some.injEq] at hq'
    obtain ⟨rfl, -⟩ := hq'
    cases c with
    | none => exact hq
    | some r => simp at e

theorem cutNone_iff (start stop : Nat) (i : Nat) (ps : List (MulIrrep × Chunk α)) :
    CutNone start stop i ps ↔ ∃ k m, ps[k]? = some (m, none) ∧
      Cut start stop (i + Irreps.numIrreps ((ps.take k).map Prod.fst)) m.mul := by
  induction ps generalizing i with
  | nil => simp [CutNone]
  | cons p ps ih =>
    obtain ⟨m, c⟩ := p
    simp only [CutNone, ih]
    constructor
    · rintro (⟨rfl, h⟩ | ⟨k, m', h1, h2⟩)
      · exact ⟨0, m, rfl, by simpa [Irreps.numIrreps] using h⟩
      · refine ⟨k + 1, m', by simpa using h1, ?_⟩
        simp only [List.take_succ_cons, List.map_cons]
        simp only [Irreps.numIrreps, List.map_cons, List.sum_cons] at h2 ⊢
        rwa [Nat.add_assoc] at h2
    · rintro ⟨k, m', h1, h2⟩
      cases k with
      | zero =>
        simp only [List.getElem?_cons_zero, Option.some.injEq, Prod.mk.injEq] at h1
        obtain ⟨rfl, rfl⟩ := h1
        exact .inl ⟨rfl, by simpa [Irreps.numIrreps] using h2⟩
      | succ k =>
        refine .inr ⟨k, m', by simpa using h1, ?_⟩
        simp only [List.take_succ_cons, List.map_cons] at h2
        simp only [Irreps.numIrreps, List.map_cons, List.sum_cons] at h2 ⊢
        rwa [Nat.add_assoc]

/-- The slice `a:b` of the irreps cuts a term in the middle that is flagged zero: term `k` covers
irreps `o .. o+mul-1`, is not inside `a .. b-1`, and has an irrep in it. -/
def CutsZeroTerm (x : IArr α) (a b : Nat) : Prop :=
  ∃ k m, x.irreps[k]? = some m ∧ x.zeroFlags[k]? = some true ∧
    let o := (expand (x.irreps.take k)).length
    ¬ (a ≤ o ∧ o + m.mul ≤ b) ∧ a < o + m.mul ∧ o < b

theorem numIrreps_eq (ms : Irreps) : Irreps.numIrreps ms = (expand ms).length := by
  simp [Irreps.numIrreps, expand, List.length_flatMap]

theorem cutsZeroTerm_iff [Zero α] {x : IArr α} (hx : Inv x) (a b : Nat) :
    CutNone a b 0 (x.irreps.zip x.chunks) ↔ CutsZeroTerm x a b := by
  rw [cutNone_iff]
  constructor
  · rintro ⟨k, m, h1, h2⟩
    have h3 := (zip_spec_flag hx k m).mp h1
    refine ⟨k, m, h3.1, h3.2, ?_⟩
    rw [List.map_take, hx.pairs.2.1, Nat.zero_add, numIrreps_eq] at h2
    exact h2
  · rintro ⟨k, m, h1, h2, h3⟩
    refine ⟨k, m, (zip_spec_flag hx k m).mpr ⟨h1, h2⟩, ?_⟩
    rw [List.map_take, hx.pairs.2.1, Nat.zero_add, numIrreps_eq]
    exact h3

/-- `slice_by_mul[a:b]` with resolved bounds `a ≤ b` and step 1: it selects exactly the
(irrep, components) blocks number `a .. b-1`; except that it raises `TypeError` when the slice cuts
a zero-flagged term in the middle. -/
theorem C20_slice_by_mul [Zero α] (x : IArr α) (hx : x.Coherent) (s : PySlice)
    (hstep : s.step = none ∨ s.step = some 1) (a b : Nat)
    (hab : s.bounds (expand x.irreps).length = (a, b)) (hle : a ≤ b) :
    (¬ CutsZeroTerm x a b → ∃ y, x.sliceByMul s = .ok y ∧ y.Coherent ∧
      y.blocks = pySlice x.blocks a b) ∧
    (CutsZeroTerm x a b → x.sliceByMul s = .error .typeError) := by
  have hst : s.stepIsOne = true := by
    rcases hstep with h | h <;> simp [PySlice.stepIsOne, h]
  rw [← numIrreps_eq] at hab
  have h := sliceByMul_spec hx.inv s hst (by rw [hab]; exact hle)
  rw [hab] at h
  simp only [cutsZeroTerm_iff hx.inv] at h
  refine ⟨fun hn => ?_, h.2⟩
  obtain ⟨y, y1, y2, y3⟩ := h.1 hn
  exact ⟨y, y1, y2.coherent, y3⟩

/-- `slice_by_chunk[a:b]` selects terms `a .. b-1` with their data. -/
theorem C20_slice_by_chunk [Zero α] (x : IArr α) (hx : x.Coherent) (s : PySlice) :
    ∃ y, x.sliceByChunk s = .ok y ∧ y.Coherent ∧
      y.terms = pySlice x.terms (s.bounds x.irreps.length).1 (s.bounds x.irreps.length).2 := by
  obtain ⟨y, y1, y2, y3, y4⟩ := sliceByChunk_spec hx.inv s
  exact ⟨y, y1, y2.coherent, y4⟩

/-- Disagreement: cutting a zero-flagged term raises although the sliced data exist
(`e3nn.zeros("2x0e").slice_by_mul[:1]`). -/
theorem C20_zero_cut_witness :
    (IArr.zeros [⟨2, ⟨0, .e⟩⟩] : Except PyErr (IArr Int)) >>= (fun x => x.sliceByMul ⟨none, some 1, none⟩) =
      (.error .typeError : Except PyErr (IArr Int)) := by
  decide

example : ¬ CutsZeroTerm (⟨[⟨3, ⟨0, .e⟩⟩], [(1 : Int), 2, 3], some [false], none⟩) 1 2 := by
  rintro ⟨k, m, _, h, _⟩
  match k with
  | 0 => simp [IArr.zeroFlags] at h
  | k + 1 => simp [IArr.zeroFlags] at h

/-! ## C23 -/

/-- Concatenation on the irreps axis: irreps, array and blocks are concatenated. -/
theorem C23_concatenate [Zero α] (xs : List (IArr α)) (hx : ∀ x ∈ xs, x.Coherent) :
    (xs ≠ [] → ∃ y, concatenate xs = .ok y ∧ y.Coherent ∧
      y.irreps = (xs.map IArr.irreps).flatten ∧ y.array = (xs.map IArr.array).flatten ∧
      y.blocks = (xs.map IArr.blocks).flatten) ∧
    (xs = [] → concatenate xs = .error .valueError) := by
  constructor
  · intro hne
    obtain ⟨y, y1, y2, y3, y4, y5⟩ := concatenate_spec hne fun x h => (hx x h).inv
    refine ⟨y, y1, y2.coherent, y3, y4, ?_⟩
    unfold IArr.blocks at *
    rw [y3, y4]
    exact blocksOf_concat xs fun x h => (hx x h).inv
  · rintro rfl; rfl

/-- `remove_zero_chunks` drops exactly the flagged terms. -/
theorem C23_remove_zero_chunks [Zero α] (x : IArr α) (hx : x.Coherent) :
    ∃ y, x.removeZeroChunks = .ok y ∧ y.Coherent ∧
      y.terms = ((x.terms.zip x.zeroFlags).filter fun tz => !tz.2).map Prod.fst ∧
      (∀ z ∈ y.zeroFlags, z = false) := by
  obtain ⟨y, y1, y2, y3, y4⟩ := removeZeroChunks_spec hx.inv
  exact ⟨y, y1, y2.coherent, y3, y4⟩

end E3nn
