import Verif.Lemmas.Axis

/-!
# C14: zero flags and cached chunks are truthful after every history of operations

`Reach x` says that `x` can be produced by a program that uses the public operations of the
library, in any order, any number of times, on any number of intermediate arrays, with leading
shapes that change along the way (`α` is the type of a column).  An operation that raises produces
nothing.
-/

namespace E3nn
open IArr

/-- The arrays reachable by histories of operations. -/
inductive Reach : {α : Type} → [AddGroup α] → IArr α → Prop
  /-- `IrrepsArray(irreps, array)` -/
  | ofArray {α : Type} [AddGroup α] {irreps : Irreps} {a : List α} {y : IArr α} :
      ofArray irreps a = .ok y → Reach y
  /-- `e3nn.zeros(irreps)` -/
  | zeros {α : Type} [AddGroup α] {irreps : Irreps} {y : IArr α} : zeros irreps = .ok y → Reach y
  /-- `e3nn.from_chunks(irreps, chunks)` -/
  | fromChunks {α : Type} [AddGroup α] {irreps : Irreps} {cs : List (Chunk α)} {b : Bool} {y : IArr α} :
      fromChunks irreps cs b = .ok y → Reach y
  /-- reading `x.chunks` fills the cache -/
  | force {α : Type} [AddGroup α] {x : IArr α} : Reach x → Reach x.force
  /-- `-x`, `x.astype`, `x.reshape`, `x[i]`, `broadcast_to`: a function of the columns that sends 0 to 0 -/
  | mapCols {α β : Type} [AddGroup α] [AddGroup β] {f : α → β} {x : IArr α} {y : IArr β} :
      f 0 = 0 → Reach x → mapCols f x = .ok y → Reach y
  /-- `x * s`, `x / s` -/
  | scale {α : Type} [AddGroup α] {f : α → α} {x y : IArr α} :
      f 0 = 0 → Reach x → scale f x = .ok y → Reach y
  | add {α : Type} [AddGroup α] {x y z : IArr α} : Reach x → Reach y → add x y = .ok z → Reach z
  | sub {α : Type} [AddGroup α] {x y z : IArr α} : Reach x → Reach y → sub x y = .ok z → Reach z
  | addScalar {α : Type} [AddGroup α] {x y : IArr α} {v : α} :
      Reach x → addScalar x v = .ok y → Reach y
  | rechunk {α : Type} [AddGroup α] {x y : IArr α} {new : Irreps} :
      Reach x → x.rechunk new = .ok y → Reach y
  | simplify {α : Type} [AddGroup α] {x y : IArr α} : Reach x → x.simplify = .ok y → Reach y
  | unify {α : Type} [AddGroup α] {x y : IArr α} : Reach x → x.unify = .ok y → Reach y
  | sort {α : Type} [AddGroup α] {x y : IArr α} : Reach x → x.sort = .ok y → Reach y
  | regroup {α : Type} [AddGroup α] {x y : IArr α} : Reach x → x.regroup = .ok y → Reach y
  /-- `x.filter(keep=, drop=, lmax=)`, with irreps or with any Python function -/
  | filter {α : Type} [AddGroup α] {x y : IArr α} {keep drop : Option Irreps.FilterArg} {L : Option Int} :
      Reach x → x.filter keep drop L = .ok y → Reach y
  | extendWithZeros {α : Type} [AddGroup α] {x y : IArr α} {new : Irreps} :
      Reach x → x.extendWithZeros new = .ok y → Reach y
  | removeZeroChunks {α : Type} [AddGroup α] {x y : IArr α} :
      Reach x → x.removeZeroChunks = .ok y → Reach y
  | sliceByMul {α : Type} [AddGroup α] {x y : IArr α} {s : PySlice} :
      Reach x → x.sliceByMul s = .ok y → Reach y
  | sliceByChunk {α : Type} [AddGroup α] {x y : IArr α} {s : PySlice} :
      Reach x → x.sliceByChunk s = .ok y → Reach y
  /-- `x[..., "1o + 0e"]` -/
  | getIrreps {α : Type} [AddGroup α] {x y : IArr α} {pat : Irreps} :
      Reach x → x.getIrreps pat = .ok y → Reach y
  /-- `x[..., a:b]` -/
  | getSlice {α : Type} [AddGroup α] {x y : IArr α} {s : PySlice} :
      Reach x → x.getSlice s = .ok y → Reach y
  /-- `x.at[i].set(0)` -/
  | atSetZero {α : Type} [AddGroup α] {f : α → α} {x y : IArr α} :
      f 0 = 0 → Reach x → atSetZero f x = .ok y → Reach y
  /-- `x.at[i].set(values)`, `x.at[i].add(values)` -/
  | atUpdate {α β : Type} [AddGroup α] [AddGroup β] {f : α → β → α} {x y : IArr α} {v : IArr β} :
      f 0 0 = 0 → Reach x → Reach v → atUpdate f x v = .ok y → Reach y
  | concatenate {α : Type} [AddGroup α] {xs : List (IArr α)} {y : IArr α} :
      (∀ x ∈ xs, Reach x) → concatenate xs = .ok y → Reach y
  | mulToAxis {α : Type} [AddGroup α] {x : IArr α} {f : Nat} {y : IArr (Fin f → α)} :
      Reach x → x.mulToAxis f = .ok y → Reach y
  | axisToMul {α : Type} [AddGroup α] {f : Nat} {x : IArr (Fin f → α)} {y : IArr α} :
      Reach x → x.axisToMul = .ok y → Reach y

theorem flagsOk_zeros {α : Type} [Zero α] (ms : Irreps) :
    FlagsOk ms (List.replicate (Irreps.dim ms) (0 : α)) (List.replicate ms.length true) := by
  induction ms with
  | nil => rfl
  | cons m ms ih =>
    have e : Irreps.dim (m :: ms) = m.dim + Irreps.dim ms := by simp [Irreps.dim, MulIrrep.dim]
    rw [e, List.length_cons, List.replicate_succ]
    refine ⟨by simp, ?_, by simpa using ih⟩
    intro _ v hv
    rw [List.take_replicate] at hv
    exact List.eq_of_mem_replicate hv

theorem fromChunks_ok {α : Type} [Zero α] {ms : Irreps} {cs : List (Chunk α)} {b : Bool} {y : IArr α}
    (h : fromChunks ms cs b = .ok y) : Inv y := by
  by_cases hf : ms.length = cs.length ∧ Shaped (ms.zip cs)
  · obtain ⟨z, z1, z2, -⟩ := fromChunks_pairs _ hf.2
    rw [List.map_fst_zip (by omega), List.map_snd_zip (by omega)] at z1
    cases b with
    | true => rw [z1] at h; injection h with h; rw [← h]; exact z2
    | false =>
      unfold fromChunks at h z1
      simp only [Bool.true_or, Bool.not_true] at z1
      split_ifs at h z1
      all_goals (rw [z1] at h; injection h with h; rw [← h]; exact z2)
  · rw [fromChunks_bad b hf] at h; simp at h

theorem rechunk_ok {α : Type} [Zero α] {x y : IArr α} (hx : Inv x) {new : Irreps}
    (h : x.rechunk new = .ok y) : Inv y := by
  by_cases hs : expand x.irreps = expand new
  · obtain ⟨z, z1, z2, -⟩ := rechunk_spec hx hs
    rw [z1] at h; injection h with h; rw [← h]; exact z2
  · unfold rechunk at h
    rw [if_pos (fun e => hs ((Irreps.simplify_eq_iff _ _).mp e))] at h
    simp at h

theorem ok_inv {α : Type} [Zero α] {e : Except PyErr (IArr α)} {y : IArr α} {P : IArr α → Prop}
    (h : e = .ok y) (h2 : ∃ z, e = .ok z ∧ Inv z ∧ P z) : Inv y := by
  obtain ⟨z, z1, z2, -⟩ := h2
  rw [z1] at h; injection h with h; rw [← h]; exact z2

theorem reach_inv {α : Type} [AddGroup α] {x : IArr α} (h : Reach x) : Inv x := by
  induction h with
  | ofArray h =>
    unfold IArr.ofArray at h
    obtain ⟨e, hl⟩ := make_ok_eq h
    rw [e]; exact (make_noflags hl).2
  | zeros h =>
    unfold IArr.zeros at h
    obtain ⟨e, -⟩ := make_ok_eq h
    rw [e]; exact inv_nocache (flagsOk_zeros _)
  | fromChunks h => exact fromChunks_ok h
  | force _ ih => exact ih.force
  | mapCols hf _ h ih => exact ok_inv h (mapCols_spec hf ih)
  | scale hf _ h ih =>
    unfold IArr.scale at h
    split at h
    · simp at h
    · exact ok_inv h (mapCols_spec hf ih)
  | add _ _ h ih1 ih2 =>
    rename_i x y z _ _
    by_cases hi : x.irreps = y.irreps
    · exact ok_inv h (add_spec ih1 ih2 hi)
    · unfold IArr.add at h; rw [if_pos hi] at h; simp at h
  | sub _ _ h ih1 ih2 =>
    rename_i x y z _ _
    by_cases hi : x.irreps = y.irreps
    · exact ok_inv h (sub_spec ih1 ih2 hi)
    · unfold IArr.sub at h; rw [if_pos hi] at h; simp at h
  | addScalar _ h ih =>
    unfold IArr.addScalar at h
    split at h
    · obtain ⟨e, hl⟩ := make_ok_eq h
      rw [e]; exact (make_noflags hl).2
    · simp at h
  | rechunk _ h ih => exact rechunk_ok ih h
  | simplify _ h ih => exact rechunk_ok ih h
  | unify _ h ih => exact rechunk_ok ih h
  | sort _ h ih => exact ok_inv h (sort_spec ih)
  | regroup _ h ih =>
    obtain ⟨z, z1, z2, -⟩ := sort_spec ih
    unfold IArr.regroup at h
    rw [z1] at h
    exact rechunk_ok z2 h
  | filter _ h ih =>
    unfold IArr.filter at h
    split at h
    · injection h with h; rw [← h]; exact ih
    · split at h
      · simp at h
      · exact fromChunks_ok h
  | extendWithZeros _ h ih =>
    unfold IArr.extendWithZeros at h
    split at h
    split at h
    · simp at h
    · exact fromChunks_ok h
  | removeZeroChunks _ h ih => exact fromChunks_ok h
  | sliceByMul _ h ih =>
    unfold IArr.sliceByMul at h
    split at h
    · simp at h
    · split at h
      · simp only [bind, Except.bind] at h
        split at h
        · simp at h
        · split at h
          · simp at h
          · exact fromChunks_ok h
      · simp at h
  | sliceByChunk _ h ih => exact fromChunks_ok h
  | getIrreps _ h ih =>
    rename_i x y pat _
    cases ho : occurrences x.irreps pat with
    | nil => unfold IArr.getIrreps at h; rw [ho] at h; simp at h
    | cons a l =>
      cases l with
      | nil => exact ok_inv h (getIrreps_spec ih ho)
      | cons b l => unfold IArr.getIrreps at h; rw [ho] at h; simp at h
  | getSlice _ h ih => exact ((getSliceAux_spec _ _ 3 ih (defect_le _ _ _)).1 _ h).1
  | atSetZero hf _ h ih => exact ok_inv h (atSetZero_spec hf ih)
  | atUpdate hf _ _ h ih1 ih2 =>
    rename_i f x y v _ _
    by_cases hi : expand v.irreps = expand x.irreps
    · exact ok_inv h (atUpdate_spec hf ih1 ih2 hi)
    · unfold IArr.atUpdate at h
      rw [if_pos (fun e => hi ((Irreps.simplify_eq_iff _ _).mp e.symm))] at h
      simp at h
  | concatenate _ h ih =>
    rename_i xs y _
    by_cases hn : xs = []
    · subst hn; simp [IArr.concatenate] at h
    · exact ok_inv h (concatenate_spec hn ih)
  | mulToAxis _ h ih =>
    unfold IArr.mulToAxis at h
    split_ifs at h
    exact fromChunks_ok h
  | axisToMul _ h ih => exact fromChunks_ok h

/-- After every history of operations, all views of the array agree: every chunk reported as `None`
and flagged zero is exactly zero in `.array`, and every other chunk, cached or not, is the
corresponding slice of `.array`. -/
theorem C14_history {α : Type} [AddGroup α] (x : IArr α) (h : Reach x) : x.Coherent :=
  (reach_inv h).coherent

/-- In particular a component that belongs to a term whose chunk is `None` is zero. -/
theorem C14_none_is_zero {α : Type} [AddGroup α] (x : IArr α) (h : Reach x) (i : Nat) (m : MulIrrep)
    (d : List α) (ht : x.terms[i]? = some (m, d)) (hc : x.chunks[i]? = some none) :
    x.zeroFlags[i]? = some true ∧ ∀ v ∈ d, v = 0 := by
  obtain ⟨z, c, h1, h2, h3⟩ := (C14_history x h).truth i m d ht
  rw [hc] at h2
  injection h2 with h2
  subst h2
  rcases h3 with ⟨rfl, -, hz⟩ | ⟨-, r, hr, -⟩
  · exact ⟨h1, hz⟩
  · simp at hr

/-- A history: `from_chunks("0e + 2x1o", [None, c])`, its chunks read, added to an array of zeros,
sorted, sliced. -/
example : ∃ x : IArr Int, Reach x ∧ x.array = [1, 2, 3] := by
  let m : Irreps := [⟨1, ⟨0, .e⟩⟩, ⟨2, ⟨1, .o⟩⟩]
  refine ⟨_, Reach.getSlice (s := ⟨some 1, some 4, none⟩) (y := ⟨[⟨1, ⟨1, .o⟩⟩], [1, 2, 3], some [false],
      some [some [[1, 2, 3]]]⟩) (Reach.sort (y := ⟨m, [0, 1, 2, 3, 4, 5, 6], some [true, false],
      some [none, some [[1, 2, 3], [4, 5, 6]]]⟩)
    (Reach.add (z := ⟨m, [0, 1, 2, 3, 4, 5, 6], some [true, false], none⟩)
      (Reach.force (Reach.fromChunks (irreps := m) (cs := [none, some [[1, 2, 3], [4, 5, 6]]]) (b := true)
        (y := ⟨m, [0, 1, 2, 3, 4, 5, 6], some [true, false], some [none, some [[1, 2, 3], [4, 5, 6]]]⟩)
        (by decide)))
      (Reach.zeros (irreps := m) (y := ⟨m, [0, 0, 0, 0, 0, 0, 0], some [true, true], none⟩) (by decide))
      (by decide)) (by decide)) (by decide), rfl⟩

/-- `__pow__` is left out of the histories because it does violate the property: it forgets the zero
flags but keeps the cached `None` (irreps_array.py:467-472).  With `x = zeros("0e")` whose chunks have been
read, `x ** 0` has array `[1]` but chunk `None`. -/
theorem C14_pow_witness :
    ∃ x y : IArr Int, Reach x ∧ powScalars (fun a => a ^ 0) x = .ok y ∧ y.array = [1] ∧
      y.chunks = [none] ∧ y.zeroFlags = [false] ∧ ¬ y.Coherent := by
  let m : Irreps := [⟨1, ⟨0, .e⟩⟩]
  refine ⟨IArr.force ⟨m, [0], some [true], none⟩, ⟨m, [1], none, some [none]⟩,
    Reach.force (Reach.zeros (irreps := m) (by decide)), by decide, rfl, rfl, rfl, ?_⟩
  intro h
  obtain ⟨z, c, h1, h2, h3⟩ := h.truth 0 ⟨1, ⟨0, .e⟩⟩ [1] rfl
  simp [IArr.chunks, IArr.zeroFlags, m] at h1 h2
  subst h1; subst h2
  simp [ChunkTruth] at h3

/-- Even `x ** 2`, whose value is right, leaves an array on which a later `rechunk` raises
`AttributeError` (`None.shape`, irreps_array.py:1208). -/
theorem C14_pow_rechunk_witness :
    ∃ x y : IArr Int, Reach x ∧ powScalars (fun a => a ^ 2) x = .ok y ∧
      expand y.irreps = expand [⟨1, ⟨0, .e⟩⟩, ⟨1, ⟨0, .e⟩⟩] ∧
      y.rechunk [⟨1, ⟨0, .e⟩⟩, ⟨1, ⟨0, .e⟩⟩] = .error .attributeError := by
  let m : Irreps := [⟨2, ⟨0, .e⟩⟩]
  exact ⟨IArr.force ⟨m, [0, 0], some [true], none⟩, ⟨m, [0, 0], none, some [none]⟩,
    Reach.force (Reach.zeros (irreps := m) (by decide)), by decide, by decide, by decide⟩

/-- On arrays without zero chunks, `x ** n` keeps the views truthful. -/
theorem C14_pow_no_zero_chunks {α : Type} [Zero α] (x : IArr α) (hx : x.Coherent)
    (hz : ∀ c ∈ x.chunks, c ≠ none) (f : α → α) (y : IArr α) (h : powScalars f x = .ok y) :
    y.Coherent := by
  have hi := hx.inv
  obtain ⟨-, -, p3, -, p5, -⟩ := hi.pairs
  have hfl : x.zeroFlags = List.replicate x.irreps.length false := by
    rw [← hi.flags.lengths.2]
    apply List.eq_replicate_of_mem
    intro b hb
    rw [← p5] at hb
    obtain ⟨p, hp, rfl⟩ := List.mem_map.mp hb
    have hm : p.2 ∈ x.chunks := by rw [← p3]; exact List.mem_map_of_mem hp
    cases hc : p.2 with
    | none => exact absurd hc (hz _ hm)
    | some _ => rfl
  unfold powScalars at h
  split at h
  · obtain ⟨e, hl⟩ := make_ok_eq h
    subst e
    refine Inv.coherent ⟨flagsOk_false _ _ hl, ?_⟩
    intro cs hcs
    simp only [mapChunks] at hcs
    cases hc : x.chunks? with
    | none => rw [hc] at hcs; simp at hcs
    | some ks =>
      have hk := hi.cache ks hc
      rw [hc, Option.map_some, Option.some.injEq, hk, ← IArr.comp_map, hfl] at hcs
      rw [← hcs]; rfl
  · simp at h

end E3nn
