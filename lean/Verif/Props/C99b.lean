import Verif.Props.C99
import Verif.Lemmas.LinearSHTP4

/-!
# C99: the irreps of the outputs of `LinearSHTP` and `shtp`; the outputs of `shtp` span all the equivariant maps
-/

namespace E3nn.LSH

open E3nn.IArr E3nn.Rot E3nn.Wig E3nn.SU2 E3nn.SH E3nn.TPSH Matrix

theorem count_append (x y : Irreps) (ir : Irrep) : Irreps.count (x ++ y) ir = Irreps.count x ir + Irreps.count y ir := by
  unfold Irreps.count; simp

theorem count_flatMap {α : Type} (L : List α) (f : α → Irreps) (ir : Irrep) : Irreps.count (L.flatMap f) ir = (L.map fun a => Irreps.count (f a) ir).sum := by
  induction L with
  | nil => rfl
  | cons a L ih => rw [List.flatMap_cons, count_append, ih, List.map_cons, List.sum_cons]

theorem filterOf_mem (filter : List Irrep) (ir : Irrep) : ir ∈ filterOf filter ↔ ir ∈ filter := by
  unfold filterOf
  rw [(pySorted_perm Irrep.lt _).mem_iff, List.mem_dedup]

theorem filterOf_nodup (filter : List Irrep) : (filterOf filter).Nodup := (pySorted_perm Irrep.lt _).nodup_iff.mpr (List.nodup_dedup _)

theorem filterOf_nil (filter : List Irrep) : filterOf filter = [] ↔ filter = [] := by
  constructor
  · intro h
    by_contra hne
    obtain ⟨a, ha⟩ := List.exists_mem_of_ne_nil _ hne
    have := (filterOf_mem filter a).mpr ha
    rw [h] at this; simp at this
  · rintro rfl; rfl

theorem shtpOne_count (irz : Irrep) (p : Parity) (m : MulIrrep) {c : Chunk Col} (hc : c ≠ none) (ir : Irrep) :
    Irreps.count ((shtpOne irz p m c).map Prod.fst) ir = if ir = irz then m.mul * couplings p m.ir irz else 0 := by
  cases c with
  | none => exact absurd rfl hc
  | some rows =>
    unfold shtpOne
    rw [couplings_eq]
    simp only [List.map_append, count_append]
    by_cases h : ir = irz
    · subst h
      rw [if_pos rfl]
      by_cases hs : condS p m.ir ir <;> by_cases ha : condA p m.ir ir <;> simp [hs, ha, Irreps.count] <;> ring
    · rw [if_neg h]
      by_cases hs : condS p m.ir irz <;> by_cases ha : condA p m.ir irz <;> simp [hs, ha, Irreps.count, h]

theorem sum_if_eq {L : List Irrep} (hL : L.Nodup) (ir : Irrep) (f : Irrep → ℕ) : (L.map fun irz => if ir = irz then f irz else 0).sum = if ir ∈ L then f ir else 0 := by
  induction L with
  | nil => rfl
  | cons a L ih =>
    rw [List.nodup_cons] at hL
    rw [List.map_cons, List.sum_cons, ih hL.2]
    by_cases h : ir = a
    · subst h; simp [hL.1]
    · simp [h]

/-- **C99 (the irreps of `shtp`).** `shtp` raises `NameError` if the filter or the irreps of the input are empty.  Otherwise it returns a result whose irreps are sorted, without repetition,
and in which the multiplicity of `irz` is, for `irz` in the filter, the number of pairs of an irrep of the input and of a degree of the spherical harmonics of the direction that couple to
`irz`. -/
theorem C99_shtp_irreps (filter : List Irrep) {p : Parity} {d x : IArr Col} (hd : d.Coherent) (hdi : d.irreps = [⟨1, ⟨1, p⟩⟩]) (hx : x.Coherent) :
    (filter = [] ∨ x.irreps = [] → shtp x d filter = .error .nameError) ∧
    (filter ≠ [] → x.irreps ≠ [] → ∃ y, shtp x d filter = .ok y ∧ y.Coherent ∧ y.irreps.Pairwise (fun a b => a.ir.lt b.ir = true) ∧ (∀ m ∈ y.irreps, 0 < m.mul) ∧
      ∀ irz, y.irreps.count irz = if irz ∈ filter then (x.irreps.map fun m => m.mul * couplings p m.ir irz).sum else 0) := by
  obtain ⟨Q, -, -, hQ⟩ := frame_spec (good_shtp filter) hd hdi
  obtain ⟨P, hP1, hP2, hP3, -, he, ho⟩ := hQ x hx
  have hnil : P = [] ↔ x.irreps = [] := by rw [← hP3]; simp
  constructor
  · intro h
    apply he
    rw [if_pos]
    rw [filterOf_nil, hnil]; exact h
  · intro h1 h2
    obtain ⟨u, r, y, -, hu, hui, -, hr, -, hy, hyc, hyi, -⟩ := ho (shtpEntries (filterOf filter) p P) (by
      rw [if_neg]
      rw [filterOf_nil, hnil]
      rintro (h | h)
      · exact h1 h
      · exact h2 h)
    obtain ⟨r', hr', -, -, -, -, hri⟩ := C17_regroup u hu
    have : r = r' := by rw [hr] at hr'; exact Except.ok.inj hr'
    subst this
    obtain ⟨g, hg, hg1, hg2, hg3⟩ := C07_regroup_spec u.irreps
    have hgr : g = y.irreps := by rw [hg] at hri; rw [hyi]; exact Except.ok.inj hri
    subst hgr
    refine ⟨y, hy, hyc, hg1, hg2, fun irz => ?_⟩
    rw [hg3, hui, shtpEntries_one, List.map_flatMap, count_flatMap]
    have e : ∀ irz', Irreps.count (List.map Prod.fst (P.flatMap fun q => shtpOne irz' p q.1 q.2)) irz =
        if irz = irz' then (x.irreps.map fun m => m.mul * couplings p m.ir irz').sum else 0 := by
      intro irz'
      rw [List.map_flatMap, count_flatMap, ← hP3, List.map_map]
      rw [List.map_congr_left (fun q hq => shtpOne_count irz' p q.1 (hP2 q hq) irz)]
      split
      · rfl
      · simp
    simp only [e]
    rw [sum_if_eq (filterOf_nodup filter) irz fun irz' => (x.irreps.map fun m => m.mul * couplings p m.ir irz').sum]
    simp only [filterOf_mem]

/-! ### `LinearSHTP` -/

theorem mixOne_snd (par : Params) (p : Parity) (iz : ℕ) (mz : MulIrrep) (ix : ℕ) (m : MulIrrep) {c : Chunk Col} (hc : c ≠ none) :
    (mixOne par p iz mz ix m c).map Prod.snd = (if condS p m.ir mz.ir then [m.mul] else []) ++ (if condA p m.ir mz.ir then [m.mul] else []) := by
  cases c with
  | none => exact absurd rfl hc
  | some rows =>
    unfold mixOne
    simp only [List.map_append]
    congr 1 <;> split <;> rfl

theorem couplings_pos (p : Parity) (irx irz : Irrep) : 0 < couplings p irx irz ↔ condS p irx irz ∨ condA p irx irz := by
  rw [couplings_eq]
  by_cases h1 : condS p irx irz
  · simp [h1]
  · by_cases h2 : condA p irx irz
    · simp only [h1, h2, if_false, if_true, or_true, iff_true]
      have := h2.2; omega
    · simp [h1, h2]

theorem mixChunk_ok {mz : MulIrrep} {paths : List (List (List Col) × ℕ)} (h : (paths.map Prod.snd).sum ≠ 0) : ∃ q, mixChunk mz paths = .ok q := by
  unfold mixChunk
  cases paths with
  | nil => simp at h
  | cons a l =>
    simp only [List.map_cons, sumTensors]
    rw [if_neg (by simpa using h)]
    exact ⟨_, rfl⟩

theorem mapM_ok_of {α β : Type} {f : α → Except PyErr β} {L : List α} (h : ∀ a ∈ L, ∃ b, f a = .ok b) : ∃ bs, L.mapM f = .ok bs := by
  induction L with
  | nil => exact ⟨[], rfl⟩
  | cons a L ih =>
    obtain ⟨b, hb⟩ := h a List.mem_cons_self
    obtain ⟨bs, hbs⟩ := ih fun a' ha' => h a' (List.mem_cons_of_mem _ ha')
    exact ⟨b :: bs, by rw [List.mapM_cons, hb, hbs]; rfl⟩

theorem mapM_error_of {α β : Type} {f : α → Except PyErr β} {L : List α} {a : α} (ha : a ∈ L) {e : PyErr} (h : f a = .error e) : ∃ e, L.mapM f = .error e := by
  induction L with
  | nil => simp at ha
  | cons a' L ih =>
    rw [List.mapM_cons]
    cases hf : f a' with
    | error e' => exact ⟨e', rfl⟩
    | ok b =>
      have haL : a ∈ L := by
        rcases List.mem_cons.mp ha with h' | h'
        · subst h'; rw [h] at hf; cases hf
        · exact h'
      obtain ⟨e', he'⟩ := ih haL
      exact ⟨e', by rw [he']; rfl⟩

/-- **C99 (the irreps of `LinearSHTP`, `mix=True`).** If every irrep of `irreps_out` can be reached from an irrep of the input (with a positive multiplicity) and a degree of the spherical
harmonics of the direction, the result has the irreps `irreps_out.regroup()`.  If an irrep of `irreps_out` cannot be reached at all, the call raises. -/
theorem C99_mix_irreps (par : Params) (out : Irreps) {p : Parity} {d x : IArr Col} (hd : d.Coherent) (hdi : d.irreps = [⟨1, ⟨1, p⟩⟩]) (hx : x.Coherent) :
    ((∀ mz ∈ out, ∃ m ∈ x.irreps, 0 < m.mul ∧ 0 < couplings p m.ir mz.ir) → ∃ y, linearSHTP par out true x d = .ok y ∧ y.Coherent ∧ out.regroup = .ok y.irreps) ∧
    ((∃ mz ∈ out, ∀ m ∈ x.irreps, couplings p m.ir mz.ir = 0) → ∃ e, linearSHTP par out true x d = .error e) := by
  obtain ⟨Q, -, -, hQ⟩ := frame_spec (good_linear par out true) hd hdi
  obtain ⟨P, hP1, hP2, hP3, -, he, ho⟩ := hQ x hx
  simp only [if_true] at he ho
  constructor
  · intro h
    obtain ⟨es, hes⟩ : ∃ es, mixEntries par out p P = .ok es := by
      unfold mixEntries
      apply mapM_ok_of
      rintro ⟨mz, iz⟩ hmz
      obtain ⟨m, hm, hpos, hcp⟩ := h mz (List.fst_mem_of_mem_zipIdx hmz)
      rw [← hP3] at hm
      obtain ⟨q, hq, rfl⟩ := List.mem_map.mp hm
      have hne : P ≠ [] := List.ne_nil_of_mem hq
      simp only [hne, if_false]
      apply mixChunk_ok
      rw [mixPaths_one, List.map_flatMap]
      intro hsum
      rw [List.sum_eq_zero_iff] at hsum
      obtain ⟨i, hi, hqi⟩ := List.mem_iff_getElem.mp hq
      have hz : (q, i) ∈ P.zipIdx := by
        rw [List.mem_iff_getElem]
        exact ⟨i, by simpa using hi, by simp [hqi]⟩
      have hs := mixOne_snd par p iz mz i q.1 (hP2 q hq)
      have hmem : q.1.mul ∈ (mixOne par p iz mz i q.1 q.2).map Prod.snd := by
        rw [hs]
        rcases (couplings_pos p q.1.ir mz.ir).mp hcp with hc | hc <;> simp [hc]
      have := hsum q.1.mul (List.mem_flatMap.mpr ⟨(q, i), hz, hmem⟩)
      omega
    obtain ⟨u, r, y, -, hu, hui, -, hr, -, hy, hyc, hyi, -⟩ := ho es hes
    obtain ⟨r', hr', -, -, -, -, hri⟩ := C17_regroup u hu
    have : r = r' := by rw [hr] at hr'; exact Except.ok.inj hr'
    subst this
    refine ⟨y, hy, hyc, ?_⟩
    rw [hyi, ← hri, hui, ((mixEntries_act par out (S := 1) (p := p) ⟨by unfold IsOrth; simp, by rw [C39_identity, Matrix.one_mulVec]⟩ hP1).2 es hes).2.2]
  · rintro ⟨mz, hmz, h⟩
    obtain ⟨i, hi, hmi⟩ := List.mem_iff_getElem.mp hmz
    have hz : (mz, i) ∈ out.zipIdx := by
      rw [List.mem_iff_getElem]
      exact ⟨i, by simpa using hi, by simp [hmi]⟩
    have : ∃ e, (if P = [] then (.error .nameError : Except PyErr (MulIrrep × Chunk Col)) else mixChunk mz (mixPaths par p i mz P)) = .error e := by
      split
      · exact ⟨_, rfl⟩
      · have hp : mixPaths par p i mz P = [] := by
          rw [mixPaths_one, List.flatMap_eq_nil_iff]
          rintro ⟨q, j⟩ hq
          have hq' := List.fst_mem_of_mem_zipIdx hq
          have hs := mixOne_snd par p i mz j q.1 (hP2 q hq')
          have h0 := h q.1 (by rw [← hP3]; exact List.mem_map_of_mem hq')
          have hn : ¬ (condS p q.1.ir mz.ir ∨ condA p q.1.ir mz.ir) := by rw [← couplings_pos]; omega
          rw [not_or] at hn
          rw [if_neg hn.1, if_neg hn.2] at hs
          simpa using hs
        rw [hp]
        exact ⟨_, rfl⟩
    obtain ⟨e, hee⟩ := this
    obtain ⟨e', he'⟩ := mapM_error_of (f := fun mz : MulIrrep × ℕ => if P = [] then (.error .nameError : Except PyErr (MulIrrep × Chunk Col)) else mixChunk mz.1 (mixPaths par p mz.2 mz.1 P)) hz hee
    exact ⟨e', he e' he'⟩

end E3nn.LSH
