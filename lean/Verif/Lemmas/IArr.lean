import Verif.Spec.IArr
import Verif.Lemmas.IrrepsSort
import Mathlib.Data.List.Basic
import Mathlib.Tactic.SplitIfs

/-! # Base lemmas on `IArr` -/

namespace E3nn
namespace IArr

variable {α β : Type}

/-! ### rows -/

theorem rows_length (m d : Nat) (l : List α) : (rows m d l).length = m := by
  induction m generalizing l with
  | zero => rfl
  | succ m ih => simp [rows, ih]

theorem rows_row_length (m d : Nat) (l : List α) (h : m * d ≤ l.length) :
    ∀ r ∈ rows m d l, r.length = d := by
  induction m generalizing l with
  | zero => simp [rows]
  | succ m ih =>
    intro r hr
    have e : (m + 1) * d = m * d + d := by rw [Nat.succ_mul]
    simp only [rows, List.mem_cons] at hr
    rcases hr with rfl | hr
    · simp; omega
    · exact ih _ (by simp; omega) r hr

theorem rows_flatten (m d : Nat) (l : List α) (h : m * d ≤ l.length) :
    (rows m d l).flatten = l.take (m * d) := by
  induction m generalizing l with
  | zero => simp [rows]
  | succ m ih =>
    have e : (m + 1) * d = d + m * d := by rw [Nat.succ_mul, Nat.add_comm]
    simp only [rows, List.flatten_cons]
    rw [ih _ (by simp; omega), e, List.take_add]

theorem rows_of_flatten (m d : Nat) (r : List (List α)) (l : List α) (hl : r.length = m)
    (hr : ∀ a ∈ r, a.length = d) : rows m d (r.flatten ++ l) = r := by
  induction r generalizing m with
  | nil => simp at hl; subst hl; rfl
  | cons a r ih =>
    cases m with
    | zero => simp at hl
    | succ m =>
      have ha := hr a (by simp)
      simp only [rows, List.flatten_cons, List.append_assoc]
      rw [List.take_left' ha, List.drop_left' ha, ih m (by simpa using hl) fun b hb => hr b (by simp [hb])]

theorem rows_take (m d k : Nat) (l : List α) (h : m * d ≤ k) : rows m d (l.take k) = rows m d l := by
  induction m generalizing l k with
  | zero => rfl
  | succ m ih =>
    have e : (m + 1) * d = m * d + d := by rw [Nat.succ_mul]
    simp only [rows]
    rw [List.take_take, List.drop_take, ih _ _ (by omega)]
    congr 2
    omega

theorem rows_map (f : α → β) (m d : Nat) (l : List α) :
    rows m d (l.map f) = (rows m d l).map fun r => r.map f := by
  induction m generalizing l with
  | zero => rfl
  | succ m ih =>
    simp only [rows, List.map_cons]
    rw [← List.map_take, ← List.map_drop, ih]

theorem rows_zipWith (f : α → α → α) (m d : Nat) (l k : List α) :
    rows m d (List.zipWith f l k) = List.zipWith (List.zipWith f) (rows m d l) (rows m d k) := by
  induction m generalizing l k with
  | zero => rfl
  | succ m ih =>
    simp only [rows, List.zipWith_cons_cons]
    rw [List.take_zipWith, List.drop_zipWith, ih]

theorem rows_add (m k d : Nat) (l : List α) :
    rows (m + k) d l = rows m d l ++ rows k d (l.drop (m * d)) := by
  induction m generalizing l with
  | zero => simp [rows]
  | succ m ih =>
    have : m + 1 + k = (m + k) + 1 := by omega
    rw [this]
    simp only [rows, List.cons_append]
    rw [ih, List.drop_drop]
    congr 3
    rw [Nat.succ_mul, Nat.add_comm]

/-! ### flags and chunks, recursively -/

/-- The chunks determined by the array and the flags. -/
def comp : Irreps → List α → List Bool → List (Chunk α)
  | m :: ms, a, z :: zs =>
    (if z then none else some (rows m.mul m.ir.dim a)) :: comp ms (a.drop m.dim) zs
  | _, _, _ => []

/-- The array has the right length, there is one flag per term, and flagged terms are zero. -/
def FlagsOk [Zero α] : Irreps → List α → List Bool → Prop
  | [], a, [] => a = []
  | m :: ms, a, z :: zs =>
    m.dim ≤ a.length ∧ (z = true → ∀ v ∈ a.take m.dim, v = 0) ∧ FlagsOk ms (a.drop m.dim) zs
  | _, _, _ => False

set_option linter.unusedSectionVars false

section basic
variable [Zero α]

theorem FlagsOk.lengths {ms : Irreps} {a : List α} {zs : List Bool} (h : FlagsOk ms a zs) :
    a.length = Irreps.dim ms ∧ zs.length = ms.length := by
  induction ms generalizing a zs with
  | nil =>
    cases zs with
    | nil => simp only [FlagsOk] at h; subst h; exact ⟨rfl, rfl⟩
    | cons => exact absurd h (by simp [FlagsOk])
  | cons m ms ih =>
    cases zs with
    | nil => exact absurd h (by simp [FlagsOk])
    | cons z zs =>
      simp only [FlagsOk] at h
      obtain ⟨h1, _, h3⟩ := h
      have := ih h3
      rw [List.length_drop] at this
      rw [Irreps.dim_cons]
      simp only [List.length_cons]
      omega

theorem flagsOk_false (ms : Irreps) (a : List α) (h : a.length = Irreps.dim ms) :
    FlagsOk ms a (List.replicate ms.length false) := by
  induction ms generalizing a with
  | nil => simpa [FlagsOk, Irreps.dim] using h
  | cons m ms ih =>
    rw [Irreps.dim_cons] at h
    simp only [List.length_cons, List.replicate_succ, FlagsOk]
    exact ⟨by omega, by simp, ih _ (by rw [List.length_drop]; omega)⟩

theorem comp_length {ms : Irreps} {a : List α} {zs : List Bool} (h : zs.length = ms.length) :
    (comp ms a zs).length = ms.length := by
  induction ms generalizing a zs with
  | nil => simp [comp]
  | cons m ms ih =>
    cases zs with
    | nil => simp at h
    | cons z zs => simp only [comp, List.length_cons, ih (by simpa using h)]

theorem comp_shapes {ms : Irreps} {a : List α} {zs : List Bool} (h : a.length = Irreps.dim ms) :
    ((ms.zip (comp ms a zs)).all fun mc => shapeOk mc.1 mc.2) = true := by
  induction ms generalizing a zs with
  | nil => rfl
  | cons m ms ih =>
    cases zs with
    | nil => rfl
    | cons z zs =>
      rw [Irreps.dim_cons] at h
      simp only [comp, List.zip_cons_cons, List.all_cons]
      rw [ih (by rw [List.length_drop]; omega), Bool.and_true]
      cases z
      · simp only [Bool.false_eq_true, if_false, shapeOk, rows_length, beq_self_eq_true,
          Bool.true_and, List.all_eq_true, beq_iff_eq]
        exact rows_row_length _ _ _ (by unfold MulIrrep.dim at h; omega)
      · rfl

theorem compute_aux (full : List α) (ms : Irreps) (zs : List Bool) (i : Nat) :
    (zs.zip ((Irreps.slicesFrom i ms).zip ms)).map (fun (z, (i, j), m) =>
      if z then none else some (rows m.mul m.ir.dim ((full.take j).drop i))) =
    comp ms (full.drop i) zs := by
  induction ms generalizing i zs with
  | nil => cases zs <;> simp [comp, Irreps.slicesFrom]
  | cons m ms ih =>
    cases zs with
    | nil => simp [comp]
    | cons z zs =>
      simp only [Irreps.slicesFrom, List.zip_cons_cons, List.map_cons, comp, ih, List.drop_drop]
      congr 3
      rw [List.drop_take, rows_take _ _ _ _ (by unfold MulIrrep.dim; omega)]

theorem computeChunks_eq (ms : Irreps) (a : List α) (zs : List Bool)
    (hz : zs.length = ms.length) : computeChunks ms a zs = comp ms a zs := by
  unfold computeChunks
  split
  · rename_i h1
    cases ms with
    | nil => simp at h1
    | cons m ms =>
      cases ms with
      | cons _ _ => simp at h1
      | nil =>
        cases zs with
        | nil => simp at hz
        | cons z zs =>
          cases zs with
          | cons _ _ => simp at hz
          | nil => simp [comp]
  · have := compute_aux a ms zs 0
    simpa [Irreps.slices] using this

/-- The internal invariant: truthful flags, and the cache (if filled) is what it would be computed
to be. -/
structure Inv (x : IArr α) : Prop where
  flags : FlagsOk x.irreps x.array x.zeroFlags
  cache : ∀ cs, x.chunks? = some cs → cs = comp x.irreps x.array x.zeroFlags

theorem Inv.chunks_eq {x : IArr α} (h : Inv x) : x.chunks = comp x.irreps x.array x.zeroFlags := by
  unfold IArr.chunks
  split
  · rename_i cs hcs; exact h.cache cs hcs
  · exact computeChunks_eq _ _ _ h.flags.lengths.2

theorem Inv.force {x : IArr α} (h : Inv x) : Inv x.force :=
  ⟨h.flags, fun cs hcs => by
    simp only [IArr.force, Option.some.injEq] at hcs
    rw [← hcs]; exact h.chunks_eq⟩

/-! ### the constructor -/

theorem make_nocache {ms : Irreps} {a : List α} {zs : List Bool} (h : FlagsOk ms a zs) :
    make ms a (some zs) none = .ok ⟨ms, a, some zs, none⟩ := by
  obtain ⟨h1, h2⟩ := h.lengths
  simp [make, h1, h2]

theorem inv_nocache {ms : Irreps} {a : List α} {zs : List Bool} (h : FlagsOk ms a zs) :
    Inv (⟨ms, a, some zs, none⟩ : IArr α) := ⟨h, by simp⟩

theorem make_cache {ms : Irreps} {a : List α} {zs : List Bool} (h : FlagsOk ms a zs) :
    make ms a (some zs) (some (comp ms a zs)) = .ok ⟨ms, a, some zs, some (comp ms a zs)⟩ := by
  obtain ⟨h1, h2⟩ := h.lengths
  have h3 := comp_shapes (zs := zs) h1
  have h4 := comp_length (a := a) h2
  simp [make, h1, h2, h3, h4]

theorem inv_cache {ms : Irreps} {a : List α} {zs : List Bool} (h : FlagsOk ms a zs) :
    Inv (⟨ms, a, some zs, some (comp ms a zs)⟩ : IArr α) :=
  ⟨h, by simp [IArr.zeroFlags]⟩

theorem make_noflags {ms : Irreps} {a : List α} (h : a.length = Irreps.dim ms) :
    make ms a none none = .ok ⟨ms, a, none, none⟩ ∧ Inv (⟨ms, a, none, none⟩ : IArr α) := by
  refine ⟨by simp [make, h], ?_, by simp⟩
  exact flagsOk_false ms a h

theorem make_badlength {ms : Irreps} {a : List α} {zs : Option (List Bool)}
    {cs : Option (List (Chunk α))} (h : a.length ≠ Irreps.dim ms) :
    make ms a zs cs = .error .valueError := by
  simp [make, h]

theorem make_ok_eq {ms : Irreps} {a : List α} {zs : Option (List Bool)}
    {cs : Option (List (Chunk α))} {y : IArr α} (h : make ms a zs cs = .ok y) :
    y = ⟨ms, a, zs, cs⟩ ∧ a.length = Irreps.dim ms := by
  unfold make at h
  by_cases h1 : a.length ≠ Irreps.dim ms
  · simp [h1] at h
  rw [if_neg h1] at h
  simp only [ne_eq, not_not] at h1
  split_ifs at h
  simp only [Except.ok.injEq] at h
  exact ⟨h.symm, h1⟩

/-! ### pairs of term and chunk -/

/-- The data denoted by a term and its chunk. -/
def tm (p : MulIrrep × Chunk α) : MulIrrep × List α := (p.1, flatChunk p.1 p.2)

/-- All chunks of the list have the right shape. -/
def Shaped (ps : List (MulIrrep × Chunk α)) : Prop := ∀ p ∈ ps, shapeOk p.1 p.2 = true

theorem flatChunk_length {m : MulIrrep} {c : Chunk α} (h : shapeOk m c = true) :
    (flatChunk m c).length = m.dim := by
  cases c with
  | none => simp [flatChunk]
  | some c =>
    simp only [shapeOk, Bool.and_eq_true, beq_iff_eq, List.all_eq_true] at h
    simp only [flatChunk, List.length_flatten]
    rw [List.map_congr_left (g := fun _ => m.ir.dim) h.2, List.map_const', List.sum_replicate_nat,
      h.1]
    rfl

theorem pairs_spec (ps : List (MulIrrep × Chunk α)) (h : Shaped ps) :
    let a := (ps.map fun p => flatChunk p.1 p.2).flatten
    FlagsOk (ps.map Prod.fst) a (ps.map fun p => p.2.isNone) ∧
    comp (ps.map Prod.fst) a (ps.map fun p => p.2.isNone) = ps.map Prod.snd ∧
    termsOf (ps.map Prod.fst) a = ps.map tm := by
  induction ps with
  | nil => exact ⟨rfl, rfl, rfl⟩
  | cons p ps ih =>
    have hp : shapeOk p.1 p.2 = true := h p (by simp)
    have hl := flatChunk_length hp
    obtain ⟨h1, h2, h3⟩ := ih fun q hq => h q (by simp [hq])
    simp only [List.map_cons, List.flatten_cons, FlagsOk, comp, termsOf]
    have hl' : (flatChunk p.1 p.2).length = p.1.mul * (2 * p.1.ir.l + 1) := hl
    rw [List.drop_left' hl, List.take_left' hl, List.drop_left' hl', List.take_left' hl', h2, h3]
    refine ⟨⟨by simp [hl], ?_, h1⟩, ?_, rfl⟩
    · intro hz v hv
      cases hc : p.2 with
      | none => rw [hc] at hv; simp [flatChunk] at hv; exact hv.2
      | some c => simp [hc] at hz
    · congr 1
      cases hc : p.2 with
      | none => simp
      | some c =>
        rw [hc] at hp
        simp only [shapeOk, Bool.and_eq_true, beq_iff_eq, List.all_eq_true] at hp
        simp only [flatChunk, Option.isNone_some, Bool.false_eq_true, if_false, Option.some.injEq]
        exact rows_of_flatten _ _ _ _ hp.1 hp.2

theorem dim_eq_zero_array {ps : List (MulIrrep × Chunk α)} (h : Shaped ps)
    (hd : ¬ Irreps.dim (ps.map Prod.fst) > 0) :
    (ps.map fun p => flatChunk p.1 p.2).flatten = [] := by
  have := (pairs_spec ps h).1.lengths.1
  apply List.eq_nil_of_length_eq_zero
  omega

/-- `from_chunks` on well-shaped chunks. -/
theorem fromChunks_pairs (ps : List (MulIrrep × Chunk α)) (h : Shaped ps) :
    ∃ y, fromChunks (ps.map Prod.fst) (ps.map Prod.snd) = .ok y ∧ Inv y ∧
      y.irreps = ps.map Prod.fst ∧ y.terms = ps.map tm ∧
      y.array = (ps.map fun p => flatChunk p.1 p.2).flatten ∧
      y.zeroFlags = ps.map (fun p => p.2.isNone) ∧ y.chunks = ps.map Prod.snd ∧
      y.chunks? = some (ps.map Prod.snd) := by
  obtain ⟨h1, h2, h3⟩ := pairs_spec ps h
  have hz : (ps.map Prod.fst).zip (ps.map Prod.snd) = ps := by
    rw [List.zip_map', ]; simp
  have hshape : (((ps.map Prod.fst).zip (ps.map Prod.snd)).all fun mc => shapeOk mc.1 mc.2) = true := by
    rw [hz, List.all_eq_true]; exact h
  have hm := make_cache h1
  rw [h2] at hm
  refine ⟨(⟨ps.map Prod.fst, (ps.map fun (p : MulIrrep × Chunk α) => flatChunk p.1 p.2).flatten,
    some (ps.map fun (p : MulIrrep × Chunk α) => p.2.isNone), some (ps.map Prod.snd)⟩ : IArr α), ?_, ⟨h1, ?_⟩, rfl, h3, rfl, rfl, rfl, rfl⟩
  · unfold fromChunks
    rw [if_neg (by simp), if_neg (by rw [hshape]; simp), if_neg (by simp), hz]
    simp only
    have e : (List.map Option.isNone (List.map Prod.snd ps)) = ps.map fun p => p.2.isNone := by
      simp [List.map_map, Function.comp_def]
    rw [e]
    split
    · exact hm
    · rename_i hd
      have := dim_eq_zero_array h hd
      rw [this] at hm ⊢
      exact hm
  · intro cs hcs
    simp only [Option.some.injEq] at hcs
    rw [← hcs]; exact h2.symm

theorem fromChunks_bad {ms : Irreps} {cs : List (Chunk α)} (b : Bool)
    (h : ¬ (ms.length = cs.length ∧ Shaped (ms.zip cs))) :
    fromChunks ms cs b = .error .valueError := by
  unfold fromChunks
  split
  · rfl
  · rename_i h1
    split
    · rfl
    · rename_i h2
      simp only [Bool.not_eq_eq_eq_not, Bool.not_true, Bool.not_eq_false, List.all_eq_true] at h2
      exact absurd ⟨by simpa using h1, h2⟩ h

/-- The chunks of an array satisfying the invariant are well shaped and denote its terms. -/
theorem pairs_of_comp {ms : Irreps} {a : List α} {zs : List Bool} (h : FlagsOk ms a zs) :
    Shaped (ms.zip (comp ms a zs)) ∧ (ms.zip (comp ms a zs)).map Prod.fst = ms ∧
    (ms.zip (comp ms a zs)).map Prod.snd = comp ms a zs ∧
    (ms.zip (comp ms a zs)).map tm = termsOf ms a ∧
    (ms.zip (comp ms a zs)).map (fun p => p.2.isNone) = zs ∧
    ((ms.zip (comp ms a zs)).map fun p => flatChunk p.1 p.2).flatten = a := by
  have hl := h.lengths
  have hc := comp_length (a := a) hl.2
  refine ⟨?_, List.map_fst_zip (by omega), List.map_snd_zip (by omega), ?_⟩
  · have := comp_shapes (zs := zs) hl.1
    rw [List.all_eq_true] at this
    exact this
  clear hl hc
  induction ms generalizing a zs with
  | nil =>
    cases zs with
    | nil => simp only [FlagsOk] at h; subst h; exact ⟨rfl, rfl, rfl⟩
    | cons => exact absurd h (by simp [FlagsOk])
  | cons m ms ih =>
    cases zs with
    | nil => exact absurd h (by simp [FlagsOk])
    | cons z zs =>
      simp only [FlagsOk] at h
      obtain ⟨h1, h2, h3⟩ := h
      obtain ⟨i1, i2, i3⟩ := ih h3
      have key : flatChunk m (if z then none else some (rows m.mul m.ir.dim a)) = a.take m.dim := by
        cases z
        · simp only [Bool.false_eq_true, if_false, flatChunk]
          exact rows_flatten _ _ _ h1
        · simp only [if_true, flatChunk]
          symm
          rw [List.eq_replicate_iff]
          exact ⟨by simp [h1], h2 rfl⟩
      simp only [comp, List.zip_cons_cons, List.map_cons, List.flatten_cons, i1, i2, i3, termsOf,
        tm, key]
      refine ⟨rfl, ?_, List.take_append_drop _ _⟩
      cases z <;> simp

theorem Inv.pairs {x : IArr α} (h : Inv x) :
    Shaped (x.irreps.zip x.chunks) ∧ (x.irreps.zip x.chunks).map Prod.fst = x.irreps ∧
    (x.irreps.zip x.chunks).map Prod.snd = x.chunks ∧
    (x.irreps.zip x.chunks).map tm = x.terms ∧
    (x.irreps.zip x.chunks).map (fun p => p.2.isNone) = x.zeroFlags ∧
    ((x.irreps.zip x.chunks).map fun p => flatChunk p.1 p.2).flatten = x.array := by
  rw [h.chunks_eq]; exact pairs_of_comp h.flags

/-! ### `Inv` and `Coherent` -/

theorem dim_eq (m : MulIrrep) : m.dim = m.mul * (2 * m.ir.l + 1) := rfl

theorem termsOf_length (ms : Irreps) (a : List α) : (termsOf ms a).length = ms.length := by
  induction ms generalizing a with
  | nil => rfl
  | cons m ms ih => simp [termsOf, ih]

theorem Inv.coherent {x : IArr α} (h : Inv x) : x.Coherent := by
  have hl := h.flags.lengths
  have hp := h.pairs
  have hcl : x.chunks.length = x.irreps.length := by
    rw [h.chunks_eq]; exact comp_length hl.2
  refine ⟨by rw [hl.1, Irreps.dim_eq_dimOf_expand], hl.2, hcl, ?_⟩
  intro i m d hi
  obtain ⟨h1, h2, h3, h4, h5, h6⟩ := hp
  rw [← h4, List.getElem?_map] at hi
  obtain ⟨⟨m', c⟩, hc, he⟩ := Option.map_eq_some_iff.mp hi
  simp only [tm, Prod.mk.injEq] at he
  obtain ⟨rfl, rfl⟩ := he
  refine ⟨c.isNone, c, ?_, ?_, ?_⟩
  · rw [← h5, List.getElem?_map, hc]; rfl
  · rw [← h3, List.getElem?_map, hc]; rfl
  · have hs := h1 _ (List.mem_of_getElem? hc)
    cases c with
    | none => exact .inl ⟨rfl, rfl, by simp [flatChunk]⟩
    | some r =>
      simp only [shapeOk, Bool.and_eq_true, beq_iff_eq, List.all_eq_true] at hs
      exact .inr ⟨rfl, r, rfl, hs.1, hs.2, rfl⟩

theorem inv_of_truth (ms : Irreps) (a : List α) (zs : List Bool) (cs : List (Chunk α))
    (h1 : a.length = Irreps.dim ms) (h2 : zs.length = ms.length) (h3 : cs.length = ms.length)
    (ht : ∀ (i : Nat) (m : MulIrrep) (d : List α), (termsOf ms a)[i]? = some (m, d) →
      ∃ z c, zs[i]? = some z ∧ cs[i]? = some c ∧ ChunkTruth m d z c) :
    FlagsOk ms a zs ∧ cs = comp ms a zs := by
  induction ms generalizing a zs cs with
  | nil =>
    simp at h2 h3
    subst h2 h3
    refine ⟨?_, rfl⟩
    simpa [FlagsOk, Irreps.dim] using h1
  | cons m ms ih =>
    cases zs with
    | nil => simp at h2
    | cons z zs =>
      cases cs with
      | nil => simp at h3
      | cons c cs =>
        rw [Irreps.dim_cons] at h1
        obtain ⟨i1, i2⟩ := ih (a.drop m.dim) zs cs (by rw [List.length_drop]; omega)
          (by simpa using h2) (by simpa using h3) (by
            intro i m' d hi
            obtain ⟨z', c', e1, e2, e3⟩ := ht (i + 1) m' d (by simpa [termsOf, dim_eq] using hi)
            exact ⟨z', c', by simpa using e1, by simpa using e2, e3⟩)
        obtain ⟨z', c', e1, e2, e3⟩ := ht 0 m (a.take m.dim) (by simp [termsOf, dim_eq])
        simp only [List.getElem?_cons_zero, Option.some.injEq] at e1 e2
        subst e1 e2
        simp only [FlagsOk, comp]
        rw [← i2]
        rcases e3 with ⟨rfl, rfl, hv⟩ | ⟨rfl, r, rfl, hr1, hr2, hr3⟩
        · exact ⟨⟨by omega, fun _ => hv, i1⟩, by simp⟩
        · refine ⟨⟨by omega, by simp, i1⟩, ?_⟩
          simp only [Bool.false_eq_true, if_false, List.cons.injEq, Option.some.injEq, and_true]
          have := rows_of_flatten m.mul m.ir.dim r [] hr1 hr2
          rw [List.append_nil, hr3, rows_take _ _ _ _ (by unfold MulIrrep.dim; omega)] at this
          exact this.symm

theorem Coherent.inv {x : IArr α} (h : x.Coherent) : Inv x := by
  obtain ⟨h1, h2⟩ := inv_of_truth x.irreps x.array x.zeroFlags x.chunks
    (by rw [h.array_length, Irreps.dim_eq_dimOf_expand]) h.flags_length h.chunks_length h.truth
  refine ⟨h1, ?_⟩
  intro cs hcs
  rw [← h2]
  simp [IArr.chunks, hcs]

theorem coherent_iff (x : IArr α) : x.Coherent ↔ Inv x := ⟨Coherent.inv, Inv.coherent⟩

end basic

/-! ### blocks -/

theorem blocksOf_append (s t : List Irrep) (a : List α) :
    blocksOf (s ++ t) a = blocksOf s a ++ blocksOf t (a.drop (dimOf s)) := by
  induction s generalizing a with
  | nil => simp [blocksOf]
  | cons ir s ih =>
    simp only [List.cons_append, blocksOf, ih, dimOf_cons, List.drop_drop]
    rfl

theorem blocksOf_take (s : List Irrep) (a : List α) (k : Nat) (h : dimOf s ≤ k) :
    blocksOf s (a.take k) = blocksOf s a := by
  induction s generalizing a k with
  | nil => rfl
  | cons ir s ih =>
    simp only [dimOf_cons, Irrep.dim] at h
    simp only [blocksOf]
    rw [List.take_take, List.drop_take, ih _ _ (by omega)]
    congr 3
    omega

theorem blocksOf_replicate (n : Nat) (ir : Irrep) (a : List α) :
    blocksOf (List.replicate n ir) a = (rows n ir.dim a).map fun r => (ir, r) := by
  induction n generalizing a with
  | zero => rfl
  | succ n ih => simp only [List.replicate_succ, blocksOf, rows, List.map_cons, ih]; rfl

theorem blocksOf_eq_flatMap (ms : Irreps) (a : List α) :
    blocksOf (expand ms) a =
      (termsOf ms a).flatMap fun md => blocksOf (List.replicate md.1.mul md.1.ir) md.2 := by
  induction ms generalizing a with
  | nil => rfl
  | cons m ms ih =>
    rw [expand_cons, blocksOf_append, ih, dimOf_replicate]
    simp only [termsOf, List.flatMap_cons]
    congr 1
    rw [blocksOf_take]
    rw [dimOf_replicate]; exact Nat.le_refl _

theorem blocks_eq (x : IArr α) : x.blocks =
    x.terms.flatMap fun md => blocksOf (List.replicate md.1.mul md.1.ir) md.2 :=
  blocksOf_eq_flatMap _ _

theorem blocksOf_fst (s : List Irrep) (a : List α) : (blocksOf s a).map Prod.fst = s := by
  induction s generalizing a with
  | nil => rfl
  | cons ir s ih => simp [blocksOf, ih]

theorem blocksOf_flatten (s : List Irrep) (a : List α) (h : a.length = dimOf s) :
    ((blocksOf s a).map Prod.snd).flatten = a := by
  induction s generalizing a with
  | nil => simp at h; simp [blocksOf, h]
  | cons ir s ih =>
    simp only [dimOf_cons, Irrep.dim] at h
    simp only [blocksOf, List.map_cons, List.flatten_cons]
    rw [ih _ (by rw [List.length_drop]; omega), List.take_append_drop]

end IArr
end E3nn
