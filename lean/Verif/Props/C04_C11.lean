import Verif.Lemmas.IrrepsSort
import Verif.Lemmas.SliceDim
import Verif.Spec.Perm
import Verif.Props.C24_C25

/-! # C04 – C11: the algebra of `Irreps` -/

namespace E3nn
open Irreps

/-! ## C04 -/

/-- One slice per term; slice `k` is the interval from the dimension of the first `k` terms to the
dimension of the first `k+1` terms: so the first starts at 0, consecutive slices touch, and the
last one ends at `dim`. -/
theorem C04_slices_spec (x : Irreps) :
    x.slices.length = x.length ∧
    ∀ k, k < x.length → x.slices[k]? = some (dim (x.take k), dim (x.take (k + 1))) := by
  refine ⟨slicesFrom_length 0 x, ?_⟩
  intro k hk
  have := slicesFrom_get 0 x k hk
  simpa [slices] using this

/-- The slice of a term has the length of the term. -/
theorem C04_slice_length (x : Irreps) (k : Nat) (m : MulIrrep) (hk : x[k]? = some m) :
    ∃ a, x.slices[k]? = some (a, a + m.mul * (2 * m.ir.l + 1)) := by
  have hlt : k < x.length := by
    by_contra h
    rw [List.getElem?_eq_none (by omega)] at hk
    simp at hk
  refine ⟨dim (x.take k), ?_⟩
  rw [(C04_slices_spec x).2 k hlt, List.take_add_one, hk, dim_append]
  simp [dim, Irrep.dim]

/-- Every component index below `dim` lies in exactly one slice. -/
theorem C04_slices_partition (x : Irreps) (j : Nat) (hj : j < dim x) :
    ∃ k a b : Nat, x.slices[k]? = some (a, b) ∧ a ≤ j ∧ j < b ∧
      ∀ k' a' b' : Nat, x.slices[k']? = some (a', b') → a' ≤ j → j < b' → k' = k := by
  have mono : ∀ k k', k ≤ k' → dim (x.take k) ≤ dim (x.take k') := by
    intro k k' h
    obtain ⟨d, rfl⟩ := Nat.exists_eq_add_of_le h
    rw [List.take_add, dim_append]
    omega
  -- smallest k with j < dim (take (k+1))
  have hex : ∃ k, j < dim (x.take k) := ⟨x.length, by simpa using hj⟩
  obtain ⟨k, hk, hmin⟩ : ∃ k, j < dim (x.take k) ∧ ∀ k' < k, ¬ j < dim (x.take k') :=
    ⟨Nat.find hex, Nat.find_spec hex, fun k' h => Nat.find_min hex h⟩
  have hk0 : k ≠ 0 := by rintro rfl; simp [dim] at hk
  obtain ⟨k, rfl⟩ := Nat.exists_eq_succ_of_ne_zero hk0
  have hprev := hmin k (by omega)
  have hkl : k < x.length := by
    by_contra h
    rw [List.take_of_length_le (by omega)] at hk hprev
    omega
  refine ⟨k, _, _, (C04_slices_spec x).2 k hkl, by omega, hk, ?_⟩
  intro k' a' b' h' h1 h2
  have hk'l : k' < x.length := by
    by_contra h
    rw [List.getElem?_eq_none (by rw [(C04_slices_spec x).1]; omega)] at h'
    simp at h'
  rw [(C04_slices_spec x).2 k' hk'l] at h'
  simp only [Option.some.injEq, Prod.mk.injEq] at h'
  rcases Nat.lt_trichotomy k' k with h | h | h
  · have := mono (k' + 1) k (by omega)
    omega
  · exact h
  · have := mono (k + 1) k' (by omega)
    simp only [Nat.succ_eq_add_one] at hk
    omega

example : slices [⟨2, ⟨0, .e⟩⟩, ⟨0, ⟨3, .e⟩⟩, ⟨1, ⟨1, .e⟩⟩] = [(0, 2), (2, 2), (2, 5)] := by decide

/-! ## C05 -/

/-- None of the three changes the sequence of irreps denoted. -/
theorem C05_preserve_sequence (x : Irreps) :
    expand x.unify = expand x ∧ expand x.removeZeroMultiplicities = expand x ∧
      expand x.simplify = expand x :=
  ⟨expand_unify x, expand_removeZero x, expand_simplify x⟩

/-- `unify` leaves no two equal neighbours; `remove_zero_multiplicities` leaves no zero. -/
theorem C05_unify_adjacent (x : Irreps) :
    x.unify.IsChain (fun a b => a.ir ≠ b.ir) ∧ ∀ m ∈ x.removeZeroMultiplicities, m.mul ≠ 0 := by
  refine ⟨unifyLoop_chain [] x (by simp), ?_⟩
  intro m hm
  unfold removeZeroMultiplicities at hm
  simp at hm
  omega

/-- The result of `simplify` has positive multiplicities and no equal neighbours. -/
theorem C05_simplify_normal (x : Irreps) :
    (∀ m ∈ x.simplify, 0 < m.mul) ∧ x.simplify.IsChain (fun a b => a.ir ≠ b.ir) :=
  ⟨simplify_pos x, simplify_chain x⟩

/-- Two `Irreps` have the same `simplify()` iff they denote the same sequence of irreps. -/
theorem C05_simplify_canonical (x y : Irreps) : x.simplify = y.simplify ↔ expand x = expand y :=
  simplify_eq_iff x y

theorem C05_simplify_idempotent (x : Irreps) : x.simplify.simplify = x.simplify :=
  (simplify_eq_iff _ _).mpr (expand_simplify x)

example : simplify [⟨1, ⟨1, .e⟩⟩, ⟨0, ⟨0, .e⟩⟩, ⟨1, ⟨1, .e⟩⟩] = [⟨2, ⟨1, .e⟩⟩] := by decide

/-! ## C06 -/

/-- `sort()` never raises; `inv` and `p` are mutually inverse permutations of the term indices;
sorted term `k` is the original term `inv[k]` and the original term `i` is sorted term `p[i]`. -/
theorem C06_sort_permutation (x : Irreps) :
    ∃ r, x.sort = .ok r ∧ IsBij x.length r.p ∧ IsBij x.length r.inv ∧
      Perm.compose r.p r.inv = .ok (List.range x.length) ∧
      Perm.compose r.inv r.p = .ok (List.range x.length) ∧
      (∀ k, k < x.length → ∃ i, r.inv[k]? = some i ∧ r.irreps[k]? = x[i]?) ∧
      (∀ i, i < x.length → ∃ k, r.p[i]? = some k ∧ r.irreps[k]? = x[i]?) := by
  have hp := sortInv_perm x
  refine ⟨_, sort_eq x, (isBij_iff_perm _ _).mpr (Perm.inv_perm hp), (isBij_iff_perm _ _).mpr hp,
    ?_, ?_, sortIrreps_get x, ?_⟩
  · rw [Perm.compose_eq (Perm.inv_perm hp) hp, Perm.inv_comp hp]; rfl
  · rw [Perm.compose_eq hp (Perm.inv_perm hp), Perm.comp_inv hp]; rfl
  · intro i hi
    have hi' : i < (Perm.inv (sortInv x)).length := by rw [Perm.len_of (Perm.inv_perm hp)]; exact hi
    refine ⟨(sortInv x).idxOf i, ?_, ?_⟩
    · rw [List.getElem?_eq_getElem hi', ← List.getD_eq_getElem _ 0 hi', Perm.inv_getD hp hi]
    · obtain ⟨j, h1, h2⟩ := sortIrreps_get x ((sortInv x).idxOf i) (Perm.idxOf_lt hp hi)
      have h3 := Perm.getD_idxOf hp hi
      simp only [List.getD, h1, Option.getD_some] at h3
      dsimp only
      rw [h2, h3]

/-- The result is in non-decreasing order, and equal irreps keep their relative order. -/
theorem C06_sort_sorted_stable (x : Irreps) :
    ∃ r, x.sort = .ok r ∧
      r.irreps.Pairwise (fun a b => b.ir.lt a.ir = false) ∧
      (r.irreps.zip r.inv).Pairwise (fun a b => a.1.ir = b.1.ir → a.2 < b.2) := by
  refine ⟨_, sort_eq x, sortIrreps_sorted x, ?_⟩
  dsimp only
  unfold sortIrreps sortInv
  rw [List.zip_map', List.pairwise_map]
  have hnd : (x.sortedTriples.map fun t => t.2.1).Nodup := Perm.nodup_of (sortInv_perm x)
  unfold List.Nodup at hnd
  rw [List.pairwise_map] at hnd
  refine (List.Pairwise.and hnd (sortedTriples_sorted x)).imp ?_
  rintro a b ⟨h1, h2⟩ h3
  rw [sortLt_false_iff] at h2
  dsimp only at h3 ⊢
  rw [h3] at h2
  omega

example : (sort [⟨1, ⟨2, .o⟩⟩, ⟨1, ⟨1, .e⟩⟩, ⟨1, ⟨0, .e⟩⟩, ⟨1, ⟨1, .e⟩⟩]).toOption.map
    (fun r => (r.p, r.inv)) = some ([3, 1, 0, 2], [2, 1, 3, 0]) := by decide +kernel

/-! ## C07 -/

/-- `regroup()` never raises; its result is strictly increasing, has positive multiplicities and
the same multiplicity of every irrep. -/
theorem C07_regroup_spec (x : Irreps) :
    ∃ g, x.regroup = .ok g ∧ g.Pairwise (fun a b => a.ir.lt b.ir = true) ∧
      (∀ m ∈ g, 0 < m.mul) ∧ ∀ ir, g.count ir = x.count ir := by
  refine ⟨_, regroup_eq x, simplify_sorted (sortIrreps_sorted x), simplify_pos _, ?_⟩
  intro ir
  rw [count_eq_count_expand, expand_simplify, ← count_eq_count_expand, count_sortIrreps]

/-- Hence the total dimension and the number of irreps are preserved. -/
theorem C07_regroup_dim (x : Irreps) :
    ∃ g, x.regroup = .ok g ∧ g.dim = x.dim ∧ g.numIrreps = x.numIrreps := by
  refine ⟨_, regroup_eq x, ?_, ?_⟩
  · rw [dim_eq_dimOf_expand, dim_eq_dimOf_expand, expand_simplify]
    unfold dimOf
    exact ((expand_perm (sortIrreps_perm x)).map _).sum_nat
  · rw [numIrreps_eq_length_expand, numIrreps_eq_length_expand, expand_simplify]
    exact (expand_perm (sortIrreps_perm x)).length_eq

/-- Canonical form: same `regroup()` iff same multiplicity of every irrep. -/
theorem C07_regroup_canonical (x y : Irreps) :
    x.regroup = y.regroup ↔ ∀ ir, x.count ir = y.count ir := by
  obtain ⟨g, h1, h2, h3, h4⟩ := C07_regroup_spec x
  obtain ⟨g', k1, k2, k3, k4⟩ := C07_regroup_spec y
  rw [h1, k1]
  constructor
  · intro h ir
    rw [← h4, ← k4]
    simp only [Except.ok.injEq] at h
    rw [h]
  · intro h
    congr 1
    exact eq_of_count h2 k2 h3 k3 (fun ir => by rw [h4, k4, h])

theorem C07_regroup_idempotent (x : Irreps) : (do (← x.regroup).regroup) = x.regroup := by
  obtain ⟨g, h1, _, _, h4⟩ := C07_regroup_spec x
  rw [h1]
  change g.regroup = _
  rw [← h1, C07_regroup_canonical]
  exact h4

example : regroup [⟨1, ⟨1, .e⟩⟩, ⟨1, ⟨0, .e⟩⟩, ⟨1, ⟨1, .e⟩⟩, ⟨0, ⟨2, .e⟩⟩] =
    .ok [⟨1, ⟨0, .e⟩⟩, ⟨2, ⟨1, .e⟩⟩] := by decide +kernel

/-! ## C08 -/

/-- `filter(keep=S)`: exactly the terms whose irrep is in `S`, in the original order;
`filter(drop=S)`: exactly the others. -/
theorem C08_keep_drop (x : Irreps) (s : List Irrep) :
    ∃ k d, x.filter' (some (.irs s)) none none = .ok k ∧
      x.filter' none (some (.irs s)) none = .ok d ∧
      k.Sublist x ∧ d.Sublist x ∧
      (∀ m, m ∈ k ↔ m ∈ x ∧ m.ir ∈ s) ∧ (∀ m, m ∈ d ↔ m ∈ x ∧ m.ir ∉ s) ∧
      (k ++ d).Perm x := by
  refine ⟨_, _, rfl, rfl, List.filter_sublist, List.filter_sublist, ?_, ?_, ?_⟩
  · intro m; simp
  · intro m; simp
  · exact List.filter_append_perm _ x

/-- Same for a callable. -/
theorem C08_keep_drop_callable (x : Irreps) (f : MulIrrep → Bool) :
    ∃ k d, x.filter' (some (.pred f)) none none = .ok k ∧
      x.filter' none (some (.pred f)) none = .ok d ∧
      k.Sublist x ∧ d.Sublist x ∧
      (∀ m, m ∈ k ↔ m ∈ x ∧ f m = true) ∧ (∀ m, m ∈ d ↔ m ∈ x ∧ f m = false) ∧
      (k ++ d).Perm x := by
  refine ⟨_, _, rfl, rfl, List.filter_sublist, List.filter_sublist, ?_, ?_, ?_⟩
  · intro m; simp
  · intro m; simp
  · exact List.filter_append_perm _ x

/-- `filter(lmax=L)` keeps exactly the terms of degree at most `L`. -/
theorem C08_lmax (x : Irreps) (L : Int) :
    ∃ k, x.filter' none none (some L) = .ok k ∧ k.Sublist x ∧
      ∀ m, m ∈ k ↔ m ∈ x ∧ (m.ir.l : Int) ≤ L := by
  refine ⟨_, rfl, List.filter_sublist, ?_⟩
  intro m; simp

/-- Without criterion `filter` is the identity; with two criteria it raises; with at most one it
does not raise. -/
theorem C08_arguments (x : Irreps) (keep drop : Option FilterArg) (lmax : Option Int) :
    (keep = none → drop = none → lmax = none → x.filter' keep drop lmax = .ok x) ∧
    ((keep.isSome ∧ drop.isSome ∨ keep.isSome ∧ lmax.isSome ∨ drop.isSome ∧ lmax.isSome) ↔
      x.filter' keep drop lmax = .error .valueError) := by
  constructor
  · rintro rfl rfl rfl; rfl
  · rcases keep with _ | (_ | _) <;> rcases drop with _ | (_ | _) <;> rcases lmax with _ | _ <;>
      simp [filter']

/-- Filtering twice with the same criterion changes nothing more. -/
theorem C08_filter_idempotent (x : Irreps) (s : List Irrep) (k : Irreps)
    (h : x.filter' (some (.irs s)) none none = .ok k) :
    k.filter' (some (.irs s)) none none = .ok k := by
  have : k = x.filter fun m => s.contains m.ir := by
    simpa [filter', eq_comm] using h
  subst this
  simp [filter']

example : filter' [⟨1, ⟨1, .e⟩⟩, ⟨1, ⟨2, .e⟩⟩, ⟨1, ⟨0, .e⟩⟩] none
    (some (.irs [⟨2, .e⟩, ⟨1, .e⟩])) none = .ok [⟨1, ⟨0, .e⟩⟩] := by decide

/-! ## C09 -/

/-- For resolved bounds in order, `slice_by_mul[s]` denotes exactly elements `start .. stop-1` of
the sequence of irreps (Python list slicing), and does not raise. -/
theorem C09_slice_by_mul (x : Irreps) (s : PySlice) (hstep : s.stepIsOne)
    (hle : (s.bounds (expand x).length).1 ≤ (s.bounds (expand x).length).2) :
    ∃ y, x.sliceByMul s = .ok y ∧
      expand y = pySlice (expand x) (s.bounds (expand x).length).1
        (s.bounds (expand x).length).2 := by
  rw [← numIrreps_eq_length_expand] at *
  obtain ⟨y, h1, h2⟩ := sliceByMulLoop_spec _ _ hle 0 x
  refine ⟨y, ?_, by simpa using h2⟩
  unfold sliceByMul
  have h0 : s.step ≠ some 0 := by
    intro h
    simp [PySlice.stepIsOne, h] at hstep
  rw [if_neg h0, if_pos hstep, h1]

/-- Reversed bounds: the result is empty, or (unlike Python list slicing) `ValueError` is raised. -/
theorem C09_slice_by_mul_reversed (x : Irreps) (s : PySlice) (hstep : s.stepIsOne)
    (hgt : (s.bounds (expand x).length).2 < (s.bounds (expand x).length).1) :
    x.sliceByMul s = .ok [] ∨ x.sliceByMul s = .error .valueError := by
  rw [← numIrreps_eq_length_expand] at *
  unfold sliceByMul
  have h0 : s.step ≠ some 0 := by
    intro h
    simp [PySlice.stepIsOne, h] at hstep
  rw [if_neg h0, if_pos hstep]
  exact sliceByMulLoop_reversed _ _ hgt 0 x

/-- Other steps are refused. -/
theorem C09_slice_by_mul_step (x : Irreps) (s : PySlice) (h : s.stepIsOne = false) :
    x.sliceByMul s = .error .valueError ∨ x.sliceByMul s = .error .notImplemented := by
  unfold sliceByMul
  by_cases h0 : s.step = some 0
  · left; rw [if_pos h0]
  · right; rw [if_neg h0]; simp [h]

/-- Resolution of a bound: Python's convention for negative and out-of-range bounds. -/
theorem C09_bound_resolution (n : Nat) (i : Int) :
    (0 ≤ i → i ≤ n → (adjustIndex n i : Int) = i) ∧ ((n : Int) < i → adjustIndex n i = n) ∧
    (i < 0 → -(n : Int) ≤ i → (adjustIndex n i : Int) = i + n) ∧
    (i < -(n : Int) → adjustIndex n i = 0) := by
  unfold adjustIndex
  refine ⟨?_, ?_, ?_, ?_⟩ <;> intros <;> split <;> omega

/-- Full list slicing is false of the code for reversed bounds inside one term:
`Irreps("5x0e").slice_by_mul[3:1]` raises instead of being empty. -/
theorem C09_reversed_raises_witness :
    sliceByMul [⟨5, ⟨0, .e⟩⟩] ⟨some 3, some 1, none⟩ = .error .valueError := by decide

example : sliceByMul [⟨1, ⟨1, .e⟩⟩, ⟨1, ⟨2, .e⟩⟩, ⟨3, ⟨0, .e⟩⟩] ⟨some 1, some 3, none⟩ =
    .ok [⟨1, ⟨2, .e⟩⟩, ⟨1, ⟨0, .e⟩⟩] := by decide

/-! ## C10 -/

/-- If both bounds fall on irrep borders (`a`-th and `b`-th), `slice_by_dim` returns exactly the
irreps between them. (It does not refuse every other cut, see `C10_unsound_witness`; `C10_accepts_iff` says
which ones it refuses.) -/
theorem C10_slice_by_dim (x : Irreps) (s : PySlice) (hstep : s.stepIsOne) (a b : Nat)
    (hab : a ≤ b) (hb : b ≤ (expand x).length)
    (h1 : (s.bounds x.dim).1 = dimOf ((expand x).take a))
    (h2 : (s.bounds x.dim).2 = dimOf ((expand x).take b)) :
    ∃ y, x.sliceByDim s = .ok y ∧ expand y = pySlice (expand x) a b := by
  have hrel : ∀ (st k : Nat), k ≤ (expand x).length → st = dimOf ((expand x).take k) →
      Rel 0 x st k := by
    intro st k hk hst
    rcases Nat.eq_zero_or_pos k with h | h
    · subst h; left; exact ⟨rfl, by simp [hst]⟩
    · right; exact ⟨h, hk, by omega⟩
  have hle : (s.bounds x.dim).1 ≤ (s.bounds x.dim).2 := by
    rw [h1, h2]
    obtain ⟨d, rfl⟩ := Nat.exists_eq_add_of_le hab
    rw [List.take_add, dimOf_append]
    omega
  obtain ⟨ps, y, e1, e2, e3⟩ := sliceByDimLoop_aligned _ _ 0 x a b hab hle
    (hrel _ a (by omega) h1) (hrel _ b hb h2)
  refine ⟨y, ?_, e3⟩
  unfold sliceByDim
  have h0 : s.step ≠ some 0 := by
    intro h
    simp [PySlice.stepIsOne, h] at hstep
  rw [if_neg h0, if_pos hstep, e1]
  exact e2

/-- Whatever it returns has the requested dimension. -/
theorem C10_slice_by_dim_dim (x y : Irreps) (s : PySlice)
    (hle : (s.bounds x.dim).1 ≤ (s.bounds x.dim).2) (h : x.sliceByDim s = .ok y)
    (hstop : (s.bounds x.dim).2 ≤ x.dim) :
    y.dim = (s.bounds x.dim).2 - (s.bounds x.dim).1 := by
  unfold sliceByDim at h
  split at h
  · simp at h
  · split at h
    · cases hl : sliceByDimLoop (s.bounds x.dim).1 (s.bounds x.dim).2 0 x with
      | error e => rw [hl] at h; simp [bind, Except.bind] at h
      | ok ps =>
        rw [hl] at h
        have := sliceByDimLoop_dim _ _ hle 0 x ps y hl h
        simp only [Nat.zero_add, Nat.max_zero] at this
        rw [this]
        omega
    · simp at h

/-- Resolved bounds never exceed the length. -/
theorem C10_bounds_le (s : PySlice) (n : Nat) : (s.bounds n).1 ≤ n ∧ (s.bounds n).2 ≤ n := by
  have : ∀ i : Int, adjustIndex n i ≤ n := by
    intro i; unfold adjustIndex; split <;> omega
  obtain ⟨st, sp, k⟩ := s
  cases st <;> cases sp <;> simp [PySlice.bounds, this]

/-- Only equivariant cuts accepted? No: components 1..3 of `2x1e` straddle two irreps and are
accepted as one `1e` (the check looks at the length of the cut only). -/
theorem C10_unsound_witness :
    sliceByDim [⟨2, ⟨1, .e⟩⟩] ⟨some 1, some 4, none⟩ = .ok [⟨1, ⟨1, .e⟩⟩] ∧
    ¬ ∃ a, dimOf ((expand [⟨2, ⟨1, .e⟩⟩]).take a) = 1 := by
  refine ⟨by decide, ?_⟩
  rintro ⟨a, ha⟩
  match a with
  | 0 => simp at ha
  | 1 => simp [expand, dimOf] at ha
  | a + 2 =>
    rw [List.take_of_length_le (by simp [expand])] at ha
    simp [expand, dimOf] at ha

example : sliceByDim [⟨1, ⟨1, .e⟩⟩, ⟨1, ⟨2, .e⟩⟩, ⟨3, ⟨0, .e⟩⟩] ⟨some 3, some 8, none⟩ =
    .ok [⟨1, ⟨2, .e⟩⟩] := by decide

/-! ## C11 -/

theorem C11_dim_numIrreps_count_spec (x : Irreps) :
    x.dim = dimOf (expand x) ∧ x.numIrreps = (expand x).length ∧
    (∀ ir, x.count ir = (expand x).count ir) ∧ x.ls = (expand x).map Irrep.l :=
  ⟨dim_eq_dimOf_expand x, numIrreps_eq_length_expand x, count_eq_count_expand x, ls_eq x⟩

/-- `+` concatenates the sequences (so `dim`, `num_irreps`, `count` are additive). -/
theorem C11_add (x y : Irreps) :
    expand (x.add y) = expand x ++ expand y ∧ (x.add y).dim = x.dim + y.dim ∧
    (x.add y).numIrreps = x.numIrreps + y.numIrreps ∧
    ∀ ir, (x.add y).count ir = x.count ir + y.count ir := by
  refine ⟨expand_append x y, dim_append x y, by simp [numIrreps, add], ?_⟩
  intro ir
  rw [count_eq_count_expand, count_eq_count_expand, count_eq_count_expand]
  simp [add]

/-- `repeat(n)` writes the sequence `n` times. -/
theorem C11_repeat (x : Irreps) (n : Nat) :
    expand (x.rep n) = (List.replicate n (expand x)).flatten := by
  unfold rep
  induction n with
  | zero => rfl
  | succ n ih => simp [List.replicate_succ, ih]

theorem count_mul (x : Irreps) (n : Nat) (ir : Irrep) : (x.mul n).count ir = x.count ir * n := by
  induction x with
  | nil => simp [mul, count]
  | cons m x ih =>
    have e : mul (m :: x) n = ⟨m.mul * n, m.ir⟩ :: mul x n := rfl
    rw [e, count_cons, count_cons, ih]
    dsimp only
    split <;> ring

/-- `* n` and `repeat(n)` multiply every count by `n`; so they denote equivalent representations. -/
theorem C11_mul_repeat_count (x : Irreps) (n : Nat) (ir : Irrep) :
    (x.mul n).count ir = n * x.count ir ∧ (x.rep n).count ir = n * x.count ir := by
  constructor
  · rw [count_mul, Nat.mul_comm]
  · rw [count_eq_count_expand, C11_repeat, count_eq_count_expand]
    induction n with
    | zero => simp
    | succ n ih => rw [List.replicate_succ, List.flatten_cons, List.count_append, ih]; ring

/-- Hence `(n*x).regroup() == x.repeat(n).regroup()`. -/
theorem C11_mul_repeat_regroup (x : Irreps) (n : Nat) : (x.mul n).regroup = (x.rep n).regroup := by
  rw [C07_regroup_canonical]
  intro ir
  rw [(C11_mul_repeat_count x n ir).1, (C11_mul_repeat_count x n ir).2]

/-- `(x * n) // n == x` for `n > 0`, and `// 0` raises on non-empty irreps. -/
theorem C11_floordiv_mul (x : Irreps) (n : Nat) (hn : 0 < n) : (x.mul n).floordiv n = .ok x := by
  induction x with
  | nil => rfl
  | cons m x ih =>
    have e : mul (m :: x) n = ⟨m.mul * n, m.ir⟩ :: mul x n := rfl
    unfold floordiv at *
    rw [e, List.mapM_cons, ih, if_neg (by omega)]
    simp only [Nat.mul_div_cancel _ hn]
    rfl

theorem C11_floordiv_zero (m : MulIrrep) (x : Irreps) :
    floordiv (m :: x) 0 = .error .zeroDivision := by
  unfold floordiv
  rw [List.mapM_cons]
  rfl

/-- A product with a negative integer raises unless all multiplicities are zero. -/
theorem C11_mul_negative (x : Irreps) (n : Int) (hn : n < 0) (m : MulIrrep) (hm : m ∈ x)
    (hpos : 0 < m.mul) : x.mulInt n = .error .valueError := by
  unfold mulInt
  induction x with
  | nil => simp at hm
  | cons a x ih =>
    rw [List.map_cons, ofPairs_cons]
    rcases List.mem_cons.mp hm with rfl | hm
    · have : ¬ 0 ≤ (m.mul : Int) * n := by
        have : (0:Int) < m.mul := by omega
        nlinarith
      rw [if_neg this]
    · split
      · rw [ih hm]
      · rfl

/-- `lmax` is the largest degree that occurs; it raises iff the sequence of irreps is empty. -/
theorem C11_lmax (x : Irreps) :
    (x.lmax = .error .valueError ↔ expand x = []) ∧
    ∀ L, x.lmax = .ok L → (∃ ir ∈ expand x, ir.l = L) ∧ ∀ ir ∈ expand x, ir.l ≤ L := by
  unfold lmax
  rw [ls_eq]
  constructor
  · by_cases h0 : x.length = 0
    · have : x = [] := List.length_eq_zero_iff.mp h0
      subst this; simp
    · simp only [h0, if_false]
      cases hm : ((expand x).map Irrep.l).max? with
      | none => simpa using hm
      | some L =>
        simp only [reduceCtorEq, false_iff]
        intro h
        simp [h] at hm
  · intro L h
    by_cases h0 : x.length = 0
    · simp [h0] at h
    · simp only [h0, if_false] at h
      cases hm : ((expand x).map Irrep.l).max? with
      | none => rw [hm] at h; simp at h
      | some L' =>
        rw [hm] at h
        simp only [Except.ok.injEq] at h
        subst h
        rw [List.max?_eq_some_iff] at hm
        simp only [List.mem_map] at hm
        refine ⟨hm.1, ?_⟩
        intro ir hir
        exact hm.2 _ ⟨ir, hir, rfl⟩

/-- `is_scalar()` is true iff there is a term and all terms are `0e`. -/
theorem C11_isScalar (x : Irreps) :
    x.isScalar = true ↔ x ≠ [] ∧ ∀ m ∈ x, m.ir = ⟨0, .e⟩ := by
  cases x <;> simp [isScalar]

/-- `spherical_harmonics(lmax, p)` lists the degrees `0 … lmax` once each, in order, the even degrees with even parity and the odd degrees with the
parity `p`. -/
theorem C11_spherical_harmonics_terms (lmax : Nat) (p : Parity) :
    (sphericalHarmonics lmax p).length = lmax + 1 ∧
    ∀ l, (hl : l ≤ lmax) → (sphericalHarmonics lmax p)[l]? = some ⟨1, ⟨l, if l % 2 = 0 then Parity.e else p⟩⟩ := by
  unfold sphericalHarmonics
  refine ⟨by simp, fun l hl => ?_⟩
  rw [List.getElem?_map, List.getElem?_range (by omega)]
  have : p.pow l = if l % 2 = 0 then Parity.e else p := by
    cases p <;> simp [Parity.pow, Parity.ofPow]
  simp [this]

/-- `spherical_harmonics(lmax, p)` has dimension `(lmax+1)^2`. -/
theorem C11_spherical_harmonics_dim (lmax : Nat) (p : Parity) :
    (sphericalHarmonics lmax p).dim = (lmax + 1) * (lmax + 1) ∧
    (sphericalHarmonics lmax p).ls = List.range (lmax + 1) := by
  unfold sphericalHarmonics
  constructor
  · generalize lmax + 1 = n
    induction n with
    | zero => rfl
    | succ n ih =>
      rw [List.range_succ, List.map_append, dim_append, ih]
      simp [dim, Irrep.dim]
      ring
  · rw [ls_eq]
    unfold expand
    generalize lmax + 1 = n
    induction n with
    | zero => rfl
    | succ n ih =>
      rw [List.range_succ, List.map_append, List.flatMap_append, List.map_append, ih]
      simp

example : lmax [⟨100, ⟨0, .e⟩⟩, ⟨50, ⟨1, .e⟩⟩, ⟨0, ⟨2, .e⟩⟩] = .ok 1 ∧
    lmax [⟨0, ⟨2, .e⟩⟩] = .error .valueError := by decide +kernel

end E3nn
