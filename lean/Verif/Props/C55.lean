import Verif.Lemmas.PermRepr5
import Verif.Props.C27

/-! # C55: index symmetries of reduced tensor products -/

namespace E3nn.PermRepr

open E3nn.Perm E3nn.IndexSymmetry

theorem flat_rowMajor {dims x : List ℕ} (h : List.Forall₂ (· < ·) x dims) : flat dims x = rowMajor dims x := by
  induction h with
  | nil => rfl
  | cons h1 h2 ih => rw [flat_cons _ _ _ h2.length_eq, ih]; rfl

theorem dotRows_range {N : ℕ} {a b : List ℝ} (ha : a.length = N) (hb : b.length = N) : dotRows a b = ∑ k ∈ Finset.range N, a.getD k 0 * b.getD k 0 := by
  unfold dotRows
  have : List.zipWith (· * ·) a b = (List.range N).map fun k => a.getD k 0 * b.getD k 0 := by
    apply List.ext_getElem (by simp [ha, hb])
    intro i h1 h2
    simp only [List.length_zipWith] at h1
    simp only [List.getElem_zipWith, List.getElem_map, List.getElem_range]
    rw [List.getD_eq_getElem _ _ (by omega), List.getD_eq_getElem _ _ (by omega)]
  rw [this]
  rfl

/-- The matrix of a signed permutation group. -/
theorem group_basis {n : ℕ} {G : Finset SPerm} {dims : List ℕ} (hG : IsSGroup n G) (hn : dims.length = n) (hd : Compat G dims) :
    ∃ Q, reducePermutationMatrix (reducePermutationBase G dims) dims = .ok Q ∧ IsOrthonormalBasis dims Q (Sym G dims) ∧ (∀ v ∈ Q, 0 ≤ v.sum) ∧ Q.length = (reducePermutationBase G dims).card := by
  refine ⟨_, matrix_ok hG hn hd, ⟨?_, ?_, ?_⟩, ?_, ?_⟩
  · exact fun v hv => matrix_rows hG hn hd hv
  · intro i hi j hj
    have h := matrix_ok hG hn hd
    unfold reducePermutationMatrix at h
    simp only at h
    split at h
    · rename_i hQ
      have := hQ i hi j hj
      rw [dotRows_range (N := dims.prod)] at this
      · exact this
      · rw [List.getD_eq_getElem _ _ hi]; exact matrix_rows hG hn hd (List.getElem_mem hi)
      · rw [List.getD_eq_getElem _ _ hj]; exact matrix_rows hG hn hd (List.getElem_mem hj)
    · cases h
  · intro T
    rw [matrix_span hG hn hd rfl T]
    constructor
    · rintro ⟨c, hc⟩
      refine ⟨c, fun x hx => ?_⟩
      rw [hc x (mem_fullBase.mpr hx)]
      unfold ent
      rw [flat_rowMajor hx]
    · rintro ⟨c, hc⟩
      refine ⟨c, fun x hx => ?_⟩
      have hx := mem_fullBase.mp hx
      rw [hc x hx]
      unfold ent
      rw [flat_rowMajor hx]
  · exact fun v hv => row_sum_nonneg hG hn hd hv
  · rw [(matrix_perm (G := G) (dims := dims)).length_eq]; simp

/-- `germinate_perm_repr` accepts exactly the formulas in which every word is a rearrangement of the distinct index names and the first
word carries no sign: a signed first word raises `AssertionError`, anything else `RuntimeError`, whatever the fuel; on an accepted formula
the loop terminates. -/
theorem C55_formula_refusals (b : Bool) (names : List Char) (rest : List Part) (hc : Clean ((b, names) :: rest)) (fuel : ℕ) :
    (b = true → germinatePermRepr fuel (text ((b, names) :: rest)) = some (.error .assertion)) ∧
    (b = false → ¬ WellFormed names rest → germinatePermRepr fuel (text ((b, names) :: rest)) = some (.error .runtimeError)) ∧
    (b = false → WellFormed names rest → 2 * factorial names.length < fuel → ∃ G, germinatePermRepr fuel (text ((b, names) :: rest)) = some (.ok (names, G))) := by
  refine ⟨(germinate_err hc fuel).1, (germinate_err hc fuel).2, ?_⟩
  rintro rfl hw hf
  obtain ⟨G, h, _⟩ := germinate_ok hc hw hf
  exact ⟨G, h⟩

/-- The set it returns is the group generated by the words: signed permutations of the indices, containing the identity, closed under
`perm.inverse` (same sign) and `perm.compose` (product of the signs), and contained in every such set that contains the generators. -/
theorem C55_formula_group (names : List Char) (rest : List Part) (hc : Clean ((false, names) :: rest)) (hw : WellFormed names rest) (fuel : ℕ) (hf : 2 * factorial names.length < fuel) :
    ∃ G, germinatePermRepr fuel (text ((false, names) :: rest)) = some (.ok (names, G)) ∧
      (∀ s p, (s, p) ∈ G → (s = 1 ∨ s = -1) ∧ p.Perm (List.range names.length)) ∧
      (1, List.range names.length) ∈ G ∧
      (∀ s p p', (s, p) ∈ G → inverse p = .ok p' → (s, p') ∈ G) ∧
      (∀ s p t q r, (s, p) ∈ G → (t, q) ∈ G → compose p q = .ok r → (s * t, r) ∈ G) ∧
      (∀ q ∈ rest, ∃ p, ((if q.1 then -1 else 1, p) : ℤ × List ℕ) ∈ G ∧ p.map (fun i => q.2.getD i ' ') = names) ∧
      ∀ H : Set (ℤ × List ℕ), (1, List.range names.length) ∈ H →
        (∀ q ∈ rest, ∀ p, p.Perm (List.range names.length) → p.map (fun i => q.2.getD i ' ') = names → ((if q.1 then -1 else 1, p) : ℤ × List ℕ) ∈ H) →
        (∀ s p p', (s, p) ∈ H → inverse p = .ok p' → (s, p') ∈ H) →
        (∀ s p t q r, (s, p) ∈ H → (t, q) ∈ H → compose p q = .ok r → (s * t, r) ∈ H) → ∀ q ∈ G, q ∈ H := by
  obtain ⟨G, h1, hG, hgen, hmin⟩ := germinate_ok hc hw hf
  have hidx : ∀ q ∈ rest, (names.map q.2.idxOf).map (fun i => q.2.getD i ' ') = names := by
    intro q hq
    rw [List.map_map]
    conv_rhs => rw [← List.map_id names]
    refine List.map_congr_left fun c hcm => ?_
    have hm : c ∈ q.2 := (hw.2 q hq).mem_iff.mpr hcm
    have hlt := List.idxOf_lt_length_iff.mpr hm
    simp only [Function.comp_apply, id]
    rw [List.getD_eq_getElem _ _ hlt, List.getElem_idxOf]
  refine ⟨G, h1, fun s p h => ⟨hG.sign _ h, hG.perm _ h⟩, hG.one, ?_, ?_, ?_, ?_⟩
  · intro s p p' h hi
    rw [inverse_eq (hG.perm _ h), Except.ok.injEq] at hi
    exact hi ▸ hG.inv _ h
  · intro s p t q r h h' hr
    rw [compose_eq (hG.perm _ h) (hG.perm _ h'), Except.ok.injEq] at hr
    exact hr ▸ hG.comp _ h _ h'
  · intro q hq
    exact ⟨_, hgen q (List.mem_cons_of_mem _ hq), hidx q hq⟩
  · intro H hone hH hinv hcomp
    refine hmin (fun q => q ∈ H) ?_ ?_ ?_
    · intro q hq
      rcases List.mem_cons.mp hq with rfl | hq
      · have e : names.map names.idxOf = List.range names.length := by
          apply List.ext_getElem (by simp)
          intro i h1 h2
          simp only [List.getElem_map, List.getElem_range]
          exact List.Nodup.idxOf_getElem hw.1 i _
        simp only
        rw [e]
        exact hone
      · have hp := hw.2 q hq
        exact hH q hq _ (isPermOf_generator hw.1 (hp.nodup_iff.mpr hw.1) fun c => hp.mem_iff) (hidx q hq)
    · intro q hq h
      exact hinv _ _ _ h (inverse_eq hq.2)
    · intro q r hq hr h h'
      exact hcomp _ _ _ _ _ h h' (compose_eq hq.2 hr.2)

/-- **The permutation basis of a formula.** The rows computed for the group of the formula are an orthonormal basis of the tensors
`T` with `T[names] = ± T[w]` for each part `± w` of the formula; the check `Q Qᵀ = 1` never fails. The sign of each row is chosen
so that its entries have a non-negative sum. -/
theorem C55_formula_basis (names : List Char) (rest : List Part) (hc : Clean ((false, names) :: rest)) (hw : WellFormed names rest)
    (d : Char → ℕ) (hd : ∀ q ∈ rest, q.2.map d = names.map d) (fuel : ℕ) (hf : 2 * factorial names.length < fuel) :
    ∃ G Q, germinatePermRepr fuel (text ((false, names) :: rest)) = some (.ok (names, G)) ∧
      reducePermutationMatrix (reducePermutationBase G (names.map d)) (names.map d) = .ok Q ∧
      IsOrthonormalBasis (names.map d) Q (Symmetric d names rest) ∧ ∀ v ∈ Q, 0 ≤ v.sum := by
  obtain ⟨G, h1, hG, hgen, hmin⟩ := germinate_ok hc hw hf
  have hcompat := compat_of hw hd hmin
  obtain ⟨Q, h2, h3, h4, _⟩ := group_basis hG (by simp) hcompat
  refine ⟨G, Q, h1, h2, ⟨h3.length, h3.orthonormal, fun T => ?_⟩, h4⟩
  rw [symmetric_iff hw hd hG hgen hmin T]
  exact h3.span T

/-- **Subsets of the indices.** For a sorted set `sub` of positions, `reduce_subgroup_permutation` gives an orthonormal basis of the
tensors on these indices with the symmetries of the formula's group that fix all other indices; with `return_dim=True` it gives its
dimension. -/
theorem C55_subgroup_basis (names : List Char) (rest : List Part) (hc : Clean ((false, names) :: rest)) (hw : WellFormed names rest)
    (d : Char → ℕ) (hd : ∀ q ∈ rest, q.2.map d = names.map d) (fuel : ℕ) (hf : 2 * factorial names.length < fuel)
    (sub : List ℕ) (hs : ∀ j ∈ sub, j < names.length) (hsort : sub.Pairwise (· < ·)) :
    ∃ G Q, germinatePermRepr fuel (text ((false, names) :: rest)) = some (.ok (names, G)) ∧
      reduceSubgroup sub G (names.map d) = .ok Q ∧ Q.length = reduceSubgroupDim sub G (names.map d) ∧
      IsOrthonormalBasis (sub.map fun i => (names.map d).getD i 0) Q fun T =>
        ∀ s p, (s, p) ∈ G → (∀ j < names.length, j ∉ sub → p.getD j 0 = j) →
          ∀ v : ℕ → ℕ, (∀ j ∈ sub, v j < (names.map d).getD j 0) → T (sub.map v) = s * T (sub.map fun j => v (p.getD j 0)) := by
  obtain ⟨G, h1, hG, hgen, hmin⟩ := germinate_ok hc hw hf
  have hcompat := compat_of hw hd hmin
  have hG' := subrepr_group hG hs hsort
  have hcompat' := subrepr_compat hG (by simp) hcompat hs hsort
  have hnd : sub.Nodup := hsort.imp (fun h => Nat.ne_of_lt h)
  -- symmetry under the restricted group
  have hsym : ∀ T : List ℕ → ℝ, (∀ s p, (s, p) ∈ G → (∀ j < names.length, j ∉ sub → p.getD j 0 = j) →
          ∀ v : ℕ → ℕ, (∀ j ∈ sub, v j < (names.map d).getD j 0) → T (sub.map v) = s * T (sub.map fun j => v (p.getD j 0))) ↔
        Sym (subrepr sub G) (sub.map fun i => (names.map d).getD i 0) T := by
    intro T
    constructor
    · intro h r hr x hx
      obtain ⟨q, hq, hfx, rfl⟩ := (mem_subrepr hG hs hsort).mp hr
      have hp := hG.perm q hq
      rw [mem_fullBase, forall₂_iff] at hx
      simp only [List.length_map] at hx
      have hxe : x = sub.map fun j => x.getD (sub.idxOf j) 0 := by
        apply List.ext_getElem (by simp [hx.1])
        intro i h1 h2
        rw [List.getElem_map]
        have h3 : i < sub.length := by simpa using h2
        rw [List.Nodup.idxOf_getElem hnd i h3, List.getD_eq_getElem _ _ h1]
      simp only
      have := h q.1 q.2 hq (fun j hj hjs => hfx j (by rw [len_of hp]; exact hj) hjs) (fun j => x.getD (sub.idxOf j) 0) (by
        intro j hj
        have hlt := List.idxOf_lt_length_iff.mpr hj
        have := hx.2 _ hlt
        rwa [List.getD_eq_getElem (sub.map _) _ (by simpa using hlt), List.getElem_map, List.getElem_idxOf hlt] at this)
      rw [← permute_restr hp hs hfx (fun j => x.getD (sub.idxOf j) 0), ← hxe] at this
      exact this
    · intro h s p hq hfx v hv
      have hp := hG.perm _ hq
      have hfx' : FixesOutside sub p := fun j hj hjs => hfx j (by have := len_of hp; simp only at this; omega) hjs
      have hmem : ((s, restr sub p) : SPerm) ∈ subrepr sub G := (mem_subrepr hG hs hsort).mpr ⟨(s, p), hq, hfx', rfl⟩
      have hx : sub.map v ∈ fullBase (sub.map fun i => (names.map d).getD i 0) := by
        rw [mem_fullBase]
        clear hsort hnd hG' hcompat' hs hfx hfx' hmem h
        induction sub with
        | nil => simp
        | cons a l ih =>
          simp only [List.map_cons]
          exact .cons (hv a (by simp)) (ih fun j hj => hv j (by simp [hj]))
      have := h _ hmem _ hx
      simp only at this
      rw [permute_restr hp hs hfx'] at this
      exact this
  unfold reduceSubgroup reduceSubgroupDim
  by_cases hcard : (subrepr sub G).card = 1
  · refine ⟨G, _, h1, if_pos hcard, ?_, ?_⟩
    · simp only; rw [if_pos hcard]; simp
    generalize hdims : (sub.map fun i => (names.map d).getD i 0) = dims
    have hgetD : ∀ i < dims.prod, ∀ k < dims.prod, (((List.range dims.prod).map fun i => (List.range dims.prod).map fun j => if i = j then (1 : ℝ) else 0).getD i []).getD k 0 = if i = k then 1 else 0 := by
      intro i hi k hk
      have e : ((List.range dims.prod).map fun i => (List.range dims.prod).map fun j => if i = j then (1 : ℝ) else 0).getD i [] = (List.range dims.prod).map fun j => if i = j then (1 : ℝ) else 0 := by
        rw [List.getD_eq_getElem _ _ (by simpa using hi), List.getElem_map, List.getElem_range]
      rw [e, List.getD_eq_getElem _ _ (by simpa using hk), List.getElem_map, List.getElem_range]
    refine ⟨?_, ?_, ?_⟩
    · intro v hv
      rw [List.mem_map] at hv
      obtain ⟨i, _, rfl⟩ := hv
      simp
    · intro i hi j hj
      rw [List.length_map, List.length_range] at hi hj
      rw [Finset.sum_congr rfl (fun k hk => by rw [hgetD i hi k (Finset.mem_range.mp hk), hgetD j hj k (Finset.mem_range.mp hk)])]
      rw [Finset.sum_eq_single_of_mem i (Finset.mem_range.mpr hi)]
      · rw [if_pos rfl, one_mul]
        by_cases h : i = j
        · rw [if_pos h, if_pos h.symm]
        · rw [if_neg h, if_neg (Ne.symm h)]
      · intro k _ hk
        rw [if_neg (Ne.symm hk), zero_mul]
    · intro T
      rw [hsym T, hdims]
      constructor
      · intro _
        -- coefficients are the entries
        refine ⟨fun i => T ((fullBase dims).getD i []), fun x hx => ?_⟩
        have hxm := mem_fullBase.mpr hx
        have hpos := flat_lt hxm
        rw [← flat_rowMajor hx]
        rw [List.length_map, List.length_range]
        rw [Finset.sum_congr rfl (fun i hi => by rw [hgetD i (Finset.mem_range.mp hi) _ hpos])]
        rw [Finset.sum_eq_single_of_mem (flat dims x) (Finset.mem_range.mpr hpos)]
        · rw [if_pos rfl, mul_one]
          congr 1
          have hlen : (fullBase dims).length = dims.prod := by
            have := congrArg List.length (fullBase_flat dims)
            simpa using this
          have hpos' : flat dims x < (fullBase dims).length := by omega
          rw [List.getD_eq_getElem _ _ hpos']
          refine flat_inj hxm (List.getElem_mem _) ?_
          have := congrArg (fun l => l[flat dims x]?) (fullBase_flat dims)
          simp only [List.getElem?_map] at this
          rw [List.getElem?_eq_getElem hpos', List.getElem?_range hpos] at this
          simpa using this.symm
        · intro k _ hk
          rw [if_neg hk, mul_zero]
      · intro _ r hr x hx
        have h1 := hG'.one
        rw [Finset.card_eq_one] at hcard
        obtain ⟨a, ha⟩ := hcard
        rw [ha, Finset.mem_singleton] at hr h1
        rw [hr, ← h1]
        simp only [Int.cast_one, one_mul]
        rw [permute_id]
        have := List.Forall₂.length_eq (mem_fullBase.mp hx)
        rw [this, ← hdims, List.length_map]
  · obtain ⟨Q, h2, h3, _, h5⟩ := group_basis hG' (by simp) hcompat'
    refine ⟨G, Q, h1, ?_, ?_, h3.length, h3.orthonormal, fun T => ?_⟩
    · simp only; rw [if_neg hcard]; exact h2
    · simp only; rw [if_neg hcard]; exact h5
    · rw [hsym T]; exact h3.span T

/-! ### Fully symmetric and antisymmetric tensors -/

theorem mem_symmetricPermRepr {n : ℕ} {q : SPerm} : q ∈ symmetricPermRepr n ↔ q.1 = 1 ∧ q.2.Perm (List.range n) := by
  unfold symmetricPermRepr
  rw [Finset.mem_image]
  constructor
  · rintro ⟨p, hp, rfl⟩
    rw [List.mem_toFinset, List.mem_permutations] at hp
    exact ⟨rfl, hp⟩
  · rintro ⟨h1, h2⟩
    exact ⟨q.2, by rw [List.mem_toFinset, List.mem_permutations]; exact h2, by rw [← h1]⟩

theorem mem_antisymmetricPermRepr {n : ℕ} {q : SPerm} : q ∈ antisymmetricPermRepr n ↔ sign q.2 = some q.1 ∧ q.2.Perm (List.range n) := by
  have hsome : ∀ p : List ℕ, p.Perm (List.range n) → ∃ s, sign p = some s := fun p hp => by
    have hb := (isBij_iff_perm n p).mpr hp
    obtain ⟨r, sp, _, _, h, _⟩ := C27_sign_compose hb hb
    exact ⟨sp, h⟩
  unfold antisymmetricPermRepr
  rw [Finset.mem_image]
  constructor
  · rintro ⟨p, hp, rfl⟩
    rw [List.mem_toFinset, List.mem_permutations] at hp
    obtain ⟨s, hs⟩ := hsome p hp
    exact ⟨by simp [hs], hp⟩
  · rintro ⟨h1, h2⟩
    exact ⟨q.2, by rw [List.mem_toFinset, List.mem_permutations]; exact h2, by simp [h1]⟩

theorem symmetric_group {n : ℕ} : IsSGroup n (symmetricPermRepr n) where
  sign q hq := .inl (mem_symmetricPermRepr.mp hq).1
  perm q hq := (mem_symmetricPermRepr.mp hq).2
  one := mem_symmetricPermRepr.mpr ⟨rfl, id_perm n⟩
  inv q hq := mem_symmetricPermRepr.mpr ⟨(mem_symmetricPermRepr.mp hq).1, inv_perm (mem_symmetricPermRepr.mp hq).2⟩
  comp q hq r hr := mem_symmetricPermRepr.mpr ⟨by simp [(mem_symmetricPermRepr.mp hq).1, (mem_symmetricPermRepr.mp hr).1], comp_perm (mem_symmetricPermRepr.mp hq).2 (mem_symmetricPermRepr.mp hr).2⟩

theorem sign_comp {n : ℕ} {p q : List ℕ} {s t : ℤ} (hp : p.Perm (List.range n)) (hq : q.Perm (List.range n)) (h : sign p = some s) (h' : sign q = some t) :
    sign (Perm.comp p q) = some (s * t) ∧ (s = 1 ∨ s = -1) := by
  obtain ⟨r, sp, sq, h1, h2, h3, h4, _, h5⟩ := C27_sign_compose ((isBij_iff_perm n p).mpr hp) ((isBij_iff_perm n q).mpr hq)
  rw [compose_eq hp hq, Except.ok.injEq] at h1
  rw [h, Option.some.injEq] at h2
  rw [h', Option.some.injEq] at h3
  subst h1 h2 h3
  exact ⟨h5, h4⟩

theorem antisymmetric_group {n : ℕ} : IsSGroup n (antisymmetricPermRepr n) where
  sign q hq := by
    obtain ⟨h1, h2⟩ := mem_antisymmetricPermRepr.mp hq
    exact (sign_comp h2 h2 h1 h1).2
  perm q hq := (mem_antisymmetricPermRepr.mp hq).2
  one := mem_antisymmetricPermRepr.mpr ⟨(C27_sign_generators n).1, id_perm n⟩
  inv q hq := by
    obtain ⟨h1, h2⟩ := mem_antisymmetricPermRepr.mp hq
    refine mem_antisymmetricPermRepr.mpr ⟨?_, inv_perm h2⟩
    have hb := (isBij_iff_perm n _).mpr (inv_perm h2)
    obtain ⟨r, sp, _, _, h, _⟩ := C27_sign_compose hb hb
    simp only
    obtain ⟨h3, h4⟩ := sign_comp h2 (inv_perm h2) h1 h
    rw [comp_inv h2, (C27_sign_generators n).1, Option.some.injEq] at h3
    rw [h]
    rcases h4 with h4 | h4 <;> rw [h4] at h3 ⊢ <;> congr 1 <;> omega
  comp q hq r hr := by
    obtain ⟨h1, h2⟩ := mem_antisymmetricPermRepr.mp hq
    obtain ⟨h3, h4⟩ := mem_antisymmetricPermRepr.mp hr
    exact mem_antisymmetricPermRepr.mpr ⟨(sign_comp h2 h4 h1 h3).1, comp_perm h2 h4⟩

theorem compat_const {n k : ℕ} {G : Finset SPerm} (hG : IsSGroup n G) : Compat G (List.replicate n k) := by
  intro q hq
  have hp := hG.perm q hq
  unfold permute
  apply List.ext_getElem (by simp [len_of hp])
  intro i h1 h2
  simp only [List.length_map] at h1
  have : q.2[i] < n := (mem_of hp _).mp (List.getElem_mem h1)
  rw [List.getElem_map, List.getD_eq_getElem _ _ (by simpa using this)]
  simp

/-- Symmetry under a set of signed permutations, in terms of `Equiv.Perm`. -/
theorem sym_equiv {n k : ℕ} {G : Finset SPerm} (hG : IsSGroup n G) (ε : Equiv.Perm (Fin n) → ℤ)
    (hmem : ∀ (p : List ℕ) (σ : Equiv.Perm (Fin n)), (∀ i : Fin n, p[i.val]? = some (σ i).val) → p.Perm (List.range n) → ∀ s : ℤ, ((s, p) : SPerm) ∈ G ↔ s = ε σ) (T : List ℕ → ℝ) :
    Sym G (List.replicate n k) T ↔ ∀ (σ : Equiv.Perm (Fin n)) (x : Fin n → Fin k), T (List.ofFn fun i => (x i).val) = ε σ * T (List.ofFn fun i => (x (σ i)).val) := by
  have hperm : ∀ (p : List ℕ) (σ : Equiv.Perm (Fin n)), p.length = n → (∀ i : Fin n, p[i.val]? = some (σ i).val) → ∀ x : Fin n → Fin k, permute (List.ofFn fun i => (x i).val) p = List.ofFn fun i => (x (σ i)).val := by
    intro p σ hl h x
    unfold permute
    apply List.ext_getElem (by simp [hl])
    intro i h1 h2
    have hi : i < n := by simpa using h2
    rw [List.getElem_map, List.getElem_ofFn]
    obtain ⟨_, he⟩ := List.getElem?_eq_some_iff.mp (h ⟨i, hi⟩)
    simp only at he
    rw [he, List.getD_eq_getElem _ _ (by simp), List.getElem_ofFn]
  constructor
  · intro h σ x
    have hp : (List.ofFn fun i => (σ i).val).Perm (List.range n) := by
      refine perm_range_of_nodup ?_ (by simp) ?_
      · rw [List.nodup_ofFn]
        exact fun a b hab => σ.injective (Fin.ext hab)
      · intro i hi
        rw [List.mem_ofFn] at hi
        obtain ⟨j, rfl⟩ := hi
        exact (σ j).isLt
    have he : ∀ i : Fin n, (List.ofFn fun i => (σ i).val)[i.val]? = some (σ i).val := by
      intro i
      rw [List.getElem?_eq_getElem (by simp)]
      simp
    have := h _ ((hmem _ σ he hp (ε σ)).mpr rfl) (List.ofFn fun i => (x i).val) (by
      rw [mem_fullBase, forall₂_iff]
      refine ⟨by simp, fun i hi => ?_⟩
      have hi : i < n := by simpa using hi
      rw [List.getD_eq_getElem _ _ (by simpa using hi), List.getD_eq_getElem _ _ (by simpa using hi)]
      simp)
    simp only at this
    rw [hperm _ σ (by simp) he] at this
    exact this
  · intro h q hq x hx
    have hp := hG.perm q hq
    obtain ⟨σ, hσ⟩ := C27_tuple_of_bij ((isBij_iff_perm n q.2).mpr hp)
    rw [mem_fullBase, forall₂_iff] at hx
    simp only [List.length_replicate] at hx
    have hlt : ∀ i : Fin n, x.getD i.val 0 < k := fun i => by
      have := hx.2 i.val i.isLt
      rwa [List.getD_eq_getElem (List.replicate n k) _ (by simp), List.getElem_replicate] at this
    obtain ⟨y, hy⟩ : ∃ y : Fin n → Fin k, ∀ i, (y i).val = x.getD i.val 0 := ⟨fun i => ⟨_, hlt i⟩, fun i => rfl⟩
    have hxe : x = List.ofFn fun i : Fin n => (y i).val := by
      apply List.ext_getElem (by simp [hx.1])
      intro i h1 h2
      rw [List.getElem_ofFn, hy]
      exact (List.getD_eq_getElem _ _ h1).symm
    have := h σ y
    rw [← hperm q.2 σ (len_of hp) hσ, ← hxe] at this
    rw [(hmem q.2 σ hσ hp q.1).mp hq]
    exact this

/-- **Fully symmetric tensors** (`reduced_symmetric_tensor_product_basis`): the permutation basis is an orthonormal basis of the tensors
invariant under every permutation of the indices. -/
theorem C55_symmetric_basis (n k : ℕ) :
    ∃ Q, reducePermutationMatrix (reducePermutationBase (symmetricPermRepr n) (List.replicate n k)) (List.replicate n k) = .ok Q ∧
      IsOrthonormalBasis (List.replicate n k) Q fun T =>
        ∀ (σ : Equiv.Perm (Fin n)) (x : Fin n → Fin k), T (List.ofFn fun i => (x i).val) = T (List.ofFn fun i => (x (σ i)).val) := by
  obtain ⟨Q, h2, h3, _, _⟩ := group_basis (symmetric_group (n := n)) (by simp) (compat_const (k := k) symmetric_group)
  refine ⟨Q, h2, h3.length, h3.orthonormal, fun T => ?_⟩
  rw [← h3.span T, sym_equiv symmetric_group (fun _ => 1) (fun p σ _ hp s => by rw [mem_symmetricPermRepr]; exact ⟨fun h => h.1, fun h => ⟨h, hp⟩⟩) T]
  simp

/-- **Fully antisymmetric tensors** (`reduced_antisymmetric_tensor_product_basis`). -/
theorem C55_antisymmetric_basis (n k : ℕ) :
    ∃ Q, reducePermutationMatrix (reducePermutationBase (antisymmetricPermRepr n) (List.replicate n k)) (List.replicate n k) = .ok Q ∧
      IsOrthonormalBasis (List.replicate n k) Q fun T =>
        ∀ (σ : Equiv.Perm (Fin n)) (x : Fin n → Fin k), T (List.ofFn fun i => (x i).val) = (Equiv.Perm.sign σ : ℤ) * T (List.ofFn fun i => (x (σ i)).val) := by
  obtain ⟨Q, h2, h3, _, _⟩ := group_basis (antisymmetric_group (n := n)) (by simp) (compat_const (k := k) antisymmetric_group)
  refine ⟨Q, h2, h3.length, h3.orthonormal, fun T => ?_⟩
  rw [← h3.span T, sym_equiv antisymmetric_group (fun σ => (Equiv.Perm.sign σ : ℤ)) (fun p σ hσ hp s => by
    rw [mem_antisymmetricPermRepr]
    have := C27_sign ((isBij_iff_perm n p).mpr hp) σ hσ
    simp only
    rw [this, Option.some.injEq]
    exact ⟨fun h => h.1.symm, fun h => ⟨h.symm, hp⟩⟩) T]

/-- A mixed example: `ijk=-jik` with `i`, `j` of dimension 3 and `k` of dimension 2 meets all hypotheses. -/
example : Clean [(false, "ijk".toList), (true, "jik".toList)] ∧ WellFormed "ijk".toList [(true, "jik".toList)] ∧
    text [(false, "ijk".toList), (true, "jik".toList)] = "ijk=-jik".toList ∧
    (∀ q ∈ [(true, "jik".toList)], q.2.map (fun c => if c = 'k' then 2 else 3) = "ijk".toList.map fun c => if c = 'k' then 2 else 3) := by
  refine ⟨?_, ⟨by decide, ?_⟩, by decide, by decide⟩
  · unfold Clean; decide
  · decide

/-- What a call returned: the names and the group, or nothing when it raised. -/
def result (r : Option (Except PyErr (List Char × Finset SPerm))) : List Char × Finset SPerm :=
  match r with
  | some (.ok x) => x
  | _ => ([], ∅)

/-- Its group has two elements, and a repeated name and a signed first word are refused. -/
example : result (germinatePermRepr 20 "ijk=-jik".toList) = ("ijk".toList, {(1, [0, 1, 2]), (-1, [1, 0, 2])}) := by
  decide +kernel

example : germinatePermRepr 20 "ii".toList = some (.error .runtimeError) ∧ germinatePermRepr 20 "-ij=ji".toList = some (.error .assertion) := ⟨by rfl, by rfl⟩

end E3nn.PermRepr
