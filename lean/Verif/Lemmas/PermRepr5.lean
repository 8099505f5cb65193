import Verif.Lemmas.PermRepr4

/-! The span of the matrix; subgroups fixing the other indices. -/

namespace E3nn.PermRepr

open E3nn.Perm

variable {n : ℕ} {G : Finset SPerm} {dims : List ℕ}

theorem coef_eq (hG : IsSGroup n G) (hn : dims.length = n) (hd : Compat G dims) {T : List ℕ → ℝ} (hT : Sym G dims T) {l : List SPerm} (hl : IsRow G dims l) :
    coef T l = ((fullBase dims).map fun y => T y * ent dims (vec dims l) y).sum := by
  have h1 : ∀ y ∈ fullBase dims, T y * ent dims (vec dims l) y = coef T l * (ent dims (vec dims l) y * ent dims (vec dims l) y) := by
    intro y hy
    by_cases h : ∃ s, ((s, y) : SPerm) ∈ l
    · obtain ⟨s, h⟩ := h
      conv_lhs => rw [coef_spec hG hn hd hT hl h]
      ring
    · push Not at h
      have : ent dims (vec dims l) y = 0 := (vec_spec hG hn hd hl).2.2 y hy h
      rw [this]; simp
  rw [List.map_congr_left h1, List.sum_map_mul_left]
  have h2 := ent_self hG hn hd hl
  rw [dotRows_eq (vec_spec hG hn hd hl).1 (vec_spec hG hn hd hl).1] at h2
  unfold ent
  rw [h2, mul_one]

theorem matrix_span (hG : IsSGroup n G) (hn : dims.length = n) (hd : Compat G dims) {Q : List (List ℝ)} (hQ : Q = (sortedBase (reducePermutationBase G dims)).map (row dims)) (T : List ℕ → ℝ) :
    Sym G dims T ↔ ∃ c : ℕ → ℝ, ∀ x ∈ fullBase dims, T x = ∑ i ∈ Finset.range Q.length, c i * ent dims (Q.getD i []) x := by
  have hp : Q.Perm ((reducePermutationBase G dims).toList.map fun X => vec dims (pick X)) := hQ ▸ matrix_perm
  constructor
  · intro hT
    refine ⟨fun i => ((fullBase dims).map fun y => T y * ent dims (Q.getD i []) y).sum, fun x hx => ?_⟩
    rw [sum_range_getD Q (fun v => ((fullBase dims).map fun y => T y * ent dims v y).sum * ent dims v x), (hp.map _).sum_eq, List.map_map, span_forward hG hn hd hT hx]
    rw [← Finset.sum_map_toList]
    congr 1
    refine List.map_congr_left fun X hX => ?_
    simp only [Function.comp_apply]
    rw [coef_eq hG hn hd hT (pick_isRow (Finset.mem_toList.mp hX))]
  · rintro ⟨c, hc⟩ q hq x hx
    rw [hc x hx, hc _ (permute_mem hG hn hd hx hq), Finset.mul_sum]
    refine Finset.sum_congr rfl fun i hi => ?_
    have hi' : i < Q.length := Finset.mem_range.mp hi
    have hm : Q.getD i [] ∈ (sortedBase (reducePermutationBase G dims)).map (row dims) := by
      rw [← hQ, List.getD_eq_getElem _ _ hi']
      exact List.getElem_mem hi'
    obtain ⟨X, hX, he⟩ := row_forms hm
    rw [he, ent_symm hG hn hd (pick_isRow hX) hq hx]
    ring

theorem matrix_rows (hG : IsSGroup n G) (hn : dims.length = n) (hd : Compat G dims) {v : List ℝ} (h : v ∈ (sortedBase (reducePermutationBase G dims)).map (row dims)) : v.length = dims.prod := by
  obtain ⟨X, hX, rfl⟩ := row_forms h
  exact (vec_spec hG hn hd (pick_isRow hX)).1

/-! ### The sign of the rows -/

theorem sum_vec (hG : IsSGroup n G) (hn : dims.length = n) (hd : Compat G dims) {l : List SPerm} (hl : IsRow G dims l) : (vec dims l).sum = ((l.map Prod.fst).sum : ℤ) / Real.sqrt l.length := by
  obtain ⟨h1, h2, h3⟩ := vec_spec hG hn hd hl
  have e : vec dims l = (fullBase dims).map fun x => (vec dims l).getD (flat dims x) 0 := by
    have : ((fullBase dims).map fun x => (vec dims l).getD (flat dims x) 0) = (List.range dims.prod).map fun j => (vec dims l).getD j 0 := by
      rw [← fullBase_flat, List.map_map]; rfl
    rw [this]
    apply List.ext_getElem (by simp [h1])
    intro i h4 h5
    rw [List.getElem_map, List.getElem_range, List.getD_eq_getElem _ _ h4]
  rw [e, sum_fullBase]
  have hnd : (l.map Prod.snd).Nodup := by
    refine hl.nodup.map_on fun a ha b hb hab => ?_
    have := hl.func hG hn (s := a.1) (t := b.1) (e := a.2) ha (by rw [hab]; exact hb)
    exact Prod.ext this hab
  have hsub : (l.map Prod.snd).toFinset ⊆ (fullBase dims).toFinset := by
    intro x hx
    rw [List.mem_toFinset, List.mem_map] at hx
    obtain ⟨r, hr, rfl⟩ := hx
    rw [List.mem_toFinset]; exact hl.box hG hn hd hr
  rw [← Finset.sum_subset hsub]
  · rw [List.sum_toFinset _ hnd, List.map_map]
    have : l.map ((fun x => (vec dims l).getD (flat dims x) 0) ∘ Prod.snd) = l.map fun r => (r.1 : ℝ) * (1 / Real.sqrt l.length) := by
      refine List.map_congr_left fun r hr => ?_
      simp only [Function.comp_apply]
      rw [h2 r hr]; ring
    rw [this, List.sum_map_mul_right]
    have hz : ∀ (l : List SPerm), ((l.map Prod.fst).sum : ℤ) = (l.map fun r => (r.1 : ℝ)).sum := by
      intro l
      induction l with
      | nil => simp
      | cons a l ih => simp [← ih]
    rw [hz]; ring
  · intro x hx hno
    rw [List.mem_toFinset] at hx hno
    exact h3 x hx (fun s hs => hno (List.mem_map.mpr ⟨_, hs, rfl⟩))

theorem key_nonneg {X : Finset (Finset SPerm)} (hX : X ∈ reducePermutationBase G dims) : 0 ≤ ((pick X).map Prod.fst).sum := by
  obtain ⟨x, hx, hg, rfl⟩ := mem_base.mp hX
  have k1 := maxKey_le (fun xs => (xs.map Prod.fst).sum) (mem_lists.mpr ⟨orbit G x, by simp, rfl⟩ : _ ∈ lists {orbit G x, negOrbit (orbit G x)})
  have k2 := maxKey_le (fun xs => (xs.map Prod.fst).sum) (mem_lists.mpr ⟨negOrbit (orbit G x), by simp, rfl⟩ : _ ∈ lists {orbit G x, negOrbit (orbit G x)})
  have e1 : ∀ O : Finset SPerm, ((pySorted ltPair O.toList).map Prod.fst).sum = ∑ q ∈ O, q.1 := by
    intro O
    rw [((pySorted_perm _ _).map _).sum_eq, Finset.sum_map_toList]
  rw [e1] at k1 k2
  have e2 : ∑ q ∈ negOrbit (orbit G x), q.1 = - ∑ q ∈ orbit G x, q.1 := by
    unfold negOrbit
    rw [Finset.sum_image (fun a _ b _ h => by
      simp only [Prod.mk.injEq, neg_inj] at h
      exact Prod.ext h.1 h.2), ← Finset.sum_neg_distrib]
  rw [e2] at k2
  unfold pick
  omega

theorem row_sum_nonneg (hG : IsSGroup n G) (hn : dims.length = n) (hd : Compat G dims) {v : List ℝ} (h : v ∈ (sortedBase (reducePermutationBase G dims)).map (row dims)) : 0 ≤ v.sum := by
  obtain ⟨X, hX, rfl⟩ := row_forms h
  rw [sum_vec hG hn hd (pick_isRow hX)]
  exact div_nonneg (by exact_mod_cast key_nonneg hX) (Real.sqrt_nonneg _)

/-! ### Subgroups -/

/-- `p` fixes every index outside `sub`. -/
def FixesOutside (sub p : List ℕ) : Prop := ∀ j < p.length, j ∉ sub → p.getD j 0 = j

/-- The restriction to `sub`. -/
def restr (sub p : List ℕ) : List ℕ := sub.map fun j => sub.idxOf (p.getD j 0)

theorem fixes_iff {sub p : List ℕ} (hp : p.Perm (List.range n)) (hs : ∀ j ∈ sub, j < n) :
    ((p.zipIdx).all fun ij => sub.contains ij.1 || ij.1 == ij.2) = true ↔ FixesOutside sub p := by
  have hl := len_of hp
  rw [List.all_eq_true]
  constructor
  · intro h
    -- positions holding an index of `sub` are as many as `sub`
    by_contra hcon
    unfold FixesOutside at hcon
    push Not at hcon
    obtain ⟨j, hj, hjs, hne⟩ := hcon
    have hstep : ∀ k < n, p.getD k 0 ∉ sub → p.getD k 0 = k := by
      intro k hk hks
      have := h (p.getD k 0, k) (by
        rw [List.mem_zipIdx_iff_getElem?, List.getElem?_eq_getElem (by omega), List.getD_eq_getElem _ _ (by omega)])
      simp only [Bool.or_eq_true, List.contains_iff_mem, beq_iff_eq] at this
      rcases this with this | this
      · exact absurd this hks
      · exact this
    -- `j` itself sits at some position `k`; since it is outside `sub`, `k = j`
    have hj' : j < n := by omega
    have hk := idxOf_lt hp hj'
    have e := getD_idxOf hp hj'
    have := hstep _ hk (by rw [e]; exact hjs)
    rw [e] at this
    rw [← this] at e
    exact hne e
  · intro h ij hij
    obtain ⟨i, j⟩ := ij
    rw [List.mem_zipIdx_iff_getElem?] at hij
    simp only at hij
    obtain ⟨hlt, rfl⟩ := List.getElem?_eq_some_iff.mp hij
    simp only [Bool.or_eq_true, List.contains_iff_mem, beq_iff_eq]
    by_cases hj : j ∈ sub
    · left
      by_contra hn
      have hlt' : p[j] < n := (mem_of hp _).mp (List.getElem_mem _)
      have := h p[j] (by omega) hn
      have e : p.getD j 0 = p[j] := List.getD_eq_getElem _ _ hlt
      have : p[j] = j := getD_inj hp hlt' (by omega) (by rw [this, e])
      rw [this] at hn
      exact hn hj
    · right
      have := h j hlt hj
      rwa [List.getD_eq_getElem _ _ hlt] at this

theorem fixes_maps {sub p : List ℕ} (hp : p.Perm (List.range n)) (h : FixesOutside sub p) {j : ℕ} (hj : j ∈ sub) (hjn : j < n) : p.getD j 0 ∈ sub := by
  by_contra hno
  have h1 := getD_lt hp hjn
  have h2 := h _ (by rw [len_of hp]; exact h1) hno
  have := getD_inj hp h1 hjn h2
  rw [this] at hno
  exact hno hj

theorem filter_eq_restr {sub p : List ℕ} (hp : p.Perm (List.range n)) (hs : ∀ j ∈ sub, j < n) (hsort : sub.Pairwise (· < ·)) (h : FixesOutside sub p) :
    (p.filter fun i => sub.contains i).map sub.idxOf = restr sub p := by
  have e1 : p = (List.range n).map fun j => p.getD j 0 := by
    apply List.ext_getElem (by simp [len_of hp])
    intro i h1 h2
    rw [List.getElem_map, List.getElem_range, List.getD_eq_getElem _ _ h1]
  have e2 : (p.filter fun i => sub.contains i) = ((List.range n).filter fun j => sub.contains j).map fun j => p.getD j 0 := by
    conv_lhs => rw [e1]
    rw [List.filter_map]
    congr 1
    refine List.filter_congr fun j hj => ?_
    have hjn := List.mem_range.mp hj
    simp only [Function.comp_apply]
    rw [Bool.eq_iff_iff, List.contains_iff_mem, List.contains_iff_mem]
    constructor
    · intro hm
      by_contra hno
      rw [h j (by rw [len_of hp]; exact hjn) hno] at hm
      exact hno hm
    · intro hm
      exact fixes_maps hp h hm hjn
  have e3 : (List.range n).filter (fun j => sub.contains j) = sub := by
    refine List.Perm.eq_of_pairwise' (r := (· < ·)) ?_ hsort ?_
    · exact List.Pairwise.filter _ List.pairwise_lt_range
    · refine (List.perm_ext_iff_of_nodup (List.nodup_range.filter _) (hsort.imp (fun h => Nat.ne_of_lt h))).mpr fun j => ?_
      rw [List.mem_filter, List.mem_range, List.contains_iff_mem]
      exact ⟨fun h => h.2, fun h => ⟨hs j h, h⟩⟩
  rw [e2, e3, List.map_map]
  rfl

theorem mem_subrepr (hG : IsSGroup n G) {sub : List ℕ} (hs : ∀ j ∈ sub, j < n) (hsort : sub.Pairwise (· < ·)) {r : SPerm} :
    r ∈ subrepr sub G ↔ ∃ q ∈ G, FixesOutside sub q.2 ∧ r = (q.1, restr sub q.2) := by
  unfold subrepr
  rw [Finset.mem_image]
  constructor
  · rintro ⟨q, hq, rfl⟩
    rw [Finset.mem_filter] at hq
    have hf := (fixes_iff (hG.perm q hq.1) hs).mp hq.2
    exact ⟨q, hq.1, hf, by rw [filter_eq_restr (hG.perm q hq.1) hs hsort hf]⟩
  · rintro ⟨q, hq, hf, rfl⟩
    exact ⟨q, Finset.mem_filter.mpr ⟨hq, (fixes_iff (hG.perm q hq) hs).mpr hf⟩, by rw [filter_eq_restr (hG.perm q hq) hs hsort hf]⟩

theorem restr_getD {sub p : List ℕ} {i : ℕ} (hi : i < sub.length) : (restr sub p).getD i 0 = sub.idxOf (p.getD (sub.getD i 0) 0) := by
  unfold restr
  rw [List.getD_eq_getElem _ _ (by simpa using hi), List.getElem_map, List.getD_eq_getElem sub _ hi]

theorem sub_getD_idxOf {sub : List ℕ} {a : ℕ} (h : a ∈ sub) : sub.getD (sub.idxOf a) 0 = a := by
  have := List.idxOf_lt_length_iff.mpr h
  rw [List.getD_eq_getElem _ _ this, List.getElem_idxOf]

theorem sub_idxOf_getD {sub : List ℕ} (hnd : sub.Nodup) {i : ℕ} (hi : i < sub.length) : sub.idxOf (sub.getD i 0) = i := by
  rw [List.getD_eq_getElem _ _ hi]
  exact List.Nodup.idxOf_getElem hnd i hi

theorem getD_mem {sub : List ℕ} {i : ℕ} (hi : i < sub.length) : sub.getD i 0 ∈ sub := by
  rw [List.getD_eq_getElem _ _ hi]; exact List.getElem_mem hi

theorem restr_perm {sub p : List ℕ} (hp : p.Perm (List.range n)) (hs : ∀ j ∈ sub, j < n) (hnd : sub.Nodup) (h : FixesOutside sub p) : (restr sub p).Perm (List.range sub.length) := by
  refine perm_range_of_nodup ?_ (by unfold restr; simp) ?_
  · unfold restr
    refine hnd.map_on fun a ha b hb hab => ?_
    have h1 := fixes_maps hp h ha (hs a ha)
    have h2 := fixes_maps hp h hb (hs b hb)
    have : p.getD a 0 = p.getD b 0 := by
      rw [← sub_getD_idxOf h1, ← sub_getD_idxOf h2, hab]
    exact getD_inj hp (hs a ha) (hs b hb) this
  · intro i hi
    unfold restr at hi
    rw [List.mem_map] at hi
    obtain ⟨a, ha, rfl⟩ := hi
    exact List.idxOf_lt_length_iff.mpr (fixes_maps hp h ha (hs a ha))

theorem fixes_comp {sub p q : List ℕ} (hp : p.Perm (List.range n)) (hq : q.Perm (List.range n)) (h : FixesOutside sub p) (h' : FixesOutside sub q) : FixesOutside sub (Perm.comp p q) := by
  intro j hj hjs
  rw [len_of (comp_perm hp hq)] at hj
  rw [comp_getD hp hj, h' j (by rw [len_of hq]; exact hj) hjs, h j (by rw [len_of hp]; exact hj) hjs]

theorem fixes_inv {sub p : List ℕ} (hp : p.Perm (List.range n)) (h : FixesOutside sub p) : FixesOutside sub (Perm.inv p) := by
  intro j hj hjs
  rw [len_of (inv_perm hp)] at hj
  rw [inv_getD hp hj]
  have := h j (by rw [len_of hp]; exact hj) hjs
  conv_lhs => rw [← this]
  exact idxOf_getD hp hj

theorem restr_comp {sub p q : List ℕ} (hp : p.Perm (List.range n)) (hq : q.Perm (List.range n)) (hs : ∀ j ∈ sub, j < n) (hnd : sub.Nodup) (h : FixesOutside sub p) (h' : FixesOutside sub q) :
    restr sub (Perm.comp p q) = Perm.comp (restr sub p) (restr sub q) := by
  have e1 := restr_perm hp hs hnd h
  have e2 := restr_perm hq hs hnd h'
  apply ext_getD (n := sub.length) (by unfold restr; simp) (len_of (comp_perm e1 e2))
  intro i hi
  have hm := getD_mem hi
  have hm2 := fixes_maps hq h' hm (hs _ hm)
  rw [restr_getD hi, comp_getD e1 hi, restr_getD hi, restr_getD (List.idxOf_lt_length_iff.mpr hm2), sub_getD_idxOf hm2, comp_getD hp (hs _ hm)]

theorem restr_id {sub : List ℕ} (hs : ∀ j ∈ sub, j < n) (hnd : sub.Nodup) : restr sub (identity n) = identity sub.length := by
  apply ext_getD (n := sub.length) (by unfold restr; simp) (len_of (id_perm _))
  intro i hi
  rw [restr_getD hi, id_getD (hs _ (getD_mem hi)), sub_idxOf_getD hnd hi, id_getD hi]

theorem subrepr_group (hG : IsSGroup n G) {sub : List ℕ} (hs : ∀ j ∈ sub, j < n) (hsort : sub.Pairwise (· < ·)) : IsSGroup sub.length (subrepr sub G) := by
  have hnd : sub.Nodup := hsort.imp (fun h => Nat.ne_of_lt h)
  refine ⟨?_, ?_, ?_, ?_, ?_⟩
  · intro r hr
    obtain ⟨q, hq, _, rfl⟩ := (mem_subrepr hG hs hsort).mp hr
    exact hG.sign q hq
  · intro r hr
    obtain ⟨q, hq, hf, rfl⟩ := (mem_subrepr hG hs hsort).mp hr
    exact restr_perm (hG.perm q hq) hs hnd hf
  · refine (mem_subrepr hG hs hsort).mpr ⟨_, hG.one, ?_, by rw [restr_id hs hnd]⟩
    intro j hj _
    exact id_getD (by simpa [identity] using hj)
  · intro r hr
    obtain ⟨q, hq, hf, rfl⟩ := (mem_subrepr hG hs hsort).mp hr
    have hp := hG.perm q hq
    refine (mem_subrepr hG hs hsort).mpr ⟨_, hG.inv q hq, fixes_inv hp hf, ?_⟩
    simp only [Prod.mk.injEq, true_and]
    symm
    apply eq_inv_of_comp (restr_perm hp hs hnd hf) (restr_perm (inv_perm hp) hs hnd (fixes_inv hp hf))
    rw [← restr_comp hp (inv_perm hp) hs hnd hf (fixes_inv hp hf), comp_inv hp, restr_id hs hnd]
  · intro r hr r' hr'
    obtain ⟨q, hq, hf, rfl⟩ := (mem_subrepr hG hs hsort).mp hr
    obtain ⟨q', hq', hf', rfl⟩ := (mem_subrepr hG hs hsort).mp hr'
    refine (mem_subrepr hG hs hsort).mpr ⟨_, hG.comp q hq q' hq', fixes_comp (hG.perm q hq) (hG.perm q' hq') hf hf', ?_⟩
    simp only
    rw [restr_comp (hG.perm q hq) (hG.perm q' hq') hs hnd hf hf']

/-- How the restriction acts on multi-indices given by a valuation of the indices. -/
theorem permute_restr {sub p : List ℕ} (hp : p.Perm (List.range n)) (hs : ∀ j ∈ sub, j < n) (h : FixesOutside sub p) (v : ℕ → ℕ) : permute (sub.map v) (restr sub p) = sub.map fun j => v (p.getD j 0) := by
  unfold permute restr
  rw [List.map_map]
  refine List.map_congr_left fun j hj => ?_
  have hm := fixes_maps hp h hj (hs j hj)
  have hlt := List.idxOf_lt_length_iff.mpr hm
  simp only [Function.comp_apply]
  rw [List.getD_eq_getElem _ _ (by simpa using hlt), List.getElem_map, List.getElem_idxOf hlt]

theorem subrepr_compat (hG : IsSGroup n G) (hn : dims.length = n) (hd : Compat G dims) {sub : List ℕ} (hs : ∀ j ∈ sub, j < n) (hsort : sub.Pairwise (· < ·)) : Compat (subrepr sub G) (sub.map fun i => dims.getD i 0) := by
  intro r hr
  obtain ⟨q, hq, hf, rfl⟩ := (mem_subrepr hG hs hsort).mp hr
  have hp := hG.perm q hq
  simp only
  rw [permute_restr hp hs hf]
  refine List.map_congr_left fun j hj => ?_
  have := hd q hq
  conv_rhs => rw [← this]
  unfold permute
  rw [List.getD_eq_getElem (q.2.map _) _ (by rw [List.length_map, len_of hp]; exact hs j hj), List.getElem_map, List.getD_eq_getElem q.2 _ (by rw [len_of hp]; exact hs j hj)]

end E3nn.PermRepr
