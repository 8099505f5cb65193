import Verif.Lemmas.PermRepr2

/-! The rows chosen by `reduce_permutation_matrix`, and the space they span. -/

namespace E3nn.PermRepr

open E3nn.Perm

variable {n : ℕ} {G : Finset SPerm} {dims : List ℕ}

theorem maxKey_mem (key : List SPerm → ℤ) {x : List (List SPerm)} (h : x ≠ []) : maxKey key x ∈ x := by
  cases x with
  | nil => exact absurd rfl h
  | cons a l =>
    have : ∀ (l : List (List SPerm)) (m : List SPerm), l.foldl (fun m b => if key m < key b then b else m) m = m ∨ l.foldl (fun m b => if key m < key b then b else m) m ∈ l := by
      intro l
      induction l with
      | nil => intro m; exact .inl rfl
      | cons b l ih =>
        intro m
        rw [List.foldl_cons]
        rcases ih (if key m < key b then b else m) with h | h
        · rw [h]
          split
          · exact .inr (by simp)
          · exact .inl rfl
        · exact .inr (List.mem_cons_of_mem _ h)
    show l.foldl (fun m b => if key m < key b then b else m) a ∈ a :: l
    rcases this l a with h | h
    · rw [h]; simp
    · exact List.mem_cons_of_mem _ h

theorem maxKey_le (key : List SPerm → ℤ) {x : List (List SPerm)} {b : List SPerm} (h : b ∈ x) : key b ≤ key (maxKey key x) := by
  cases x with
  | nil => simp at h
  | cons a l =>
    have : ∀ (l : List (List SPerm)) (m : List SPerm), key m ≤ key (l.foldl (fun m b => if key m < key b then b else m) m) ∧ ∀ b ∈ l, key b ≤ key (l.foldl (fun m b => if key m < key b then b else m) m) := by
      intro l
      induction l with
      | nil => intro m; exact ⟨le_refl _, by simp⟩
      | cons c l ih =>
        intro m
        rw [List.foldl_cons]
        obtain ⟨h1, h2⟩ := ih (if key m < key c then c else m)
        have hm : key m ≤ key (if key m < key c then c else m) := by split <;> omega
        have hc : key c ≤ key (if key m < key c then c else m) := by split <;> omega
        refine ⟨hm.trans h1, fun b hb => ?_⟩
        rcases List.mem_cons.mp hb with rfl | hb
        · exact hc.trans h1
        · exact h2 b hb
    unfold maxKey
    rcases List.mem_cons.mp h with rfl | h
    · exact (this l b).1
    · exact (this l a).2 b h

/-- The list of lists of one element of the base. -/
noncomputable def lists (X : Finset (Finset SPerm)) : List (List SPerm) := pySorted (ltList ltPair) (X.toList.map fun xs => pySorted ltPair xs.toList)

/-- The chosen list. -/
noncomputable def pick (X : Finset (Finset SPerm)) : List SPerm := maxKey (fun xs => (xs.map Prod.fst).sum) (lists X)

theorem mem_lists {X : Finset (Finset SPerm)} {l : List SPerm} : l ∈ lists X ↔ ∃ O ∈ X, pySorted ltPair O.toList = l := by
  unfold lists
  rw [(pySorted_perm _ _).mem_iff, List.mem_map]
  simp

theorem pick_mem {X : Finset (Finset SPerm)} (h : X.Nonempty) : ∃ O ∈ X, pySorted ltPair O.toList = pick X := by
  obtain ⟨O, hO⟩ := h
  exact mem_lists.mp (maxKey_mem _ (List.ne_nil_of_mem (mem_lists.mpr ⟨O, hO, rfl⟩)))

theorem mem_base {X : Finset (Finset SPerm)} : X ∈ reducePermutationBase G dims ↔ ∃ x ∈ fullBase dims, ((-1, x) : SPerm) ∉ orbit G x ∧ X = {orbit G x, negOrbit (orbit G x)} := by
  unfold reducePermutationBase
  rw [List.mem_toFinset, List.mem_map]
  constructor
  · rintro ⟨x, hx, rfl⟩
    rw [List.mem_filter] at hx
    exact ⟨x, hx.1, by simpa using hx.2, rfl⟩
  · rintro ⟨x, hx, hg, rfl⟩
    exact ⟨x, List.mem_filter.mpr ⟨hx, by simpa using hg⟩, rfl⟩

theorem pick_row {x : List ℕ} (hx : x ∈ fullBase dims) (hg : ((-1, x) : SPerm) ∉ orbit G x) :
    (pick {orbit G x, negOrbit (orbit G x)}).Nodup ∧ ∃ s : ℤ, (s = 1 ∨ s = -1) ∧ ∀ r : SPerm, r ∈ pick {orbit G x, negOrbit (orbit G x)} ↔ (s * r.1, r.2) ∈ orbit G x := by
  obtain ⟨O, hO, he⟩ := pick_mem (X := {orbit G x, negOrbit (orbit G x)}) ⟨orbit G x, by simp⟩
  rw [← he]
  have hm : ∀ r, r ∈ pySorted ltPair O.toList ↔ r ∈ O := fun r => by rw [(pySorted_perm _ _).mem_iff, Finset.mem_toList]
  refine ⟨(pySorted_perm _ _).nodup_iff.mpr (Finset.nodup_toList O), ?_⟩
  rw [Finset.mem_insert, Finset.mem_singleton] at hO
  rcases hO with rfl | rfl
  · exact ⟨1, .inl rfl, fun r => by rw [hm]; simp⟩
  · exact ⟨-1, .inr rfl, fun r => by rw [hm, mem_negOrbit]; simp⟩

theorem pick_isRow {X : Finset (Finset SPerm)} (hX : X ∈ reducePermutationBase G dims) : IsRow G dims (pick X) := by
  obtain ⟨x, hx, hg, rfl⟩ := mem_base.mp hX
  obtain ⟨h1, h2⟩ := pick_row hx hg
  exact ⟨h1, x, hx, hg, h2⟩

theorem pick_disjoint (hG : IsSGroup n G) (hn : dims.length = n) {X Y : Finset (Finset SPerm)} (hX : X ∈ reducePermutationBase G dims) (hY : Y ∈ reducePermutationBase G dims) (hne : X ≠ Y)
    (s t : ℤ) (e : List ℕ) (h : ((s, e) : SPerm) ∈ pick X) : ((t, e) : SPerm) ∉ pick Y := by
  intro h'
  obtain ⟨x, hx, hg, rfl⟩ := mem_base.mp hX
  obtain ⟨y, hy, hg', rfl⟩ := mem_base.mp hY
  obtain ⟨_, u, _, hm⟩ := pick_row hx hg
  obtain ⟨_, u', _, hm'⟩ := pick_row hy hg'
  exact hne (shared hG hn hx hy hm hm' h h')

/-- The matrix, before sorting. -/
theorem matrix_perm : ((sortedBase (reducePermutationBase G dims)).map (row dims)).Perm ((reducePermutationBase G dims).toList.map fun X => vec dims (pick X)) := by
  unfold sortedBase
  refine ((pySorted_perm _ _).map _).trans ?_
  rw [List.map_map]
  exact List.Perm.refl _

theorem pairwise_dot (hG : IsSGroup n G) (hn : dims.length = n) (hd : Compat G dims) :
    ((sortedBase (reducePermutationBase G dims)).map (row dims)).Pairwise fun a b => dotRows a b = 0 ∧ dotRows b a = 0 := by
  have hp := matrix_perm (G := G) (dims := dims)
  refine (hp.pairwise_iff (fun {a b} h => ⟨h.2, h.1⟩)).mpr ?_
  rw [List.pairwise_map]
  have hnd := (reducePermutationBase G dims).nodup_toList
  refine List.Pairwise.imp_of_mem ?_ hnd
  intro X Y hX hY hne
  rw [Finset.mem_toList] at hX hY
  exact ⟨ent_cross hG hn hd (pick_isRow hX) (pick_isRow hY) (pick_disjoint hG hn hX hY hne), ent_cross hG hn hd (pick_isRow hY) (pick_isRow hX) (pick_disjoint hG hn hY hX hne.symm)⟩

theorem row_forms {v : List ℝ} (h : v ∈ (sortedBase (reducePermutationBase G dims)).map (row dims)) : ∃ X ∈ reducePermutationBase G dims, v = vec dims (pick X) := by
  rw [(matrix_perm (G := G) (dims := dims)).mem_iff, List.mem_map] at h
  obtain ⟨X, hX, rfl⟩ := h
  exact ⟨X, Finset.mem_toList.mp hX, rfl⟩

theorem matrix_ok (hG : IsSGroup n G) (hn : dims.length = n) (hd : Compat G dims) :
    reducePermutationMatrix (reducePermutationBase G dims) dims = .ok ((sortedBase (reducePermutationBase G dims)).map (row dims)) := by
  unfold reducePermutationMatrix
  simp only
  rw [if_pos]
  intro i hi j hj
  rw [List.getD_eq_getElem _ _ hi, List.getD_eq_getElem _ _ hj]
  have hpw := List.pairwise_iff_getElem.mp (pairwise_dot hG hn hd)
  rcases lt_trichotomy i j with h | h | h
  · rw [if_neg (by omega)]; exact (hpw i j hi hj h).1
  · subst h
    rw [if_pos rfl]
    obtain ⟨X, hX, he⟩ := row_forms (List.getElem_mem hi)
    rw [he]
    exact ent_self hG hn hd (pick_isRow hX)
  · rw [if_neg (by omega)]; exact (hpw j i hj hi h).2

/-! ### The span -/

/-- `T` is symmetric under the signed permutations. -/
def Sym (G : Finset SPerm) (dims : List ℕ) (T : List ℕ → ℝ) : Prop := ∀ q ∈ G, ∀ x ∈ fullBase dims, T x = q.1 * T (permute x q.2)

noncomputable def coef (T : List ℕ → ℝ) (l : List SPerm) : ℝ :=
  match l with
  | [] => 0
  | q :: l => Real.sqrt (q :: l).length * (q.1 * T q.2)

theorem sym_orbit {T : List ℕ → ℝ} (hT : Sym G dims T) {x : List ℕ} (hx : x ∈ fullBase dims) {r : SPerm} (h : r ∈ orbit G x) : T x = r.1 * T r.2 := by
  obtain ⟨q, hq, rfl⟩ := mem_orbit.mp h
  exact hT q hq x hx

theorem row_const {T : List ℕ → ℝ} (hT : Sym G dims T) {l : List SPerm} (hl : IsRow G dims l) {r r' : SPerm} (h : r ∈ l) (h' : r' ∈ l) : (r.1 : ℝ) * T r.2 = r'.1 * T r'.2 := by
  obtain ⟨x, hx, hg, s, hs, hm⟩ := hl.ex
  have e1 := sym_orbit hT hx ((hm r).mp h)
  have e2 := sym_orbit hT hx ((hm r').mp h')
  simp only [Int.cast_mul] at e1 e2
  have hs0 : (s : ℝ) ≠ 0 := by rcases hs with rfl | rfl <;> simp
  apply mul_left_cancel₀ hs0
  rw [← mul_assoc, ← mul_assoc, ← e1, ← e2]

theorem coef_spec (hG : IsSGroup n G) (hn : dims.length = n) (hd : Compat G dims) {T : List ℕ → ℝ} (hT : Sym G dims T) {l : List SPerm} (hl : IsRow G dims l) {s : ℤ} {x : List ℕ} (h : ((s, x) : SPerm) ∈ l) :
    T x = coef T l * ent dims (vec dims l) x := by
  obtain ⟨_, h2, _⟩ := vec_spec hG hn hd hl
  have e := h2 _ h
  simp only at e
  unfold ent
  rw [e]
  have hss : (s : ℝ) * s = 1 := by exact_mod_cast sq_sign (hl.sign hG h)
  cases l with
  | nil => simp at h
  | cons q l =>
    have hq := row_const hT hl (r := q) (r' := (s, x)) (by simp) h
    show T x = Real.sqrt (q :: l).length * (q.1 * T q.2) * _
    rw [hq]
    simp only
    have hlen : (0 : ℝ) < ((q :: l).length : ℝ) := by simp; positivity
    have h0 := (Real.sqrt_pos.mpr hlen).ne'
    field_simp
    linear_combination (-(T x)) * hss

theorem span_forward (hG : IsSGroup n G) (hn : dims.length = n) (hd : Compat G dims) {T : List ℕ → ℝ} (hT : Sym G dims T) {x : List ℕ} (hx : x ∈ fullBase dims) :
    T x = ∑ X ∈ reducePermutationBase G dims, coef T (pick X) * ent dims (vec dims (pick X)) x := by
  by_cases hg : ((-1, x) : SPerm) ∈ orbit G x
  · have h0 : T x = 0 := by
      have := sym_orbit hT hx hg
      simp at this
      linarith
    rw [h0]
    symm
    refine Finset.sum_eq_zero fun X hX => ?_
    have hl := pick_isRow hX
    rw [show ent dims (vec dims (pick X)) x = 0 from ?_, mul_zero]
    refine (vec_spec hG hn hd hl).2.2 x hx fun s hs => ?_
    obtain ⟨y, hy, hgy, u, hu, hm⟩ := hl.ex
    exact good_member hG (len_of_mem hn hy) ((hm (s, x)).mp hs) hgy hg
  · have hX : ({orbit G x, negOrbit (orbit G x)} : Finset (Finset SPerm)) ∈ reducePermutationBase G dims := mem_base.mpr ⟨x, hx, hg, rfl⟩
    obtain ⟨_, s, hs, hm⟩ := pick_row hx hg
    have hmem : ((s, x) : SPerm) ∈ pick {orbit G x, negOrbit (orbit G x)} := (hm _).mpr (by
      simp only; rw [sq_sign hs]; exact orbit_self hG (len_of_mem hn hx))
    rw [Finset.sum_eq_single_of_mem _ hX]
    · exact coef_spec hG hn hd hT (pick_isRow hX) hmem
    · intro Y hY hne
      have : ent dims (vec dims (pick Y)) x = 0 := (vec_spec hG hn hd (pick_isRow hY)).2.2 x hx fun t ht => pick_disjoint hG hn hX hY hne.symm s t x hmem ht
      rw [this, mul_zero]

theorem sum_range_getD (Q : List (List ℝ)) (f : List ℝ → ℝ) : ∑ i ∈ Finset.range Q.length, f (Q.getD i []) = (Q.map f).sum := by
  induction Q with
  | nil => simp
  | cons a Q ih =>
    rw [List.length_cons, Finset.sum_range_succ']
    simp only [List.getD_cons_succ, List.getD_cons_zero, List.map_cons, List.sum_cons]
    rw [ih, add_comm]

end E3nn.PermRepr
