import Verif.Model.Perm
import Verif.Lemmas.Sort
import Mathlib.Data.List.Perm.Subperm
import Mathlib.Data.List.Nodup
import Mathlib.Data.List.GetD
import Mathlib.Tactic.Ring

/-! # Helper lemmas on permutations as lists -/

namespace E3nn

theorem mapM_ok {α β : Type _} {l : List α} {f : α → Except PyErr β} {g : α → β}
    (h : ∀ a ∈ l, f a = .ok (g a)) : l.mapM f = .ok (l.map g) := by
  induction l with
  | nil => rfl
  | cons a l ih =>
    rw [List.mapM_cons, h a (by simp), ih (fun b hb => h b (by simp [hb]))]
    rfl

theorem eraseDups_sublist {α : Type _} [BEq α] [LawfulBEq α] (l : List α) :
    l.eraseDups.Sublist l := by
  match l with
  | [] => simp
  | a :: l =>
    rw [List.eraseDups_cons]
    have : (l.filter fun b => !b == a).length < (a :: l).length :=
      Nat.lt_of_le_of_lt (List.length_filter_le _ _) (by simp)
    exact ((eraseDups_sublist _).trans List.filter_sublist).cons_cons a
  termination_by l.length

theorem nodup_eraseDups {α : Type _} [BEq α] [LawfulBEq α] (l : List α) : l.eraseDups.Nodup := by
  match l with
  | [] => simp
  | a :: l =>
    rw [List.eraseDups_cons]
    have : (l.filter fun b => !b == a).length < (a :: l).length :=
      Nat.lt_of_le_of_lt (List.length_filter_le _ _) (by simp)
    rw [List.nodup_cons]
    refine ⟨?_, nodup_eraseDups _⟩
    rw [List.mem_eraseDups]
    simp
  termination_by l.length

theorem eraseDups_of_nodup {α : Type _} [BEq α] [LawfulBEq α] {l : List α} (h : l.Nodup) :
    l.eraseDups = l := by
  induction l with
  | nil => rfl
  | cons a l ih =>
    rw [List.nodup_cons] at h
    rw [List.eraseDups_cons]
    have : (l.filter fun b => !b == a) = l := by
      rw [List.filter_eq_self]
      intro b hb
      simp only [Bool.not_eq_eq_eq_not, Bool.not_true, beq_eq_false_iff_ne, ne_eq]
      rintro rfl
      exact h.1 hb
    rw [this, ih h.2]

namespace Perm

theorem sorted_eq_range {l : List Nat} (n : Nat) (h : l.Perm (List.range n)) :
    pySorted (fun a b => decide (a < b)) l = List.range n := by
  apply List.Perm.eq_of_pairwise (le := fun a b => decide (b < a) = false)
  · intro a b _ _ h1 h2
    simp at h1 h2
    omega
  · apply pySorted_pairwise
    · intro a b h1
      simp at *
      omega
    · intro a b c h1 h2
      simp at *
      omega
  · refine List.Pairwise.imp ?_ (List.pairwise_lt_range (n := n))
    intro a b hab
    simp
    omega
  · exact (pySorted_perm _ _).trans h

theorem isPerm_iff (p : List Nat) : isPerm p = true ↔ p.Perm (List.range p.length) := by
  unfold isPerm
  rw [beq_iff_eq]
  constructor
  · intro h
    have h1 : p.eraseDups.Perm (List.range p.length) := by
      rw [← h]
      exact (pySorted_perm _ _).symm
    have h2 : p.eraseDups = p := by
      apply (eraseDups_sublist p).eq_of_length
      simpa using h1.length_eq
    rwa [h2] at h1
  · intro h
    have : p.Nodup := h.nodup_iff.mpr List.nodup_range
    rw [eraseDups_of_nodup this]
    exact sorted_eq_range _ h

/-- A duplicate-free list of length `n` with all entries below `n` is a permutation. -/
theorem perm_range_of_nodup {l : List Nat} {n : Nat} (hn : l.Nodup) (hl : l.length = n)
    (hb : ∀ a ∈ l, a < n) : l.Perm (List.range n) := by
  apply List.Subperm.perm_of_length_le
  · apply List.subperm_of_subset hn
    intro a ha
    simpa using hb a ha
  · simp [hl]

section
variable {p q : List Nat} {n : Nat}

theorem len_of (hp : p.Perm (List.range n)) : p.length = n := by simpa using hp.length_eq
theorem nodup_of (hp : p.Perm (List.range n)) : p.Nodup := hp.nodup_iff.mpr List.nodup_range
theorem mem_of (hp : p.Perm (List.range n)) (i : Nat) : i ∈ p ↔ i < n := by
  rw [hp.mem_iff]; simp

theorem getD_lt (hp : p.Perm (List.range n)) {i : Nat} (hi : i < n) : p.getD i 0 < n := by
  rw [← mem_of hp, List.getD_eq_getElem _ _ (by rw [len_of hp]; exact hi)]
  exact List.getElem_mem _

theorem getD_idxOf (hp : p.Perm (List.range n)) {i : Nat} (hi : i < n) :
    p.getD (p.idxOf i) 0 = i := by
  have h : i ∈ p := (mem_of hp i).mpr hi
  rw [List.getD_eq_getElem _ _ (List.idxOf_lt_length_of_mem h)]
  exact List.getElem_idxOf _

theorem idxOf_getD (hp : p.Perm (List.range n)) {i : Nat} (hi : i < n) :
    p.idxOf (p.getD i 0) = i := by
  have hl : i < p.length := by rw [len_of hp]; exact hi
  rw [List.getD_eq_getElem _ _ hl]
  exact (nodup_of hp).idxOf_getElem _ hl

theorem idxOf_lt (hp : p.Perm (List.range n)) {i : Nat} (hi : i < n) : p.idxOf i < n := by
  have := List.idxOf_lt_length_of_mem ((mem_of hp i).mpr hi)
  rwa [len_of hp] at this

theorem getD_inj (hp : p.Perm (List.range n)) {i j : Nat} (hi : i < n) (hj : j < n)
    (h : p.getD i 0 = p.getD j 0) : i = j := by
  rw [← idxOf_getD hp hi, h, idxOf_getD hp hj]

theorem map_perm_range {f : Nat → Nat} (hf : ∀ i < n, f i < n)
    (hi : ∀ i < n, ∀ j < n, f i = f j → i = j) : ((List.range n).map f).Perm (List.range n) := by
  apply perm_range_of_nodup
  · apply List.Nodup.map_on _ List.nodup_range
    intro a ha b hb h
    simp at ha hb
    exact hi a ha b hb h
  · simp
  · intro a ha
    simp at ha
    obtain ⟨i, h1, rfl⟩ := ha
    exact hf i h1

/-- The list `i ↦ p[q[i]]`. -/
def comp (p q : List Nat) : List Nat :=
  (List.range p.length).map fun i => p.getD (q.getD i 0) 0

/-- The list `i ↦ p.index(i)`. -/
def inv (p : List Nat) : List Nat := (List.range p.length).map p.idxOf

theorem getD_map_range (f : Nat → Nat) {i : Nat} (hi : i < n) :
    ((List.range n).map f).getD i 0 = f i := by
  rw [List.getD_eq_getElem _ _ (by simpa using hi)]
  simp

theorem compose_eq (hp : p.Perm (List.range n)) (hq : q.Perm (List.range n)) :
    compose p q = .ok (comp p q) := by
  have h1 : isPerm p = true := (isPerm_iff p).mpr (by rwa [len_of hp])
  have h2 : isPerm q = true := (isPerm_iff q).mpr (by rwa [len_of hq])
  unfold compose
  simp [h1, h2, len_of hp, len_of hq, comp]

theorem inverse_eq (hp : p.Perm (List.range n)) : inverse p = .ok (inv p) := by
  unfold inverse inv
  apply mapM_ok
  intro i hi
  unfold pyIndex
  rw [len_of hp] at hi
  have : i ∈ p := (mem_of hp i).mpr (by simpa using hi)
  simp [this]

theorem comp_perm (hp : p.Perm (List.range n)) (hq : q.Perm (List.range n)) :
    (comp p q).Perm (List.range n) := by
  unfold comp
  rw [len_of hp]
  apply map_perm_range
  · intro i hi; exact getD_lt hp (getD_lt hq hi)
  · intro i hi j hj h
    exact getD_inj hq hi hj (getD_inj hp (getD_lt hq hi) (getD_lt hq hj) h)

theorem inv_perm (hp : p.Perm (List.range n)) : (inv p).Perm (List.range n) := by
  unfold inv
  rw [len_of hp]
  apply map_perm_range
  · intro i hi; exact idxOf_lt hp hi
  · intro i hi j hj h
    rw [← getD_idxOf hp hi, h, getD_idxOf hp hj]

theorem comp_getD (hp : p.Perm (List.range n)) {i : Nat} (hi : i < n) :
    (comp p q).getD i 0 = p.getD (q.getD i 0) 0 := by
  unfold comp
  rw [len_of hp]
  exact getD_map_range _ hi

theorem inv_getD (hp : p.Perm (List.range n)) {i : Nat} (hi : i < n) :
    (inv p).getD i 0 = p.idxOf i := by
  unfold inv
  rw [len_of hp]
  exact getD_map_range _ hi

/-- Lists of the same length with the same subscripts are equal. -/
theorem ext_getD {a b : List Nat} (ha : a.length = n) (hb : b.length = n)
    (h : ∀ i < n, a.getD i 0 = b.getD i 0) : a = b := by
  apply List.ext_getElem (by omega)
  intro i h1 h2
  have := h i (by omega)
  rwa [List.getD_eq_getElem _ _ h1, List.getD_eq_getElem _ _ h2] at this

theorem comp_assoc {r : List Nat} (hp : p.Perm (List.range n)) (hq : q.Perm (List.range n))
    (hr : r.Perm (List.range n)) : comp (comp p q) r = comp p (comp q r) := by
  apply ext_getD (len_of (comp_perm (comp_perm hp hq) hr)) (len_of (comp_perm hp (comp_perm hq hr)))
  intro i hi
  rw [comp_getD (comp_perm hp hq) hi, comp_getD hp (getD_lt hr hi), comp_getD hp hi, comp_getD hq hi]

theorem id_perm (n : Nat) : (identity n).Perm (List.range n) := List.Perm.refl _

theorem id_getD {i : Nat} (hi : i < n) : (identity n).getD i 0 = i := by
  unfold identity
  rw [List.getD_eq_getElem _ _ (by simpa using hi)]
  simp

theorem id_comp (hp : p.Perm (List.range n)) : comp (identity n) p = p := by
  apply ext_getD (len_of (comp_perm (id_perm n) hp)) (len_of hp)
  intro i hi
  rw [comp_getD (id_perm n) hi, id_getD (getD_lt hp hi)]

theorem comp_id (hp : p.Perm (List.range n)) : comp p (identity n) = p := by
  apply ext_getD (len_of (comp_perm hp (id_perm n))) (len_of hp)
  intro i hi
  rw [comp_getD hp hi, id_getD hi]

theorem comp_inv (hp : p.Perm (List.range n)) : comp p (inv p) = identity n := by
  apply ext_getD (len_of (comp_perm hp (inv_perm hp))) (len_of (id_perm n))
  intro i hi
  rw [comp_getD hp hi, inv_getD hp hi, getD_idxOf hp hi, id_getD hi]

theorem inv_comp (hp : p.Perm (List.range n)) : comp (inv p) p = identity n := by
  apply ext_getD (len_of (comp_perm (inv_perm hp) hp)) (len_of (id_perm n))
  intro i hi
  rw [comp_getD (inv_perm hp) hi, inv_getD hp (getD_lt hp hi), idxOf_getD hp hi, id_getD hi]

/-- The inverse is unique. -/
theorem eq_inv_of_comp {r : List Nat} (hp : p.Perm (List.range n)) (hr : r.Perm (List.range n))
    (h : comp p r = identity n) : r = inv p := by
  have : comp (inv p) (comp p r) = comp (inv p) (identity n) := by rw [h]
  rw [← comp_assoc (inv_perm hp) hp hr, inv_comp hp, id_comp hr, comp_id (inv_perm hp)] at this
  exact this

theorem inv_inv (hp : p.Perm (List.range n)) : inv (inv p) = p :=
  (eq_inv_of_comp (inv_perm hp) hp (inv_comp hp)).symm

theorem inv_comp_rev (hp : p.Perm (List.range n)) (hq : q.Perm (List.range n)) :
    inv (comp p q) = comp (inv q) (inv p) := by
  symm
  apply eq_inv_of_comp (comp_perm hp hq) (comp_perm (inv_perm hq) (inv_perm hp))
  rw [comp_assoc hp hq (comp_perm (inv_perm hq) (inv_perm hp)),
    ← comp_assoc hq (inv_perm hq) (inv_perm hp), comp_inv hq, id_comp (inv_perm hp), comp_inv hp]

end

/-! ### ranking -/

theorem eraseIdx_idxOf_perm {pool : List Nat} {j : Nat} (h : j ∈ pool) :
    pool.Perm (j :: pool.eraseIdx (pool.idxOf j)) := by
  rw [← List.erase_eq_eraseIdx_of_idxOf rfl]
  exact List.perm_cons_erase h

theorem getD_eraseIdx_perm {pool : List Nat} {j : Nat} (h : j < pool.length) :
    pool.Perm (pool.getD j 0 :: pool.eraseIdx j) := by
  rw [List.getD_eq_getElem _ _ h]
  exact (List.getElem_cons_eraseIdx_perm h).symm

theorem fromIntLoop_perm (k : Nat) (pool : List Nat) (i : Nat) (h : pool.length = k) :
    (fromIntLoop k pool i).Perm pool := by
  induction k generalizing pool i with
  | zero =>
    have : pool = [] := List.length_eq_zero_iff.mp h
    subst this; simp [fromIntLoop]
  | succ k ih =>
    unfold fromIntLoop
    have hj : i % pool.length < pool.length := Nat.mod_lt _ (by omega)
    refine List.Perm.trans ?_ (getD_eraseIdx_perm hj).symm
    apply List.Perm.cons
    apply ih
    rw [List.length_eraseIdx_of_lt hj]
    omega

theorem toIntLoop_fromIntLoop (k : Nat) (pool : List Nat) (i acc m : Nat)
    (h : pool.length = k) (hn : pool.Nodup) :
    toIntLoop (fromIntLoop k pool i) pool acc m = .ok (acc + m * (i % factorial k)) := by
  induction k generalizing pool i acc m with
  | zero => simp [fromIntLoop, toIntLoop, factorial, Nat.mod_one]
  | succ k ih =>
    have hj : i % pool.length < pool.length := Nat.mod_lt _ (by omega)
    have hmem : pool.getD (i % pool.length) 0 ∈ pool := by
      rw [List.getD_eq_getElem _ _ hj]
      exact List.getElem_mem _
    have hidx : pool.idxOf (pool.getD (i % pool.length) 0) = i % pool.length := by
      rw [List.getD_eq_getElem _ _ hj]
      exact hn.idxOf_getElem _ hj
    unfold fromIntLoop
    simp only
    unfold toIntLoop pyIndex
    rw [if_pos (by simpa using hmem), hidx]
    simp only
    rw [ih]
    · congr 1
      rw [show factorial (k + 1) = (k + 1) * factorial k from rfl, h, Nat.mod_mul]
      ring
    · rw [List.length_eraseIdx_of_lt hj]
      omega
    · exact hn.sublist (List.eraseIdx_sublist _ _)

theorem factorial_pos (k : Nat) : 0 < factorial k := by
  induction k with
  | zero => simp [factorial]
  | succ k ih => exact Nat.mul_pos (by omega) ih

theorem fromIntLoop_toIntLoop (p : List Nat) (pool : List Nat) (acc m : Nat)
    (h : p.Perm pool) :
    ∃ t, t < factorial p.length ∧ toIntLoop p pool acc m = .ok (acc + m * t) ∧
      fromIntLoop p.length pool t = p := by
  induction p generalizing pool acc m with
  | nil => exact ⟨0, by simp [factorial], by simp [toIntLoop], rfl⟩
  | cons j js ih =>
    have hmem : j ∈ pool := h.mem_iff.mp (by simp)
    have hlt : pool.idxOf j < pool.length := List.idxOf_lt_length_of_mem hmem
    have hlen : pool.length = js.length + 1 := by simpa using h.length_eq.symm
    have hp : js.Perm (pool.eraseIdx (pool.idxOf j)) := by
      have := h.trans (eraseIdx_idxOf_perm hmem)
      exact (List.perm_cons j).mp this
    obtain ⟨t, ht, h1, h2⟩ := ih (pool.eraseIdx (pool.idxOf j)) (acc + pool.idxOf j * m)
      (m * pool.length) hp
    refine ⟨pool.idxOf j + pool.length * t, ?_, ?_, ?_⟩
    · simp only [List.length_cons, factorial]
      rw [hlen] at hlt ⊢
      calc pool.idxOf j + (js.length + 1) * t < (js.length + 1) + (js.length + 1) * t := by omega
        _ = (js.length + 1) * (t + 1) := by ring
        _ ≤ (js.length + 1) * factorial js.length := Nat.mul_le_mul_left _ ht
    · unfold toIntLoop pyIndex
      rw [if_pos (by simpa using hmem)]
      simp only
      rw [h1]
      congr 1
      ring
    · simp only [List.length_cons]
      unfold fromIntLoop
      simp only
      have e1 : (pool.idxOf j + pool.length * t) % pool.length = pool.idxOf j := by
        rw [Nat.add_mul_mod_self_left, Nat.mod_eq_of_lt hlt]
      have e2 : (pool.idxOf j + pool.length * t) / pool.length = t := by
        rw [Nat.add_mul_div_left _ _ (by omega), Nat.div_eq_of_lt hlt, Nat.zero_add]
      rw [e1, e2, h2]
      congr 1
      rw [List.getD_eq_getElem _ _ hlt]
      exact List.getElem_idxOf _

end Perm
end E3nn
