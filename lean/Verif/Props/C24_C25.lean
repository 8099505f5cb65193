import Verif.Lemmas.Perm
import Verif.Spec.Perm

/-! # C24, C25: permutations -/

namespace E3nn
open Perm

theorem isBij_iff_perm (n : Nat) (p : List Nat) : IsBij n p ↔ p.Perm (List.range n) := by
  constructor
  · rintro ⟨h1, h2, _, h4⟩
    apply perm_range_of_nodup _ h1 h2
    rw [List.nodup_iff_injective_getElem]
    rintro ⟨i, hi⟩ ⟨j, hj⟩ h
    have := h4 i j (by omega) (by omega) (by
      rw [List.getElem?_eq_getElem hi, List.getElem?_eq_getElem hj]
      exact congrArg some h)
    simp [this]
  · intro h
    refine ⟨len_of h, fun i hi => (mem_of h i).mp hi, fun j hj => (mem_of h j).mpr hj, ?_⟩
    intro i j hi hj hij
    apply getD_inj h hi hj
    simp [List.getD, hij]

/-- `is_perm` decides being a bijection of `range(len(p))`. -/
theorem C24_isPerm_iff (p : List Nat) : isPerm p = true ↔ IsBij p.length p := by
  rw [isBij_iff_perm, isPerm_iff]

/-- On permutations of the same `n`, `compose` succeeds, returns a permutation, and
`compose(p, q)[i] = p[q[i]]`. -/
theorem C24_compose_spec {n : Nat} {p q : List Nat} (hp : IsBij n p) (hq : IsBij n q) :
    ∃ r, compose p q = .ok r ∧ IsBij n r ∧
      ∀ i, i < n → ∃ j, q[i]? = some j ∧ r[i]? = p[j]? := by
  rw [isBij_iff_perm] at hp hq
  refine ⟨comp p q, compose_eq hp hq, (isBij_iff_perm _ _).mpr (comp_perm hp hq), ?_⟩
  intro i hi
  have h1 := comp_getD (q := q) hp hi
  have hqi : i < q.length := by rw [len_of hq]; exact hi
  refine ⟨q.getD i 0, by simp [List.getD, hqi], ?_⟩
  have l1 : i < (comp p q).length := by rw [len_of (comp_perm hp hq)]; exact hi
  have l2 : q.getD i 0 < p.length := by rw [len_of hp]; exact getD_lt hq hi
  rw [List.getElem?_eq_getElem l1, List.getElem?_eq_getElem l2,
    ← List.getD_eq_getElem _ 0 l1, ← List.getD_eq_getElem _ 0 l2, h1]

/-- `compose` refuses tuples that are not permutations, or of different lengths. -/
theorem C24_compose_rejects (p q : List Nat)
    (h : ¬ IsBij p.length p ∨ ¬ IsBij q.length q ∨ p.length ≠ q.length) :
    compose p q = .error .assertion := by
  unfold compose
  by_cases h1 : isPerm p = true <;> by_cases h2 : isPerm q = true
  · rcases h with h | h | h
    · exact absurd ((C24_isPerm_iff p).mp h1) h
    · exact absurd ((C24_isPerm_iff q).mp h2) h
    · simp [h1, h2, h]
  all_goals simp [h1, h2]

/-- Associativity of `compose`. -/
theorem C24_compose_assoc {n : Nat} {p q r : List Nat} (hp : IsBij n p) (hq : IsBij n q)
    (hr : IsBij n r) :
    (do compose (← compose p q) r) = (do compose p (← compose q r)) := by
  rw [isBij_iff_perm] at hp hq hr
  rw [compose_eq hp hq, compose_eq hq hr]
  change compose (comp p q) r = compose p (comp q r)
  rw [compose_eq (comp_perm hp hq) hr, compose_eq hp (comp_perm hq hr), comp_assoc hp hq hr]

/-- `identity(n)` is neutral on both sides. -/
theorem C24_identity {n : Nat} {p : List Nat} (hp : IsBij n p) :
    compose (identity n) p = .ok p ∧ compose p (identity n) = .ok p := by
  rw [isBij_iff_perm] at hp
  rw [compose_eq (id_perm n) hp, compose_eq hp (id_perm n), id_comp hp, comp_id hp]
  exact ⟨rfl, rfl⟩

/-- `inverse` succeeds on permutations and is a two-sided inverse; it is an involution. -/
theorem C24_inverse {n : Nat} {p : List Nat} (hp : IsBij n p) :
    ∃ r, inverse p = .ok r ∧ IsBij n r ∧ compose p r = .ok (identity n) ∧
      compose r p = .ok (identity n) ∧ inverse r = .ok p := by
  rw [isBij_iff_perm] at hp
  refine ⟨inv p, inverse_eq hp, (isBij_iff_perm _ _).mpr (inv_perm hp), ?_, ?_, ?_⟩
  · rw [compose_eq hp (inv_perm hp), comp_inv hp]
  · rw [compose_eq (inv_perm hp) hp, inv_comp hp]
  · rw [inverse_eq (inv_perm hp), inv_inv hp]

/-- `inverse(compose(p, q)) = compose(inverse(q), inverse(p))`. -/
theorem C24_inverse_compose {n : Nat} {p q : List Nat} (hp : IsBij n p) (hq : IsBij n q) :
    (do inverse (← compose p q)) = (do compose (← inverse q) (← inverse p)) := by
  rw [isBij_iff_perm] at hp hq
  rw [compose_eq hp hq, inverse_eq hp, inverse_eq hq]
  change inverse (comp p q) = compose (inv q) (inv p)
  rw [inverse_eq (comp_perm hp hq), compose_eq (inv_perm hq) (inv_perm hp), inv_comp_rev hp hq]

example : IsBij 3 [2, 0, 1] ∧ IsBij 3 [1, 0, 2] ∧ compose [2, 0, 1] [1, 0, 2] = .ok [0, 2, 1] ∧
    inverse [2, 0, 1] = .ok [1, 2, 0] := by
  rw [isBij_iff_perm, isBij_iff_perm]; decide +kernel

/-! ## C25 -/

/-- Every number is the rank of a permutation, and ranking is inverted by `to_int` modulo `n!`. -/
theorem C25_fromInt_isBij (i n : Nat) : IsBij n (fromInt i n) := by
  rw [isBij_iff_perm]
  exact fromIntLoop_perm n _ i (by simp)

theorem C25_toInt_fromInt (i n : Nat) (h : i < factorial n) : toInt (fromInt i n) = .ok i := by
  have hl : (fromInt i n).length = n := (C25_fromInt_isBij i n).1
  unfold toInt
  rw [hl]
  unfold fromInt
  rw [toIntLoop_fromIntLoop n _ i 0 1 (by simp) List.nodup_range, Nat.mod_eq_of_lt h]
  simp

/-- `to_int` maps permutations of `n` into `range(n!)`, and `from_int` recovers them. -/
theorem C25_fromInt_toInt (n : Nat) (p : List Nat) (h : IsBij n p) :
    ∃ t, toInt p = .ok t ∧ t < factorial n ∧ fromInt t n = p := by
  have hl := h.1
  rw [isBij_iff_perm] at h
  obtain ⟨t, h1, h2, h3⟩ := fromIntLoop_toIntLoop p (List.range n) 0 1 h
  rw [hl] at h1 h3
  refine ⟨t, ?_, h1, h3⟩
  unfold toInt
  rw [hl, h2]
  simp

/-- `factorial` is the usual factorial. -/
theorem factorial_eq (n : Nat) : factorial 0 = 1 ∧ factorial (n + 1) = (n + 1) * factorial n :=
  ⟨rfl, rfl⟩

theorem group_nodup_map (n : Nat) :
    ((List.range (factorial n)).map fun i => fromInt i n).Nodup := by
  apply List.Nodup.map_on _ List.nodup_range
  intro i hi j hj h
  simp only [List.mem_range] at hi hj
  have h1 := C25_toInt_fromInt i n hi
  have h2 := C25_toInt_fromInt j n hj
  rw [h] at h1
  have := h1.symm.trans h2
  simpa using this

/-- `group(n)` is the set of all permutations of `n`, without repetition, with `n!` elements. -/
theorem C25_group (n : Nat) :
    (∀ p, p ∈ group n ↔ IsBij n p) ∧ (group n).Nodup ∧ (group n).length = factorial n := by
  have hg : group n = (List.range (factorial n)).map fun i => fromInt i n :=
    eraseDups_of_nodup (group_nodup_map n)
  refine ⟨?_, ?_, ?_⟩
  · intro p
    rw [hg, List.mem_map]
    constructor
    · rintro ⟨i, _, rfl⟩
      exact C25_fromInt_isBij i n
    · intro h
      obtain ⟨t, _, ht, he⟩ := C25_fromInt_toInt n p h
      exact ⟨t, by simpa using ht, he⟩
  · rw [hg]; exact group_nodup_map n
  · rw [hg]; simp

example : fromInt 4 3 = [1, 2, 0] ∧ toInt [1, 2, 0] = .ok 4 ∧ 4 < factorial 3 := by decide

end E3nn
