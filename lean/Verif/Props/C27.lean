import Verif.Lemmas.PermSign
import Verif.Props.C24_C25

/-! # C27: `sign` is the parity of a permutation; `to_cycles` is its cycle decomposition -/

namespace E3nn
open Perm

/-- Every tuple that is a bijection of `range(n)` is the value tuple of a permutation of `Fin n`. -/
theorem C27_tuple_of_bij {n : Nat} {p : List Nat} (hp : IsBij n p) :
    ∃ σ : Equiv.Perm (Fin n), ∀ i : Fin n, p[i.val]? = some (σ i).val := by
  obtain ⟨hl, hlt, hsurj, hinj⟩ := hp
  have hget : ∀ i : Fin n, ∃ v : Fin n, p[i.val]? = some v.val := fun i =>
    ⟨⟨p[i.val]'(by omega), hlt _ (List.getElem_mem _)⟩, by simp [hl]⟩
  choose f hf using hget
  have hinj' : Function.Injective f := by
    intro i j hij
    exact Fin.ext (hinj i j i.isLt j.isLt (by rw [hf i, hf j, hij]))
  exact ⟨Equiv.ofBijective f (Finite.injective_iff_bijective.mp hinj'), hf⟩

private theorem ofEquiv_eq {n : Nat} {p : List Nat} (hl : p.length = n)
    {σ : Equiv.Perm (Fin n)} (h : ∀ i : Fin n, p[i.val]? = some (σ i).val) : p = ofEquiv σ := by
  apply List.ext_getElem
  · simp [ofEquiv, hl]
  · intro i h1 h2
    have := h ⟨i, by omega⟩
    simp only [List.getElem?_eq_getElem h1, Option.some.injEq] at this
    simp [ofEquiv, this]

/-- For every permutation `p` (given as a tuple, with `σ` the corresponding permutation of
`{0,…,n-1}`), `sign(p)` terminates and is the parity of `σ`. -/
theorem C27_sign {n : Nat} {p : List Nat} (hp : IsBij n p) (σ : Equiv.Perm (Fin n))
    (h : ∀ i : Fin n, p[i.val]? = some (σ i).val) :
    sign p = some ((Equiv.Perm.sign σ : ℤˣ) : ℤ) := by
  rw [ofEquiv_eq hp.1 h]
  exact sign_eq σ

/-- `sign` is multiplicative, in terms of the API only. -/
theorem C27_sign_compose {n : Nat} {p q : List Nat} (hp : IsBij n p) (hq : IsBij n q) :
    ∃ r sp sq, compose p q = .ok r ∧ sign p = some sp ∧ sign q = some sq ∧
      (sp = 1 ∨ sp = -1) ∧ (sq = 1 ∨ sq = -1) ∧ sign r = some (sp * sq) := by
  obtain ⟨σ, hσ⟩ := C27_tuple_of_bij hp
  obtain ⟨τ, hτ⟩ := C27_tuple_of_bij hq
  obtain ⟨r, hr, hrb, hri⟩ := C24_compose_spec hp hq
  have hu : ∀ u : ℤˣ, (u : ℤ) = 1 ∨ (u : ℤ) = -1 := by
    intro u
    rcases Int.units_eq_one_or u with h | h <;> simp [h]
  refine ⟨r, _, _, hr, C27_sign hp σ hσ, C27_sign hq τ hτ, hu _, hu _, ?_⟩
  have hrσ : ∀ i : Fin n, r[i.val]? = some ((σ * τ) i).val := by
    intro i
    obtain ⟨j, hj1, hj2⟩ := hri i.val i.isLt
    rw [hτ i, Option.some.injEq] at hj1
    rw [hj2, ← hj1, hσ]
    rfl
  rw [C27_sign hrb _ hrσ, map_mul]
  simp

/-- `sign` of the identity is `1`, of a transposition `-1`. -/
theorem C27_sign_generators (n : Nat) :
    sign (identity n) = some 1 ∧
    ∀ (a b : Fin n) (p : List Nat), a ≠ b → p.length = n →
      (∀ i : Fin n, p[i.val]? = some (if i = a then b.val else if i = b then a.val else i.val)) →
      sign p = some (-1) := by
  constructor
  · have : identity n = ofEquiv (1 : Equiv.Perm (Fin n)) :=
      ofEquiv_eq (by simp [identity]) (fun i => by simp [identity])
    rw [this, sign_eq]; simp
  · intro a b p hab hl h
    have : p = ofEquiv (Equiv.swap a b) := by
      apply ofEquiv_eq hl
      intro i
      rw [h i, Equiv.swap_apply_def]
      split
      · rfl
      · split <;> rfl
    rw [this, sign_eq, Equiv.Perm.sign_swap hab]
    simp

/-- For every permutation `p`, `to_cycles(p)` terminates and returns the non-trivial cycles of `p`:
every cycle has at least two entries, without repetition, starts at its smallest entry and `p`
sends each entry to the next one cyclically; distinct cycles are disjoint, no cycle is listed
twice, and the entries are exactly the points moved by `p`. -/
theorem C27_toCycles {n : Nat} {p : List Nat} (hp : IsBij n p) :
    ∃ cs, toCycles p = some cs ∧ cs.Nodup ∧
      (∀ d ∈ cs, 2 ≤ d.length ∧ d.Nodup ∧ (∀ x ∈ d, d.headD 0 ≤ x) ∧
        ∀ (i : Nat) (x : Nat), d[i]? = some x → p[x]? = d[(i + 1) % d.length]?) ∧
      (∀ c ∈ cs, ∀ d ∈ cs, ∀ x, x ∈ c → x ∈ d → c = d) ∧
      (∀ x, (∃ c ∈ cs, x ∈ c) ↔ ∃ y, p[x]? = some y ∧ y ≠ x) := by
  obtain ⟨σ, hσ⟩ := C27_tuple_of_bij hp
  obtain ⟨cs, h1, h2, h3⟩ := toCycles_spec σ
  rw [← ofEquiv_eq hp.1 hσ] at h1
  refine ⟨cs, h1, h2, ?_, ?_, ?_⟩
  · intro c hc
    obtain ⟨m, hm, rfl⟩ := (h3 c).mp hc
    have hms : m ∈ σ.support := by simpa using hm.1
    have hlen : 2 ≤ (σ.toList m).length := Equiv.Perm.two_le_length_toList_iff_mem_support.mpr hms
    refine ⟨by simpa using hlen, (σ.nodup_toList m).map Fin.val_injective, ?_, ?_⟩
    · intro x hx
      obtain ⟨y, hy, rfl⟩ := List.mem_map.mp hx
      have h0 : ((σ.toList m).map Fin.val).headD 0 = m.val := by
        have := σ.toList_getElem_zero m hms
        cases hL : σ.toList m with
        | nil => simp [hL] at hlen
        | cons a l => simp [hL] at this ⊢; rw [this]
      rw [h0]
      exact hm.2 y (Equiv.Perm.mem_toList_iff.mp hy).1
    · intro i x hx
      rw [List.getElem?_map] at hx
      obtain ⟨y, hy, rfl⟩ := Option.map_eq_some_iff.mp hx
      obtain ⟨hi, rfl⟩ := List.getElem?_eq_some_iff.mp hy
      rw [hσ, List.length_map, List.getElem?_map, σ.getElem_toList]
      rw [List.getElem?_eq_getElem (Nat.mod_lt _ (by omega)), σ.getElem_toList]
      simp only [Option.map_some, Option.some.injEq]
      congr 1
      rw [σ.length_toList, Equiv.Perm.pow_mod_card_support_cycleOf_self_apply, pow_succ']
      rfl
  · intro c hc d hd x hxc hxd
    obtain ⟨m, hm, rfl⟩ := (h3 c).mp hc
    obtain ⟨m', hm', rfl⟩ := (h3 d).mp hd
    obtain ⟨y, hy, rfl⟩ := List.mem_map.mp hxc
    obtain ⟨z, hz, hzy⟩ := List.mem_map.mp hxd
    have : z = y := Fin.ext hzy
    subst this
    have := minPt_unique hm hm' ((Equiv.Perm.mem_toList_iff.mp hy).1.trans
      (Equiv.Perm.mem_toList_iff.mp hz).1.symm)
    rw [this]
  · intro x
    constructor
    · rintro ⟨c, hc, hx⟩
      obtain ⟨m, hm, rfl⟩ := (h3 c).mp hc
      obtain ⟨y, hy, rfl⟩ := List.mem_map.mp hx
      refine ⟨_, hσ y, ?_⟩
      have hms : m ∈ σ.support := by simpa using hm.1
      have := (Equiv.Perm.mem_toList_iff.mp hy).1.mem_support_iff.mp hms
      intro h
      simp at this
      exact this (Fin.ext h)
    · rintro ⟨y, hy, hne⟩
      have hx : x < n := by
        rw [← hp.1]
        exact (List.getElem?_eq_some_iff.mp hy).1
      have hs := hσ ⟨x, hx⟩
      simp only [hy, Option.some.injEq] at hs
      have hmv : σ ⟨x, hx⟩ ≠ ⟨x, hx⟩ := by
        intro h
        rw [h] at hs
        exact hne hs
      obtain ⟨m, hm, hxm⟩ := minPt_exists σ _ hmv
      refine ⟨_, (h3 _).mpr ⟨m, hm, rfl⟩, List.mem_map.mpr ⟨⟨x, hx⟩, ?_, rfl⟩⟩
      exact Equiv.Perm.mem_toList_iff.mpr ⟨hxm.symm, by simpa using hm.1⟩

example : IsBij 5 [1, 0, 3, 4, 2] ∧ toCycles [1, 0, 3, 4, 2] = some [[0, 1], [2, 3, 4]] ∧
    sign [1, 0, 3, 4, 2] = some (-1) := by
  refine ⟨?_, by decide +kernel, by decide +kernel⟩
  rw [isBij_iff_perm]; decide +kernel

end E3nn
