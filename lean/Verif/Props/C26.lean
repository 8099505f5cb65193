import Verif.Lemmas.PermGroup

/-! # C26: `germinate` computes the generated subgroup; `is_group` decides being a group -/

namespace E3nn
open Perm

/-- Closed under `inverse` and `compose`, in the sense of the API. -/
def ClosedPerms (T : List Nat → Prop) : Prop :=
  (∀ p r, T p → inverse p = .ok r → T r) ∧
  (∀ p q r, T p → T q → compose p q = .ok r → T r)

/-- For every finite set `S` of permutations of `n`, `germinate(S)` terminates (within `n! + 1`
rounds) without raising and returns the smallest set of tuples that contains `S` and is closed
under `compose` and `inverse`. -/
theorem C26_germinate {n : Nat} (S : List (List Nat)) (hS : S.Nodup) (hb : ∀ p ∈ S, IsBij n p)
    (fuel : Nat) (hf : factorial n < fuel) :
    ∃ g, germinate fuel S = some (.ok g) ∧ g.Nodup ∧ (∀ p ∈ g, IsBij n p) ∧
      (∀ p ∈ S, p ∈ g) ∧ ClosedPerms (· ∈ g) ∧
      ∀ T : List Nat → Prop, (∀ p ∈ S, T p) → ClosedPerms T → ∀ p ∈ g, T p := by
  have hb' : ∀ p ∈ S, p.Perm (List.range n) := fun p hp => (isBij_iff_perm n p).mp (hb p hp)
  obtain ⟨g, h1, h2, h3, h4, h5, h6, h7⟩ := germinate_spec fuel S hS hb' (by omega)
  refine ⟨g, h1, h2, fun p hp => (isBij_iff_perm n p).mpr (h3 p hp), h4, ⟨?_, ?_⟩, ?_⟩
  · intro p r hp hr
    rw [inverse_eq (h3 p hp), Except.ok.injEq] at hr
    exact hr ▸ h5 p hp
  · intro p q r hp hq hr
    rw [compose_eq (h3 p hp) (h3 q hq), Except.ok.injEq] at hr
    exact hr ▸ h6 p hp q hq
  · rintro T hT ⟨hinv, hcomp⟩
    apply h7 T hT
    · intro p hp hTp
      exact hinv p _ hTp (inverse_eq hp)
    · intro p q hp hq hTp hTq
      exact hcomp p q _ hTp hTq (compose_eq hp hq)

/-- `is_group(g)` is `True` exactly for non-empty sets closed under `compose` and `inverse`
(for sets of permutations of the same `n`), and never raises on them. -/
theorem C26_isGroup_iff {n : Nat} (g : List (List Nat)) (hb : ∀ p ∈ g, IsBij n p) :
    (∃ b, isGroup g = .ok b) ∧
    (isGroup g = .ok true ↔ g ≠ [] ∧ ClosedPerms (· ∈ g)) := by
  have hb' : ∀ p ∈ g, p.Perm (List.range n) := fun p hp => (isBij_iff_perm n p).mp (hb p hp)
  by_cases hne : g = []
  · subst hne
    exact ⟨⟨_, rfl⟩, by simp [isGroup]⟩
  · rw [isGroup_eq g hne hb']
    refine ⟨⟨_, rfl⟩, ?_⟩
    simp only [Except.ok.injEq, Bool.and_eq_true, List.all_eq_true, List.contains_iff_mem]
    constructor
    · rintro ⟨⟨_, h1⟩, h2⟩
      refine ⟨hne, ?_, ?_⟩
      · intro p r hp hr
        rw [inverse_eq (hb' p hp), Except.ok.injEq] at hr
        exact hr ▸ h1 p hp
      · intro p q r hp hq hr
        rw [compose_eq (hb' p hp) (hb' q hq), Except.ok.injEq] at hr
        exact hr ▸ h2 p hp q hq
    · rintro ⟨_, h1, h2⟩
      have hi : ∀ p ∈ g, inv p ∈ g := fun p hp => h1 p _ hp (inverse_eq (hb' p hp))
      have hc : ∀ p ∈ g, ∀ q ∈ g, comp p q ∈ g :=
        fun p hp q hq => h2 p q _ hp hq (compose_eq (hb' p hp) (hb' q hq))
      refine ⟨⟨?_, hi⟩, hc⟩
      obtain ⟨p, hp⟩ := List.exists_mem_of_ne_nil g hne
      have := hc p hp (inv p) (hi p hp)
      rwa [comp_inv (hb' p hp)] at this

/-- The generated set of a non-empty set is recognised as a group. -/
theorem C26_germinate_isGroup {n : Nat} (S : List (List Nat)) (hS : S.Nodup) (hne : S ≠ [])
    (hb : ∀ p ∈ S, IsBij n p) (fuel : Nat) (hf : factorial n < fuel) :
    ∃ g, germinate fuel S = some (.ok g) ∧ isGroup g = .ok true := by
  obtain ⟨g, h1, _, h3, h4, h5, _⟩ := C26_germinate S hS hb fuel hf
  refine ⟨g, h1, (C26_isGroup_iff g h3).2.mpr ⟨?_, h5⟩⟩
  obtain ⟨p, hp⟩ := List.exists_mem_of_ne_nil S hne
  exact List.ne_nil_of_mem (h4 p hp)

/-- `is_group(group(n))`. -/
theorem C26_symmetric_group (n : Nat) : isGroup (group n) = .ok true := by
  have hb : ∀ p ∈ group n, IsBij n p := fun p hp => ((C25_group n).1 p).mp hp
  rw [(C26_isGroup_iff (group n) hb).2]
  refine ⟨?_, ?_, ?_⟩
  · exact List.ne_nil_of_mem (((C25_group n).1 (identity n)).mpr ((isBij_iff_perm n _).mpr (id_perm n)))
  · intro p r hp hr
    obtain ⟨r', h1, h2, _⟩ := C24_inverse (hb p hp)
    rw [h1, Except.ok.injEq] at hr
    exact ((C25_group n).1 r).mpr (hr ▸ h2)
  · intro p q r hp hq hr
    obtain ⟨r', h1, h2, _⟩ := C24_compose_spec (hb p hp) (hb q hq)
    rw [h1, Except.ok.injEq] at hr
    exact ((C25_group n).1 r).mpr (hr ▸ h2)

example : (∀ p ∈ [[1, 2, 0]], IsBij 3 p) ∧
    germinate 7 [[1, 2, 0]] = some (.ok [[1, 2, 0], [2, 0, 1], [0, 1, 2]]) := by
  constructor
  · simp only [List.mem_singleton, forall_eq]; rw [isBij_iff_perm]; decide +kernel
  · decide +kernel

end E3nn
