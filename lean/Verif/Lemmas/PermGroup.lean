import Verif.Model.PermGroup
import Verif.Props.C24_C25

/-! # Helper lemmas for `germinate` and `is_group` -/

namespace E3nn.Perm
open E3nn

theorem mem_setUnion (s l : List (List Nat)) (p : List Nat) : p ∈ setUnion s l ↔ p ∈ s ∨ p ∈ l := by
  unfold setUnion
  rw [List.mem_eraseDups, List.mem_append]

/-- One round, in terms of the total functions `inv` and `comp`. -/
theorem germinateStep_spec {n : Nat} {s : List (List Nat)}
    (hb : ∀ p ∈ s, p.Perm (List.range n)) :
    ∃ s', germinateStep s = .ok s' ∧ s'.Nodup ∧
      (∀ p ∈ s', p.Perm (List.range n)) ∧ (∀ p ∈ s, p ∈ s') ∧
      (∀ p ∈ s, inv p ∈ s') ∧ (∀ p ∈ s, ∀ q ∈ s, comp p q ∈ s') ∧
      (∀ T : List Nat → Prop, (∀ p ∈ s, T p) →
        (∀ p, p.Perm (List.range n) → T p → T (inv p)) →
        (∀ p q, p.Perm (List.range n) → q.Perm (List.range n) → T p → T q → T (comp p q)) →
        ∀ p ∈ s', T p) := by
  have h1 : s.mapM inverse = .ok (s.map inv) := mapM_ok fun p hp => inverse_eq (hb p hp)
  have hb1 : ∀ p ∈ setUnion s (s.map inv), p.Perm (List.range n) := by
    intro p hp
    rw [mem_setUnion, List.mem_map] at hp
    rcases hp with hp | ⟨q, hq, rfl⟩
    · exact hb p hp
    · exact inv_perm (hb q hq)
  have h2 : ((setUnion s (s.map inv)).flatMap fun p1 =>
        (setUnion s (s.map inv)).map fun p2 => (p1, p2)).mapM (fun (p1, p2) => compose p1 p2) =
      .ok (((setUnion s (s.map inv)).flatMap fun p1 =>
        (setUnion s (s.map inv)).map fun p2 => (p1, p2)).map fun x => comp x.1 x.2) := by
    apply mapM_ok
    rintro ⟨a, b⟩ hab
    rw [List.mem_flatMap] at hab
    obtain ⟨p, hp, hab⟩ := hab
    rw [List.mem_map] at hab
    obtain ⟨q, hq, hpq⟩ := hab
    simp only [Prod.mk.injEq] at hpq
    obtain ⟨rfl, rfl⟩ := hpq
    exact compose_eq (hb1 _ hp) (hb1 _ hq)
  refine ⟨setUnion (setUnion s (s.map inv)) (((setUnion s (s.map inv)).flatMap fun p1 =>
        (setUnion s (s.map inv)).map fun p2 => (p1, p2)).map fun x => comp x.1 x.2), ?_,
        nodup_eraseDups _, ?_, ?_, ?_, ?_, ?_⟩
  · unfold germinateStep
    rw [h1]
    simp only [bind, Except.bind]
    rw [h2]
    rfl
  · intro p hp
    rw [mem_setUnion, List.mem_map] at hp
    rcases hp with hp | ⟨⟨a, b⟩, hab, rfl⟩
    · exact hb1 p hp
    · rw [List.mem_flatMap] at hab
      obtain ⟨p, hp, hab⟩ := hab
      rw [List.mem_map] at hab
      obtain ⟨q, hq, hpq⟩ := hab
      simp only [Prod.mk.injEq] at hpq
      obtain ⟨rfl, rfl⟩ := hpq
      exact comp_perm (hb1 _ hp) (hb1 _ hq)
  · intro p hp
    rw [mem_setUnion, mem_setUnion]
    exact Or.inl (Or.inl hp)
  · intro p hp
    rw [mem_setUnion, mem_setUnion]
    exact Or.inl (Or.inr (List.mem_map.mpr ⟨p, hp, rfl⟩))
  · intro p hp q hq
    rw [mem_setUnion, List.mem_map]
    refine Or.inr ⟨(p, q), ?_, rfl⟩
    rw [List.mem_flatMap]
    refine ⟨p, (mem_setUnion _ _ _).mpr (Or.inl hp), ?_⟩
    rw [List.mem_map]
    exact ⟨q, (mem_setUnion _ _ _).mpr (Or.inl hq), rfl⟩
  · intro T hs hinv hcomp p hp
    have hT1 : ∀ q ∈ setUnion s (s.map inv), T q := by
      intro q hq
      rw [mem_setUnion, List.mem_map] at hq
      rcases hq with hq | ⟨r, hr, rfl⟩
      · exact hs q hq
      · exact hinv r (hb r hr) (hs r hr)
    rw [mem_setUnion, List.mem_map] at hp
    rcases hp with hp | ⟨⟨a, b⟩, hab, rfl⟩
    · exact hT1 p hp
    · rw [List.mem_flatMap] at hab
      obtain ⟨p, hp, hab⟩ := hab
      rw [List.mem_map] at hab
      obtain ⟨q, hq, hpq⟩ := hab
      simp only [Prod.mk.injEq] at hpq
      obtain ⟨rfl, rfl⟩ := hpq
      exact hcomp _ _ (hb1 _ hp) (hb1 _ hq) (hT1 _ hp) (hT1 _ hq)

/-- A duplicate-free list of permutations of `n` has at most `n!` elements. -/
theorem length_le_factorial {n : Nat} {s : List (List Nat)} (hn : s.Nodup)
    (hb : ∀ p ∈ s, p.Perm (List.range n)) : s.length ≤ factorial n := by
  have hsub : s ⊆ group n := by
    intro p hp
    exact ((C25_group n).1 p).mpr ((isBij_iff_perm n p).mpr (hb p hp))
  have := (List.subperm_of_subset hn hsub).length_le
  rwa [(C25_group n).2.2] at this

theorem germinate_spec {n : Nat} (fuel : Nat) (s : List (List Nat)) (hn : s.Nodup)
    (hb : ∀ p ∈ s, p.Perm (List.range n)) (hf : factorial n < fuel + s.length) :
    ∃ g, germinate fuel s = some (.ok g) ∧ g.Nodup ∧
      (∀ p ∈ g, p.Perm (List.range n)) ∧ (∀ p ∈ s, p ∈ g) ∧
      (∀ p ∈ g, inv p ∈ g) ∧ (∀ p ∈ g, ∀ q ∈ g, comp p q ∈ g) ∧
      (∀ T : List Nat → Prop, (∀ p ∈ s, T p) →
        (∀ p, p.Perm (List.range n) → T p → T (inv p)) →
        (∀ p q, p.Perm (List.range n) → q.Perm (List.range n) → T p → T q → T (comp p q)) →
        ∀ p ∈ g, T p) := by
  induction fuel generalizing s with
  | zero =>
    have := length_le_factorial hn hb
    omega
  | succ fuel ih =>
    obtain ⟨s', h1, h2, h3, h4, h5, h6, h7⟩ := germinateStep_spec hb
    have hsp : s.Subperm s' := List.subperm_of_subset hn h4
    unfold germinate
    rw [h1]
    simp only
    by_cases hl : s'.length = s.length
    · rw [if_pos hl]
      have hp : s.Perm s' := hsp.perm_of_length_le (by omega)
      refine ⟨s', rfl, h2, h3, h4, ?_, ?_, h7⟩
      · intro p hp'
        exact h5 p (hp.mem_iff.mpr hp')
      · intro p hp' q hq'
        exact h6 p (hp.mem_iff.mpr hp') q (hp.mem_iff.mpr hq')
    · rw [if_neg hl]
      have hle := hsp.length_le
      obtain ⟨g, k1, k2, k3, k4, k5, k6, k7⟩ := ih s' h2 h3 (by omega)
      refine ⟨g, k1, k2, k3, fun p hp => k4 p (h4 p hp), k5, k6, ?_⟩
      intro T hs hinv hcomp
      exact k7 T (h7 T hs hinv hcomp) hinv hcomp

theorem allE_eq {α : Type _} {test : α → Except PyErr Bool} {f : α → Bool} {l : List α}
    (h : ∀ a ∈ l, test a = .ok (f a)) : allE test l = .ok (l.all f) := by
  induction l with
  | nil => rfl
  | cons a l ih =>
    unfold allE
    rw [h a (by simp), ih (fun b hb => h b (by simp [hb]))]
    cases hf : f a <;> simp [hf]

theorem isGroup_eq {n : Nat} (g : List (List Nat)) (hne : g ≠ [])
    (hb : ∀ p ∈ g, p.Perm (List.range n)) :
    isGroup g = .ok (g.contains (identity n) && (g.all fun p => g.contains (inv p)) &&
      g.all fun p => g.all fun q => g.contains (comp p q)) := by
  cases g with
  | nil => exact absurd rfl hne
  | cons p0 g =>
    have hlen : p0.length = n := len_of (hb p0 (by simp))
    unfold isGroup
    simp only [hlen]
    rw [if_neg (by
      simp only [List.any_eq_true, decide_eq_true_eq, not_exists, not_and, not_not]
      exact fun p hp => len_of (hb p hp))]
    have h1 : allE (fun p => (inverse p).map fun r => (p0 :: g).contains r) (p0 :: g) =
        .ok ((p0 :: g).all fun p => (p0 :: g).contains (inv p)) := by
      apply allE_eq
      intro p hp
      rw [inverse_eq (hb p hp)]
      rfl
    have h2 : allE (fun p1 => allE (fun p2 => (compose p1 p2).map fun r => (p0 :: g).contains r)
          (p0 :: g)) (p0 :: g) =
        .ok ((p0 :: g).all fun p => (p0 :: g).all fun q => (p0 :: g).contains (comp p q)) := by
      apply allE_eq
      intro p hp
      apply allE_eq
      intro q hq
      rw [compose_eq (hb p hp) (hb q hq)]
      rfl
    rw [h1, h2]
    cases hc : (p0 :: g).contains (identity n)
    · simp
    · simp only [Bool.not_true, Bool.false_eq_true, if_false, Bool.true_and]
      cases (p0 :: g).all fun p => (p0 :: g).contains (inv p) <;> simp

end E3nn.Perm
