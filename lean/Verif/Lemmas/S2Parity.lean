import Verif.Spec.S2
import Verif.Props.C48

/-! # `_check_parities` -/

namespace E3nn.S2

open E3nn.IArr E3nn.SH

theorem par_cases (ms : Irreps) (r : ℕ) :
    (2 ≤ (paritiesOf ms r).length ∧ ∃ m ∈ ms, ∃ m' ∈ ms, m.ir.l % 2 = r ∧ m'.ir.l % 2 = r ∧ m.ir.p ≠ m'.ir.p) ∨
    (paritiesOf ms r = [] ∧ ∀ m ∈ ms, m.ir.l % 2 ≠ r) ∨
    (∃ p, paritiesOf ms r = [p] ∧ (∃ m ∈ ms, m.ir.l % 2 = r) ∧ ∀ m ∈ ms, m.ir.l % 2 = r → m.ir.p = p) := by
  have hmem : ∀ p, p ∈ paritiesOf ms r ↔ ∃ m ∈ ms, m.ir.l % 2 = r ∧ m.ir.p = p := by
    intro p
    unfold paritiesOf
    simp only [List.mem_dedup, List.mem_map, List.mem_filter, decide_eq_true_eq]
    constructor
    · rintro ⟨m, ⟨h1, h2⟩, h3⟩; exact ⟨m, h1, h2, h3⟩
    · rintro ⟨m, h1, h2, h3⟩; exact ⟨m, ⟨h1, h2⟩, h3⟩
  have hnd : (paritiesOf ms r).Nodup := List.nodup_dedup _
  rcases h : paritiesOf ms r with _ | ⟨p, _ | ⟨p', t⟩⟩
  · right; left
    refine ⟨rfl, fun m hm hr => ?_⟩
    have := (hmem m.ir.p).mpr ⟨m, hm, hr, rfl⟩
    rw [h] at this; cases this
  · right; right
    refine ⟨p, rfl, ?_, ?_⟩
    · obtain ⟨m, h1, h2, -⟩ := (hmem p).mp (by rw [h]; simp)
      exact ⟨m, h1, h2⟩
    · intro m hm hr
      have := (hmem m.ir.p).mpr ⟨m, hm, hr, rfl⟩
      rw [h] at this; simpa using this
  · left
    refine ⟨by simp, ?_⟩
    obtain ⟨m, h1, h2, h3⟩ := (hmem p).mp (by rw [h]; simp)
    obtain ⟨m', h1', h2', h3'⟩ := (hmem p').mp (by rw [h]; simp)
    refine ⟨m, h1, m', h1', h2, h2', ?_⟩
    rw [h3, h3']
    rw [h] at hnd
    intro he
    subst he
    simp at hnd

theorem pow_mod (a : Parity) (l : ℕ) : a.pow l = if l % 2 = 1 then a else .e := by
  split
  · exact pow_odd a (by assumption)
  · exact pow_even a (by assumption)

/-- The parities of the listed terms follow `v * a ** l`: the parity of the even degrees is `v`, the one of the odd degrees `v a`. -/
theorem sphereParity_iff (s : List Irrep) (v a : Parity) :
    SphereParity s v a ↔ (∀ ir ∈ s, ir.l % 2 = 0 → ir.p = v) ∧ (∀ ir ∈ s, ir.l % 2 = 1 → ir.p = v.mul a) := by
  unfold SphereParity
  have he : ∀ v : Parity, v.mul .e = v := by intro v; cases v <;> rfl
  constructor
  · intro h
    refine ⟨fun ir hir h0 => ?_, fun ir hir h1 => ?_⟩
    · rw [h ir hir, pow_mod, if_neg (by omega), he]
    · rw [h ir hir, pow_mod, if_pos h1]
  · rintro ⟨h0, h1⟩ ir hir
    rw [pow_mod]
    by_cases hl : ir.l % 2 = 1
    · rw [if_pos hl]; exact h1 ir hir hl
    · rw [if_neg hl, he]; exact h0 ir hir (by omega)

theorem sphereParity_terms (ms : Irreps) (v a : Parity) :
    SphereParity (ms.map (·.ir)) v a ↔ (∀ m ∈ ms, m.ir.l % 2 = 0 → m.ir.p = v) ∧ (∀ m ∈ ms, m.ir.l % 2 = 1 → m.ir.p = v.mul a) := by
  rw [sphereParity_iff]
  simp only [List.mem_map, forall_exists_index, and_imp, forall_apply_eq_imp_iff₂]

open scoped Classical in
theorem check_both (ms : Irreps) (v a : Parity) :
    checkParities ms (some v) (some a) = if SphereParity (ms.map (·.ir)) v a then .ok (some v, some a) else .error .valueError := by
  by_cases hs : SphereParity (ms.map (·.ir)) v a
  · rw [if_pos hs]
    rw [sphereParity_terms] at hs
    unfold checkParities
    rcases par_cases ms 0 with ⟨h, m, hm, m', hm', e1, e2, e3⟩ | ⟨h, h'⟩ | ⟨p, h, ⟨m, hm, e1⟩, h'⟩
    · exact absurd ((hs.1 m hm e1).trans (hs.1 m' hm' e2).symm) e3
    · rcases par_cases ms 1 with ⟨g, m, hm, m', hm', e1, e2, e3⟩ | ⟨g, g'⟩ | ⟨p, g, ⟨m, hm, e1⟩, g'⟩
      · exact absurd ((hs.2 m hm e1).trans (hs.2 m' hm' e2).symm) e3
      · simp [h, g]
      · have := (g' m hm e1).symm.trans (hs.2 m hm e1)
        simp [h, g, this]
    · have q0 := (h' m hm e1).symm.trans (hs.1 m hm e1)
      rcases par_cases ms 1 with ⟨g, m, hm, m', hm', e1, e2, e3⟩ | ⟨g, g'⟩ | ⟨p, g, ⟨m, hm, e1⟩, g'⟩
      · exact absurd ((hs.2 m hm e1).trans (hs.2 m' hm' e2).symm) e3
      · simp [h, g, q0]
      · have := (g' m hm e1).symm.trans (hs.2 m hm e1)
        simp [h, g, this, q0]
  · rw [if_neg hs]
    rw [sphereParity_terms] at hs
    unfold checkParities
    rcases par_cases ms 0 with ⟨h, -⟩ | ⟨h, h'⟩ | ⟨p, h, ⟨m, hm, e1⟩, h'⟩
    · rw [if_pos (by simp; omega)]
    all_goals
      rcases par_cases ms 1 with ⟨g, -⟩ | ⟨g, g'⟩ | ⟨p, g, ⟨m, hm, e1⟩, g'⟩
      · rw [if_pos (by simp; omega)]
      all_goals
        simp only [h, g]
        simp
        intros
        try intro hh
        subst_vars
        apply hs
        first
          | exact ⟨fun m hm h => absurd h (h' m hm), fun m hm h => absurd h (g' m hm)⟩
          | exact ⟨fun m hm h => absurd h (h' m hm), fun m hm h => g' m hm h⟩
          | exact ⟨fun m hm h => h' m hm h, fun m hm h => absurd h (g' m hm)⟩
          | exact ⟨fun m hm h => h' m hm h, fun m hm h => g' m hm h⟩

theorem mul_self_p (v : Parity) (w : Parity) : v.mul (v.mul w) = w := by cases v <;> cases w <;> rfl
theorem mul_mul_p (v : Parity) (w : Parity) : (v.mul w).mul w = v := by cases v <;> cases w <;> rfl
theorem mul_comm_p (v : Parity) (w : Parity) : v.mul w = w.mul v := by cases v <;> cases w <;> rfl

theorem check_none (ms : Irreps) (v a : Parity) :
    checkParities ms none none = .ok (some v, some a) ↔ SphereParity (ms.map (·.ir)) v a ∧ (∃ m ∈ ms, m.ir.l % 2 = 0) ∧ (∃ m ∈ ms, m.ir.l % 2 = 1) := by
  rw [sphereParity_terms]
  unfold checkParities
  rcases par_cases ms 0 with ⟨h, m, hm, m', hm', e1, e2, e3⟩ | ⟨h, h'⟩ | ⟨p, h, ⟨m, hm, e1⟩, h'⟩
  · rw [if_pos (by simp; omega)]
    exact ⟨fun h => (by cases h), fun hs => absurd ((hs.1.1 m hm e1).trans (hs.1.1 m' hm' e2).symm) e3⟩
  · have n0 : ¬ ∃ m ∈ ms, m.ir.l % 2 = 0 := by rintro ⟨m, hm, h⟩; exact h' m hm h
    rcases par_cases ms 1 with ⟨g, m, hm, m', hm', e1, e2, e3⟩ | ⟨g, g'⟩ | ⟨p, g, ⟨m, hm, e1⟩, g'⟩
    · rw [if_pos (by simp; omega)]
      exact ⟨fun h => (by cases h), fun hs => absurd hs.2.1 n0⟩
    all_goals
      simp only [h, g]
      simp
      intro _ _ m hm hh
      exact absurd hh (h' m hm)
  · rcases par_cases ms 1 with ⟨g, m2, hm2, m', hm', e1, e2, e3⟩ | ⟨g, g'⟩ | ⟨q, g, ⟨m2, hm2, e2⟩, g'⟩
    · rw [if_pos (by simp; omega)]
      exact ⟨fun h => (by cases h), fun hs => absurd ((hs.1.2 m2 hm2 e1).trans (hs.1.2 m' hm' e2).symm) e3⟩
    · simp only [h, g]
      simp
      intro _ _ _ _ _ m hm
      have := g' m hm
      omega
    · simp only [h, g]
      simp
      constructor
      · rintro ⟨rfl, rfl⟩
        exact ⟨⟨h', fun m hm hh => (g' m hm hh).trans (mul_self_p p q).symm⟩, ⟨m, hm, by omega⟩, ⟨m2, hm2, e2⟩⟩
      · rintro ⟨⟨a1, a2⟩, -, -⟩
        have q0 := (h' m hm e1).symm.trans (a1 m hm (by omega))
        have q1 := (g' m2 hm2 e2).symm.trans (a2 m2 hm2 e2)
        subst q0
        subst q1
        exact ⟨rfl, mul_self_p _ _⟩

theorem check_none_err (ms : Irreps) (h : ¬ ∃ v a, SphereParity (ms.map (·.ir)) v a) : checkParities ms none none = .error .valueError := by
  unfold checkParities
  simp_rw [sphereParity_terms] at h
  rcases par_cases ms 0 with ⟨g, -⟩ | ⟨g, g'⟩ | ⟨p, g, -, g'⟩
  · rw [if_pos (by simp; omega)]
  all_goals
    rcases par_cases ms 1 with ⟨f, -⟩ | ⟨f, f'⟩ | ⟨q, f, -, f'⟩
    · rw [if_pos (by simp; omega)]
    all_goals exfalso; apply h
  · exact ⟨.e, .e, fun m hm hh => absurd hh (g' m hm), fun m hm hh => absurd hh (f' m hm)⟩
  · exact ⟨.e, q, fun m hm hh => absurd hh (g' m hm), fun m hm hh => by rw [f' m hm hh]; rfl⟩
  · exact ⟨p, .e, g', fun m hm hh => absurd hh (f' m hm)⟩
  · exact ⟨p, p.mul q, g', fun m hm hh => by rw [mul_self_p]; exact f' m hm hh⟩

theorem check_arg (ms : Irreps) (v a : Parity) :
    checkParities ms none (some a) = .ok (some v, some a) ↔ SphereParity (ms.map (·.ir)) v a ∧ ms ≠ [] := by
  rw [sphereParity_terms]
  unfold checkParities
  rcases par_cases ms 0 with ⟨h, m, hm, m', hm', e1, e2, e3⟩ | ⟨h, h'⟩ | ⟨p, h, ⟨m, hm, e1⟩, h'⟩
  · rw [if_pos (by simp; omega)]
    exact ⟨fun h => (by cases h), fun hs => absurd ((hs.1.1 m hm e1).trans (hs.1.1 m' hm' e2).symm) e3⟩
  · rcases par_cases ms 1 with ⟨g, m, hm, m', hm', e1, e2, e3⟩ | ⟨g, g'⟩ | ⟨p, g, ⟨m, hm, e1⟩, g'⟩
    · rw [if_pos (by simp; omega)]
      exact ⟨fun h => (by cases h), fun hs => absurd ((hs.1.2 m hm e1).trans (hs.1.2 m' hm' e2).symm) e3⟩
    · simp only [h, g]
      simp
      intro _ _
      apply List.eq_nil_iff_forall_not_mem.mpr
      intro m hm
      have := h' m hm
      have := g' m hm
      omega
    · simp only [h, g]
      simp
      constructor
      · rintro ⟨rfl, -⟩
        refine ⟨⟨fun m hm hh => absurd hh (h' m hm), fun m hm hh => ?_⟩, List.ne_nil_of_mem hm⟩
        rw [g' m hm hh, mul_mul_p]
      · rintro ⟨⟨a1, a2⟩, -⟩
        have := (g' m hm e1).symm.trans (a2 m hm e1)
        subst this
        exact ⟨mul_mul_p v a, by rw [mul_mul_p]; exact mul_self_p v a⟩
  · rcases par_cases ms 1 with ⟨g, m2, hm2, m', hm', e1, e2, e3⟩ | ⟨g, g'⟩ | ⟨q, g, ⟨m2, hm2, e2⟩, g'⟩
    · rw [if_pos (by simp; omega)]
      exact ⟨fun h => (by cases h), fun hs => absurd ((hs.1.2 m2 hm2 e1).trans (hs.1.2 m' hm' e2).symm) e3⟩
    · simp only [h, g]
      simp
      constructor
      · rintro ⟨rfl, -⟩
        exact ⟨⟨h', fun m hm hh => absurd hh (g' m hm)⟩, List.ne_nil_of_mem hm⟩
      · rintro ⟨⟨a1, a2⟩, -⟩
        have q0 := (h' m hm e1).symm.trans (a1 m hm (by omega))
        exact ⟨q0, mul_self_p _ _⟩
    · simp only [h, g]
      by_cases hq : q = p.mul a
      · subst hq
        simp
        constructor
        · rintro ⟨rfl, -⟩
          exact ⟨⟨h', g'⟩, List.ne_nil_of_mem hm⟩
        · rintro ⟨⟨a1, a2⟩, -⟩
          have q0 := (h' m hm e1).symm.trans (a1 m hm (by omega))
          exact ⟨q0, mul_self_p _ _⟩
      · simp [hq]
        intro a1 a2
        have q0 := (h' m hm e1).symm.trans (a1 m hm (by omega))
        subst q0
        exact absurd ((g' m2 hm2 e2).symm.trans (a2 m2 hm2 e2)) hq

end E3nn.S2
