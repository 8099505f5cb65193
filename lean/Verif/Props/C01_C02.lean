import Verif.Lemmas.Irrep

/-! # C01, C02: order, enumeration and product of irreps -/

namespace E3nn

/-! ## C01 -/

/-- The code's `<` is the documented order: by degree, then the parity `(-1)^l` first. -/
theorem C01_lt_iff_before (a b : Irrep) : a.lt b = true ↔ a.Before b := by
  have ha := key_snd a
  have hb := key_snd b
  have ea : a.key.1 = (a.l : Int) := rfl
  have eb : b.key.1 = (b.l : Int) := rfl
  unfold Irrep.lt Irrep.Before
  rw [ha, hb, ea, eb]
  by_cases h : (a.l : Int) = b.l
  · have h' : a.l = b.l := by omega
    by_cases h1 : a.p = Parity.ofPow a.l <;> by_cases h2 : b.p = Parity.ofPow b.l <;>
      simp [h', h1, h2]
    all_goals simp_all
  · have h' : a.l ≠ b.l := by omega
    simp [h']

/-- The order is irreflexive, transitive and total: a strict total order on irreps. -/
theorem C01_lt_strict_total_order :
    (∀ a : Irrep, a.lt a = false) ∧
    (∀ a b c : Irrep, a.lt b = true → b.lt c = true → a.lt c = true) ∧
    (∀ a b : Irrep, a.lt b = true ∨ a = b ∨ b.lt a = true) := by
  refine ⟨?_, ?_, ?_⟩
  · intro a; unfold Irrep.lt; simp
  · intro a b c
    rw [C01_lt_iff_before, C01_lt_iff_before, C01_lt_iff_before]
    unfold Irrep.Before
    rintro (h | ⟨h, h1, h2⟩) (k | ⟨k, k1, k2⟩)
    · left; omega
    · left; omega
    · left; omega
    · exact absurd k1 h2
  · intro a b
    rw [C01_lt_iff_before, C01_lt_iff_before]
    obtain ⟨l, p⟩ := a
    obtain ⟨l', p'⟩ := b
    unfold Irrep.Before
    rcases Nat.lt_trichotomy l l' with h | h | h
    · left; left; exact h
    · subst h
      simp only [Irrep.mk.injEq, true_and, Nat.lt_irrefl, false_or]
      cases p <;> cases p' <;> unfold Parity.ofPow <;> split <;> simp
    · right; right; left; exact h

/-- Every irrep occurs in the enumeration, at the round of its degree; the enumeration up to
`lmax` consists of exactly the irreps of degree at most `lmax`. -/
theorem C01_iterator_complete (lmax : Nat) (ir : Irrep) :
    ir ∈ Irrep.iterator lmax ↔ ir.l ≤ lmax := by
  obtain ⟨l, p⟩ := ir
  unfold Irrep.iterator Irrep.iterPrefix Irrep.iterRound
  simp only [List.mem_flatMap, List.mem_range, List.mem_cons, Irrep.mk.injEq, List.not_mem_nil,
    or_false]
  constructor
  · rintro ⟨n, hn, ⟨rfl, _⟩ | ⟨rfl, _⟩⟩ <;> omega
  · intro h
    refine ⟨l, by omega, ?_⟩
    cases p <;> unfold Parity.ofPow <;> split <;> simp [Parity.neg]

/-- The enumeration is strictly increasing for the code's `<` (so it has no repetition). -/
theorem C01_iterator_increasing (n : Nat) :
    (Irrep.iterPrefix n).Pairwise (fun a b => a.lt b = true) := by
  induction n with
  | zero => simp [Irrep.iterPrefix]
  | succ n ih =>
    unfold Irrep.iterPrefix at *
    rw [List.range_succ, List.flatMap_append, List.pairwise_append]
    refine ⟨ih, ?_, ?_⟩
    · simp only [List.flatMap_cons, List.flatMap_nil, List.append_nil, Irrep.iterRound,
        List.pairwise_cons, List.mem_singleton, forall_eq, List.not_mem_nil, false_imp_iff,
        implies_true, List.Pairwise.nil, and_true]
      rw [C01_lt_iff_before]
      right
      refine ⟨rfl, rfl, ?_⟩
      cases h : Parity.ofPow n <;> simp [Parity.neg]
    · intro a ha b hb
      rw [C01_lt_iff_before]
      left
      simp only [List.mem_flatMap, List.mem_range, Irrep.iterRound] at ha hb
      obtain ⟨i, hi, ha⟩ := ha
      simp only [List.mem_singleton] at hb
      obtain ⟨j, hj, hb⟩ := hb
      simp only [List.mem_cons, List.not_mem_nil, or_false] at ha hb
      rcases ha with rfl | rfl <;> rcases hb with rfl | rfl <;> simp <;> omega

/-- A longer run of the iterator extends a shorter one: `next()` never changes its past. -/
theorem C01_iterator_prefix (m n : Nat) (h : m ≤ n) :
    Irrep.iterPrefix m <+: Irrep.iterPrefix n := by
  obtain ⟨k, rfl⟩ := Nat.exists_eq_add_of_le h
  unfold Irrep.iterPrefix
  rw [List.range_add, List.flatMap_append]
  exact List.prefix_append _ _

example : Irrep.iterator 1 = [⟨0, .e⟩, ⟨0, .o⟩, ⟨1, .o⟩, ⟨1, .e⟩] := by decide

/-! ## C02 -/

/-- `ir1 * ir2` contains exactly the irreps allowed by the triangle rule, with parity `p1 p2`. -/
theorem C02_mem_mul_iff (a b c : Irrep) :
    c ∈ a.mul b ↔
      (a.l ≤ b.l + c.l ∧ b.l ≤ a.l + c.l ∧ c.l ≤ a.l + b.l) ∧
      c.p.toInt = a.p.toInt * b.p.toInt := by
  obtain ⟨la, pa⟩ := a
  obtain ⟨lb, pb⟩ := b
  obtain ⟨lc, pc⟩ := c
  unfold Irrep.mul
  simp only [List.mem_map, List.mem_range'_1, Irrep.mk.injEq]
  have hp : pa.mul pb = pc ↔ pc.toInt = pa.toInt * pb.toInt := by
    cases pa <;> cases pb <;> cases pc <;> decide
  constructor
  · rintro ⟨l, ⟨h1, h2⟩, rfl, h⟩
    exact ⟨by omega, hp.mp h⟩
  · rintro ⟨⟨h1, h2, h3⟩, h⟩
    exact ⟨lc, by omega, rfl, hp.mpr h⟩

/-- Each irrep is yielded once, in increasing degree. -/
theorem C02_mul_increasing (a b : Irrep) : (a.mul b).Pairwise (fun c d => c.l < d.l) := by
  unfold Irrep.mul
  rw [List.pairwise_map]
  exact List.pairwise_lt_range'

/-- The dimensions of the product add up to the product of the dimensions. -/
theorem C02_mul_dim (a b : Irrep) : dimOf (a.mul b) = a.dim * b.dim := by
  have h := dimOf_range' (a.p.mul b.p) (max a.l b.l - min a.l b.l)
    (a.l + b.l + 1 - (max a.l b.l - min a.l b.l))
  unfold Irrep.mul Irrep.dim
  simp only at h ⊢
  rcases Nat.le_total a.l b.l with hab | hab
  · obtain ⟨k, hk⟩ := Nat.exists_eq_add_of_le hab
    have e1 : max a.l b.l - min a.l b.l = k := by omega
    rw [e1] at h ⊢
    have e2 : k + (a.l + b.l + 1 - k) = a.l + b.l + 1 := by omega
    rw [e2] at h
    rw [hk] at h ⊢
    nlinarith
  · obtain ⟨k, hk⟩ := Nat.exists_eq_add_of_le hab
    have e1 : max a.l b.l - min a.l b.l = k := by omega
    rw [e1] at h ⊢
    have e2 : k + (a.l + b.l + 1 - k) = a.l + b.l + 1 := by omega
    rw [e2] at h
    rw [hk] at h ⊢
    nlinarith

/-- The product is commutative (same irreps in the same order). -/
theorem C02_mul_comm (a b : Irrep) : a.mul b = b.mul a := by
  unfold Irrep.mul
  have h1 : a.p.mul b.p = b.p.mul a.p := by cases a.p <;> cases b.p <;> rfl
  rw [h1, Nat.max_comm, Nat.min_comm, Nat.add_comm a.l b.l]

/-- Schur: the trivial irrep `0e` occurs in `a * b` iff `a = b`. -/
theorem C02_scalar_mem_mul_iff (a b : Irrep) : (⟨0, .e⟩ : Irrep) ∈ a.mul b ↔ a = b := by
  rw [C02_mem_mul_iff]
  obtain ⟨la, pa⟩ := a
  obtain ⟨lb, pb⟩ := b
  simp only [Irrep.mk.injEq]
  cases pa <;> cases pb <;> simp [Parity.toInt] <;> omega

/-- The triangle rule is symmetric in its three arguments. -/
theorem C02_mul_cyclic (a b c : Irrep) : c ∈ a.mul b ↔ a ∈ b.mul c := by
  rw [C02_mem_mul_iff, C02_mem_mul_iff]
  have : c.p.toInt = a.p.toInt * b.p.toInt ↔ a.p.toInt = b.p.toInt * c.p.toInt := by
    cases a.p <;> cases b.p <;> cases c.p <;> decide
  rw [this]
  omega

example : (⟨1, .o⟩ : Irrep).mul ⟨1, .o⟩ = [⟨0, .e⟩, ⟨1, .e⟩, ⟨2, .e⟩] := by decide

end E3nn
