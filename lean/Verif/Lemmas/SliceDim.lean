import Verif.Lemmas.Irreps

/-! # Helper lemmas for `slice_by_dim` -/

namespace E3nn

theorem pySlice_replicate_append {α : Type _} (n : Nat) (v : α) (r : List α) (a b : Nat) :
    pySlice (List.replicate n v ++ r) a b =
      List.replicate (min b n - a) v ++ pySlice r (a - n) (b - n) := by
  unfold pySlice
  rw [List.take_append, List.drop_append]
  simp only [List.length_replicate, List.take_replicate, List.drop_replicate]
  congr 1
  by_cases hc : b ≤ n
  · have : b - n = 0 := by omega
    simp [this]
  · congr 1
    omega

/-- `start` is the component offset of the `a`-th irrep of `x`, with `x` starting at offset `i`;
`a = 0` also covers offsets before `x`. -/
def Rel (i : Nat) (x : Irreps) (start a : Nat) : Prop :=
  (a = 0 ∧ start ≤ i) ∨
  (0 < a ∧ a ≤ (expand x).length ∧ start = i + dimOf ((expand x).take a))

theorem Rel.step {i : Nat} {m : MulIrrep} {x : Irreps} {start a : Nat}
    (h : Rel i (m :: x) start a) :
    Rel (i + m.dim) x start (a - m.mul) ∧
    ((a = 0 ∧ start ≤ i) ∨ (0 < a ∧ a ≤ m.mul ∧ start = i + a * m.ir.dim) ∨
      (m.mul < a ∧ i + m.dim < start)) := by
  have hmd : m.dim = m.mul * m.ir.dim := rfl
  rcases h with ⟨rfl, h⟩ | ⟨h0, hl, h⟩
  · exact ⟨Or.inl ⟨by omega, by omega⟩, Or.inl ⟨rfl, h⟩⟩
  · rw [expand_cons, List.take_append, dimOf_append] at h
    simp only [List.length_replicate, List.take_replicate, dimOf_replicate] at h
    by_cases hc : a ≤ m.mul
    · have e1 : min a m.mul = a := by omega
      have e2 : a - m.mul = 0 := by omega
      rw [e1, e2] at h
      simp only [List.take_zero, dimOf_nil, Nat.add_zero] at h
      have : a * m.ir.dim ≤ m.mul * m.ir.dim := Nat.mul_le_mul_right _ hc
      exact ⟨Or.inl ⟨e2, by omega⟩, Or.inr (Or.inl ⟨h0, hc, h⟩)⟩
    · have e1 : min a m.mul = m.mul := by omega
      rw [e1] at h
      have hl' : a - m.mul ≤ (expand x).length := by
        simp only [expand_cons, List.length_append, List.length_replicate] at hl
        omega
      have hpos : 0 < dimOf ((expand x).take (a - m.mul)) := by
        cases hx : expand x with
        | nil => rw [hx] at hl'; simp at hl'; omega
        | cons b s =>
          have : a - m.mul = (a - m.mul - 1) + 1 := by omega
          rw [this, List.take_succ_cons, dimOf_cons]
          have := dim_pos b
          omega
      refine ⟨Or.inr ⟨by omega, hl', by omega⟩, Or.inr (Or.inr ⟨by omega, by omega⟩)⟩

namespace Irreps

theorem sliceByDimLoop_aligned (start stop : Nat) (i : Nat) (x : Irreps) (a b : Nat)
    (hab : a ≤ b) (hs : start ≤ stop) (ha : Rel i x start a) (hb : Rel i x stop b) :
    ∃ ps y, sliceByDimLoop start stop i x = .ok ps ∧ ofPairs ps = .ok y ∧
      expand y = pySlice (expand x) a b := by
  induction x generalizing i a b with
  | nil => exact ⟨[], [], rfl, rfl, by simp [pySlice]⟩
  | cons m x ih =>
    obtain ⟨ra, ca⟩ := ha.step
    obtain ⟨rb, cb⟩ := hb.step
    obtain ⟨ps, y, h1, h2, h3⟩ := ih (i + m.dim) (a - m.mul) (b - m.mul) (by omega) ra rb
    have hcons : ∀ k : Int, 0 ≤ k →
        ofPairs ((k, m.ir) :: ps) = .ok (⟨k.toNat, m.ir⟩ :: y) := by
      intro k hk
      rw [ofPairs_cons, if_pos hk, h2]
    have hd : 0 < m.ir.dim := dim_pos _
    have hmd : m.dim = m.mul * m.ir.dim := rfl
    have hexp : ∀ k : Nat, k = min b m.mul - a →
        expand (⟨k, m.ir⟩ :: y) = pySlice (expand (m :: x)) a b := by
      intro k hk
      rw [expand_cons, expand_cons, pySlice_replicate_append, h3, hk]
    have hexp0 : min b m.mul - a = 0 → expand y = pySlice (expand (m :: x)) a b := by
      intro hk
      rw [expand_cons, pySlice_replicate_append, h3, hk]
      simp
    have hpiece : ∀ A B : Nat, A ≤ B →
        ((i + B * m.ir.dim : Nat) : Int) - ((i + A * m.ir.dim : Nat) : Int) =
          ((B - A : Nat) : Int) * (m.ir.dim : Int) := by
      intro A B hAB
      obtain ⟨k, rfl⟩ := Nat.exists_eq_add_of_le hAB
      push_cast
      rw [Nat.add_sub_cancel_left]
      ring
    unfold sliceByDimLoop
    by_cases hc1 : start ≤ i ∧ i + m.dim ≤ stop
    · rw [if_pos hc1, h1]
      refine ⟨_, _, rfl, hcons _ (by omega), ?_⟩
      apply hexp
      -- a = 0 and b ≥ mul
      have ha0 : a = 0 := by
        rcases ca with ⟨h, _⟩ | ⟨h0, _, h⟩ | ⟨h0, h⟩
        · exact h
        · have : 0 < a * m.ir.dim := Nat.mul_pos h0 hd
          omega
        · omega
      have hbm : m.mul ≤ b := by
        rcases cb with ⟨h, h'⟩ | ⟨h0, h', h⟩ | ⟨h0, h⟩
        · have : m.mul * m.ir.dim = 0 := by omega
          rcases Nat.mul_eq_zero.mp this with h | h <;> omega
        · have : m.mul * m.ir.dim ≤ b * m.ir.dim := by omega
          exact Nat.le_of_mul_le_mul_right this hd
        · omega
      simp only [Int.toNat_natCast]
      omega
    · rw [if_neg hc1]
      by_cases hc2 : start < i + m.dim ∧ i < stop
      · rw [if_pos hc2]
        -- the cut piece has dimension (B - a) * dim
        have hmul : a ≤ min b m.mul ∧
            (min (stop : Int) ((i : Int) + (m.dim : Int))) - max (start : Int) (i : Int) =
              ((min b m.mul - a : Nat) : Int) * (m.ir.dim : Int) := by
          have hbm : i + b * m.ir.dim = i + b * m.ir.dim := rfl
          have hmax : (max (start : Int) (i : Int)) = ((i + a * m.ir.dim : Nat) : Int) ∧ a ≤ m.mul := by
            rcases ca with ⟨h, h'⟩ | ⟨h0, h', h⟩ | ⟨h0, h⟩
            · subst h; simp; omega
            · rw [h]; refine ⟨by omega, h'⟩
            · omega
          have hmin : (min (stop : Int) ((i : Int) + (m.dim : Int))) =
              ((i + (min b m.mul) * m.ir.dim : Nat) : Int) := by
            rcases cb with ⟨h, h'⟩ | ⟨h0, h', h⟩ | ⟨h0, h⟩
            · omega
            · have : b * m.ir.dim ≤ m.mul * m.ir.dim := Nat.mul_le_mul_right _ h'
              rw [Nat.min_eq_left h']
              omega
            · rw [Nat.min_eq_right (by omega)]
              omega
          rw [hmax.1, hmin]
          have hle : a ≤ min b m.mul := by omega
          exact ⟨hle, hpiece _ _ hle⟩
        have hdi : (m.ir.dim : Int) ≠ 0 := by omega
        have e1 : ((min b m.mul - a : Nat) : Int) * (m.ir.dim : Int) % (m.ir.dim : Int) = 0 :=
          Int.mul_emod_left _ _
        have e2 : ((min b m.mul - a : Nat) : Int) * (m.ir.dim : Int) / (m.ir.dim : Int) =
          ((min b m.mul - a : Nat) : Int) := Int.mul_ediv_cancel _ hdi
        simp only [hmul.2, e1, e2, ne_eq, not_true_eq_false, if_false, h1]
        refine ⟨_, _, rfl, hcons _ (by omega), ?_⟩
        apply hexp
        simp
      · rw [if_neg hc2, h1]
        refine ⟨_, _, rfl, h2, ?_⟩
        apply hexp0
        rcases ca with ⟨h, h'⟩ | ⟨h0, h', h⟩ | ⟨h0, h⟩
        · -- start ≤ i: stop ≤ i or the chunk is empty
          subst h
          rcases Nat.eq_zero_or_pos m.mul with hm | hm
          · omega
          · have : 0 < m.mul * m.ir.dim := Nat.mul_pos hm hd
            rcases cb with ⟨h, h''⟩ | ⟨k0, k', k⟩ | ⟨k0, k⟩
            · omega
            · have : 0 < b * m.ir.dim := Nat.mul_pos k0 hd
              omega
            · omega
        · have hi : i < stop := by
            have : 0 < a * m.ir.dim := Nat.mul_pos h0 hd
            omega
          have : ¬ (a * m.ir.dim < m.mul * m.ir.dim) := by omega
          have : ¬ a < m.mul := fun h => this (Nat.mul_lt_mul_of_pos_right h hd)
          omega
        · omega

theorem sliceByDimLoop_dim (start stop : Nat) (hs : start ≤ stop) (i : Nat) (x : Irreps)
    (ps : List (Int × Irrep)) (y : Irreps)
    (h : sliceByDimLoop start stop i x = .ok ps) (hy : ofPairs ps = .ok y) :
    dim y = min stop (i + dim x) - max start i := by
  induction x generalizing i ps y with
  | nil =>
    simp only [sliceByDimLoop, Except.ok.injEq] at h
    subst h
    simp only [ofPairs_nil, Except.ok.injEq] at hy
    subst hy
    simp [dim]
  | cons m x ih =>
    unfold sliceByDimLoop at h
    simp only at h
    rw [dim_cons]
    -- inversion for a kept/cut piece
    have inv : ∀ (k : Int) ps', ps = (k, m.ir) :: ps' →
        sliceByDimLoop start stop (i + m.dim) x = .ok ps' →
        0 ≤ k ∧ dim y = k.toNat * m.ir.dim + (min stop (i + m.dim + dim x) - max start (i + m.dim)) := by
      intro k ps' hps h'
      subst hps
      rw [ofPairs_cons] at hy
      split at hy
      · next hk =>
        cases hq : ofPairs ps' with
        | error e => rw [hq] at hy; simp at hy
        | ok y' =>
          rw [hq] at hy
          simp only [Except.ok.injEq] at hy
          subst hy
          refine ⟨hk, ?_⟩
          rw [dim_cons, ih _ _ _ h' hq]
          rfl
      · simp at hy
    split at h
    · next hc =>
      cases hr : sliceByDimLoop start stop (i + m.dim) x with
      | error e => rw [hr] at h; simp [bind, Except.bind] at h
      | ok ps' =>
        rw [hr] at h
        simp only [bind, Except.bind, pure, Except.pure, Except.ok.injEq] at h
        obtain ⟨_, h'⟩ := inv _ _ h.symm hr
        rw [h']
        simp only [Int.toNat_natCast]
        have : m.mul * m.ir.dim = m.dim := rfl
        omega
    · next hc =>
      split at h
      · next hc2 =>
        split at h
        · simp at h
        · next hmod =>
          cases hr : sliceByDimLoop start stop (i + m.dim) x with
          | error e => rw [hr] at h; simp [bind, Except.bind] at h
          | ok ps' =>
            rw [hr] at h
            simp only [bind, Except.bind, pure, Except.pure, Except.ok.injEq] at h
            obtain ⟨hk, h'⟩ := inv _ _ h.symm hr
            rw [h']
            simp only [ne_eq, not_not] at hmod
            have hdiv := Int.mul_ediv_add_emod
              (min (stop : Int) ((i : Int) + (m.dim : Int)) - max (start : Int) (i : Int)) (m.ir.dim : Int)
            rw [hmod] at hdiv
            generalize hq : (min (stop : Int) ((i : Int) + (m.dim : Int)) - max (start : Int) (i : Int)) /
              (m.ir.dim : Int) = q at hdiv hk ⊢
            obtain ⟨n, rfl⟩ := Int.eq_ofNat_of_zero_le hk
            simp only [Int.toNat_natCast]
            have : (n * m.ir.dim : Nat) = (m.ir.dim : Int) * (n : Int) := by push_cast; ring
            omega
      · next hc2 =>
        rw [ih _ _ _ h hy]
        omega

end Irreps
end E3nn
