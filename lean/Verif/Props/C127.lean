import Verif.Model.SigIndex
import Verif.Props.C126

/-!
# C127: indexing a batch of signals on the sphere
-/

namespace E3nn.Ndx

open E3nn.Shp (IsIdx)

variable {α : Type}

/-- An index which is `l` on the leading axes and `:` on both axes of the grid selects whole signals: the result is a batch of shape `lead'`, each of its
signals is one of the signals of `x`, at a position of the batch that depends on the index only, and it keeps resolutions, quadrature and parities.
What `x.grid_values[index]` raises is raised. -/
theorem C127_select (x : Sig α) (lead : List ℕ) (rb ra : ℕ) (hx : x.values.shape = lead ++ [rb, ra]) (idx l : List Ix)
    (he : expandIx idx (lead.length + 2) = .ok (l ++ [full, full])) (hl : l.countP consumes = lead.length) :
    (∀ e, npIndex x.values idx = .error e → sigIndex x idx = .error e) ∧
    (∀ g, npIndex x.values idx = .ok g → ∃ y lead', sigIndex x idx = .ok y ∧ y.values = g ∧ y.values.shape = lead' ++ [rb, ra] ∧
      y.quadrature = x.quadrature ∧ y.pVal = x.pVal ∧ y.pArg = x.pArg ∧
      ∀ p, IsIdx lead' p → ∃ q, IsIdx lead q ∧ ∀ b a, y.values.get (p ++ [b, a]) = x.values.get (q ++ [b, a])) := by
  obtain ⟨k1, k2⟩ := npIndex_tail (l := l) (u := [rb, ra]) hx he hl
  refine ⟨fun e h => by unfold sigIndex; rw [h], ?_⟩
  intro g hg
  cases hr : resolve l lead with
  | error e => rw [k2 e hr] at hg; cases hg
  | ok r =>
  rw [k1 r hr] at hg
  have hs : g.shape = outShape r ++ [rb, ra] := by cases hg; rfl
  refine ⟨⟨g, x.quadrature, x.pVal, x.pArg⟩, outShape r, ?_, rfl, hs, rfl, rfl, rfl, ?_⟩
  · unfold sigIndex
    rw [k1 r hr, hg]
    simp only
    rw [if_neg (by rw [hs]; simp)]
  · intro p hp
    refine ⟨back r p, back_isIdx l lead r hr p hp, ?_⟩
    intro b a
    cases hg
    simp only
    rw [back_append _ _ _ _ (List.Forall₂.length_eq hp), back_fulls _ _ (by simp)]

/-- `signal[k]` is signal number `k` of the batch, also for negative `k`; a number out of range raises IndexError. -/
theorem C127_int (x : Sig α) (n : ℕ) (lead : List ℕ) (rb ra : ℕ) (hx : x.values.shape = (n :: lead) ++ [rb, ra]) (k : Int) :
    (∀ j : ℕ, j < n → (k = j ∨ k = (j : Int) - n) → ∃ y, sigIndex x [.int k] = .ok y ∧ y.values.shape = lead ++ [rb, ra] ∧
      ∀ p, p.length = lead.length + 2 → y.values.get p = x.values.get (j :: p)) ∧
    ((k < -(n : Int) ∨ (n : Int) ≤ k) → sigIndex x [.int k] = .error .indexError) := by
  have he : expandIx [.int k] ((n :: lead).length + 2) = .ok ((.int k :: List.replicate lead.length full) ++ [full, full]) := by
    simp [expandIx, consumes, List.replicate_succ']
  have hl : (Ix.int k :: List.replicate lead.length full).countP consumes = (n :: lead).length := by
    simp [consumes, full, List.countP_cons, List.countP_replicate]
  obtain ⟨k1, k2⟩ := npIndex_tail (l := .int k :: List.replicate lead.length full) (u := [rb, ra]) hx he hl
  constructor
  · intro j hj hk
    have hm : (k % (n : Int)).toNat = j := by
      rcases hk with h | h
      · subst h; rw [Int.emod_eq_of_lt (by omega) (by omega)]; simp
      · subst h
        rw [show ((j : Int) - n) = (j : Int) + (n : Int) * (-1) by ring, Int.add_mul_emod_self_left, Int.emod_eq_of_lt (by omega) (by omega)]; simp
    have hr : resolve (.int k :: List.replicate lead.length full) (n :: lead) = .ok (.pick j :: lead.map fun n => .range 0 n 1) := by
      simp only [resolve]
      rw [if_pos (by omega), resolve_fulls, hm]
      simp [Except.map]
    have h := k1 _ hr
    refine ⟨⟨_, x.quadrature, x.pVal, x.pArg⟩, by unfold sigIndex; rw [h]; simp only; rw [if_neg (by simp)], ?_, ?_⟩
    · simp [outShape, outShape_fulls]
    · intro p hp
      simp only [List.cons_append, back]
      rw [← List.map_append]
      congr 2
      exact back_fulls _ _ (by simpa using hp)
  · intro hk
    have hr : resolve (.int k :: List.replicate lead.length full) (n :: lead) = .error .indexError := by
      simp only [resolve]
      rw [if_neg (by omega)]
    unfold sigIndex
    rw [k2 _ hr]

/-- A single signal cannot be indexed by a number: the result has one axis and is refused with ValueError. -/
theorem C127_refuse (x : Sig α) (rb ra : ℕ) (hx : x.values.shape = [rb, ra]) (k : Int) (h1 : -(rb : Int) ≤ k) (h2 : k < rb) :
    sigIndex x [.int k] = .error .valueError := by
  have hr : resolve [.int k, full] [rb, ra] = .ok [.pick (k % (rb : Int)).toNat, .range 0 ra 1] := by
    simp only [resolve]
    rw [if_pos ⟨h1, h2⟩]
    simp [resolve, full, Except.map]
  have he : expandIx [.int k] 2 = .ok [.int k, full] := by simp [expandIx, consumes]
  unfold sigIndex npIndex
  rw [hx]
  simp only [List.length_cons, List.length_nil, zero_add, Nat.reduceAdd, he, hr]
  simp [outShape]

/-- A batch of 5 signals on the 4 x 3 grid. -/
def sig : Sig ℕ := ⟨⟨[5, 4, 3], fun p => 100 * p.getD 0 0 + 10 * p.getD 1 0 + p.getD 2 0⟩, "soft", 1, -1⟩

/-- Hypotheses of `C127_select`: `signal[::2]`, `signal[..., None, :, :]`. -/
example : expandIx [.slice none none (some 2)] 3 = .ok ([.slice none none (some 2)] ++ [full, full]) ∧
    expandIx [.ellipsis, .newaxis, full, full] 3 = .ok ([full, .newaxis] ++ [full, full]) := ⟨rfl, rfl⟩

/-- An index of the grid axes is not refused if two axes are left: `signal[:, 0]` of the batch above is accepted as one signal on a 5 x 3 grid, whose
"values at latitude b" are the values of signal `b` at the first latitude; and `signal[..., 0:2]` is a signal on a grid with two longitudes. -/
theorem C127_grid_witness : (∃ y, sigIndex sig [full, .int 0] = .ok y ∧ y.values.shape = [5, 3] ∧ y.quadrature = "soft" ∧
      ∀ b a, y.values.get [b, a] = sig.values.get [b, 0, a]) ∧
    ∃ y, sigIndex sig [.ellipsis, .slice (some 0) (some 2) none] = .ok y ∧ y.values.shape = [5, 4, 2] := by
  refine ⟨⟨_, rfl, rfl, rfl, ?_⟩, _, rfl, rfl⟩
  intro b a
  simp [sig, back]

end E3nn.Ndx
