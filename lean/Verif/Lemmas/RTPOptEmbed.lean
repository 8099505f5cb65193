import Verif.Lemmas.RTPOptPerm
import Verif.Lemmas.RTPEquiv
import Verif.Lemmas.RTPSum

/-! # The placement of an array in the slices of several irreps -/

namespace E3nn.RTP

open Finset E3nn.PermRepr E3nn.Wig

/-- The index `x` is in the slice of the irrep `k`. -/
def InB (S : Irreps) (k x : ℕ) : Prop := startOf S k ≤ x ∧ x < startOf S (k + 1)

theorem startOf_succ {S : Irreps} {k : ℕ} (hk : k < S.length) : startOf S (k + 1) = startOf S k + Irreps.dim [S[k]] := by
  unfold startOf
  rw [← List.take_append_getElem hk]
  unfold Irreps.dim
  rw [List.map_append, List.sum_append]

theorem startOf_mono (S : Irreps) {i j : ℕ} (h : i ≤ j) : startOf S i ≤ startOf S j := by
  induction j with
  | zero => rw [Nat.le_zero.mp h]
  | succ j ih =>
    rcases Nat.lt_or_ge i (j + 1) with h' | h'
    · refine (ih (by omega)).trans ?_
      by_cases hj : j < S.length
      · rw [startOf_succ hj]; omega
      · unfold startOf
        rw [List.take_of_length_le (by omega), List.take_of_length_le (by omega)]
    · rw [show i = j + 1 by omega]

theorem startOf_le (S : Irreps) (k : ℕ) : startOf S k ≤ S.dim := by
  have h := startOf_mono S (Nat.le_add_right k S.length)
  have : startOf S (k + S.length) = S.dim := by unfold startOf; rw [List.take_of_length_le (by omega)]
  omega

theorem InB.unique {S : Irreps} {k k' x : ℕ} (h : InB S k x) (h' : InB S k' x) : k = k' := by
  rcases lt_trichotomy k k' with hk | hk | hk
  · have := startOf_mono S (show k + 1 ≤ k' from hk); have := h.2; have := h'.1; omega
  · exact hk
  · have := startOf_mono S (show k' + 1 ≤ k from hk); have := h.1; have := h'.2; omega

theorem inB_exists {S : Irreps} {x : ℕ} (h : x < S.dim) : ∃ k < S.length, InB S k x := by
  have h1 : x < startOf S S.length := by unfold startOf; rwa [List.take_length]
  have h0 : startOf S 0 ≤ x := by simp [startOf, Irreps.dim]
  generalize hn : S.length = n at h1
  have hle : n ≤ S.length := by omega
  clear hn
  induction n with
  | zero => omega
  | succ n ih =>
    by_cases hx : x < startOf S n
    · obtain ⟨k, k1, k2⟩ := ih hx (by omega)
      exact ⟨k, by omega, k2⟩
    · exact ⟨n, by omega, by omega, h1⟩

theorem sum_slice (D s e : ℕ) (he : e ≤ D) (F : ℕ → ℝ) : (∑ j ∈ range D, if s ≤ j ∧ j < e then F j else 0) = ∑ j ∈ range (e - s), F (s + j) := by
  rw [← Finset.sum_filter]
  have : (range D).filter (fun j => s ≤ j ∧ j < e) = Ico s e := by
    ext j
    simp only [mem_filter, mem_range, mem_Ico]
    omega
  rw [this, sum_Ico_eq_sum_range]

/-- The indices in the small array. -/
def small (S : Irreps) (c a : List ℕ) (σ : ℕ → ℕ) : ℕ → ℕ := fun k => σ (a.idxOf k) - startOf S (c.getD k 0)

theorem idxOf_eq_iff {a : List ℕ} (ha : a.Nodup) {m : ℕ} (hm : m < a.length) {k : ℕ} : a.idxOf k = m ↔ k = a[m] := by
  constructor
  · intro h
    subst h
    exact (List.getElem_idxOf hm).symm
  · rintro rfl
    exact ha.idxOf_getElem m hm

theorem small_update (S : Irreps) (c : List ℕ) {a : List ℕ} (ha : a.Nodup) {m : ℕ} (hm : m < a.length) (σ : ℕ → ℕ) (j : ℕ) :
    small S c a (Function.update σ m j) = Function.update (small S c a σ) a[m] (j - startOf S (c.getD a[m] 0)) := by
  funext k
  unfold small
  by_cases hk : a.idxOf k = m
  · have := (idxOf_eq_iff ha hm).mp hk
    subst this
    rw [hk, Function.update_self, Function.update_self]
  · have hk' : k ≠ a[m] := fun e => hk ((idxOf_eq_iff ha hm).mpr e)
    rw [Function.update_of_ne hk, Function.update_of_ne hk']

open Classical in
/-- The placement with the conditions on the axes `F` only. -/
noncomputable def emb (S : Irreps) (c a F : List ℕ) (t : Ten) : Ten := fun σ => if ∀ m ∈ F, InB S (c.getD (a.getD m 0) 0) (σ m) then t (small S c a σ) else 0

theorem emb_pos {S : Irreps} {c a F : List ℕ} {t : Ten} {σ : ℕ → ℕ} (h : ∀ m ∈ F, InB S (c.getD (a.getD m 0) 0) (σ m)) : emb S c a F t σ = t (small S c a σ) := if_pos h
theorem emb_neg {S : Irreps} {c a F : List ℕ} {t : Ten} {σ : ℕ → ℕ} (h : ¬ ∀ m ∈ F, InB S (c.getD (a.getD m 0) 0) (σ m)) : emb S c a F t σ = 0 := if_neg h

theorem embed_eq (S : Irreps) (c a : List ℕ) (t : Ten) : embed S c a t = emb S c a (List.range a.length) t := by
  funext σ
  by_cases h : ∀ m < a.length, startOf S (c.getD (a.getD m 0) 0) ≤ σ m ∧ σ m < startOf S (c.getD (a.getD m 0) 0 + 1)
  · rw [emb_pos (fun m hm => h m (List.mem_range.mp hm)), embed, if_pos h]; rfl
  · rw [emb_neg (fun h' => h fun m hm => h' m (List.mem_range.mpr hm)), embed, if_neg h]

theorem emb_congr (S : Irreps) (c a : List ℕ) {F G : List ℕ} (h : ∀ m, m ∈ F ↔ m ∈ G) (t : Ten) : emb S c a F t = emb S c a G t := by
  funext σ
  by_cases h' : ∀ m ∈ F, InB S (c.getD (a.getD m 0) 0) (σ m)
  · rw [emb_pos h', emb_pos fun m hm => h' m ((h m).mpr hm)]
  · rw [emb_neg h', emb_neg fun h2 => h' fun m hm => h2 m ((h m).mp hm)]

/-- The matrix of one axis acts on the small array. -/
theorem onAxis_emb {S : Irreps} {c a F : List ℕ} (ha : a.Nodup) {m : ℕ} (hm : m < a.length) (hF : m ∈ F) (M Mk : ℕ → ℕ → ℝ)
    (hM : ∀ x j, InB S (c.getD a[m] 0) j → M x j = if startOf S (c.getD a[m] 0) ≤ x ∧ x < startOf S (c.getD a[m] 0 + 1) then Mk (x - startOf S (c.getD a[m] 0)) (j - startOf S (c.getD a[m] 0)) else 0) (t : Ten) :
    onAxis S.dim M m (emb S c a F t) = emb S c a F (onAxis (startOf S (c.getD a[m] 0 + 1) - startOf S (c.getD a[m] 0)) Mk a[m] t) := by
  funext σ
  have ham : a.getD m 0 = a[m] := List.getD_eq_getElem _ _ hm
  set κ := c.getD a[m] 0 with hκ
  have hsm : small S c a σ a[m] = σ m - startOf S κ := by
    unfold small
    rw [ha.idxOf_getElem m hm]
  by_cases hO : ∀ m' ∈ F, m' ≠ m → InB S (c.getD (a.getD m' 0) 0) (σ m')
  · have hcond : ∀ j, (∀ m' ∈ F, InB S (c.getD (a.getD m' 0) 0) (Function.update σ m j m')) ↔ InB S κ j := by
      intro j
      constructor
      · intro h
        have := h m hF
        rwa [Function.update_self, ham] at this
      · intro h m' hm'
        by_cases e : m' = m
        · subst e; rw [Function.update_self, ham]; exact h
        · rw [Function.update_of_ne e]; exact hO m' hm' e
    have hcond0 : (∀ m' ∈ F, InB S (c.getD (a.getD m' 0) 0) (σ m')) ↔ InB S κ (σ m) := by
      have := hcond (σ m)
      rwa [Function.update_eq_self] at this
    have e1 : onAxis S.dim M m (emb S c a F t) σ = ∑ j ∈ range S.dim, if startOf S κ ≤ j ∧ j < startOf S (κ + 1) then
        M (σ m) j * t (Function.update (small S c a σ) a[m] (j - startOf S κ)) else 0 := by
      unfold onAxis
      refine sum_congr rfl fun j _ => ?_
      by_cases hj : InB S κ j
      · rw [emb_pos ((hcond j).mpr hj), if_pos (show startOf S κ ≤ j ∧ j < startOf S (κ + 1) from hj), small_update S c ha hm]
      · rw [emb_neg (fun h => hj ((hcond j).mp h)), if_neg (show ¬(startOf S κ ≤ j ∧ j < startOf S (κ + 1)) from hj), mul_zero]
    rw [e1, sum_slice _ _ _ (startOf_le S (κ + 1))]
    have hj : ∀ j ∈ range (startOf S (κ + 1) - startOf S κ), InB S κ (startOf S κ + j) := by
      intro j hj
      rw [mem_range] at hj
      exact ⟨by omega, by omega⟩
    by_cases hx : InB S κ (σ m)
    · rw [emb_pos (hcond0.mpr hx)]
      unfold onAxis
      refine sum_congr rfl fun j hj' => ?_
      rw [hM _ _ (hj j hj'), if_pos (show startOf S κ ≤ σ m ∧ σ m < startOf S (κ + 1) from hx), Nat.add_sub_cancel_left, hsm]
    · rw [emb_neg (fun h => hx (hcond0.mp h))]
      refine sum_eq_zero fun j hj' => ?_
      rw [hM _ _ (hj j hj'), if_neg (show ¬(startOf S κ ≤ σ m ∧ σ m < startOf S (κ + 1)) from hx), zero_mul]
  · rw [emb_neg (fun h => hO fun m' hm' _ => h m' hm')]
    unfold onAxis
    refine sum_eq_zero fun j _ => ?_
    rw [emb_neg, mul_zero]
    intro h
    apply hO
    intro m' hm' hne
    have := h m' hm'
    rwa [Function.update_of_ne hne] at this

/-- The sum over one axis: the condition on this axis disappears. -/
theorem sum_emb {S : Irreps} {c a F : List ℕ} (ha : a.Nodup) {m : ℕ} (hm : m < a.length) (hF : m ∉ F) (u : Ten) (σ : ℕ → ℕ) :
    ∑ j ∈ range S.dim, emb S c a (m :: F) u (Function.update σ m j) =
      emb S c a F (fun τ => ∑ j ∈ range (startOf S (c.getD a[m] 0 + 1) - startOf S (c.getD a[m] 0)), u (Function.update τ a[m] j)) σ := by
  have ham : a.getD m 0 = a[m] := List.getD_eq_getElem _ _ hm
  set κ := c.getD a[m] 0 with hκ
  by_cases hO : ∀ m' ∈ F, InB S (c.getD (a.getD m' 0) 0) (σ m')
  · rw [emb_pos hO]
    have hcond : ∀ j, (∀ m' ∈ m :: F, InB S (c.getD (a.getD m' 0) 0) (Function.update σ m j m')) ↔ InB S κ j := by
      intro j
      constructor
      · intro h
        have := h m (by simp)
        rwa [Function.update_self, ham] at this
      · intro h m' hm'
        by_cases e : m' = m
        · subst e; rw [Function.update_self, ham]; exact h
        · rw [Function.update_of_ne e]; exact hO m' ((List.mem_cons.mp hm').resolve_left e)
    have e1 : ∑ j ∈ range S.dim, emb S c a (m :: F) u (Function.update σ m j) = ∑ j ∈ range S.dim, if startOf S κ ≤ j ∧ j < startOf S (κ + 1) then
        u (Function.update (small S c a σ) a[m] (j - startOf S κ)) else 0 := by
      refine sum_congr rfl fun j _ => ?_
      by_cases hj : InB S κ j
      · rw [emb_pos ((hcond j).mpr hj), if_pos (show startOf S κ ≤ j ∧ j < startOf S (κ + 1) from hj), small_update S c ha hm]
      · rw [emb_neg (fun h => hj ((hcond j).mp h)), if_neg (show ¬(startOf S κ ≤ j ∧ j < startOf S (κ + 1)) from hj)]
    rw [e1, sum_slice _ _ _ (startOf_le S (κ + 1))]
    refine sum_congr rfl fun j _ => ?_
    rw [Nat.add_sub_cancel_left]
  · rw [emb_neg hO]
    refine sum_eq_zero fun j _ => ?_
    rw [emb_neg]
    intro h
    apply hO
    intro m' hm'
    have := h m' (by simp [hm'])
    rwa [Function.update_of_ne (by rintro rfl; exact hF hm')] at this

end E3nn.RTP
