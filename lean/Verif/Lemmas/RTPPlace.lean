import Verif.Lemmas.RTPBasis
import Verif.Lemmas.RTPTotal

/-! # Orthonormal bases moved to other axes -/

namespace E3nn.RTP

open Finset E3nn.IArr E3nn.Wig E3nn.PermRepr

theorem axSum_congr_d {d d' : ℕ → ℕ} {f : List ℕ} (h : ∀ i ∈ f, d i = d' i) (t : Ten) : axSum d f t = axSum d' f t := by
  induction f with
  | nil => rfl
  | cons i f ih =>
    funext σ
    rw [axSum_cons, axSum_cons, ih fun k hk => h k (by simp [hk]), h i (by simp)]

theorem axisDim_sub (irr : List Irreps) {f : List ℕ} {k : ℕ} (hk : k < f.length) : axisDim (f.map fun i => irr.getD i []) k = axisDim irr (f.getD k 0) := by
  unfold axisDim
  rw [List.getD_eq_getElem (f.map _) _ (by simpa using hk), List.getElem_map, List.getD_eq_getElem f _ hk]

theorem axSum_place (irr : List Irreps) {f : List ℕ} (hf : f.Nodup) {t : Ten} (ht : On (List.range f.length) t) :
    axSum (axisDim irr) f (place f t) = place f (axSum (axisDim (f.map fun i => irr.getD i [])) (List.range f.length) t) := by
  unfold axSum
  rw [onAxes_place _ _ hf ht]
  congr 1
  refine axSum_congr_d ?_ t
  intro i hi
  rw [axisDim_sub irr (List.mem_range.mp hi)]

/-- The array on the axes `0, 1, ...` whose index `k` is put on the axis `f_k`; the indices on the other axes are those of `σ`. -/
def pull (f : List ℕ) (σ : ℕ → ℕ) (t : Ten) : Ten := fun τ => t fun i => if i ∈ f then τ (f.idxOf i) else σ i

theorem pull_on (f : List ℕ) (σ : ℕ → ℕ) (t : Ten) : On (List.range f.length) (pull f σ t) := by
  intro τ τ' h
  unfold pull
  congr 1
  funext i
  split
  · rename_i hi
    exact h _ (List.mem_range.mpr (List.idxOf_lt_length_iff.mpr hi))
  · rfl

theorem place_pull {f : List ℕ} {σ τ : ℕ → ℕ} (h : ∀ i, i ∉ f → τ i = σ i) (t : Ten) : place f (pull f σ t) τ = t τ := by
  unfold place pull
  congr 1
  funext i
  split
  · rename_i hi
    simp only [sub_getD_idxOf hi]
  · rename_i hi
    exact (h i hi).symm

theorem pull_symOn {irr : List Irreps} {G : Finset SPerm} (hG : IsSGroup irr.length G) {f : List ℕ} (hf : f.Pairwise (· < ·)) (hlt : ∀ i ∈ f, i < irr.length) {t : Ten}
    (ht : SymOn irr G f t) {σ : ℕ → ℕ} (hσ : InR irr σ) : SymOn (f.map fun i => irr.getD i []) (subrepr f G) (List.range f.length) (pull f σ t) := by
  intro r hr _ τ hτ
  obtain ⟨q, hq, hfix, rfl⟩ := (mem_subrepr hG hlt hf).mp hr
  have hp := hG.perm q hq
  have hnd : f.Nodup := hf.imp Nat.ne_of_lt
  set ρ : ℕ → ℕ := fun i => if i ∈ f then τ (f.idxOf i) else σ i with hρ
  have hρR : InR irr ρ := by
    intro i hi
    rw [hρ]
    simp only
    split
    · rename_i him
      have hk := List.idxOf_lt_length_iff.mpr him
      have := hτ (f.idxOf i) (by simpa using hk)
      rw [axisDim_sub irr hk, sub_getD_idxOf him] at this
      exact this
    · exact hσ i hi
  have h := ht q hq hfix ρ hρR
  simp only
  have e2 : pull f σ t τ = t ρ := rfl
  rw [e2, ← h]
  unfold pull
  congr 1
  funext i
  by_cases hi : i ∈ f
  · have hk := List.idxOf_lt_length_iff.mpr hi
    have hil : i < q.2.length := by rw [hp.length_eq, List.length_range]; exact hlt i hi
    have e1 : hat q i = q.2.getD i 0 := by
      unfold hat; rw [List.getD_eq_getElem _ _ hil, List.getD_eq_getElem _ _ hil]
    have hm : q.2.getD i 0 ∈ f := fixes_maps hp hfix hi (hlt i hi)
    rw [if_pos hi, hρ]
    simp only [e1, if_pos hm]
    have e3 : hat (q.1, restr f q.2) (f.idxOf i) = f.idxOf (q.2.getD i 0) := by
      unfold hat
      simp only
      have hl : f.idxOf i < (restr f q.2).length := by unfold restr; simpa using hk
      have := restr_getD (sub := f) (p := q.2) hk
      rw [List.getD_eq_getElem _ _ hl] at this ⊢
      rw [this, sub_getD_idxOf hi]
    rw [e3]
  · rw [if_neg hi, hρ]
    simp only [hat_fix hp hfix hi, if_neg hi]

theorem place_obasis {irr : List Irreps} {G : Finset SPerm} (hG : IsSGroup irr.length G) {f : List ℕ} (hf : f.Pairwise (· < ·)) (hlt : ∀ i ∈ f, i < irr.length) {L : List Ten}
    (oL : ∀ x ∈ L, On (List.range f.length) x) (h : OBasis (f.map fun i => irr.getD i []) (subrepr f G) (List.range f.length) L) : OBasis irr G f (L.map (place f)) := by
  have hnd : f.Nodup := hf.imp Nat.ne_of_lt
  have hmul : ∀ s t, place f s * place f t = place f (s * t) := fun _ _ => rfl
  refine ⟨?_, ?_, ?_⟩
  · rw [List.pairwise_map]
    refine h.pair.imp_of_mem fun {x y} hx hy e => ?_
    rw [hmul, axSum_place irr hnd ((oL x hx).mul (oL y hy)), e]; rfl
  · intro z hz
    obtain ⟨x, hx, rfl⟩ := List.mem_map.mp hz
    rw [hmul, axSum_place irr hnd ((oL x hx).mul (oL x hx)), h.norm x hx]; rfl
  · intro t ht σ hσ
    have h1 := h.complete _ (pull_symOn hG hf hlt ht hσ) (fun k => σ (f.getD k 0)) (by
      intro k hk
      rw [List.length_map] at hk
      rw [axisDim_sub irr hk]
      exact hσ _ (hlt _ (by rw [List.getD_eq_getElem _ _ hk]; exact List.getElem_mem hk)))
    have e1 : pull f σ t (fun k => σ (f.getD k 0)) = t σ := place_pull (fun _ _ => rfl) t
    rw [e1] at h1
    rw [h1]
    unfold expansion
    rw [List.map_map]
    congr 1
    apply List.map_congr_left
    intro x hx
    simp only [Function.comp_apply]
    congr 1
    have e2 := congrFun (axSum_place irr hnd ((oL x hx).mul (pull_on f σ t))) σ
    have e3 : place f (axSum (axisDim (f.map fun i => irr.getD i [])) (List.range f.length) (x * pull f σ t)) σ =
      axSum (axisDim (f.map fun i => irr.getD i [])) (List.range f.length) (x * pull f σ t) fun k => σ (f.getD k 0) := rfl
    rw [← e3, ← e2]
    apply axSum_congr
    intro τ _ h2
    rw [← hmul, Pi.mul_apply, Pi.mul_apply, place_pull h2]

end E3nn.RTP
