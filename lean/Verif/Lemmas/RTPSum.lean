import Verif.Lemmas.RTPEquiv

/-! # Sums over the axes of an array -/

namespace E3nn.RTP

open Finset E3nn.IArr E3nn.Wig E3nn.PermRepr

/-- The sum over the indices on the axes `f`. -/
noncomputable def axSum (d : ℕ → ℕ) (f : List ℕ) (t : Ten) : Ten := onAxes d (fun _ _ _ => 1) f t

variable (d : ℕ → ℕ)

theorem axSum_cons (i : ℕ) (f : List ℕ) (t : Ten) (σ : ℕ → ℕ) : axSum d (i :: f) t σ = ∑ j ∈ range (d i), axSum d f t (Function.update σ i j) := by
  show onAxis (d i) (fun _ _ => 1) i (axSum d f t) σ = _
  unfold onAxis
  simp

theorem axSum_append (f g : List ℕ) (t : Ten) : axSum d (f ++ g) t = axSum d f (axSum d g t) := onAxes_append _ _ _ _ _
theorem axSum_perm {f g : List ℕ} (h : f.Perm g) (t : Ten) : axSum d f t = axSum d g t := onAxes_perm _ _ h t
theorem axSum_add (f : List ℕ) (s t : Ten) : axSum d f (s + t) = axSum d f s + axSum d f t := onAxes_add _ _ _ _ _
theorem axSum_smul (f : List ℕ) (c : ℝ) (t : Ten) : axSum d f (c • t) = c • axSum d f t := onAxes_smul _ _ _ _ _
theorem axSum_sum (f : List ℕ) {κ : Type} (s : Finset κ) (t : κ → Ten) : axSum d f (∑ k ∈ s, t k) = ∑ k ∈ s, axSum d f (t k) := onAxes_sum _ _ _ _ _
theorem axSum_mul_left {f g : List ℕ} (hd : ∀ i ∈ f, i ∉ g) (s : Ten) {t : Ten} (ht : On g t) : axSum d f (s * t) = axSum d f s * t := onAxes_mul_left _ _ hd s ht
theorem axSum_mul {f g : List ℕ} (hd : ∀ i ∈ f, i ∉ g) {s t : Ten} (hs : On f s) (ht : On g t) : axSum d (f ++ g) (s * t) = axSum d f s * axSum d g t :=
  onAxes_mul _ _ hd hs ht

theorem axSum_zero (f : List ℕ) : axSum d f 0 = 0 := by
  have := axSum_smul d f 0 0
  simpa using this

/-- The sum does not depend on the indices it runs over. -/
theorem axSum_indep (f : List ℕ) (t : Ten) {σ τ : ℕ → ℕ} (h : ∀ i, i ∉ f → σ i = τ i) : axSum d f t σ = axSum d f t τ := by
  induction f generalizing σ τ with
  | nil => rw [show σ = τ from funext fun i => h i (by simp)]
  | cons i f ih =>
    rw [axSum_cons, axSum_cons]
    refine sum_congr rfl fun j _ => ih fun k hk => ?_
    by_cases e : k = i
    · subst e; simp
    · rw [Function.update_of_ne e, Function.update_of_ne e]; exact h k (by simp [e, hk])

theorem axSum_congr (f : List ℕ) {s t : Ten} {σ : ℕ → ℕ} (h : ∀ τ : ℕ → ℕ, (∀ i ∈ f, τ i < d i) → (∀ i, i ∉ f → τ i = σ i) → s τ = t τ) :
    axSum d f s σ = axSum d f t σ := by
  induction f generalizing σ with
  | nil => exact h σ (by simp) (by simp)
  | cons i f ih =>
    rw [axSum_cons, axSum_cons]
    refine sum_congr rfl fun j hj => ih fun τ h1 h2 => h τ ?_ ?_
    · intro k hk
      rw [List.mem_cons] at hk
      by_cases hkf : k ∈ f
      · exact h1 k hkf
      · rcases hk with rfl | hk
        · rw [h2 k hkf]; simpa using hj
        · exact absurd hk hkf
    · intro k hk
      rw [List.mem_cons, not_or] at hk
      rw [h2 k hk.2, Function.update_of_ne hk.1]

/-- The sum of an array on the axes `f` is a number. -/
theorem axSum_const {f : List ℕ} {t : Ten} (ht : On f t) (σ τ : ℕ → ℕ) : axSum d f t σ = axSum d f t τ := by
  have h : On f (axSum d f t) := onAxes_on _ _ ht fun i hi => hi
  have e : axSum d f t σ = axSum d f t (fun i => if i ∈ f then σ i else τ i) := h _ _ fun i hi => by simp [hi]
  rw [e]
  exact axSum_indep d f t fun i hi => by simp [hi]

/-! ### adjoints -/

theorem axSum_adjoint1 (A : ℕ → ℕ → ℝ) (i : ℕ) (s t : Ten) :
    axSum d [i] (onAxis (d i) A i s * t) = axSum d [i] (s * onAxis (d i) (fun a b => A b a) i t) := by
  funext σ
  rw [axSum_cons, axSum_cons]
  simp only [axSum, onAxes, List.foldr_nil, Pi.mul_apply, onAxis, Function.update_self, Function.update_idem, sum_mul, mul_sum]
  rw [sum_comm]
  exact sum_congr rfl fun a _ => sum_congr rfl fun b _ => by ring

theorem axSum_adjoint_mem (A : ℕ → ℕ → ℝ) {i : ℕ} {f : List ℕ} (hi : i ∈ f) (s t : Ten) :
    axSum d f (onAxis (d i) A i s * t) = axSum d f (s * onAxis (d i) (fun a b => A b a) i t) := by
  have hp : f.Perm (f.erase i ++ [i]) := (List.perm_cons_erase hi).trans (List.perm_append_singleton _ _).symm
  rw [axSum_perm d hp, axSum_perm d hp, axSum_append, axSum_append, axSum_adjoint1]

theorem axSum_adjoint (M : ℕ → ℕ → ℕ → ℝ) {f g : List ℕ} (hg : ∀ i ∈ g, i ∈ f) (hn : g.Nodup) (s t : Ten) :
    axSum d f (onAxes d M g s * t) = axSum d f (s * onAxes d (fun i a b => M i b a) g t) := by
  induction g generalizing s t with
  | nil => rfl
  | cons i g ih =>
    have e1 : onAxes d M (i :: g) s = onAxis (d i) (M i) i (onAxes d M g s) := rfl
    rw [e1, axSum_adjoint_mem d (M i) (hg i (by simp)), ih (fun k hk => hg k (by simp [hk])) (List.nodup_cons.mp hn).2]
    congr 2
    rw [onAxes_perm d _ (List.perm_append_singleton i g).symm, onAxes_append]
    rfl

theorem onAxes_congr {M M' : ℕ → ℕ → ℕ → ℝ} {f : List ℕ} (h : ∀ i ∈ f, ∀ a b, a < d i → b < d i → M i a b = M' i a b) {t : Ten} {σ : ℕ → ℕ} (hσ : ∀ i ∈ f, σ i < d i) :
    onAxes d M f t σ = onAxes d M' f t σ := by
  induction f generalizing σ with
  | nil => rfl
  | cons i f ih =>
    show onAxis _ _ i (onAxes d M f t) σ = onAxis _ _ i (onAxes d M' f t) σ
    unfold onAxis
    refine sum_congr rfl fun j hj => ?_
    rw [mem_range] at hj
    rw [h i (by simp) _ _ (hσ i (by simp)) hj]
    congr 1
    refine ih (fun k hk => h k (by simp [hk])) fun k hk => ?_
    by_cases e : k = i
    · subst e; simpa using hj
    · rw [Function.update_of_ne e]; exact hσ k (by simp [hk])

/-! ### rotations -/

theorem entry_blockDiag_transpose {R : Matrix (Fin 3) (Fin 3) ℝ} (hR : IsOrth R) (L : List Irrep) (a b : ℕ) :
    entry (Irreps.blockDiag (L.map fun ir => matRows (Wig.dMatrix ir R.transpose))) a b = entry (Irreps.blockDiag (L.map fun ir => matRows (Wig.dMatrix ir R))) b a := by
  induction L generalizing a b with
  | nil => simp [Irreps.blockDiag, entry]
  | cons ir L ih =>
    rw [List.map_cons, List.map_cons]
    have hl : ∀ S, ∀ r ∈ matRows (Wig.dMatrix ir S), r.length = (matRows (Wig.dMatrix ir S)).length := by
      intro S r hr
      unfold matRows at hr ⊢
      obtain ⟨c, rfl⟩ := (List.mem_ofFn' _ _).mp hr
      simp
    have hlen : ∀ S, (matRows (Wig.dMatrix ir S)).length = 2 * ir.l + 1 := by intro S; simp [matRows]
    rw [entry_blockDiag _ _ (hl _), entry_blockDiag _ _ (hl _)]
    simp only [hlen, ih]
    by_cases ha : a < 2 * ir.l + 1 <;> by_cases hb : b < 2 * ir.l + 1
    · simp only [ha, hb, if_true]
      have := entry_matRows (Wig.dMatrix ir R.transpose) ⟨a, ha⟩ ⟨b, hb⟩
      simp only at this
      rw [this, (C39_orthogonal ir hR).2]
      have := entry_matRows (Wig.dMatrix ir R) ⟨b, hb⟩ ⟨a, ha⟩
      simp only at this
      rw [this]; rfl
    all_goals simp [ha, hb]

theorem mats_transpose {R : Matrix (Fin 3) (Fin 3) ℝ} (hR : IsOrth R) (irr : List Irreps) (i a b : ℕ) : mats irr R.transpose i a b = mats irr R i b a := by
  unfold mats
  rw [dMatrix_blockDiag, dMatrix_blockDiag, entry_blockDiag_transpose hR]

/-- The adjoint of a rotation is the inverse rotation. -/
theorem axSum_rotate {R : Matrix (Fin 3) (Fin 3) ℝ} (hR : IsOrth R) (irr : List Irreps) {f : List ℕ} (hf : f.Nodup) (s t : Ten) :
    axSum d f (onAxes d (mats irr R) f s * t) = axSum d f (s * onAxes d (mats irr R.transpose) f t) := by
  rw [axSum_adjoint d _ (fun i hi => hi) hf]
  congr 3
  funext i a b
  rw [mats_transpose hR]

end E3nn.RTP
