import Verif.Spec.ReducedTP
import Mathlib.Tactic.Ring
import Mathlib.Data.List.GetD
import Mathlib.Tactic.LinearCombination
import Mathlib.Algebra.BigOperators.Ring.Finset

/-! # Matrices acting on the axes of an array -/

namespace E3nn.RTP

open Finset

/-- The array does not depend on the axes outside `f`. -/
def On (f : List ℕ) (t : Ten) : Prop := ∀ σ τ : ℕ → ℕ, (∀ i ∈ f, σ i = τ i) → t σ = t τ

theorem On.mono {f g : List ℕ} {t : Ten} (h : On f t) (hfg : ∀ i ∈ f, i ∈ g) : On g t := fun σ τ hs => h σ τ fun i hi => hs i (hfg i hi)

theorem on_zero (f : List ℕ) : On f 0 := fun _ _ _ => rfl

theorem On.add {f : List ℕ} {s t : Ten} (hs : On f s) (ht : On f t) : On f (s + t) := fun σ τ h => by
  simp only [Pi.add_apply]; rw [hs σ τ h, ht σ τ h]

theorem On.mul {f : List ℕ} {s t : Ten} (hs : On f s) (ht : On f t) : On f (s * t) := fun σ τ h => by
  simp only [Pi.mul_apply]; rw [hs σ τ h, ht σ τ h]

theorem On.smul {f : List ℕ} {t : Ten} (c : ℝ) (ht : On f t) : On f (c • t) := fun σ τ h => by
  simp only [Pi.smul_apply]; rw [ht σ τ h]

theorem On.sum {f : List ℕ} {κ : Type} (s : Finset κ) {t : κ → Ten} (h : ∀ k ∈ s, On f (t k)) : On f (∑ k ∈ s, t k) := fun σ τ hh => by
  rw [Finset.sum_apply, Finset.sum_apply]
  exact Finset.sum_congr rfl fun k hk => h k hk σ τ hh

theorem On.update {f : List ℕ} {t : Ten} (h : On f t) {i : ℕ} (hi : i ∉ f) (σ : ℕ → ℕ) (j : ℕ) : t (Function.update σ i j) = t σ :=
  h _ _ fun k hk => Function.update_of_ne (fun e : k = i => hi (e ▸ hk)) _ _

variable (d : ℕ → ℕ) (M : ℕ → ℕ → ℕ → ℝ)

theorem onAxis_add (n : ℕ) (A : ℕ → ℕ → ℝ) (i : ℕ) (s t : Ten) : onAxis n A i (s + t) = onAxis n A i s + onAxis n A i t := by
  funext σ
  simp only [onAxis, Pi.add_apply, mul_add, sum_add_distrib]

theorem onAxis_smul (n : ℕ) (A : ℕ → ℕ → ℝ) (i : ℕ) (c : ℝ) (t : Ten) : onAxis n A i (c • t) = c • onAxis n A i t := by
  funext σ
  simp only [onAxis, Pi.smul_apply, smul_eq_mul, mul_sum]
  exact sum_congr rfl fun j _ => by ring

theorem onAxis_mul_left (n : ℕ) (A : ℕ → ℕ → ℝ) {i : ℕ} {f : List ℕ} (hi : i ∉ f) (s : Ten) {t : Ten} (ht : On f t) :
    onAxis n A i (s * t) = onAxis n A i s * t := by
  funext σ
  simp only [onAxis, Pi.mul_apply, sum_mul]
  exact sum_congr rfl fun j _ => by rw [ht.update hi]; ring

theorem onAxis_on (n : ℕ) (A : ℕ → ℕ → ℝ) {i : ℕ} {f : List ℕ} {t : Ten} (ht : On f t) : On (i :: f) (onAxis n A i t) := by
  intro σ τ h
  unfold onAxis
  refine sum_congr rfl fun j _ => ?_
  rw [h i (by simp)]
  congr 1
  apply ht
  intro k hk
  by_cases e : k = i
  · subst e; simp
  · rw [Function.update_of_ne e, Function.update_of_ne e, h k (by simp [hk])]

theorem onAxis_comm (n m : ℕ) (A B : ℕ → ℕ → ℝ) {i j : ℕ} (hij : i ≠ j) (t : Ten) :
    onAxis n A i (onAxis m B j t) = onAxis m B j (onAxis n A i t) := by
  funext σ
  simp only [onAxis, mul_sum]
  rw [sum_comm]
  refine sum_congr rfl fun a _ => sum_congr rfl fun b _ => ?_
  rw [Function.update_of_ne (Ne.symm hij), Function.update_of_ne hij, Function.update_comm hij]
  ring

theorem onAxes_add (f : List ℕ) (s t : Ten) : onAxes d M f (s + t) = onAxes d M f s + onAxes d M f t := by
  induction f with
  | nil => rfl
  | cons i f ih => show onAxis _ _ i (onAxes d M f (s + t)) = _; rw [ih, onAxis_add]; rfl

theorem onAxes_smul (f : List ℕ) (c : ℝ) (t : Ten) : onAxes d M f (c • t) = c • onAxes d M f t := by
  induction f with
  | nil => rfl
  | cons i f ih => show onAxis _ _ i (onAxes d M f (c • t)) = _; rw [ih, onAxis_smul]; rfl

/-- The action on the axes as a linear map. -/
noncomputable def onAxesL (f : List ℕ) : Ten →ₗ[ℝ] Ten where
  toFun := onAxes d M f
  map_add' := onAxes_add d M f
  map_smul' := onAxes_smul d M f

theorem onAxes_sum (f : List ℕ) {κ : Type} (s : Finset κ) (t : κ → Ten) : onAxes d M f (∑ k ∈ s, t k) = ∑ k ∈ s, onAxes d M f (t k) :=
  map_sum (onAxesL d M f) t s

theorem onAxes_perm {f g : List ℕ} (h : f.Perm g) (t : Ten) : onAxes d M f t = onAxes d M g t := by
  unfold onAxes
  refine h.foldr_eq' ?_ t
  intro x _ y _ z
  by_cases e : x = y
  · subst e; rfl
  · exact onAxis_comm _ _ _ _ (Ne.symm e) z

theorem onAxes_on {f g : List ℕ} {t : Ten} (ht : On g t) (hfg : ∀ i ∈ f, i ∈ g) : On g (onAxes d M f t) := by
  induction f with
  | nil => exact ht
  | cons i f ih =>
    have := onAxis_on (d i) (M i) (i := i) (ih fun k hk => hfg k (by simp [hk]))
    exact this.mono fun k hk => by
      rw [List.mem_cons] at hk
      rcases hk with rfl | hk
      · exact hfg _ (by simp)
      · exact hk

theorem onAxes_mul_left {f g : List ℕ} (hd : ∀ i ∈ f, i ∉ g) (s : Ten) {t : Ten} (ht : On g t) : onAxes d M f (s * t) = onAxes d M f s * t := by
  induction f with
  | nil => rfl
  | cons i f ih =>
    show onAxis _ _ i (onAxes d M f (s * t)) = _
    rw [ih fun k hk => hd k (by simp [hk]), onAxis_mul_left _ _ (hd i (by simp)) _ ht]
    rfl

theorem onAxes_append (f g : List ℕ) (t : Ten) : onAxes d M (f ++ g) t = onAxes d M f (onAxes d M g t) := by
  unfold onAxes; rw [List.foldr_append]

/-- A product of arrays on different axes. -/
theorem onAxes_mul {f g : List ℕ} (hd : ∀ i ∈ f, i ∉ g) {s t : Ten} (hs : On f s) (ht : On g t) :
    onAxes d M (f ++ g) (s * t) = onAxes d M f s * onAxes d M g t := by
  have e : onAxes d M g (s * t) = s * onAxes d M g t := by
    rw [mul_comm, onAxes_mul_left d M (fun i hi h => hd i h hi) t hs, mul_comm]
  rw [onAxes_append, e, onAxes_mul_left d M hd s (onAxes_on d M ht fun i hi => hi)]

/-! ### moving to other axes -/

theorem place_on {f : List ℕ} {t : Ten} (ht : On (List.range f.length) t) : On f (place f t) := by
  intro σ τ h
  apply ht
  intro k hk
  rw [List.mem_range] at hk
  rw [List.getD_eq_getElem _ _ hk]
  exact h _ (List.getElem_mem hk)

theorem onAxis_place {f : List ℕ} (hf : f.Nodup) {t : Ten} (ht : On (List.range f.length) t) {k : ℕ} (hk : k < f.length) (n : ℕ) (A : ℕ → ℕ → ℝ) :
    onAxis n A f[k] (place f t) = place f (onAxis n A k t) := by
  funext σ
  unfold onAxis place
  refine sum_congr rfl fun j _ => ?_
  simp only [List.getD_eq_getElem _ 0 hk]
  congr 1
  apply ht
  intro i hi
  rw [List.mem_range] at hi
  rw [List.getD_eq_getElem _ _ hi]
  by_cases e : i = k
  · subst e; simp
  · rw [Function.update_of_ne e, Function.update_of_ne, List.getD_eq_getElem _ _ hi]
    intro h
    exact e ((List.Nodup.getElem_inj_iff hf).mp h)

theorem onAxes_place {f : List ℕ} (hf : f.Nodup) {t : Ten} (ht : On (List.range f.length) t) :
    onAxes d M f (place f t) = place f (onAxes (fun k => d (f.getD k 0)) (fun k => M (f.getD k 0)) (List.range f.length) t) := by
  have key : ∀ m ≤ f.length, onAxes d M (f.take m) (place f t) =
      place f (onAxes (fun k => d (f.getD k 0)) (fun k => M (f.getD k 0)) (List.range m) t) := by
    intro m
    induction m with
    | zero => intro _; rfl
    | succ m ih =>
      intro hm
      have e1 : f.take (m + 1) = f.take m ++ [f[m]] := by rw [List.take_append_getElem]
      have p1 : (f.take m ++ [f[m]]).Perm (f[m] :: f.take m) := List.perm_append_singleton _ _
      have p2 : (List.range (m + 1)).Perm (m :: List.range m) := by rw [List.range_succ]; exact List.perm_append_singleton _ _
      rw [e1, onAxes_perm d M p1, onAxes_perm _ _ p2]
      show onAxis _ _ f[m] (onAxes d M (f.take m) (place f t)) = place f (onAxis _ _ m (onAxes _ _ (List.range m) t))
      rw [ih (by omega), onAxis_place hf]
      · simp only [List.getD_eq_getElem _ 0 (by omega : m < f.length)]
      · exact onAxes_on _ _ ht fun i hi => by rw [List.mem_range] at hi ⊢; omega
  have := key f.length le_rfl
  rwa [List.take_length] at this

end E3nn.RTP
