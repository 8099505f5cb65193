import Verif.Model.Zoom
import Verif.Spec.Zoom
import Mathlib.Tactic.Module
import Mathlib.Tactic.Linarith
import Mathlib.Tactic.LinearCombination
import Mathlib.Tactic.FieldSimp
import Mathlib.Tactic.NormNum

namespace E3nn.Zoom

variable {V : Type} [AddCommGroup V] [Module ℝ V] {nx ny nz : ℕ}

/-- Interpolation along one axis. -/
noncomputable def lin1 {n : ℕ} [NeZero n] (g : Fin n → V) (x : ℝ) : V :=
  (((⌊x⌋ + 1 : ℤ) : ℝ) - x) • g (clip n ⌊x⌋) + (x - ⌊x⌋) • g (clip n (⌊x⌋ + 1))

theorem trilinear_eq [NeZero nx] [NeZero ny] [NeZero nz] (img : Img nx ny nz V) (x y z : ℝ) :
    trilinear img x y z = lin1 (fun a => lin1 (fun b => lin1 (img a b) z) y) x := by
  simp only [trilinear, lin1]
  module

theorem clip_coe {n : ℕ} [NeZero n] (k : Fin n) : clip n (k : ℕ) = k := by
  apply Fin.ext
  simp only [clip]
  omega

theorem clip_of {n : ℕ} [NeZero n] {i : ℤ} {k : Fin n} (h : i = (k : ℕ)) : clip n i = k := by rw [h, clip_coe]

theorem clip_le {n : ℕ} [NeZero n] {i : ℤ} (h : i ≤ 0) : clip n i = ⟨0, NeZero.pos n⟩ := by
  apply Fin.ext
  simp only [clip]
  omega

theorem clip_ge {n : ℕ} [NeZero n] {i : ℤ} (h : (n : ℤ) - 1 ≤ i) : clip n i = ⟨n - 1, Nat.sub_one_lt (NeZero.ne n)⟩ := by
  apply Fin.ext
  simp only [clip]
  have := NeZero.pos n
  omega

theorem lin1_between {n : ℕ} [NeZero n] (g : Fin n → V) (k : ℤ) (t : ℝ) (h0 : 0 ≤ t) (h1 : t ≤ 1) : lin1 g (k + t) = (1 - t) • g (clip n k) + t • g (clip n (k + 1)) := by
  rcases lt_or_eq_of_le h1 with h | h
  · have hf : ⌊(k : ℝ) + t⌋ = k := by rw [Int.floor_eq_iff]; constructor <;> linarith
    rw [lin1, hf]
    congr 2 <;> push_cast <;> ring
  · subst h
    have hf : ⌊(k : ℝ) + 1⌋ = k + 1 := by rw [Int.floor_eq_iff]; push_cast; constructor <;> linarith
    rw [lin1, hf]
    push_cast
    simp

theorem lin1_int {n : ℕ} [NeZero n] (g : Fin n → V) (k : ℤ) : lin1 g k = g (clip n k) := by
  have := lin1_between g k 0 le_rfl zero_le_one
  simpa using this

theorem lin1_const {n : ℕ} [NeZero n] (v : V) (x : ℝ) : lin1 (fun _ : Fin n => v) x = v := by
  simp only [lin1]
  push_cast
  module

theorem brokenLine {n : ℕ} [NeZero n] (g : Fin n → V) : BrokenLine g (lin1 g) where
  node k := by
    have := lin1_int g (k : ℕ)
    rw [clip_coe] at this
    exact_mod_cast this
  between k t hk h0 h1 := by
    have := lin1_between g k t h0 h1
    have e0 := lin1_int g k
    have e1 := lin1_int g (k + 1)
    push_cast at this e0 e1
    rw [this, e0, e1]
  left x hx := by
    have e0 := lin1_int g 0
    push_cast at e0
    rw [e0]
    have hf : ⌊x⌋ ≤ 0 := by have := Int.floor_le x; exact_mod_cast this.trans hx
    rcases eq_or_lt_of_le hf with h | h
    · have : x = 0 := by
        have := Int.floor_le x
        rw [h] at this
        push_cast at this
        linarith
      subst this
      rw [lin1, h]
      simp
    · rw [lin1, clip_le hf, clip_le (by omega), clip_le le_rfl]
      push_cast
      module
  right x hx := by
    have hn := NeZero.pos n
    have e0 := lin1_int g ((n : ℤ) - 1)
    push_cast at e0
    have hf : (n : ℤ) - 1 ≤ ⌊x⌋ := by rw [Int.le_floor]; push_cast; exact hx
    rw [e0, lin1, clip_ge hf, clip_ge (by omega), clip_ge le_rfl]
    push_cast
    module

theorem BrokenLine.eq_lin1 {n : ℕ} [NeZero n] {g : Fin n → V} {f : ℝ → V} (h : BrokenLine g f) (x : ℝ) : f x = lin1 g x := by
  have hn := NeZero.pos n
  have hb := brokenLine g
  have hnode : ∀ k : ℕ, k < n → f k = lin1 g k := fun k hk => by rw [h.node ⟨k, hk⟩, hb.node ⟨k, hk⟩]
  have hlast : (n : ℝ) - 1 = ((n - 1 : ℕ) : ℝ) := by rw [Nat.cast_sub hn]; simp
  rcases le_or_gt x 0 with h0 | h0
  · rw [h.left x h0, hb.left x h0]
    have := hnode 0 hn
    simpa using this
  · rcases le_or_gt ((n : ℝ) - 1) x with h1 | h1
    · rw [h.right x h1, hb.right x h1, hlast]
      exact hnode _ (by omega)
    · obtain ⟨k, hk⟩ := Int.eq_ofNat_of_zero_le (Int.floor_nonneg.mpr h0.le)
      have a1 := Int.floor_le x
      have a2 := Int.lt_floor_add_one x
      rw [hk] at a1 a2
      push_cast at a1 a2
      have hkn : k + 1 < n := by
        have : (k : ℝ) < n - 1 := by linarith
        have : ((k + 1 : ℕ) : ℝ) < n := by push_cast; linarith
        exact_mod_cast this
      have e : x = k + (x - k) := by ring
      rw [e, h.between k (x - k) hkn (by linarith) (by linarith), hb.between k (x - k) hkn (by linarith) (by linarith), hnode k (by omega)]
      have := hnode (k + 1) hkn
      push_cast at this
      rw [this]

theorem BrokenLine.unique {n : ℕ} [NeZero n] {g : Fin n → V} {f f' : ℝ → V} (h : BrokenLine g f) (h' : BrokenLine g f') : f = f' := by
  funext x
  rw [h.eq_lin1, h'.eq_lin1]

/-! ### the grid -/

theorem flatMap_get {α β : Type} (g : α → List β) (w : ℕ) : ∀ (l : List α), (∀ x ∈ l, (g x).length = w) → ∀ i k, k < w → (l.flatMap g)[i * w + k]? = l[i]?.bind fun x => (g x)[k]?
  | [], _, i, k, _ => by simp
  | x :: l, h, i, k, hk => by
    have hx := h x (by simp)
    rw [List.flatMap_cons]
    cases i with
    | zero => rw [List.getElem?_append_left (by rw [hx]; simpa using hk)]; simp
    | succ i =>
      rw [List.getElem?_append_right (by rw [hx]; nlinarith), hx, show (i + 1) * w + k - w = i * w + k by rw [Nat.add_mul]; omega,
        flatMap_get g w l (fun y hy => h y (by simp [hy])) i k hk]
      simp

theorem grid_get {α β γ δ : Type} (f : α → β → γ → δ) (xs : List α) (ys : List β) (zs : List γ) {i j k : ℕ} (hi : i < xs.length) (hj : j < ys.length) (hk : k < zs.length) :
    (xs.flatMap fun x => ys.flatMap fun y => zs.map fun z => f x y z)[(i * ys.length + j) * zs.length + k]? = some (f xs[i] ys[j] zs[k]) := by
  have h1 : ∀ x ∈ xs, (ys.flatMap fun y => zs.map fun z => f x y z).length = ys.length * zs.length := by
    intro x _
    rw [List.length_flatMap]
    simp
  have hlt : j * zs.length + k < ys.length * zs.length := by
    calc j * zs.length + k < j * zs.length + zs.length := by omega
      _ = (j + 1) * zs.length := by ring
      _ ≤ ys.length * zs.length := Nat.mul_le_mul_right _ hj
  rw [show (i * ys.length + j) * zs.length + k = i * (ys.length * zs.length) + (j * zs.length + k) by ring, flatMap_get _ _ xs h1 i _ hlt, List.getElem?_eq_getElem hi, Option.bind_some,
    flatMap_get _ zs.length ys (by simp) j k hk, List.getElem?_eq_getElem hj, Option.bind_some, List.getElem?_map, List.getElem?_eq_getElem hk, Option.map_some]

theorem coords_length (n m : ℕ) : (coords n m).length = m := by simp [coords]

theorem coords_get (n m : ℕ) {k : ℕ} (hk : k < m) : (coords n m)[k]'(by rw [coords_length]; exact hk) = centre n m k := by
  have hm : (m : ℝ) ≠ 0 := by exact_mod_cast (by omega : m ≠ 0)
  simp only [coords, List.getElem_map, List.getElem_range, centre]
  field_simp
  ring

/-- The interpolating function. -/
noncomputable def interp [NeZero nx] [NeZero ny] [NeZero nz] (img : Img nx ny nz V) : Interp → ℝ → ℝ → ℝ → V
  | .linear => trilinear img
  | .nearest => nearest img
  | .other => fun _ _ _ => 0

theorem zoomTo_spec [NeZero nx] [NeZero ny] [NeZero nz] (img : Img nx ny nz V) {mx my mz : ℕ} (hx : mx ≠ 0) (hy : my ≠ 0) (hz : mz ≠ 0) {mode : Interp} (hm : mode ≠ .other) :
    zoomTo img mx my mz mode = .ok fun (i : Fin mx) (j : Fin my) (k : Fin mz) => interp img mode (centre nx mx i) (centre ny my j) (centre nz mz k) := by
  have key : ∀ f : ℝ → ℝ → ℝ → V, (fun (i : Fin mx) (j : Fin my) (k : Fin mz) =>
      (List.zipWith (fun x (q : ℝ × ℝ) => f x q.1 q.2) ((coords nx mx).flatMap fun x => (coords ny my).flatMap fun _ => (coords nz mz).map fun _ => x)
        (((coords nx mx).flatMap fun _ => (coords ny my).flatMap fun y => (coords nz mz).map fun _ => y).zip
          ((coords nx mx).flatMap fun _ => (coords ny my).flatMap fun _ => (coords nz mz).map fun z => z))).getD ((i * my + j) * mz + k) 0) =
      fun (i : Fin mx) (j : Fin my) (k : Fin mz) => f (centre nx mx i) (centre ny my j) (centre nz mz k) := by
    intro f
    funext i j k
    have e : ∀ g : ℝ → ℝ → ℝ → ℝ, ((coords nx mx).flatMap fun x => (coords ny my).flatMap fun y => (coords nz mz).map fun z => g x y z)[(i * my + j) * mz + k]? =
        some (g (centre nx mx i) (centre ny my j) (centre nz mz k)) := by
      intro g
      have := grid_get g (coords nx mx) (coords ny my) (coords nz mz) (i := i) (j := j) (k := k) (by rw [coords_length]; exact i.2) (by rw [coords_length]; exact j.2) (by rw [coords_length]; exact k.2)
      rw [coords_get nx mx i.2, coords_get ny my j.2, coords_get nz mz k.2] at this
      rw [coords_length, coords_length] at this
      exact this
    rw [List.getD_eq_getElem?_getD, List.getElem?_zipWith, e fun x _ _ => x, List.getElem?_zip_eq_some (z := (centre ny my j, centre nz mz k)) |>.mpr ⟨e fun _ y _ => y, e fun _ _ z => z⟩]
    rfl
  unfold zoomTo
  rw [if_neg (by tauto)]
  cases mode with
  | linear => exact congrArg Except.ok (key (trilinear img))
  | nearest => exact congrArg Except.ok (key (nearest img))
  | other => exact absurd rfl hm

end E3nn.Zoom
