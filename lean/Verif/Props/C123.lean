import Verif.Model.RDiv
import Verif.Props.C113

/-!
# C123: a number divided by an array of scalars
-/

namespace E3nn.RDiv

open E3nn.IArr E3nn.Pow E3nn.Wig

variable {ι : Type}

theorem no_none {x : IArr (ι → ℝ)} (hx : x.Coherent) : x.chunks.any Option.isNone = x.zeroFlags.any id := by
  obtain ⟨-, -, p3, -, p5, -⟩ := hx.inv.pairs
  rw [← p5, List.any_map]
  conv_lhs => rw [← p3, List.any_map]
  rfl

theorem lmax_zero {x : Irreps} (h0 : ∀ ir ∈ expand x, ir.l = 0) (hne : expand x ≠ []) : x.lmax = .ok 0 := by
  have hL := C11_lmax x
  cases hl : x.lmax with
  | error e =>
    have he : e = .valueError := by
      unfold Irreps.lmax at hl
      split at hl
      · exact (Except.error.inj hl).symm
      · split at hl
        · cases hl
        · exact (Except.error.inj hl).symm
    exact absurd (hL.1.mp (he ▸ hl)) hne
  | ok L =>
    obtain ⟨ir, h1, h2⟩ := (hL.2 L hl).1
    rw [← h2, h0 ir h1]

/-- `number / x` for scalars none of which is marked as zero: same irreps, every entry is the number divided by the entry of `x`. -/
theorem C123_number (c : ℝ) (x : IArr (ι → ℝ)) (hx : x.Coherent) (h0 : ∀ ir ∈ expand x.irreps, ir.l = 0) (hne : expand x.irreps ≠ [])
    (hz : ∀ b ∈ x.zeroFlags, b = false) :
    ∃ y, rdiv [fun _ => c] x = .ok y ∧ y.Coherent ∧ y.irreps = x.irreps ∧ y.array = x.array.map fun v i => c / v i := by
  have hl := hx.array_length
  obtain ⟨y, y1, y2, y3, y4, -⟩ := (C12_from_array x.irreps (x.array.map fun v i => c / v i)).1 (by rw [List.length_map, hl])
  refine ⟨y, ?_, y2, y3, y4⟩
  unfold rdiv
  rw [lmax_zero h0 hne]
  dsimp only
  rw [if_neg (by omega), if_neg]
  · split_ifs with h1 h2
    · rw [← y1]
      congr 1
      rcases ha : x.array with _ | ⟨v, _ | ⟨w, a⟩⟩
      · rw [ha] at h1; simp at h1
      · rfl
      · rw [ha] at h1; simp at h1
    · exact y1
    · simp at h2
    · simp at h2
  · rw [no_none hx]
    simpa using hz

/-- `array / x` with one number for each component. -/
theorem C123_array (other : List (ι → ℝ)) (x : IArr (ι → ℝ)) (hx : x.Coherent) (h0 : ∀ ir ∈ expand x.irreps, ir.l = 0) (hne : expand x.irreps ≠ [])
    (hz : ∀ b ∈ x.zeroFlags, b = false) (ho : other.length = (expand x.irreps).length) :
    ∃ y, rdiv other x = .ok y ∧ y.Coherent ∧ y.irreps = x.irreps ∧ y.array = List.zipWith (fun o v i => o i / v i) other x.array := by
  have hdim : ∀ l : List Irrep, (∀ ir ∈ l, ir.l = 0) → dimOf l = l.length := by
    intro l h
    induction l with
    | nil => rfl
    | cons ir l ih =>
      rw [dimOf_cons, ih fun ir hi => h ir (by simp [hi]), List.length_cons]
      have := h ir (by simp)
      unfold Irrep.dim; omega
  have hl : x.array.length = (expand x.irreps).length := by rw [hx.array_length, hdim _ h0]
  obtain ⟨y, y1, y2, y3, y4, -⟩ := (C12_from_array x.irreps (List.zipWith (fun o v i => o i / v i) other x.array)).1
    (by rw [List.length_zipWith, hdim _ h0]; omega)
  refine ⟨y, ?_, y2, y3, y4⟩
  unfold rdiv
  rw [lmax_zero h0 hne]
  dsimp only
  rw [if_neg (by omega), if_neg, if_pos (by omega), y1]
  rw [no_none hx]
  simpa using hz

/-- `1 / x` and `x ** -1` are the same. -/
theorem C123_inverse (x : IArr (ι → ℝ)) (hx : x.Coherent) (h0 : ∀ m ∈ x.irreps, m.ir.l = 0) (hne : expand x.irreps ≠ [])
    (hz : ∀ b ∈ x.zeroFlags, b = false) :
    ∃ y z, rdiv [fun _ => 1] x = .ok y ∧ powInt (-1) x = .ok z ∧ y.irreps = z.irreps ∧ y.array = z.array := by
  have hexp : ∀ ir ∈ expand x.irreps, ir.l = 0 := by
    intro ir h
    unfold expand at h
    simp only [List.mem_flatMap, List.mem_replicate] at h
    obtain ⟨m, hm, -, rfl⟩ := h
    exact h0 m hm
  obtain ⟨y, y1, -, y3, y4⟩ := C123_number 1 x hx hexp hne hz
  obtain ⟨z, z1, z2, z3, -⟩ := C113_pow (-1) x hx h0 (Or.inl hne)
  refine ⟨y, z, y1, z1, ?_, ?_⟩
  · rw [y3, z3]
    conv_lhs => rw [← List.map_id x.irreps]
    apply List.map_congr_left
    rintro ⟨mul, ⟨l, p⟩⟩ hm
    have := h0 _ hm
    simp only at this
    subst this
    simp
  · rw [y4, z2]
    apply List.map_congr_left
    intro v _
    funext i
    simp

/-- Anything that is not a scalar is refused, and so are scalars marked as zero and empty irreps, whatever is on the left. -/
theorem C123_refused (other : List (ι → ℝ)) (x : IArr (ι → ℝ)) (hx : x.Coherent)
    (h : (∃ ir ∈ expand x.irreps, 0 < ir.l) ∨ expand x.irreps = [] ∨ ∃ b ∈ x.zeroFlags, b = true) : rdiv other x = .error .valueError := by
  have hL := C11_lmax x.irreps
  unfold rdiv
  cases hl : x.irreps.lmax with
  | error e =>
    have he : e = .valueError := by
      unfold Irreps.lmax at hl
      split at hl
      · exact (Except.error.inj hl).symm
      · split at hl
        · cases hl
        · exact (Except.error.inj hl).symm
    rw [he]
  | ok L =>
    obtain ⟨⟨ir0, hi0, -⟩, hle⟩ := hL.2 L hl
    dsimp only
    rcases h with ⟨ir, h1, h2⟩ | h | ⟨b, h1, h2⟩
    · rw [if_pos (by have := hle ir h1; omega)]
    · rw [h] at hi0; simp at hi0
    · split_ifs with h3 h4
      · rfl
      · rfl
      all_goals
        exfalso
        apply h4
        rw [no_none hx, List.any_eq_true]
        exact ⟨b, h1, h2⟩

/-- The quotient of the transformed array is the transformed quotient. -/
theorem C123_equivariant {R : Matrix (Fin 3) (Fin 3) ℝ} (hR : IsOrth R) (c : ℝ) (x : IArr (ι → ℝ)) (hx : x.Coherent)
    (h0 : ∀ ir ∈ expand x.irreps, ir.l = 0) (hne : expand x.irreps ≠ []) (hz : ∀ b ∈ x.zeroFlags, b = false) :
    ∃ x' y y' z, x.transformByMatrix R = .ok x' ∧ rdiv [fun _ => c] x = .ok y ∧ rdiv [fun _ => c] x' = .ok y' ∧ y.transformByMatrix R = .ok z ∧
      y'.irreps = z.irreps ∧ y'.array = z.array := by
  obtain ⟨x', x1, x2, x3, x4, x5⟩ := C59_transform R x hx
  obtain ⟨y, y1, y2, y3, y4⟩ := C123_number c x hx h0 hne hz
  obtain ⟨y', w1, w2, w3, w4⟩ := C123_number c x' x2 (by rw [x3]; exact h0) (by rw [x3]; exact hne) (by rw [x4]; exact hz)
  obtain ⟨z, z1, z2, z3, -, z5⟩ := C59_transform R y y2
  refine ⟨x', y, y', z, x1, y1, w1, z1, by rw [w3, z3, y3, x3], ?_⟩
  have hdim : ∀ l : List Irrep, (∀ ir ∈ l, ir.l = 0) → dimOf l = l.length := by
    intro l h
    induction l with
    | nil => rfl
    | cons ir l ih =>
      rw [dimOf_cons, ih fun ir hi => h ir (by simp [hi]), List.length_cons]
      have := h ir (by simp)
      unfold Irrep.dim; omega
  have hal : x.array.length = (expand x.irreps).length := by rw [hx.array_length, hdim _ h0]
  have e1 : x'.array = List.zipWith (fun ir v => sign ir.p R • v) (expand x.irreps) x.array := by
    rw [← x2.inv.array_eq_blocks, x5, List.map_map]
    exact scalar_array hR h0 hal
  have e2 : z.array = List.zipWith (fun ir v => sign ir.p R • v) (expand x.irreps) y.array := by
    rw [← z2.inv.array_eq_blocks, z5, List.map_map, IArr.blocks, y3]
    exact scalar_array hR h0 (by rw [y4, List.length_map, hal])
  rw [w4, e1, e2, y4]
  have hs : ∀ p, sign p R = 1 ∨ sign p R = -1 := by
    intro p
    cases p with
    | e => exact Or.inl rfl
    | o => exact hR.det_cases
  rw [List.zipWith_map_right, List.map_zipWith]
  congr 1
  funext ir v i
  show c / (sign ir.p R * v i) = sign ir.p R * (c / v i)
  rcases hs ir.p with h | h <;> rw [h]
  · simp
  · rw [neg_one_mul, neg_one_mul, div_neg]

/-- An array of one number for each row has to be given a last axis: shape `(2,)` over `(2, 2)` divides the components, not the rows. -/
theorem C123_rows_witness : ∃ y, rdiv [fun _ => (1 : ℝ), fun _ => 2] (⟨[⟨2, ⟨0, .e⟩⟩], [fun _ => 1, fun _ => 1], none, none⟩ : IArr (Fin 2 → ℝ)) = .ok y ∧
    y.array = [fun _ => 1, fun _ => 2] := by
  obtain ⟨x0, e1, h, -⟩ := (C12_from_array [⟨2, ⟨0, .e⟩⟩] [(fun _ => 1 : Fin 2 → ℝ), fun _ => 1]).1 rfl
  have e2 : x0 = ⟨[⟨2, ⟨0, .e⟩⟩], [fun _ => 1, fun _ => 1], none, none⟩ := (Except.ok.inj e1).symm
  rw [e2] at h
  obtain ⟨y, y1, -, -, y4⟩ := C123_array [fun _ => (1 : ℝ), fun _ => 2] _ h (by decide) (by decide) (by decide) rfl
  refine ⟨y, y1, ?_⟩
  rw [y4]
  simp

end E3nn.RDiv
