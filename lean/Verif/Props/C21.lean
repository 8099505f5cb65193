import Verif.Lemmas.Axis

/-!
# C21: `mul_to_axis` and `axis_to_mul`
-/

namespace E3nn
open IArr

variable {α : Type} [Zero α]

/-- Two arrays that a user cannot tell apart: same irreps, array, zero flags and chunks. -/
def IArr.Same (x y : IArr α) : Prop :=
  x.irreps = y.irreps ∧ x.array = y.array ∧ x.zeroFlags = y.zeroFlags ∧ x.chunks = y.chunks

/-- For a positive factor `f` dividing all multiplicities, `mul_to_axis(f)` succeeds, divides the
multiplicities, and row number `j` of each chunk at position `k` of the new axis is row
`k * (mul / f) + j` of the old chunk. -/
theorem C21_mul_to_axis (x : IArr α) (hx : x.Coherent) (f : Nat) (hf : 0 < f)
    (hdiv : ∀ m ∈ x.irreps, f ∣ m.mul) :
    ∃ y, x.mulToAxis f = .ok y ∧ y.Coherent ∧
      y.irreps = x.irreps.map (fun m => ⟨m.mul / f, m.ir⟩) ∧
      y.zeroFlags = x.zeroFlags ∧
      ∀ (t : Nat) (m : MulIrrep) (c : List (List α)), x.irreps[t]? = some m → x.chunks[t]? = some (some c) →
        ∃ c' : List (List (Fin f → α)), y.chunks[t]? = some (some c') ∧
          ∀ (k : Fin f) (j i : Nat), j < m.mul / f → i < 2 * m.ir.l + 1 →
            (do let r ← c'[j]?; let v ← r[i]?; pure (v k)) =
            (do let r ← c[k.val * (m.mul / f) + j]?; r[i]?) := by
  obtain ⟨y, y1, y2, y3, y4⟩ := mulToAxis_spec hx.inv hf hdiv
  obtain ⟨-, p2, p3, -, p5, -⟩ := hx.inv.pairs
  obtain ⟨-, q2, q3, -, q5, -⟩ := y2.pairs
  have hfl : y.zeroFlags = x.zeroFlags := by
    have e1 : y.zeroFlags = y.chunks.map Option.isNone := by
      rw [← q5, ← q3, List.map_map]; simp [Function.comp_def, q3]
    have e2 : x.zeroFlags = x.chunks.map Option.isNone := by
      rw [← p5, ← p3, List.map_map]; simp [Function.comp_def, p3]
    rw [e1, e2, y4, List.map_map, ← p3, List.map_map, p3]
    apply List.map_congr_left
    rintro ⟨m, c⟩ _
    simp
  refine ⟨y, y1, y2.coherent, y3, hfl, ?_⟩
  intro t m c hm hc
  have hz : (x.irreps.zip x.chunks)[t]? = some (m, some c) := by
    rw [List.getElem?_zip_eq_some]; exact ⟨hm, hc⟩
  have hs := hx.inv.pairs.1 _ (List.mem_of_getElem? hz)
  simp only [shapeOk, Bool.and_eq_true, beq_iff_eq, List.all_eq_true] at hs
  refine ⟨splitRows f (m.mul / f) m.ir.dim c, by rw [y4, List.getElem?_map, hz]; rfl, ?_⟩
  intro k j i hj hi
  have hb : k.val * (m.mul / f) + j < c.length := by
    have hk := k.isLt
    rw [hs.1]
    calc k.val * (m.mul / f) + j < k.val * (m.mul / f) + m.mul / f := by omega
      _ = (k.val + 1) * (m.mul / f) := by rw [Nat.succ_mul]
      _ ≤ f * (m.mul / f) := Nat.mul_le_mul_right _ hk
      _ ≤ m.mul := Nat.mul_div_le _ _
  have hr := hs.2 _ (List.getElem_mem hb)
  have hi' : i < c[k.val * (m.mul / f) + j].length := by rw [hr]; exact hi
  have hi'' : i < m.ir.dim := hi
  simp [splitRows, hj, hi'', List.getElem?_eq_getElem hb, List.getElem?_eq_getElem hi']

/-- `axis_to_mul(mul_to_axis(x, f))` is `x`. -/
theorem C21_axis_to_mul_of_mul_to_axis (x : IArr α) (hx : x.Coherent) (f : Nat) (hf : 0 < f)
    (hdiv : ∀ m ∈ x.irreps, f ∣ m.mul) :
    ∃ y z, x.mulToAxis f = .ok y ∧ y.axisToMul = .ok z ∧ z.Coherent ∧ z.Same x := by
  obtain ⟨y, y1, y2, y3, y4⟩ := mulToAxis_spec hx.inv hf hdiv
  obtain ⟨z, z1, z2, z3, z4⟩ := axisToMul_spec y2
  have hirr : z.irreps = x.irreps := by
    rw [z3, y3, List.map_map]
    conv => rhs; rw [← List.map_id x.irreps]
    apply List.map_congr_left
    intro m hm
    simp [Nat.mul_div_cancel' (hdiv m hm)]
  have hch : z.chunks = x.chunks := by
    rw [z4, y4, List.map_map]
    conv => rhs; rw [← hx.inv.pairs.2.2.1]
    apply List.map_congr_left
    rintro ⟨m, c⟩ hp
    have hs := hx.inv.pairs.1 _ hp
    cases c with
    | none => rfl
    | some c =>
      simp only [shapeOk, Bool.and_eq_true, beq_iff_eq, List.all_eq_true] at hs
      simp only [Function.comp_apply, Option.map_some, Option.some.injEq]
      apply join_split
      · rw [Nat.mul_div_cancel' (hdiv m (List.of_mem_zip hp).1)]; exact hs.1
      · exact hs.2
  obtain ⟨a, b⟩ := z2.array_of_chunks hx.inv hirr hch
  exact ⟨y, z, y1, z1, z2.coherent, hirr, a, b, hch⟩

/-- `mul_to_axis(axis_to_mul(x), f)` is `x` when `x` has a new axis of positive length `f`. -/
theorem C21_mul_to_axis_of_axis_to_mul (f : Nat) (hf : 0 < f) (x : IArr (Fin f → α)) (hx : x.Coherent) :
    ∃ y z, x.axisToMul = .ok y ∧ y.mulToAxis f = .ok z ∧ y.Coherent ∧ z.Same x := by
  obtain ⟨y, y1, y2, y3, y4⟩ := axisToMul_spec hx.inv
  obtain ⟨z, z1, z2, z3, z4⟩ := mulToAxis_spec y2 hf (by
    intro m hm
    rw [y3] at hm
    obtain ⟨m', _, rfl⟩ := List.mem_map.mp hm
    exact Nat.dvd_mul_right _ _)
  have hirr : z.irreps = x.irreps := by
    rw [z3, y3, List.map_map]
    conv => rhs; rw [← List.map_id x.irreps]
    apply List.map_congr_left
    intro m hm
    simp [Nat.mul_div_cancel_left _ hf]
  have hch : z.chunks = x.chunks := by
    rw [z4, y4, y3, List.zip_map, List.map_map]
    conv => rhs; rw [← hx.inv.pairs.2.2.1]
    apply List.map_congr_left
    rintro ⟨m, c⟩ hp
    have hs := hx.inv.pairs.1 _ hp
    cases c with
    | none => rfl
    | some c =>
      simp only [shapeOk, Bool.and_eq_true, beq_iff_eq, List.all_eq_true] at hs
      simp only [Function.comp_apply, Prod.map, Option.map_some, Option.some.injEq,
        Nat.mul_div_cancel_left _ hf]
      exact split_join f m.mul m.ir.dim c hs.1 hs.2
  obtain ⟨a, b⟩ := z2.array_of_chunks hx.inv hirr hch
  exact ⟨y, z, y1, z1, y2.coherent, hirr, a, b, hch⟩

/-- A factor that does not divide some multiplicity is refused. -/
theorem C21_bad_factor (x : IArr α) (f : Nat) (hf : 0 < f) (h : ∃ m ∈ x.irreps, ¬ f ∣ m.mul) :
    x.mulToAxis f = .error .valueError := by
  obtain ⟨m, hm, hd⟩ := h
  unfold mulToAxis
  rw [if_neg (by omega), if_pos]
  simp only [Bool.not_eq_true', List.all_eq_false, beq_iff_eq]
  exact ⟨m, hm, fun e => hd (Nat.dvd_of_mod_eq_zero e)⟩

/-- The default factor (greatest common divisor of the multiplicities): `mul_to_axis()` succeeds
exactly when there is a term with a non-zero multiplicity. -/
theorem C21_default_factor (x : IArr α) (hx : x.Coherent) :
    ((∃ m ∈ x.irreps, m.mul ≠ 0) →
      ∃ f y, defaultFactor x.irreps = .ok f ∧ 0 < f ∧ (∀ m ∈ x.irreps, f ∣ m.mul) ∧
        (∀ g, (∀ m ∈ x.irreps, g ∣ m.mul) → g ∣ f) ∧ x.mulToAxis f = .ok y) ∧
    (x.irreps = [] → defaultFactor x.irreps = .error .typeError) ∧
    (x.irreps ≠ [] → (∀ m ∈ x.irreps, m.mul = 0) →
      ∃ f, defaultFactor x.irreps = .ok f ∧ x.mulToAxis f = .error .zeroDivision) := by
  have key : ∀ (ms : Irreps) (g : Nat),
      (∀ d, d ∣ ms.foldl (fun g (m : MulIrrep) => Nat.gcd g m.mul) g ↔ d ∣ g ∧ ∀ m ∈ ms, d ∣ m.mul) := by
    intro ms
    induction ms with
    | nil => intro g d; simp
    | cons m ms ih =>
      intro g d
      rw [List.foldl_cons, ih, Nat.dvd_gcd_iff]
      simp [and_assoc]
  refine ⟨?_, ?_, ?_⟩
  · rintro ⟨m0, hm0, hne⟩
    cases hl : x.irreps with
    | nil => rw [hl] at hm0; simp at hm0
    | cons m ms =>
      have hk := key ms m.mul
      set f := ms.foldl (fun g (m : MulIrrep) => Nat.gcd g m.mul) m.mul with hf
      have hall : ∀ d, d ∣ f ↔ ∀ k ∈ x.irreps, d ∣ k.mul := by
        intro d; rw [hk, hl]; simp
      have hpos : 0 < f := by
        rcases Nat.eq_zero_or_pos f with h0 | h0
        · have := (hall 0).mp (by rw [h0]) m0 hm0
          exact absurd (Nat.eq_zero_of_zero_dvd this) hne
        · exact h0
      have hd := (hall f).mp dvd_rfl
      obtain ⟨y, y1, -⟩ := mulToAxis_spec hx.inv hpos hd
      rw [← hl]
      exact ⟨f, y, by rw [hl]; rfl, hpos, hd, fun g hg => (hall g).mpr hg, y1⟩
  · intro h; rw [h]; rfl
  · intro hne hz
    cases hl : x.irreps with
    | nil => exact absurd hl hne
    | cons m ms =>
      have hk := (key ms m.mul 0).mpr (by
        rw [hl] at hz
        exact ⟨by rw [hz m (by simp)], fun k hk => by rw [hz k (by simp [hk])]⟩)
      refine ⟨0, ?_, ?_⟩
      · simp [defaultFactor, Nat.eq_zero_of_zero_dvd hk]
      · unfold mulToAxis
        rw [if_pos ⟨rfl, hne⟩]

/-- `4x0e + 2x1o` with factor 2. -/
example : ((⟨[⟨4, ⟨0, .e⟩⟩, ⟨2, ⟨1, .o⟩⟩], [0, 1, 2, 3, 4, 5, 6, 7, 8, 9], none, none⟩ : IArr Int).mulToAxis 2).toOption.map
    (fun y => (y.irreps, y.array.map fun v => (v 0, v 1))) =
    some ([⟨2, ⟨0, .e⟩⟩, ⟨1, ⟨1, .o⟩⟩], [(0, 2), (1, 3), (4, 7), (5, 8), (6, 9)]) := by decide

end E3nn
