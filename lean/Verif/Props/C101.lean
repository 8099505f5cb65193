import Verif.Lemmas.Zoom
import Mathlib.Analysis.Convex.Hull
import Mathlib.Analysis.Convex.Combination
import Mathlib.Tactic.Positivity
import Mathlib.Algebra.BigOperators.Fin

/-!
# C101: `zoom`
-/

namespace E3nn.Zoom

variable {V W : Type} [AddCommGroup V] [Module ℝ V] [AddCommGroup W] [Module ℝ W] {nx ny nz : ℕ}

/-! ### rounding -/

theorem roundEven_spec (x : ℝ) : |x - roundEven x| ≤ 1 / 2 ∧ (|x - roundEven x| = 1 / 2 → Even (roundEven x)) := by
  have h0 := Int.floor_add_fract x
  have h1 := Int.fract_nonneg x
  have h2 := Int.fract_lt_one x
  have e : x - ⌊x⌋ = Int.fract x := by linarith
  have e' : x - ((⌊x⌋ + 1 : ℤ) : ℝ) = Int.fract x - 1 := by push_cast; linarith
  unfold roundEven
  split_ifs with a b c
  · rw [e, abs_of_nonneg h1]
    exact ⟨by linarith, fun h => by linarith⟩
  · rw [e', abs_of_nonpos (by linarith)]
    exact ⟨by linarith, fun h => by linarith⟩
  · rw [e, abs_of_nonneg h1]
    exact ⟨by linarith, fun _ => c⟩
  · rw [e', abs_of_nonpos (by linarith)]
    exact ⟨by linarith, fun _ => (Int.not_even_iff_odd.mp c).add_one⟩

theorem round_unique {x : ℝ} {a b : ℤ} (ha : |x - a| ≤ 1 / 2) (ha' : |x - a| = 1 / 2 → Even a) (hb : |x - b| ≤ 1 / 2) (hb' : |x - b| = 1 / 2 → Even b) : a = b := by
  have key : ∀ a b : ℤ, |x - a| ≤ 1 / 2 → (|x - a| = 1 / 2 → Even a) → |x - b| ≤ 1 / 2 → (|x - b| = 1 / 2 → Even b) → ¬ a < b := by
    intro a b ha ha' hb hb' h
    rw [abs_le] at ha hb
    have h1 : (a : ℝ) + 1 ≤ b := by exact_mod_cast h
    have h2 : (b : ℝ) = a + 1 := by linarith
    have h3 : b = a + 1 := by exact_mod_cast h2
    have h4 : x - a = 1 / 2 := by linarith
    have h5 : x - b = -(1 / 2) := by linarith
    have e1 := ha' (by rw [h4]; norm_num)
    have e2 := hb' (by rw [h5]; norm_num)
    rw [h3] at e2
    exact absurd e2 (Int.not_even_iff_odd.mpr e1.add_one)
  have h1 := key a b ha ha' hb hb'
  have h2 := key b a hb hb' ha ha'
  omega

theorem roundEven_of {x : ℝ} {m : ℕ} (h : IsRound x m) : roundEven x = m := by
  obtain ⟨h1, h2⟩ := roundEven_spec x
  exact round_unique h1 h2 (by exact_mod_cast h.1) fun h' => by exact_mod_cast h.2 (by exact_mod_cast h')

theorem roundEven_int (k : ℤ) : roundEven k = k := by simp [roundEven]

theorem nearest_clip {n : ℕ} [NeZero n] (x : ℝ) : Nearest n x (clip n (roundEven x)) := by
  obtain ⟨h1, h2⟩ := roundEven_spec x
  have hn := NeZero.pos n
  generalize roundEven x = r at h1 h2
  rw [abs_le] at h1
  rcases lt_or_ge r 0 with hr | hr
  · rw [clip_le hr.le]
    have hx : x < 0 := by
      have : (r : ℝ) + 1 ≤ 0 := by exact_mod_cast hr
      linarith
    constructor
    · intro b
      have hb : (0 : ℝ) ≤ (b : ℕ) := Nat.cast_nonneg _
      simp only [Nat.cast_zero]
      rw [abs_of_neg (by linarith), abs_of_neg (by linarith)]
      linarith
    · intro b hb he
      exact ⟨0, rfl⟩
  · rcases le_or_gt (n : ℤ) r with hr' | hr'
    · rw [clip_ge (by omega)]
      have hlast : (((n - 1 : ℕ) : ℕ) : ℝ) = n - 1 := by rw [Nat.cast_sub hn]; simp
      have hx : (n : ℝ) - 1 < x := by
        have : (n : ℝ) ≤ r := by exact_mod_cast hr'
        linarith
      have hb : ∀ b : Fin n, ((b : ℕ) : ℝ) ≤ n - 1 := fun b => by
        have : (b : ℕ) ≤ n - 1 := by omega
        have : ((b : ℕ) : ℝ) ≤ ((n - 1 : ℕ) : ℝ) := by exact_mod_cast this
        rwa [hlast] at this
      constructor
      · intro b
        have := hb b
        simp only [hlast]
        rw [abs_of_pos (by linarith), abs_of_pos (by linarith)]
        linarith
      · intro b hne he
        have := hb b
        simp only [hlast] at he
        rw [abs_of_pos (by linarith), abs_of_pos (by linarith)] at he
        exfalso
        apply hne
        apply Fin.ext
        have e : ((b : ℕ) : ℝ) = ((n - 1 : ℕ) : ℝ) := by rw [hlast]; linarith
        exact_mod_cast e
    · obtain ⟨k, rfl⟩ := Int.eq_ofNat_of_zero_le hr
      have hk : k < n := by omega
      rw [clip_of (k := ⟨k, hk⟩) rfl]
      have far : ∀ b : Fin n, b ≠ ⟨k, hk⟩ → 1 / 2 ≤ |x - (b : ℕ)| := by
        intro b hb
        have hne : (b : ℕ) ≠ k := fun h => hb (Fin.ext h)
        push_cast at h1
        rw [le_abs]
        rcases Nat.lt_or_gt_of_ne hne with h | h
        · left
          have : ((b : ℕ) : ℝ) + 1 ≤ k := by exact_mod_cast h
          linarith
        · right
          have : (k : ℝ) + 1 ≤ (b : ℕ) := by exact_mod_cast h
          linarith
      have h1' : |x - (k : ℕ)| ≤ 1 / 2 := by
        rw [abs_le]
        push_cast at h1
        exact h1
      constructor
      · intro b
        by_cases hb : b = ⟨k, hk⟩
        · rw [hb]
        · exact h1'.trans (far b hb)
      · intro b hb he
        have := h2 (by
          push_cast
          exact le_antisymm h1' (by simp only at he; rw [he]; exact far b hb))
        exact_mod_cast this

/-- **C101 (nearest voxel).** Every position has exactly one nearest voxel, the even one in the middle of two. -/
theorem C101_nearest_unique (n : ℕ) [NeZero n] (x : ℝ) : ∃! a, Nearest n x a := by
  refine ⟨_, nearest_clip x, fun b hb => ?_⟩
  have ha := nearest_clip (n := n) x
  generalize clip n (roundEven x) = a at ha
  by_contra hne
  have he : |x - (a : ℕ)| = |x - (b : ℕ)| := le_antisymm (ha.1 b) (hb.1 a)
  have e1 := ha.2 b hne he
  have e2 := hb.2 a (Ne.symm hne) he.symm
  -- two even numbers at the same distance have an odd one between
  have hmid : ∀ a b : Fin n, (a : ℕ) < b → |x - (a : ℕ)| = |x - (b : ℕ)| → Even (a : ℕ) → Even (b : ℕ) → (∀ c : Fin n, |x - (a : ℕ)| ≤ |x - (c : ℕ)|) → False := by
    intro a b hlt he e1 e2 hmin
    have h2 : (a : ℕ) + 2 ≤ b := by
      obtain ⟨s, hs⟩ := e1
      obtain ⟨t, ht⟩ := e2
      omega
    have hlt' : ((a : ℕ) : ℝ) + 2 ≤ (b : ℕ) := by exact_mod_cast h2
    have hx : x = (((a : ℕ) : ℝ) + (b : ℕ)) / 2 := by
      rcases abs_eq_abs.mp he with h | h <;> linarith
    have hc := hmin ⟨a + 1, by omega⟩
    simp only [Nat.cast_add, Nat.cast_one] at hc
    rw [abs_of_nonneg (by linarith), abs_of_nonneg (by linarith)] at hc
    linarith
  rcases Nat.lt_or_gt_of_ne (fun h => hne (Fin.ext h) : (b : ℕ) ≠ a) with h | h
  · exact hmid b a h he.symm e2 e1 hb.1
  · exact hmid a b h he e1 e2 ha.1

/-! ### the value -/

theorem zoom_spec [NeZero nx] [NeZero ny] [NeZero nz] (img : Img nx ny nz V) (mx my mz : ℕ) [NeZero mx] [NeZero my] [NeZero mz] {mode : Interp} (hm : mode ≠ .other) :
    zoom img none (some (mx, my, mz)) mode = .ok ⟨(mx, my, mz), fun (i : Fin mx) (j : Fin my) (k : Fin mz) => interp img mode (centre nx mx i) (centre ny my j) (centre nz mz k)⟩ := by
  unfold zoom
  simp only [zoomTo_spec img (NeZero.ne mx) (NeZero.ne my) (NeZero.ne mz) hm, bind, Except.bind]
  rfl

/-- **C101 (linear interpolation).** The value at a voxel is obtained by following, one axis after the other, the broken lines through the voxels of the source to the position of
the centre of the voxel. -/
theorem C101_linear [NeZero nx] [NeZero ny] [NeZero nz] (img : Img nx ny nz V) (mx my mz : ℕ) [NeZero mx] [NeZero my] [NeZero mz] :
    ∃ out : Img mx my mz V, zoom img none (some (mx, my, mz)) .linear = .ok ⟨(mx, my, mz), out⟩ ∧
      ∀ (fz : Fin nx → Fin ny → ℝ → V) (fy : Fin nx → ℝ → V) (fx : ℝ → V) (i : Fin mx) (j : Fin my) (k : Fin mz),
        (∀ a b, BrokenLine (img a b) (fz a b)) → (∀ a, BrokenLine (fun b => fz a b (centre nz mz k)) (fy a)) → BrokenLine (fun a => fy a (centre ny my j)) fx →
        out i j k = fx (centre nx mx i) := by
  refine ⟨_, zoom_spec img mx my mz (by simp), fun fz fy fx i j k h1 h2 h3 => ?_⟩
  simp only [interp]
  rw [trilinear_eq, h3.eq_lin1]
  congr 1
  funext a
  rw [(h2 a).eq_lin1]
  congr 1
  funext b
  rw [(h1 a b).eq_lin1]

/-- There is exactly one broken line. -/
theorem C101_line_unique {n : ℕ} [NeZero n] (g : Fin n → V) : ∃! f, BrokenLine g f := ⟨_, brokenLine g, fun _ h => h.unique (brokenLine g)⟩

/-- **C101 (nearest).** The value at a voxel is the value of the voxel of the source that is nearest to its centre. -/
theorem C101_nearest [NeZero nx] [NeZero ny] [NeZero nz] (img : Img nx ny nz V) (mx my mz : ℕ) [NeZero mx] [NeZero my] [NeZero mz] :
    ∃ out : Img mx my mz V, zoom img none (some (mx, my, mz)) .nearest = .ok ⟨(mx, my, mz), out⟩ ∧
      ∀ (i : Fin mx) (j : Fin my) (k : Fin mz) a b c, Nearest nx (centre nx mx i) a → Nearest ny (centre ny my j) b → Nearest nz (centre nz mz k) c → out i j k = img a b c := by
  refine ⟨_, zoom_spec img mx my mz (by simp), fun i j k a b c ha hb hc => ?_⟩
  simp only [interp, nearest]
  rw [(C101_nearest_unique nx _).unique ha (nearest_clip _), (C101_nearest_unique ny _).unique hb (nearest_clip _), (C101_nearest_unique nz _).unique hc (nearest_clip _)]

/-- **C101 (sizes from rates).** A rate multiplies the size; the product is rounded to the nearest integer, half to even; one rate counts for the three axes. -/
theorem C101_rate [NeZero nx] [NeZero ny] [NeZero nz] (img : Img nx ny nz V) (rx ry rz : ℝ) (mode : Interp) {mx my mz : ℕ} (hx : IsRound (nx * rx) mx) (hy : IsRound (ny * ry) my)
    (hz : IsRound (nz * rz) mz) : zoom img (some (.three rx ry rz)) none mode = zoom img none (some (mx, my, mz)) mode ∧
      ∀ r, zoom img (some (.one r)) none mode = zoom img (some (.three r r r)) none mode := by
  refine ⟨?_, fun r => rfl⟩
  have ex : (roundEven (nx * rx)).toNat = mx := by rw [roundEven_of hx, Int.toNat_natCast]
  have ey : (roundEven (ny * ry)).toNat = my := by rw [roundEven_of hy, Int.toNat_natCast]
  have ez : (roundEven (nz * rz)).toNat = mz := by rw [roundEven_of hz, Int.toNat_natCast]
  subst ex ey ez
  rfl

/-- **C101 (refused arguments).** Exactly one of the rate and the size has to be given, the size may not be zero, and the interpolation has to be one of the two. -/
theorem C101_refuse [NeZero nx] [NeZero ny] [NeZero nz] (img : Img nx ny nz V) (mode : Interp) : (∀ r s, zoom img (some r) (some s) mode = .error .assertion) ∧
    zoom img none none mode = .error .assertion ∧ (∀ mx my mz, mx = 0 ∨ my = 0 ∨ mz = 0 → zoom img none (some (mx, my, mz)) mode = .error .zeroDivision) ∧
    ∀ r s, ∃ e, zoom img r s .other = .error e := by
  refine ⟨fun r s => rfl, rfl, fun mx my mz h => ?_, fun r s => ?_⟩
  · unfold zoom zoomTo
    simp only [if_pos h]
    rfl
  · have key : ∀ mx my mz, ∃ e, zoomTo img mx my mz .other = .error e := by
      intro mx my mz
      unfold zoomTo
      split_ifs
      · exact ⟨_, rfl⟩
      · exact ⟨_, rfl⟩
    cases r with
    | none =>
      cases s with
      | none => exact ⟨_, rfl⟩
      | some s =>
        obtain ⟨e, he⟩ := key s.1 s.2.1 s.2.2
        exact ⟨e, by unfold zoom; simp only [he]; rfl⟩
    | some r =>
      cases s with
      | some s => exact ⟨_, rfl⟩
      | none =>
        unfold zoom
        simp only
        exact ⟨_, by rw [(key _ _ _).choose_spec]; rfl⟩

/-! ### consequences -/

theorem centre_same {n : ℕ} [NeZero n] (k : ℕ) : centre n n k = k := by
  have : (n : ℝ) ≠ 0 := by exact_mod_cast NeZero.ne n
  rw [centre]
  field_simp
  ring

/-- **C101 (same size).** Resampling to the same size changes nothing. -/
theorem C101_same_size [NeZero nx] [NeZero ny] [NeZero nz] (img : Img nx ny nz V) {mode : Interp} (hm : mode ≠ .other) :
    zoom img none (some (nx, ny, nz)) mode = .ok ⟨(nx, ny, nz), img⟩ := by
  rw [zoom_spec img nx ny nz hm]
  congr 2
  funext i j k
  rw [centre_same, centre_same, centre_same]
  cases mode with
  | other => exact absurd rfl hm
  | linear =>
    simp only [interp]
    rw [trilinear_eq]
    simp only [(brokenLine _).node]
  | nearest =>
    simp only [interp, nearest]
    have e : ∀ {n : ℕ} [NeZero n] (a : Fin n), clip n (roundEven ((a : ℕ) : ℝ)) = a := fun {n} _ a => by
      have := roundEven_int (a : ℕ)
      push_cast at this
      rw [this, clip_coe]
    rw [e, e, e]

theorem lin1_map (L : V →ₗ[ℝ] W) {n : ℕ} [NeZero n] (g : Fin n → V) (x : ℝ) : lin1 (fun a => L (g a)) x = L (lin1 g x) := by
  simp [lin1, map_add, map_smul]

/-- **C101 (leading axes).** The resampling commutes with every linear operation on the leading axes, for instance with rotations of features. -/
theorem C101_linear_maps (L : V →ₗ[ℝ] W) [NeZero nx] [NeZero ny] [NeZero nz] (img : Img nx ny nz V) (mx my mz : ℕ) [NeZero mx] [NeZero my] [NeZero mz] {mode : Interp} (hm : mode ≠ .other) :
    ∃ out : Img mx my mz V, zoom img none (some (mx, my, mz)) mode = .ok ⟨(mx, my, mz), out⟩ ∧
      zoom (fun a b c => L (img a b c)) none (some (mx, my, mz)) mode = .ok ⟨(mx, my, mz), fun (i : Fin mx) (j : Fin my) (k : Fin mz) => L (out i j k)⟩ := by
  refine ⟨_, zoom_spec img mx my mz hm, ?_⟩
  rw [zoom_spec _ mx my mz hm]
  congr 2
  funext i j k
  cases mode with
  | other => exact absurd rfl hm
  | linear =>
    simp only [interp]
    rw [trilinear_eq, trilinear_eq, ← lin1_map]
    congr 1
    funext a
    rw [← lin1_map]
    congr 1
    funext b
    exact lin1_map L _ _
  | nearest => rfl

theorem lin1_mem {n : ℕ} [NeZero n] {s : Set V} (hs : Convex ℝ s) {g : Fin n → V} (h : ∀ a, g a ∈ s) (x : ℝ) : lin1 g x ∈ s := by
  have h1 := Int.floor_le x
  have h2 := Int.lt_floor_add_one x
  refine hs (h _) (h _) ?_ ?_ ?_
  · push_cast; linarith
  · linarith
  · push_cast; ring

/-- **C101 (bounds).** Every value is a convex combination of values of the source: minima and maxima are not exceeded, and a constant image stays constant. -/
theorem C101_convex [NeZero nx] [NeZero ny] [NeZero nz] (img : Img nx ny nz V) (mx my mz : ℕ) [NeZero mx] [NeZero my] [NeZero mz] {mode : Interp} (hm : mode ≠ .other) :
    ∃ out : Img mx my mz V, zoom img none (some (mx, my, mz)) mode = .ok ⟨(mx, my, mz), out⟩ ∧
      ∀ i j k, out i j k ∈ convexHull ℝ (Set.range fun p : Fin nx × Fin ny × Fin nz => img p.1 p.2.1 p.2.2) := by
  refine ⟨_, zoom_spec img mx my mz hm, fun i j k => ?_⟩
  have h0 : ∀ a b c, img a b c ∈ convexHull ℝ (Set.range fun p : Fin nx × Fin ny × Fin nz => img p.1 p.2.1 p.2.2) := fun a b c => subset_convexHull ℝ _ ⟨(a, b, c), rfl⟩
  cases mode with
  | other => exact absurd rfl hm
  | linear =>
    simp only [interp]
    rw [trilinear_eq]
    exact lin1_mem (convex_convexHull ℝ _) (fun a => lin1_mem (convex_convexHull ℝ _) (fun b => lin1_mem (convex_convexHull ℝ _) (fun c => h0 a b c) _) _) _
  | nearest => exact h0 _ _ _

theorem lin1_swap {n m : ℕ} [NeZero n] [NeZero m] (g : Fin n → Fin m → V) (x y : ℝ) : lin1 (fun a => lin1 (g a) y) x = lin1 (fun b => lin1 (fun a => g a b) x) y := by
  simp only [lin1]
  module

/-- **C101 (axes).** Exchanging axes exchanges the axes of the result. -/
theorem C101_transpose [NeZero nx] [NeZero ny] [NeZero nz] (img : Img nx ny nz V) (mx my mz : ℕ) [NeZero mx] [NeZero my] [NeZero mz] {mode : Interp} (hm : mode ≠ .other) :
    ∃ out : Img mx my mz V, zoom img none (some (mx, my, mz)) mode = .ok ⟨(mx, my, mz), out⟩ ∧
      zoom (fun b a c => img a b c) none (some (my, mx, mz)) mode = .ok ⟨(my, mx, mz), fun (j : Fin my) (i : Fin mx) (k : Fin mz) => out i j k⟩ ∧
      zoom (fun a c b => img a b c) none (some (mx, mz, my)) mode = .ok ⟨(mx, mz, my), fun (i : Fin mx) (k : Fin mz) (j : Fin my) => out i j k⟩ := by
  refine ⟨_, zoom_spec img mx my mz hm, ?_, ?_⟩
  · rw [zoom_spec _ my mx mz hm]
    congr 2
    funext j i k
    cases mode with
    | other => exact absurd rfl hm
    | linear =>
      simp only [interp]
      rw [trilinear_eq, trilinear_eq]
      exact (lin1_swap (fun a b => lin1 (img a b) _) _ _).symm
    | nearest => rfl
  · rw [zoom_spec _ mx mz my hm]
    congr 2
    funext i k j
    cases mode with
    | other => exact absurd rfl hm
    | linear =>
      simp only [interp]
      rw [trilinear_eq, trilinear_eq]
      congr 1
      funext a
      exact (lin1_swap (fun b c => img a b c) _ _).symm
    | nearest => rfl

theorem clip_rev {n : ℕ} [NeZero n] (i : ℤ) : (clip n i).rev = clip n ((n : ℤ) - 1 - i) := by
  apply Fin.ext
  simp only [Fin.val_rev, clip]
  have := NeZero.pos n
  omega

theorem lin1_rev {n : ℕ} [NeZero n] (g : Fin n → V) (x : ℝ) : lin1 (fun a => g a.rev) x = lin1 g ((n : ℝ) - 1 - x) := by
  have h1 := Int.floor_le x
  have h2 := Int.lt_floor_add_one x
  have e : (n : ℝ) - 1 - x = (((n : ℤ) - 1 - (⌊x⌋ + 1) : ℤ) : ℝ) + (⌊x⌋ + 1 - x) := by push_cast; ring
  rw [e, lin1_between g _ _ (by linarith) (by linarith), lin1, clip_rev, clip_rev, show (n : ℤ) - 1 - (⌊x⌋ + 1) + 1 = (n : ℤ) - 1 - ⌊x⌋ by ring, add_comm]
  congr 2 <;> push_cast <;> ring

theorem centre_rev (n : ℕ) {m : ℕ} (i : Fin m) : centre n m (i.rev : ℕ) = (n : ℝ) - 1 - centre n m i := by
  have hm : (m : ℝ) ≠ 0 := by exact_mod_cast (by have := i.2; omega : m ≠ 0)
  have : ((i.rev : ℕ) : ℝ) = m - 1 - (i : ℕ) := by
    rw [Fin.val_rev, Nat.cast_sub (by omega)]
    push_cast
    ring
  rw [centre, centre, this]
  field_simp
  ring

/-- **C101 (mirror images).** With linear interpolation, mirroring the image along an axis mirrors the result (the other axes by `C101_transpose`): the result commutes with the 48 symmetries of the cube. -/
theorem C101_flip [NeZero nx] [NeZero ny] [NeZero nz] (img : Img nx ny nz V) (mx my mz : ℕ) [NeZero mx] [NeZero my] [NeZero mz] :
    ∃ out : Img mx my mz V, zoom img none (some (mx, my, mz)) .linear = .ok ⟨(mx, my, mz), out⟩ ∧
      zoom (fun a b c => img a.rev b c) none (some (mx, my, mz)) .linear = .ok ⟨(mx, my, mz), fun (i : Fin mx) (j : Fin my) (k : Fin mz) => out i.rev j k⟩ := by
  refine ⟨_, zoom_spec img mx my mz (by simp), ?_⟩
  rw [zoom_spec _ mx my mz (by simp)]
  congr 2
  funext i j k
  simp only [interp]
  rw [trilinear_eq, trilinear_eq, centre_rev, ← lin1_rev]

/-- With the nearest voxel, `C101_flip` is false: the mean position of two voxels is rounded to the even one. -/
theorem C101_flip_nearest_fails : ¬ ∀ img : Img 2 1 1 ℝ, ∃ out : Img 1 1 1 ℝ, zoom img none (some (1, 1, 1)) .nearest = .ok ⟨(1, 1, 1), out⟩ ∧
    zoom (fun a b c => img a.rev b c) none (some (1, 1, 1)) .nearest = .ok ⟨(1, 1, 1), fun (i : Fin 1) (j : Fin 1) (k : Fin 1) => out i.rev j k⟩ := by
  intro h
  obtain ⟨out, h1, h2⟩ := h fun a _ _ => (a : ℕ)
  rw [zoom_spec _ 1 1 1 (by simp)] at h1 h2
  have hc : roundEven (centre 2 1 ((0 : Fin 1) : ℕ)) = 0 := by
    have : centre 2 1 ((0 : Fin 1) : ℕ) = 1 / 2 := by simp [centre]; norm_num
    rw [this]
    have := roundEven_of (x := 1 / 2) (m := 0) ⟨by norm_num, fun _ => ⟨0, rfl⟩⟩
    simpa using this
  have e1 := congrFun (congrFun (congrFun (eq_of_heq (Sigma.mk.inj (Except.ok.inj h1)).2) 0) 0) 0
  have e2 := congrFun (congrFun (congrFun (eq_of_heq (Sigma.mk.inj (Except.ok.inj h2)).2) 0) 0) 0
  simp only [interp, nearest, hc] at e1 e2
  rw [show (Fin.rev (0 : Fin 1)) = 0 from rfl, ← e1] at e2
  simp [clip] at e2

/-- **C101 (affine images).** With linear interpolation an affine image stays affine, where the centres of the new voxels lie between the centres of the old ones. -/
theorem C101_affine [NeZero nx] [NeZero ny] [NeZero nz] (u ux uy uz : V) (mx my mz : ℕ) [NeZero mx] [NeZero my] [NeZero mz] :
    ∃ out : Img mx my mz V, zoom (fun (a : Fin nx) (b : Fin ny) (c : Fin nz) => u + ((a : ℕ) : ℝ) • ux + ((b : ℕ) : ℝ) • uy + ((c : ℕ) : ℝ) • uz) none (some (mx, my, mz)) .linear = .ok ⟨(mx, my, mz), out⟩ ∧
      ∀ (i : Fin mx) (j : Fin my) (k : Fin mz), 0 ≤ centre nx mx i → centre nx mx i ≤ nx - 1 → 0 ≤ centre ny my j → centre ny my j ≤ ny - 1 → 0 ≤ centre nz mz k → centre nz mz k ≤ nz - 1 →
        out i j k = u + centre nx mx i • ux + centre ny my j • uy + centre nz mz k • uz := by
  have key : ∀ {n : ℕ} [NeZero n] (v w : V) (x : ℝ), 0 ≤ x → x ≤ n - 1 → lin1 (fun a : Fin n => v + ((a : ℕ) : ℝ) • w) x = v + x • w := by
    intro n _ v w x h0 h1
    have hn := NeZero.pos n
    obtain ⟨k, hk⟩ := Int.eq_ofNat_of_zero_le (Int.floor_nonneg.mpr h0)
    have a1 := Int.floor_le x
    rw [hk] at a1
    push_cast at a1
    have hkn : k < n := by
      have : (k : ℝ) + 1 ≤ n := by linarith
      exact_mod_cast this
    rw [lin1, hk, clip_of (k := ⟨k, hkn⟩) rfl]
    rcases Nat.lt_or_ge (k + 1) n with h | h
    · rw [clip_of (k := ⟨k + 1, h⟩) (by push_cast; rfl)]
      push_cast
      module
    · have hx : x = k := by
        have : (n : ℝ) ≤ k + 1 := by exact_mod_cast h
        linarith
      rw [hx]
      push_cast
      module
  refine ⟨_, zoom_spec _ mx my mz (by simp), fun i j k x0 x1 y0 y1 z0 z1 => ?_⟩
  simp only [interp]
  rw [trilinear_eq]
  simp only [key _ uz _ z0 z1]
  have : (fun a : Fin nx => lin1 (fun b : Fin ny => u + ((a : ℕ) : ℝ) • ux + ((b : ℕ) : ℝ) • uy + centre nz mz k • uz) (centre ny my j)) =
      fun a : Fin nx => (u + centre ny my j • uy + centre nz mz k • uz) + ((a : ℕ) : ℝ) • ux := by
    funext a
    have := key (n := ny) (u + ((a : ℕ) : ℝ) • ux + centre nz mz k • uz) uy _ y0 y1
    rw [show (u + centre ny my j • uy + centre nz mz k • uz) + ((a : ℕ) : ℝ) • ux = (u + ((a : ℕ) : ℝ) • ux + centre nz mz k • uz) + centre ny my j • uy by module, ← this]
    congr 1
    funext b
    module
  rw [this, key _ ux _ x0 x1]
  module

theorem centre_half (m k : ℕ) (hm : m ≠ 0) : centre (2 * m) m k = ((2 * k : ℕ) : ℝ) + 1 / 2 := by
  have : (m : ℝ) ≠ 0 := by exact_mod_cast hm
  rw [centre]
  push_cast
  field_simp
  ring

/-- Voxel `t` of pair `k`. -/
def child {m : ℕ} (k : Fin m) (t : Fin 2) : Fin (2 * m) := ⟨2 * k + t, by omega⟩

theorem lin1_half {m : ℕ} [NeZero m] [NeZero (2 * m)] (g : Fin (2 * m) → V) (k : Fin m) : lin1 g (centre (2 * m) m k) = (1 / 2 : ℝ) • ∑ t, g (child k t) := by
  have := lin1_between g (2 * k : ℕ) (1 / 2) (by norm_num) (by norm_num)
  rw [centre_half m k (NeZero.ne m)]
  push_cast at this ⊢
  rw [this, Fin.sum_univ_two, clip_of (k := child k 0) (by simp [child]), clip_of (k := child k 1) (by simp [child])]
  module

/-- **C101 (halving).** With linear interpolation, halving the size is the mean over blocks of eight voxels. -/
theorem C101_halve (mx my mz : ℕ) [NeZero mx] [NeZero my] [NeZero mz] [NeZero (2 * mx)] [NeZero (2 * my)] [NeZero (2 * mz)] (img : Img (2 * mx) (2 * my) (2 * mz) V) :
    zoom img none (some (mx, my, mz)) .linear = .ok ⟨(mx, my, mz), fun (i : Fin mx) (j : Fin my) (k : Fin mz) => (1 / 8 : ℝ) • ∑ s, ∑ t, ∑ r, img (child i s) (child j t) (child k r)⟩ := by
  rw [zoom_spec img mx my mz (by simp)]
  congr 2
  funext i j k
  simp only [interp]
  rw [trilinear_eq]
  simp only [lin1_half, ← Finset.smul_sum, smul_smul]
  norm_num

/-- The centre of block `k` of `2 h + 1` voxels. -/
def middle {m : ℕ} (h : ℕ) (k : Fin m) : Fin ((2 * h + 1) * m) := ⟨(2 * h + 1) * k + h, by
  have := k.2
  calc (2 * h + 1) * (k : ℕ) + h < (2 * h + 1) * (k : ℕ) + (2 * h + 1) := by omega
    _ = (2 * h + 1) * (k + 1) := by ring
    _ ≤ (2 * h + 1) * m := Nat.mul_le_mul_left _ this⟩

/-- **C101 (odd factors).** Reducing the size by an odd factor keeps the central voxel of every block, with both interpolations. -/
theorem C101_odd (h mx my mz : ℕ) [NeZero mx] [NeZero my] [NeZero mz] [NeZero ((2 * h + 1) * mx)] [NeZero ((2 * h + 1) * my)] [NeZero ((2 * h + 1) * mz)]
    (img : Img ((2 * h + 1) * mx) ((2 * h + 1) * my) ((2 * h + 1) * mz) V) {mode : Interp} (hm : mode ≠ .other) :
    zoom img none (some (mx, my, mz)) mode = .ok ⟨(mx, my, mz), fun (i : Fin mx) (j : Fin my) (k : Fin mz) => img (middle h i) (middle h j) (middle h k)⟩ := by
  have key : ∀ {m : ℕ} [NeZero m] (k : Fin m), centre ((2 * h + 1) * m) m k = ((middle h k : ℕ) : ℝ) := by
    intro m _ k
    have : (m : ℝ) ≠ 0 := by exact_mod_cast NeZero.ne m
    simp only [centre, middle]
    push_cast
    field_simp
    ring
  rw [zoom_spec img mx my mz hm]
  congr 2
  funext i j k
  rw [key, key, key]
  cases mode with
  | other => exact absurd rfl hm
  | linear =>
    simp only [interp]
    rw [trilinear_eq]
    simp only [(brokenLine _).node]
  | nearest =>
    simp only [interp, nearest]
    have e : ∀ {n : ℕ} [NeZero n] (a : Fin n), clip n (roundEven ((a : ℕ) : ℝ)) = a := fun {n} _ a => by
      have := roundEven_int (a : ℕ)
      push_cast at this
      rw [this, clip_coe]
    rw [e, e, e]

/-- Two voxels along the first axis: linear interpolation to three voxels gives the values 0, 1/2, 1 (the ends are clamped). -/
example : ∃ out : Img 3 1 1 ℝ, zoom (fun (a : Fin 2) (_ : Fin 1) (_ : Fin 1) => ((a : ℕ) : ℝ)) none (some (3, 1, 1)) .linear = .ok ⟨(3, 1, 1), out⟩ ∧ out 1 0 0 = 1 / 2 := by
  obtain ⟨out, h1, h2⟩ := C101_affine (V := ℝ) (nx := 2) (ny := 1) (nz := 1) 0 1 0 0 3 1 1
  refine ⟨out, ?_, ?_⟩
  · rw [← h1]
    congr 1
    funext a b c
    simp
  · rw [h2 1 0 0 (by norm_num [centre]) (by norm_num [centre]) (by norm_num [centre]) (by norm_num [centre]) (by norm_num [centre]) (by norm_num [centre])]
    norm_num [centre]

end E3nn.Zoom
