import Verif.Model.FindPeaks
import Verif.Props.C78

/-! # C117: `SphericalSignal.find_peaks` -/

namespace E3nn.S2

open E3nn.IArr E3nn.SH E3nn.Wig E3nn.Rot Matrix

/-- `enum` lists the elements of every set of grid points, each once. -/
def IsEnum (enum : Enum) : Prop :=
  ∀ (a b : ℕ) (P : ℕ → ℕ → Prop), (∀ i j, P i j → i < a ∧ j < b) → (enum P).Nodup ∧ ∀ i j, (i, j) ∈ enum P ↔ P i j

/-- The rotation by the Euler angles `π/2, π/2, π/2` exchanges the first two coordinates and changes the sign of the third. -/
theorem quarter_turns : anglesToMatrix (Real.pi / 2) (Real.pi / 2) (Real.pi / 2) = !![0, 1, 0; 1, 0, 0; 0, 0, -1] := by
  unfold anglesToMatrix matrixX matrixY
  simp only [Real.cos_pi_div_two, Real.sin_pi_div_two]
  ext i j
  fin_cases i <;> fin_cases j <;> simp [Matrix.mul_apply, Fin.sum_univ_three]

/-- The points of the rotated grid. -/
def swapped (v : Fin 3 → ℝ) : Fin 3 → ℝ := ![v 1, v 0, -v 2]

theorem quarter_mulVec (v : Fin 3 → ℝ) : (!![0, 1, 0; 1, 0, 0; 0, 0, -1] : Matrix (Fin 3) (Fin 3) ℝ) *ᵥ v = swapped v := by
  funext i
  fin_cases i <;> simp [Matrix.mulVec, dotProduct, Fin.sum_univ_three, swapped]

theorem quarter_orth : (!![0, 1, 0; 1, 0, 0; 0, 0, -1] : Matrix (Fin 3) (Fin 3) ℝ) * (!![0, 1, 0; 1, 0, 0; 0, 0, -1] : Matrix (Fin 3) (Fin 3) ℝ)ᵀ = 1 := by
  ext i j
  fin_cases i <;> fin_cases j <;> simp [Matrix.mul_apply, Fin.sum_univ_three, Matrix.transpose_apply, Matrix.one_apply]

theorem quarter_symm : (!![0, 1, 0; 1, 0, 0; 0, 0, -1] : Matrix (Fin 3) (Fin 3) ℝ)ᵀ = !![0, 1, 0; 1, 0, 0; 0, 0, -1] := by
  ext i j
  fin_cases i <;> fin_cases j <;> rfl

theorem quarter_det : (!![0, 1, 0; 1, 0, 0; 0, 0, -1] : Matrix (Fin 3) (Fin 3) ℝ).det = 1 := by
  simp [Matrix.det_fin_three]

theorem quarter_d (p : Parity) : dMatrix ⟨1, p⟩ (!![0, 1, 0; 1, 0, 0; 0, 0, -1] : Matrix (Fin 3) (Fin 3) ℝ) = (!![0, 1, 0; 1, 0, 0; 0, 0, -1] : Matrix (Fin 3) (Fin 3) ℝ) := by
  have h := C39_defining (R := !![0, 1, 0; 1, 0, 0; 0, 0, -1]) quarter_orth
  cases p
  · rw [h.2.1, quarter_det, one_smul]
  · exact h.1

/-- The grid points as an array of vectors, and the same after the rotation. -/
theorem gridVectors_spec {lg : LegGauss} (x : Signal Unit) {y w : Fin x.resBeta → ℝ} (hq : quadratureWeights lg x.quad x.resBeta = .ok (y, w)) :
    ∃ v v', gridVectors lg x = .ok v ∧ v.transformByAngles (.py (Real.pi / 2)) (.py (Real.pi / 2)) (.py (Real.pi / 2)) 0 false = .ok v' ∧
      ∀ (b : Fin x.resBeta) (a : Fin x.resAlpha), vecAt v b a = gridVector (y b) (gridAlpha x.resAlpha a) ∧
        vecAt v' b a = swapped (gridVector (y b) (gridAlpha x.resAlpha a)) := by
  obtain ⟨v, v1, v2, v3, v4, -, -⟩ := (C12_from_array [⟨1, ⟨1, .o⟩⟩]
    (List.ofFn fun (k : Fin 3) (ij : Fin x.resBeta × Fin x.resAlpha) => gridVector (y ij.1) (gridAlpha x.resAlpha ij.2) k)).1 (by simp [expand, dimOf])
  obtain ⟨v', c1, c2, c3, -, c5⟩ := C59_transform (!![0, 1, 0; 1, 0, 0; 0, 0, -1] : Matrix (Fin 3) (Fin 3) ℝ) v v2
  refine ⟨v, v', ?_, ?_, fun b a => ?_⟩
  · unfold gridVectors
    rw [hq]
    exact v1
  · have := (C59_angles (.py (Real.pi / 2)) (.py (Real.pi / 2)) (.py (Real.pi / 2)) 0 v).1
    simp only [pow_zero, one_smul, Nat.cast_zero] at this
    rw [this]
    simp only [Angle.val]
    rw [quarter_turns]
    exact c1
  · have hvec : (fun k : Fin 3 => v.array.getD k 0 (b, a)) = gridVector (y b) (gridAlpha x.resAlpha a) := by
      funext k
      rw [v4, getD_ofFn]
    constructor
    · unfold vecAt
      simp only [b.2, a.2, and_self, dite_true, Fin.eta]
      exact hvec
    · have h := vec_rot v2 c2 v3 c5 (b, a)
      rw [quarter_d, hvec, quarter_mulVec] at h
      unfold vecAt
      simp only [b.2, a.2, and_self, dite_true, Fin.eta]
      exact h

/-- The values of `F` on the grid with the heights `y` and `ra` angles, every point being moved by `turn`. -/
noncomputable def onGrid {rb : ℕ} (y : Fin rb → ℝ) (ra : ℕ) (turn : (Fin 3 → ℝ) → Fin 3 → ℝ) (F : (Fin 3 → ℝ) → ℝ) (i j : ℕ) : ℝ :=
  if h : i < rb ∧ j < ra then F (turn (gridVector (y ⟨i, h.1⟩) (gridAlpha ra j))) else 0

/-- `p` is a point of the moved grid with its value, a peak along the two directions of the grid. -/
def GridPeak {rb : ℕ} (y : Fin rb → ℝ) (ra : ℕ) (turn : (Fin 3 → ℝ) → Fin 3 → ℝ) (F : (Fin 3 → ℝ) → ℝ) (p : (Fin 3 → ℝ) × ℝ) : Prop :=
  ∃ (b : Fin rb) (a : Fin ra), p = (turn (gridVector (y b) (gridAlpha ra a)), F (turn (gridVector (y b) (gridAlpha ra a)))) ∧
    IsPeak2 rb ra (onGrid y ra turn F) b a

/-- What is assumed of the signal: it is the series with the coefficients `bs` of degrees at most `lmax`, on a grid that is fine enough. -/
structure BandLimited (lg : LegGauss) (x : Signal Unit) (lmax : ℕ) (B : (l : ℕ) → (Fin 3 → ℝ) → Fin (2 * l + 1) → ℝ) (bs : List (Irrep × List (Unit → ℝ)))
    (y w : Fin x.resBeta → ℝ) : Prop where
  quad : quadratureWeights lg x.quad x.resBeta = .ok (y, w)
  beta : 0 < x.resBeta
  basis : ∃ L', IsBasis (basisLength .integral L') B
  values : ∀ b a, x.values b a () = series B bs (gridVector (y b) (gridAlpha x.resAlpha a)) ()
  low : ∀ b ∈ bs, b.1.l ≤ lmax
  fine : ∀ b ∈ bs, b.1.l + lmax ≤ gridDegree x.quad x.resBeta
  alpha : x.resAlpha % 2 = 1 ∧ 2 * lmax + 1 ≤ x.resAlpha

theorem findPeaks_eval {lg : LegGauss} (hlg : GaussLegendre lg) {enum : Enum} (he : IsEnum enum) {x : Signal Unit} {lmax : ℕ}
    {B : (l : ℕ) → (Fin 3 → ℝ) → Fin (2 * l + 1) → ℝ} {bs : List (Irrep × List (Unit → ℝ))} {y w : Fin x.resBeta → ℝ} (h : BandLimited lg x lmax B bs y w) :
    ∃ p1 p2 : List ((Fin 3 → ℝ) × ℝ), (∀ p, p ∈ p1 ↔ GridPeak y x.resAlpha id (fun v => series B bs v ()) p) ∧
      (∀ p, p ∈ p2 ↔ GridPeak y x.resAlpha swapped (fun v => series B bs v ()) p) ∧
      findPeaks lg enum x lmax = if p1 = [] ∨ p2 = [] then .error .valueError else .ok (p1.filter (fun p => open Classical in decide (∀ q ∈ p2, ¬ dist3 p.1 q.1 < 2 * Real.pi / (max x.resBeta x.resAlpha : ℕ))) ++ p2) := by
  obtain ⟨hq, hrb, ⟨L', hB⟩, hx, hlow, hfine, hra⟩ := h
  obtain ⟨v, v', e1, e2, e3⟩ := gridVectors_spec x hq
  have ht := C78_transform hlg x hq hrb hB bs (fun b a i => hx b a) lmax (fun b hb => ⟨hfine b hb, by have := hlow b hb; omega⟩) hra quarter_orth
  have hfil : (bs.filter fun b => b.1.l ≤ lmax) = bs := by
    rw [List.filter_eq_self]
    intro b hb
    simpa using hlow b hb
  have hsgn : Activ.scalarSign (!![0, 1, 0; 1, 0, 0; 0, 0, -1] : Matrix (Fin 3) (Fin 3) ℝ) x.pVal = 1 := by
    unfold Activ.scalarSign
    cases x.pVal <;> simp only [quarter_det]
  rw [hfil, hsgn, quarter_d, quarter_symm] at ht
  have hvals : (fun (b : Fin x.resBeta) (j : Fin x.resAlpha) (i : Unit) => (1 : ℝ) * series B bs ((!![0, 1, 0; 1, 0, 0; 0, 0, -1] : Matrix (Fin 3) (Fin 3) ℝ) *ᵥ gridVector (y b) (gridAlpha x.resAlpha j)) i) =
      fun (b : Fin x.resBeta) (j : Fin x.resAlpha) (i : Unit) => series B bs (swapped (gridVector (y b) (gridAlpha x.resAlpha j))) i := by
    funext b j i
    rw [one_mul, quarter_mulVec]
  rw [hvals] at ht
  have hrot := (C78_parametrisations lg x lmax).1 (.py (Real.pi / 2)) (.py (Real.pi / 2)) (.py (Real.pi / 2))
  simp only [Angle.val] at hrot
  rw [quarter_turns, ht] at hrot
  obtain ⟨rs, hrs⟩ : ∃ rs : Signal Unit, rs = ⟨x.resBeta, x.resAlpha, fun b j i => series B bs (swapped (gridVector (y b) (gridAlpha x.resAlpha j))) i, x.quad, x.pVal, x.pArg⟩ := ⟨_, rfl⟩
  have hv1 : valAt x = onGrid y x.resAlpha id fun v => series B bs v () := by
    funext i j
    unfold valAt onGrid
    split
    · rename_i hh
      exact hx ⟨i, hh.1⟩ ⟨j, hh.2⟩
    · rfl
  have hv2 : valAt rs = onGrid y x.resAlpha swapped fun v => series B bs v () := by
    subst hrs
    rfl
  have mem : ∀ (turn : (Fin 3 → ℝ) → Fin 3 → ℝ) (u : IArr (Fin x.resBeta × Fin x.resAlpha → ℝ)),
      (∀ (b : Fin x.resBeta) (a : Fin x.resAlpha), vecAt u b a = turn (gridVector (y b) (gridAlpha x.resAlpha a))) → ∀ p,
      p ∈ (enum (IsPeak2 x.resBeta x.resAlpha (onGrid y x.resAlpha turn fun v => series B bs v ()))).map
        (fun ij => (vecAt u ij.1 ij.2, onGrid y x.resAlpha turn (fun v => series B bs v ()) ij.1 ij.2)) ↔
      GridPeak y x.resAlpha turn (fun v => series B bs v ()) p := by
    intro turn u hu p
    have hen := (he x.resBeta x.resAlpha (IsPeak2 x.resBeta x.resAlpha (onGrid y x.resAlpha turn fun v => series B bs v ())) (fun i j hp => ⟨hp.1.1, hp.2.1⟩)).2
    constructor
    · intro hp
      obtain ⟨⟨i, j⟩, hij, rfl⟩ := List.mem_map.mp hp
      have hpk := (hen i j).mp hij
      refine ⟨⟨i, hpk.1.1⟩, ⟨j, hpk.2.1⟩, ?_, hpk⟩
      have := hu ⟨i, hpk.1.1⟩ ⟨j, hpk.2.1⟩
      simp only at this ⊢
      rw [this]
      congr 1
      unfold onGrid
      rw [dif_pos ⟨hpk.1.1, hpk.2.1⟩]
    · rintro ⟨b, a, rfl, hpk⟩
      refine List.mem_map.mpr ⟨(b, a), (hen b a).mpr hpk, ?_⟩
      simp only
      rw [hu]
      congr 1
      unfold onGrid
      rw [dif_pos ⟨b.2, a.2⟩]
  refine ⟨_, _, mem id v fun b a => (e3 b a).1, mem swapped v' fun b a => (e3 b a).2, ?_⟩
  unfold findPeaks
  rw [e1]
  simp only [bind, Except.bind]
  rw [hrot]
  simp only
  rw [e2]
  simp only
  rw [← hrs]
  rw [hv1, hv2]
  unfold stackPairs
  by_cases h1 : (enum (IsPeak2 x.resBeta x.resAlpha (onGrid y x.resAlpha id fun v => series B bs v ()))).map
        (fun ij => (vecAt v ij.1 ij.2, onGrid y x.resAlpha id (fun v => series B bs v ()) ij.1 ij.2)) = []
  · rw [if_pos h1, if_pos (Or.inl h1)]
  · rw [if_neg h1]
    by_cases h2 : (enum (IsPeak2 x.resBeta x.resAlpha (onGrid y x.resAlpha swapped fun v => series B bs v ()))).map
        (fun ij => (vecAt v' ij.1 ij.2, onGrid y x.resAlpha swapped (fun v => series B bs v ()) ij.1 ij.2)) = []
    · simp only [if_pos h2, if_pos (Or.inr h2)]
    · simp only [if_neg h2]
      rw [if_neg (by rintro (h | h) <;> contradiction)]
      rfl

/-- **C117 (exactly which points).** The result consists of the peaks on the grid turned by the rotation `(v₀, v₁, v₂) ↦ (v₁, v₀, -v₂)`, and of the peaks on the
grid itself that are not within `2π / max(resolution)` of one of these, each with the value of the signal at that point; when one of the two grids has no peak, it is a `ValueError`. -/
theorem C117_find_peaks {lg : LegGauss} (hlg : GaussLegendre lg) {enum : Enum} (he : IsEnum enum) {x : Signal Unit} {lmax : ℕ}
    {B : (l : ℕ) → (Fin 3 → ℝ) → Fin (2 * l + 1) → ℝ} {bs : List (Irrep × List (Unit → ℝ))} {y w : Fin x.resBeta → ℝ} (h : BandLimited lg x lmax B bs y w) :
    (((¬ ∃ p, GridPeak y x.resAlpha id (fun v => series B bs v ()) p) ∨ ¬ ∃ p, GridPeak y x.resAlpha swapped (fun v => series B bs v ()) p) →
      findPeaks lg enum x lmax = .error .valueError) ∧
    ((∃ p, GridPeak y x.resAlpha id (fun v => series B bs v ()) p) → (∃ p, GridPeak y x.resAlpha swapped (fun v => series B bs v ()) p) →
      ∃ L, findPeaks lg enum x lmax = .ok L ∧ L ≠ [] ∧ ∀ p, p ∈ L ↔
        GridPeak y x.resAlpha swapped (fun v => series B bs v ()) p ∨
        (GridPeak y x.resAlpha id (fun v => series B bs v ()) p ∧
          ∀ q, GridPeak y x.resAlpha swapped (fun v => series B bs v ()) q →
            2 * Real.pi / (max x.resBeta x.resAlpha : ℕ) ≤ Real.sqrt (∑ k, (p.1 k - q.1 k) ^ 2))) := by
  obtain ⟨p1, p2, m1, m2, ev⟩ := findPeaks_eval hlg he h
  have n1 : p1 = [] ↔ ¬ ∃ p, GridPeak y x.resAlpha id (fun v => series B bs v ()) p := by
    rw [List.eq_nil_iff_forall_not_mem, not_exists]
    exact forall_congr' fun p => not_congr (m1 p)
  have n2 : p2 = [] ↔ ¬ ∃ p, GridPeak y x.resAlpha swapped (fun v => series B bs v ()) p := by
    rw [List.eq_nil_iff_forall_not_mem, not_exists]
    exact forall_congr' fun p => not_congr (m2 p)
  refine ⟨fun hno => ?_, fun h1 h2 => ?_⟩
  · rw [ev, if_pos]
    rwa [n1, n2]
  · have hn2 : p2 ≠ [] := fun hh => n2.mp hh h2
    rw [if_neg (by rintro (hh | hh); exacts [n1.mp hh h1, hn2 hh])] at ev
    refine ⟨_, ev, by simp [hn2], fun p => ?_⟩
    rw [List.mem_append, List.mem_filter, m1, m2]
    rw [decide_eq_true_iff]
    simp only [not_lt, m2, dist3]
    exact or_comm

/-- **C117 (values).** Every reported pair is a point of the sphere with the value of the signal at this point. -/
theorem C117_values {lg : LegGauss} (hlg : GaussLegendre lg) {enum : Enum} (he : IsEnum enum) {x : Signal Unit} {lmax : ℕ}
    {B : (l : ℕ) → (Fin 3 → ℝ) → Fin (2 * l + 1) → ℝ} {bs : List (Irrep × List (Unit → ℝ))} {y w : Fin x.resBeta → ℝ} (h : BandLimited lg x lmax B bs y w)
    {L : List ((Fin 3 → ℝ) × ℝ)} (hL : findPeaks lg enum x lmax = .ok L) : ∀ p ∈ L, p.1 0 ^ 2 + p.1 1 ^ 2 + p.1 2 ^ 2 = 1 ∧ p.2 = series B bs p.1 () := by
  obtain ⟨c1, c2⟩ := C117_find_peaks hlg he h
  by_cases h1 : ∃ p, GridPeak y x.resAlpha id (fun v => series B bs v ()) p
  swap
  · rw [c1 (.inl h1)] at hL; cases hL
  by_cases h2 : ∃ p, GridPeak y x.resAlpha swapped (fun v => series B bs v ()) p
  swap
  · rw [c1 (.inr h2)] at hL; cases hL
  obtain ⟨L', e, -, hm⟩ := c2 h1 h2
  rw [hL] at e
  cases e
  have hsph := fun b a => C75_unit hlg h.quad b a
  intro p hp
  rcases (hm p).mp hp with ⟨b, a, rfl, -⟩ | ⟨⟨b, a, rfl, -⟩, -⟩
  · refine ⟨?_, rfl⟩
    have := hsph b (gridAlpha x.resAlpha a)
    simp only [swapped, Matrix.cons_val_zero, Matrix.cons_val_one, Matrix.cons_val]
    linarith
  · exact ⟨hsph b _, rfl⟩

/-- **C117 (local maxima).** A peak has interior indices, and its value is not exceeded at the four neighbours on its grid. -/
theorem C117_local_max {rb : ℕ} {y : Fin rb → ℝ} {ra : ℕ} {turn : (Fin 3 → ℝ) → Fin 3 → ℝ} {F : (Fin 3 → ℝ) → ℝ} {p : (Fin 3 → ℝ) × ℝ} (h : GridPeak y ra turn F p) :
    ∃ (b : Fin rb) (a : Fin ra) (hb : 0 < (b : ℕ) ∧ (b : ℕ) + 1 < rb) (_ : 0 < (a : ℕ) ∧ (a : ℕ) + 1 < ra), p.1 = turn (gridVector (y b) (gridAlpha ra a)) ∧
      F (turn (gridVector (y b) (gridAlpha ra (a + 1 : ℕ)))) ≤ p.2 ∧ F (turn (gridVector (y b) (gridAlpha ra (a - 1 : ℕ)))) ≤ p.2 ∧
      F (turn (gridVector (y ⟨b + 1, hb.2⟩) (gridAlpha ra a))) ≤ p.2 ∧ F (turn (gridVector (y ⟨b - 1, by omega⟩) (gridAlpha ra a))) ≤ p.2 := by
  have loc : ∀ (n : ℕ) (f : ℕ → ℝ) (m : ℕ), IsPeak n f m → 0 < m ∧ m + 1 < n ∧ f (m + 1) ≤ f m ∧ f (m - 1) ≤ f m := by
    rintro n f m ⟨l, r, l0, lr, rn, hc, hl, hr, rfl⟩
    have h1 : l ≤ (l + r) / 2 := by omega
    have h2 : (l + r) / 2 ≤ r := by omega
    refine ⟨by omega, by omega, ?_, ?_⟩
    · rw [hc _ h1 h2]
      by_cases hh : (l + r) / 2 = r
      · rw [hh, ← hc r lr le_rfl]; exact hr.le
      · rw [hc _ (by omega) (by omega)]
    · rw [hc _ h1 h2]
      by_cases hh : (l + r) / 2 = l
      · rw [hh]; exact hl.le
      · rw [hc _ (by omega) (by omega)]
  obtain ⟨b, a, rfl, ⟨-, hrow⟩, ⟨-, hcol⟩⟩ := h
  obtain ⟨a1, a2, a3, a4⟩ := loc _ _ _ hrow
  obtain ⟨b1, b2, b3, b4⟩ := loc _ _ _ hcol
  have e : ∀ (i j : ℕ) (hi : i < rb) (hj : j < ra), onGrid y ra turn F i j = F (turn (gridVector (y ⟨i, hi⟩) (gridAlpha ra j))) := by
    intro i j hi hj
    unfold onGrid
    rw [dif_pos ⟨hi, hj⟩]
  rw [e _ _ b.2 a2, e _ _ b.2 a.2] at a3
  rw [e _ _ b.2 (by omega), e _ _ b.2 a.2] at a4
  rw [e _ _ b2 a.2, e _ _ b.2 a.2] at b3
  rw [e _ _ (by omega) a.2, e _ _ b.2 a.2] at b4
  exact ⟨b, a, ⟨b1, b2⟩, ⟨a1, a2⟩, rfl, a3, a4, b3, b4⟩

/-- **C117 (no peak).** A constant signal has no peak on any grid, so `find_peaks` raises `ValueError` on it. -/
theorem C117_constant {lg : LegGauss} (hlg : GaussLegendre lg) {enum : Enum} (he : IsEnum enum) {x : Signal Unit} {lmax : ℕ}
    {B : (l : ℕ) → (Fin 3 → ℝ) → Fin (2 * l + 1) → ℝ} {bs : List (Irrep × List (Unit → ℝ))} {y w : Fin x.resBeta → ℝ} (h : BandLimited lg x lmax B bs y w)
    (c : ℝ) (hc : ∀ v, series B bs v () = c) : findPeaks lg enum x lmax = .error .valueError := by
  refine (C117_find_peaks hlg he h).1 (.inl ?_)
  rintro ⟨p, b, a, -, ⟨hb, l, r, l0, lr, rn, hcst, hl, -⟩, -⟩
  have hlt : l < x.resAlpha := by omega
  simp only [onGrid, b.2, hlt, (show l - 1 < x.resAlpha by omega), and_self, dite_true, hc] at hl
  exact lt_irrefl _ hl

/-! ### the hypotheses are met: a signal of degree 1 on a grid of 6 by 3, with a peak on both grids -/

theorem sqrt23 : Real.sqrt 2 ^ 2 = 2 ∧ Real.sqrt 3 ^ 2 = 3 ∧ 0 < Real.sqrt 2 ∧ 1 < Real.sqrt 3 ∧ Real.sqrt 3 < 3 :=
  ⟨Real.sq_sqrt (by norm_num), Real.sq_sqrt (by norm_num), by positivity, by rw [Real.lt_sqrt] <;> norm_num, by rw [Real.sqrt_lt'] <;> norm_num⟩

theorem nodes6 : -Real.cos ((3 + 0.5) / (6 : ℕ) * Real.pi) = Real.sqrt 2 * (Real.sqrt 3 - 1) / 4 ∧
    -Real.cos ((4 + 0.5) / (6 : ℕ) * Real.pi) = Real.sqrt 2 / 2 ∧ -Real.cos ((5 + 0.5) / (6 : ℕ) * Real.pi) = Real.sqrt 2 * (Real.sqrt 3 + 1) / 4 := by
  refine ⟨?_, ?_, ?_⟩
  · have : ((3 + 0.5) / (6 : ℕ) * Real.pi : ℝ) = Real.pi - (Real.pi / 6 + Real.pi / 4) := by push_cast; ring
    rw [this, Real.cos_pi_sub, neg_neg, Real.cos_add, Real.cos_pi_div_six, Real.cos_pi_div_four, Real.sin_pi_div_six, Real.sin_pi_div_four]
    ring
  · have : ((4 + 0.5) / (6 : ℕ) * Real.pi : ℝ) = Real.pi - Real.pi / 4 := by push_cast; ring
    rw [this, Real.cos_pi_sub, neg_neg, Real.cos_pi_div_four]
  · have : ((5 + 0.5) / (6 : ℕ) * Real.pi : ℝ) = Real.pi - (Real.pi / 4 - Real.pi / 6) := by push_cast; ring
    rw [this, Real.cos_pi_sub, neg_neg, Real.cos_sub, Real.cos_pi_div_six, Real.cos_pi_div_four, Real.sin_pi_div_six, Real.sin_pi_div_four]
    ring

theorem angles3 : Real.sin (gridAlpha 3 0) = 0 ∧ Real.sin (gridAlpha 3 1) = Real.sqrt 3 / 2 ∧ Real.sin (gridAlpha 3 2) = -(Real.sqrt 3 / 2) := by
  unfold gridAlpha
  refine ⟨by simp, ?_, ?_⟩
  · have : ((1 : ℕ) / (3 : ℕ) * 2 * Real.pi : ℝ) = Real.pi - Real.pi / 3 := by push_cast; ring
    rw [this, Real.sin_pi_sub, Real.sin_pi_div_three]
  · have : ((2 : ℕ) / (3 : ℕ) * 2 * Real.pi : ℝ) = Real.pi / 3 + Real.pi := by push_cast; ring
    rw [this, Real.sin_add_pi, Real.sin_pi_div_three]

/-- The signal `v ↦ c (v₀ + v₁)` on the grid of 6 by 3 has all the properties assumed of a signal, and `find_peaks` returns a point. -/
theorem C117_example {lg : LegGauss} (hlg : GaussLegendre lg) {enum : Enum} (he : IsEnum enum) :
    ∃ (x : Signal Unit) (B : (l : ℕ) → (Fin 3 → ℝ) → Fin (2 * l + 1) → ℝ) (bs : List (Irrep × List (Unit → ℝ))) (y w : Fin x.resBeta → ℝ) (L : List ((Fin 3 → ℝ) × ℝ)),
      BandLimited lg x 1 B bs y w ∧ findPeaks lg enum x 1 = .ok L ∧ L ≠ [] := by
  obtain ⟨B, hB⟩ := basis_exists (basisLength .integral 1)
  obtain ⟨a2, b2, a0, b1, b3⟩ := sqrt23
  obtain ⟨y3, y4, y5⟩ := nodes6
  obtain ⟨t0, t1, t2⟩ := angles3
  have hq : quadratureWeights lg .soft 6 = .ok (fun i : Fin 6 => -Real.cos ((i + 0.5) / (6 : ℕ) * Real.pi), fun i : Fin 6 => softWeight 6 i / 2) := by unfold quadratureWeights; simp
  obtain ⟨κ, hκ, hser⟩ : ∃ κ : ℝ, 0 < κ ∧ ∀ v, series B [(⟨1, .o⟩, [fun _ : Unit => (1 : ℝ), fun _ => 1, fun _ => 0])] v () = κ * (v 0 + v 1) := by
    refine ⟨normTo .integral 1 1 * cst1 .integral, ?_, fun v => ?_⟩
    · unfold normTo cst1
      have := Real.pi_pos
      positivity
    · have hb : ∀ k : Fin 3, B 1 v k = normTo .integral 1 1 * (cst1 .integral * v k) := by
        intro k
        have := basis_eq hB 1 v k
        rw [Y_one] at this
        exact this
      simp only [series, List.map_cons, List.map_nil, List.sum_cons, List.sum_nil, add_zero]
      have h3 : (∑ k : Fin 3, B 1 v k * [fun _ : Unit => (1 : ℝ), fun _ => 1, fun _ => 0].getD k 0 ()) = normTo .integral 1 1 * cst1 .integral * (v 0 + v 1) := by
        rw [Fin.sum_univ_three]
        simp [hb]
        ring
      exact h3
  have hbl : BandLimited lg (⟨6, 3, fun b j i => series B [(⟨1, .o⟩, [fun _ : Unit => (1 : ℝ), fun _ => 1, fun _ => 0])] (gridVector (-Real.cos (((b : Fin 6) + 0.5) / (6 : ℕ) * Real.pi)) (gridAlpha 3 j)) i, .soft, .e, .o⟩ : Signal Unit) 1 B
      [(⟨1, .o⟩, [fun _ : Unit => (1 : ℝ), fun _ => 1, fun _ => 0])] (fun i : Fin 6 => -Real.cos ((i + 0.5) / (6 : ℕ) * Real.pi)) (fun i : Fin 6 => softWeight 6 i / 2) := by
    refine ⟨hq, by show 0 < 6; decide, ⟨1, hB⟩, fun _ _ => rfl, ?_, ?_, by show 3 % 2 = 1 ∧ 2 * 1 + 1 ≤ 3; decide⟩
    · intro b hb; rw [List.mem_singleton] at hb; rw [hb]
    · intro b hb; rw [List.mem_singleton] at hb; rw [hb]; show 1 + 1 ≤ 5; decide
  -- the two grids have the same values
  have hgrid : ∀ turn : (Fin 3 → ℝ) → Fin 3 → ℝ, (turn = id ∨ turn = swapped) → ∀ i j : ℕ, (hi : i < 6) → (hj : j < 3) →
      onGrid (fun i : Fin 6 => -Real.cos ((i + 0.5) / (6 : ℕ) * Real.pi)) 3 turn (fun v => series B [(⟨1, .o⟩, [fun _ : Unit => (1 : ℝ), fun _ => 1, fun _ => 0])] v ()) i j =
        κ * (Real.sqrt (1 - (-Real.cos ((i + 0.5) / (6 : ℕ) * Real.pi)) ^ 2) * Real.sin (gridAlpha 3 j) + -Real.cos ((i + 0.5) / (6 : ℕ) * Real.pi)) := by
    intro turn ht i j hi hj
    unfold onGrid
    rw [dif_pos ⟨hi, hj⟩]
    refine (hser _).trans ?_
    rcases ht with rfl | rfl
    · simp [gridVector]
    · simp only [swapped, gridVector, Matrix.cons_val_zero, Matrix.cons_val_one]
      ring
  have s3 : Real.sqrt (1 - (Real.sqrt 2 * (Real.sqrt 3 - 1) / 4) ^ 2) = Real.sqrt 2 * (Real.sqrt 3 + 1) / 4 := by
    rw [Real.sqrt_eq_iff_mul_self_eq_of_pos (by positivity)]
    linear_combination (Real.sqrt 3 ^ 2 / 8 + 1 / 8) * a2 + (1 / 4 : ℝ) * b2
  have s4 : Real.sqrt (1 - (Real.sqrt 2 / 2) ^ 2) = Real.sqrt 2 / 2 := by
    rw [Real.sqrt_eq_iff_mul_self_eq_of_pos (by positivity)]
    linear_combination (1 / 2 : ℝ) * a2
  have s5 : Real.sqrt (1 - (Real.sqrt 2 * (Real.sqrt 3 + 1) / 4) ^ 2) = Real.sqrt 2 * (Real.sqrt 3 - 1) / 4 := by
    have : 0 < Real.sqrt 2 * (Real.sqrt 3 - 1) / 4 := by
      have : 0 < Real.sqrt 3 - 1 := by linarith
      positivity
    rw [Real.sqrt_eq_iff_mul_self_eq_of_pos this]
    linear_combination (Real.sqrt 3 ^ 2 / 8 + 1 / 8) * a2 + (1 / 4 : ℝ) * b2
  have hpk : ∀ turn : (Fin 3 → ℝ) → Fin 3 → ℝ, (turn = id ∨ turn = swapped) → ∃ p,
      GridPeak (fun i : Fin 6 => -Real.cos ((i + 0.5) / (6 : ℕ) * Real.pi)) 3 turn (fun v => series B [(⟨1, .o⟩, [fun _ : Unit => (1 : ℝ), fun _ => 1, fun _ => 0])] v ()) p := by
    intro turn ht
    have g := hgrid turn ht
    have v : ∀ (i j : ℕ) (hi : i < 6) (hj : j < 3) (yi si t : ℝ), -Real.cos (((i : ℝ) + 0.5) / (6 : ℕ) * Real.pi) = yi → Real.sqrt (1 - yi ^ 2) = si →
        Real.sin (gridAlpha 3 j) = t → onGrid (fun i : Fin 6 => -Real.cos ((i + 0.5) / (6 : ℕ) * Real.pi)) 3 turn
          (fun v => series B [(⟨1, .o⟩, [fun _ : Unit => (1 : ℝ), fun _ => 1, fun _ => 0])] v ()) i j = κ * (si * t + yi) := by
      intro i j hi hj yi si t h1 h2 h3
      rw [g i j hi hj, h1, h2, h3]
    have v40 := v 4 0 (by norm_num) (by norm_num) _ _ _ (by exact_mod_cast y4) s4 t0
    have v41 := v 4 1 (by norm_num) (by norm_num) _ _ _ (by exact_mod_cast y4) s4 t1
    have v42 := v 4 2 (by norm_num) (by norm_num) _ _ _ (by exact_mod_cast y4) s4 t2
    have v31 := v 3 1 (by norm_num) (by norm_num) _ _ _ (by exact_mod_cast y3) s3 t1
    have v51 := v 5 1 (by norm_num) (by norm_num) _ _ _ (by exact_mod_cast y5) s5 t1
    have b0 : 0 < Real.sqrt 3 := by linarith
    have ab := mul_pos a0 b0
    refine ⟨_, 4, 1, rfl, ⟨by norm_num, 1, 1, by norm_num, le_rfl, by norm_num, ?_, ?_, ?_, rfl⟩, by norm_num, 4, 4, by norm_num, le_rfl, by norm_num, ?_, ?_, ?_, rfl⟩
    · intro k h1 h2; rw [le_antisymm h2 h1]
    · show onGrid _ _ _ _ 4 0 < onGrid _ _ _ _ 4 1
      rw [v40, v41]
      apply mul_lt_mul_of_pos_left _ hκ
      nlinarith
    · show onGrid _ _ _ _ 4 2 < onGrid _ _ _ _ 4 1
      rw [v42, v41]
      apply mul_lt_mul_of_pos_left _ hκ
      nlinarith
    · intro k h1 h2; rw [le_antisymm h2 h1]
    · show onGrid _ _ _ _ 3 1 < onGrid _ _ _ _ 4 1
      rw [v31, v41]
      apply mul_lt_mul_of_pos_left _ hκ
      nlinarith
    · show onGrid _ _ _ _ 5 1 < onGrid _ _ _ _ 4 1
      rw [v51, v41]
      apply mul_lt_mul_of_pos_left _ hκ
      nlinarith
  obtain ⟨L, l1, l2, -⟩ := (C117_find_peaks hlg he hbl).2 (hpk id (.inl rfl)) (hpk swapped (.inr rfl))
  exact ⟨_, B, _, _, _, L, hbl, l1, l2⟩

open Classical in
/-- An enumeration exists (sets that are not finite are not enumerated). -/
example : ∃ enum : Enum, IsEnum enum := by
  refine ⟨fun P => if h : ∃ ab : ℕ × ℕ, ∀ i j, P i j → i < ab.1 ∧ j < ab.2 then
    ((List.range h.choose.1).flatMap fun i => (List.range h.choose.2).map fun j => (i, j)).filter fun ij => decide (P ij.1 ij.2) else [], ?_⟩
  intro a b P hP
  have h : ∃ ab : ℕ × ℕ, ∀ i j, P i j → i < ab.1 ∧ j < ab.2 := ⟨(a, b), hP⟩
  simp only [dif_pos h]
  constructor
  · apply List.Nodup.filter
    exact List.Nodup.product List.nodup_range List.nodup_range
  · intro i j
    have hh := h.choose_spec i j
    simp only [List.mem_filter, List.mem_flatMap, List.mem_map, List.mem_range, decide_eq_true_eq]
    constructor
    · exact fun h => h.2
    · intro hp
      exact ⟨⟨i, (hh hp).1, j, (hh hp).2, rfl⟩, hp⟩

end E3nn.S2
