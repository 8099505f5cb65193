import Verif.Props.C79
import Verif.Props.C44

/-!
# C80: arithmetic of signals
-/

namespace E3nn.S2

open E3nn.IArr E3nn.SH E3nn.Wig E3nn.Rot Matrix

variable {ι : Type}

/-- The values of the signal are those of the function `f` at the vectors of its grid. -/
def Represents (lg : LegGauss) (x : Signal ι) (f : (Fin 3 → ℝ) → ι → ℝ) : Prop :=
  ∃ y w, quadratureWeights lg x.quad x.resBeta = .ok (y, w) ∧ ∀ b a i, x.values b a i = f (gridVector (y b) (gridAlpha x.resAlpha a)) i

/-- How an orthogonal matrix transforms a function of parities `p_val` and `p_arg`. -/
noncomputable def actOn (R : Matrix (Fin 3) (Fin 3) ℝ) (v a : Parity) (f : (Fin 3 → ℝ) → ι → ℝ) : (Fin 3 → ℝ) → ι → ℝ :=
  fun x i => Activ.scalarSign R v * f ((dMatrix ⟨1, a⟩ R)ᵀ *ᵥ x) i

theorem rep_cast {lg : LegGauss} {x y : Signal ι} {g : (Fin 3 → ℝ) → ι → ℝ} (hy : Represents lg y g) (hq : x.quad = y.quad) (hb : x.resBeta = y.resBeta) (ha : x.resAlpha = y.resAlpha)
    {nx wx : Fin x.resBeta → ℝ} (qx : quadratureWeights lg x.quad x.resBeta = .ok (nx, wx)) (b : Fin x.resBeta) (a : Fin x.resAlpha) (i : ι) :
    y.values (b.cast hb) (a.cast ha) i = g (gridVector (nx b) (gridAlpha x.resAlpha a)) i := by
  obtain ⟨ny, wy, qy, vy⟩ := hy
  rcases x with ⟨rb, ra, vals, q, v, p⟩
  rcases y with ⟨rb', ra', vals', q', v', p'⟩
  change q = q' at hq
  change rb = rb' at hb
  change ra = ra' at ha
  subst hb ha hq
  have := qx.symm.trans qy
  injection this with this
  obtain ⟨rfl, rfl⟩ := Prod.mk.inj this
  exact vy b a i

/-- **C80 (`transform_by_matrix`).** In terms of functions: the transformed signal of a function of degree up to `lmax` represents the transformed function. -/
theorem C80_transform {lg : LegGauss} (hlg : GaussLegendre lg) (x : Signal ι) {B : (l : ℕ) → (Fin 3 → ℝ) → Fin (2 * l + 1) → ℝ} {L' : ℕ} (hB : IsBasis (basisLength .integral L') B)
    (bs : List (Irrep × List (ι → ℝ))) (hx : Represents lg x (series B bs)) {lmax : ℕ} (hl : ∀ b ∈ bs, b.1.l ≤ lmax) (hrb : 0 < x.resBeta)
    (hd : 2 * lmax ≤ gridDegree x.quad x.resBeta) (hra : x.resAlpha % 2 = 1 ∧ 2 * lmax + 1 ≤ x.resAlpha) {R : Matrix (Fin 3) (Fin 3) ℝ} (hR : R * Rᵀ = 1) :
    ∃ z, transformSignal lg (fun c => c.transformByMatrix R) x lmax = .ok z ∧ z.quad = x.quad ∧ z.resBeta = x.resBeta ∧ z.resAlpha = x.resAlpha ∧ z.pVal = x.pVal ∧ z.pArg = x.pArg ∧
      Represents lg z (actOn R x.pVal x.pArg (series B bs)) := by
  obtain ⟨y, w, hq, hv⟩ := hx
  refine ⟨_, C78_transform hlg x hq hrb hB bs hv lmax (fun b hb => by have := hl b hb; constructor <;> omega) hra hR, rfl, rfl, rfl, rfl, rfl, y, w, hq, fun b a i => ?_⟩
  have : bs.filter (fun b => b.1.l ≤ lmax) = bs := List.filter_eq_self.mpr fun b hb => by simpa using hl b hb
  rw [this]
  rfl

/-- **C80 (product).** The product of two signals on the same grid with the same `p_arg` represents the product of the functions; its parity `p_val` is the product of the
parities, and this is how the product of the functions transforms. -/
theorem C80_mul {lg : LegGauss} {x y : Signal ι} {f g : (Fin 3 → ℝ) → ι → ℝ} (hx : Represents lg x f) (hy : Represents lg y g) (hq : x.quad = y.quad) (hb : x.resBeta = y.resBeta)
    (ha : x.resAlpha = y.resAlpha) (hp : x.pArg = y.pArg) :
    ∃ z, mulSignals x y = .ok z ∧ z.quad = x.quad ∧ z.resBeta = x.resBeta ∧ z.resAlpha = x.resAlpha ∧ z.pVal = x.pVal.mul y.pVal ∧ z.pArg = x.pArg ∧ Represents lg z (fun p i => f p i * g p i) ∧
      ∀ R : Matrix (Fin 3) (Fin 3) ℝ, R * Rᵀ = 1 → ∀ p i, actOn R z.pVal z.pArg (fun p i => f p i * g p i) p i = actOn R x.pVal x.pArg f p i * actOn R y.pVal y.pArg g p i := by
  refine ⟨combine (fun u v => u * v) x y ⟨hb, ha⟩ (x.pVal.mul y.pVal), ?_, rfl, rfl, rfl, rfl, rfl, ?_, ?_⟩
  · unfold mulSignals
    rw [if_neg (by simpa using hq), dif_pos ⟨hb, ha⟩, if_neg (by simpa using hp)]
  · obtain ⟨nx, wx, qx, vx⟩ := hx
    exact ⟨nx, wx, qx, fun b a i => congrArg₂ (· * ·) (vx b a i) (rep_cast hy hq hb ha qx b a i)⟩
  · intro R hR p i
    have hs : R.det * R.det = 1 := by rcases (show IsOrth R from hR).det_cases with e | e <;> rw [e] <;> norm_num
    have : Activ.scalarSign R (x.pVal.mul y.pVal) = Activ.scalarSign R x.pVal * Activ.scalarSign R y.pVal := by
      cases x.pVal <;> cases y.pVal <;> simp [Activ.scalarSign, Parity.mul, hs]
    change Activ.scalarSign R (x.pVal.mul y.pVal) * _ = _
    rw [this]
    unfold actOn
    rw [← hp]
    change _ * (f ((dMatrix ⟨1, x.pArg⟩ R)ᵀ *ᵥ p) i * g ((dMatrix ⟨1, x.pArg⟩ R)ᵀ *ᵥ p) i) = _
    ring

/-- **C80 (sum, difference, opposite).** They represent the sum, the difference and the opposite; the parities are those of the operands, and this is how these functions transform. -/
theorem C80_add {lg : LegGauss} {x y : Signal ι} {f g : (Fin 3 → ℝ) → ι → ℝ} (hx : Represents lg x f) (hy : Represents lg y g) (hq : x.quad = y.quad) (hb : x.resBeta = y.resBeta)
    (ha : x.resAlpha = y.resAlpha) (hv : x.pVal = y.pVal) (hp : x.pArg = y.pArg) :
    (∃ z, addSignals x y = .ok z ∧ z.quad = x.quad ∧ z.resBeta = x.resBeta ∧ z.resAlpha = x.resAlpha ∧ z.pVal = x.pVal ∧ z.pArg = x.pArg ∧ Represents lg z (fun p i => f p i + g p i)) ∧
    (∃ z, subSignals x y = .ok z ∧ z.quad = x.quad ∧ z.resBeta = x.resBeta ∧ z.resAlpha = x.resAlpha ∧ z.pVal = x.pVal ∧ z.pArg = x.pArg ∧ Represents lg z (fun p i => f p i - g p i)) ∧
    ((negSignal x).quad = x.quad ∧ (negSignal x).pVal = x.pVal ∧ (negSignal x).pArg = x.pArg ∧ Represents lg (negSignal x) fun p i => -f p i) ∧
    ∀ (R : Matrix (Fin 3) (Fin 3) ℝ) (p : Fin 3 → ℝ) (i : ι),
      actOn R x.pVal x.pArg (fun p i => f p i + g p i) p i = actOn R x.pVal x.pArg f p i + actOn R y.pVal y.pArg g p i ∧
      actOn R x.pVal x.pArg (fun p i => f p i - g p i) p i = actOn R x.pVal x.pArg f p i - actOn R y.pVal y.pArg g p i := by
  have hadd : ∀ (y : Signal ι) (g : (Fin 3 → ℝ) → ι → ℝ), Represents lg y g → x.quad = y.quad → x.resBeta = y.resBeta → x.resAlpha = y.resAlpha → x.pVal = y.pVal → x.pArg = y.pArg →
      ∃ z, addSignals x y = .ok z ∧ z.quad = x.quad ∧ z.resBeta = x.resBeta ∧ z.resAlpha = x.resAlpha ∧ z.pVal = x.pVal ∧ z.pArg = x.pArg ∧ Represents lg z (fun p i => f p i + g p i) := by
    intro y g hy hq hb ha hv hp
    refine ⟨combine (fun u v => u + v) x y ⟨hb, ha⟩ x.pVal, ?_, rfl, rfl, rfl, rfl, rfl, ?_⟩
    · unfold addSignals
      rw [dif_pos ⟨hb, ha⟩, if_neg (by simp [hv, hp]), if_neg (by simpa using hq)]
    · obtain ⟨nx, wx, qx, vx⟩ := hx
      exact ⟨nx, wx, qx, fun b a i => congrArg₂ (· + ·) (vx b a i) (rep_cast hy hq hb ha qx b a i)⟩
  have hneg : ∀ (y : Signal ι) (g : (Fin 3 → ℝ) → ι → ℝ), Represents lg y g → Represents lg (negSignal y) fun p i => -g p i := by
    rintro y g ⟨ny, wy, qy, vy⟩
    exact ⟨ny, wy, qy, fun b a i => congrArg Neg.neg (vy b a i)⟩
  refine ⟨hadd y g hy hq hb ha hv hp, ?_, ⟨rfl, rfl, rfl, hneg x f hx⟩, fun R p i => ?_⟩
  · obtain ⟨z, z1, z2, z3, z4, z5, z6, z7⟩ := hadd (negSignal y) _ (hneg y g hy) hq hb ha hv hp
    refine ⟨z, z1, z2, z3, z4, z5, z6, ?_⟩
    simpa only [sub_eq_add_neg] using z7
  · unfold actOn
    rw [← hv, ← hp]
    constructor <;> ring

/-- **C80 (numbers).** Products with numbers, with a `0e` array, and quotients, represent the products and quotients; the parities do not change. -/
theorem C80_number {lg : LegGauss} {x : Signal ι} {f : (Fin 3 → ℝ) → ι → ℝ} (hx : Represents lg x f) :
    (∀ c : ι → ℝ, (mulNumber x c).quad = x.quad ∧ (mulNumber x c).pVal = x.pVal ∧ (mulNumber x c).pArg = x.pArg ∧ Represents lg (mulNumber x c) fun p i => f p i * c i) ∧
    (∀ c : ℝ, (divNumber x c).quad = x.quad ∧ (divNumber x c).pVal = x.pVal ∧ (divNumber x c).pArg = x.pArg ∧ Represents lg (divNumber x c) fun p i => f p i / c) ∧
    (∀ (c : IArr (ι → ℝ)) (u : ι → ℝ), c.irreps = [⟨1, ⟨0, .e⟩⟩] → c.array = [u] →
      ∃ z, mulIrreps x c = .ok z ∧ z.quad = x.quad ∧ z.pVal = x.pVal ∧ z.pArg = x.pArg ∧ Represents lg z fun p i => f p i * u i) ∧
    ∀ c : IArr (ι → ℝ), c.irreps ≠ [⟨1, ⟨0, .e⟩⟩] → mulIrreps x c = .error .valueError := by
  obtain ⟨y, w, hq, hv⟩ := hx
  refine ⟨fun c => ⟨rfl, rfl, rfl, y, w, hq, fun b a i => congrArg (· * c i) (hv b a i)⟩, fun c => ⟨rfl, rfl, rfl, y, w, hq, fun b a i => ?_⟩, fun c u h1 h2 => ?_, fun c h => ?_⟩
  · refine (congrArg (· * (1 / c)) (hv b a i)).trans ?_
    change _ * (1 / c) = _
    rw [mul_one_div]
    rfl
  · refine ⟨mulNumber x u, ?_, rfl, rfl, rfl, y, w, hq, fun b a i => congrArg (· * u i) (hv b a i)⟩
    unfold mulIrreps
    rw [if_neg (by simpa using h1), h2]
    rfl
  · unfold mulIrreps
    rw [if_pos h]

/-- **C80 (refusals).** Signals with different quadratures or grids, or whose parities make the operation not equivariant, are refused (`ValueError`). -/
theorem C80_refuse (x y : Signal ι) :
    (x.quad ≠ y.quad ∨ x.resBeta ≠ y.resBeta ∨ x.resAlpha ≠ y.resAlpha ∨ x.pArg ≠ y.pArg → mulSignals x y = .error .valueError) ∧
    (x.quad ≠ y.quad ∨ x.resBeta ≠ y.resBeta ∨ x.resAlpha ≠ y.resAlpha ∨ x.pArg ≠ y.pArg ∨ x.pVal ≠ y.pVal → addSignals x y = .error .valueError ∧ subSignals x y = .error .valueError) := by
  have hadd : ∀ x y : Signal ι, x.quad ≠ y.quad ∨ x.resBeta ≠ y.resBeta ∨ x.resAlpha ≠ y.resAlpha ∨ x.pArg ≠ y.pArg ∨ x.pVal ≠ y.pVal → addSignals x y = .error .valueError := by
    intro x y h
    unfold addSignals
    split
    · rename_i hg
      split
      · rfl
      · rename_i hp
        simp at hp
        rw [if_pos]
        rcases h with h | h | h | h | h
        · exact h
        · exact absurd hg.1 h
        · exact absurd hg.2 h
        · exact absurd hp.2 h
        · exact absurd hp.1 h
    · rfl
  refine ⟨fun h => ?_, fun h => ⟨hadd x y h, hadd x (negSignal y) h⟩⟩
  unfold mulSignals
  by_cases hq : x.quad = y.quad
  swap
  · rw [if_pos hq]
  rw [if_neg (by simpa using hq)]
  split
  · rename_i hg
    rw [if_pos]
    rcases h with h | h | h | h
    · exact absurd hq h
    · exact absurd hg.1 h
    · exact absurd hg.2 h
    · exact h
  · rfl

/-- **C80 (`apply`).** A function is applied to the values.  If the signal has `p_val = 1`, or `p_val = -1` and the function is odd, the parities of the result are how the resulting function transforms.
If `p_val = -1` and the test of the function finds no parity it is refused (`ValueError`). -/
theorem C80_apply {lg : LegGauss} {x : Signal ι} {f : (Fin 3 → ℝ) → ι → ℝ} (hx : Represents lg x f) (F : ℝ → ℝ) :
    (x.pVal = .o → Activ.parityFunction F = 0 → applySignal x F = .error .valueError) ∧
    (¬ (x.pVal = .o ∧ Activ.parityFunction F = 0) → ∃ z, applySignal x F = .ok z ∧ z.quad = x.quad ∧ z.pVal = x.pVal ∧ z.pArg = x.pArg ∧ Represents lg z (fun p i => F (f p i)) ∧
      (x.pVal = .e ∨ (∀ t, F (-t) = -F t) → ∀ R : Matrix (Fin 3) (Fin 3) ℝ, R * Rᵀ = 1 → ∀ p i, actOn R z.pVal z.pArg (fun p i => F (f p i)) p i = F (actOn R x.pVal x.pArg f p i))) := by
  refine ⟨fun h1 h2 => by simp [applySignal, h1, h2], fun h => ?_⟩
  obtain ⟨y, w, hq, hv⟩ := hx
  refine ⟨replaceValues x fun b a i => F (x.values b a i), ?_, rfl, rfl, rfl, ⟨y, w, hq, fun b a i => congrArg F (hv b a i)⟩, fun ho R hR p i => ?_⟩
  · unfold applySignal
    rw [if_neg]
    cases hp : x.pVal with
    | e => simp [Parity.toInt]
    | o => simp only [if_true]; exact fun h' => h ⟨hp, h'⟩
  · change actOn R x.pVal x.pArg _ p i = _
    unfold actOn
    rcases ho with ho | ho
    · simp [ho, Activ.scalarSign]
    · rcases Activ.scalarSign_cases (show IsOrth R from hR) x.pVal with e | e <;> rw [e]
      · simp
      · simp [ho]

/-- **C80 (`apply` keeps a wrong parity).** The restriction to odd functions is needed: for `p_val = -1` and an even function, the parity is computed (`1`) but the result still has `p_val = -1`.
Here squaring a signal of the value one: the result must not change sign under the inversion, but the signal that is returned does. -/
theorem C80_apply_witness (lg : LegGauss) :
    ∃ (x z : Signal Unit) (f : (Fin 3 → ℝ) → Unit → ℝ), Represents lg x f ∧ x.pVal = .o ∧ applySignal x (fun t => t ^ 2) = .ok z ∧ z.pVal = .o ∧ Represents lg z (fun p i => (f p i) ^ 2) ∧
      ∃ p, actOn (-1) z.pVal z.pArg (fun p i => (f p i) ^ 2) p () ≠ (actOn (-1) x.pVal x.pArg f p ()) ^ 2 := by
  have hq : quadratureWeights lg .soft 2 = .ok (fun i : Fin 2 => -Real.cos ((i + 0.5) / (2 : ℕ) * Real.pi), fun i : Fin 2 => softWeight 2 i / 2) := by unfold quadratureWeights; simp
  have hpar : Activ.parityFunction (fun t : ℝ => t ^ 2) = 1 := (C44_parity_function (fun t : ℝ => t ^ 2)).1 (fun t => by simp)
  refine ⟨⟨2, 1, fun _ _ _ => 1, .soft, .o, .o⟩, ⟨2, 1, fun _ _ _ => 1 ^ 2, .soft, .o, .o⟩, fun _ _ => 1, ⟨_, _, hq, fun _ _ _ => rfl⟩, rfl, ?_, rfl, ⟨_, _, hq, fun _ _ _ => rfl⟩, 0, ?_⟩
  · unfold applySignal
    simp only [if_true, hpar]
    rfl
  · have hdet : (-1 : Matrix (Fin 3) (Fin 3) ℝ).det = -1 := by rw [Matrix.det_neg]; simp; norm_num
    simp [actOn, Activ.scalarSign, hdet]
    norm_num

/-- **C80 (`from_function`).** The signal made from a function represents it; it fails exactly when the grid cannot be built. -/
theorem C80_from_function {lg : LegGauss} (f : (Fin 3 → ℝ) → ι → ℝ) (rb ra : ℕ) (q : Quad) (v a : Parity) :
    (∀ x, fromFunction lg f rb ra q v a = .ok x → Represents lg x f ∧ x.resBeta = rb ∧ x.resAlpha = ra ∧ x.quad = q ∧ x.pVal = v ∧ x.pArg = a) ∧
    ∀ e, quadratureWeights lg q rb = .error e ↔ fromFunction lg f rb ra q v a = .error e := by
  refine ⟨fun x hx => ?_, fun e => ?_⟩
  · unfold fromFunction at hx
    cases hq : quadratureWeights lg q rb with
    | error e => rw [hq] at hx; cases hx
    | ok g =>
      rw [hq] at hx
      injection hx with hx
      subst hx
      exact ⟨⟨g.1, g.2, hq, fun _ _ _ => rfl⟩, rfl, rfl, rfl, rfl, rfl⟩
  · unfold fromFunction
    cases quadratureWeights lg q rb <;> simp [Except.map]

end E3nn.S2
