import Verif.Model.PadToPlot
import Verif.Props.C75

/-! # C118: `SphericalSignal.pad_to_plot` -/

namespace E3nn.S2

/-- The factor by which the unit vectors are multiplied. -/
noncomputable def plotScale (scale normalize : Bool) (radius m v : ℝ) : ℝ :=
  radius * (if scale then (if normalize then |v| / m else |v|) else 1)

theorem padToPlot_eq {lg : LegGauss} (x : Signal Unit) (translation : Option (Fin 3 → ℝ)) (radius : ℝ) (scale normalize : Bool) (hb : 0 < x.resBeta) (ha : 0 < x.resAlpha)
    {y w : Fin x.resBeta → ℝ} (hq : quadratureWeights lg x.quad x.resBeta = .ok (y, w)) :
    padToPlot lg x translation radius scale normalize hb ha = .ok
      (fun i j k => plotScale scale normalize radius (maxAbs (padF hb ha fun b a => x.values b a ())) (padF hb ha (fun b a => x.values b a ()) i j) *
        gridVector (padY y i) (padAlpha x.resAlpha j) k + (translation.getD fun _ => 0) k, padF hb ha fun b a => x.values b a ()) := by
  unfold padToPlot
  rw [hq]
  simp only [bind, Except.bind, pure, Except.pure]
  congr 2
  funext i j k
  unfold plotScale
  cases translation <;> cases scale <;> cases normalize <;> simp <;> ring

/-- **C118.** The padded surface: the points of the grid keep their directions and values in the rows `1 … res_beta` and the columns `0 … res_alpha - 1`; the last column repeats the first,
so the surface is closed around the axis; the first and the last row are a single point each, on the axis, with the mean value of the neighbouring row; and every
point is the unit vector times `radius` (times the absolute value of the signal, divided by the greatest absolute value, according to the flags), moved by the translation. `hz` excludes the signal zero when the radius is divided by its greatest absolute value: the code returns NaN there. -/
theorem C118_pad_to_plot {lg : LegGauss} (hlg : GaussLegendre lg) (x : Signal Unit) (translation : Option (Fin 3 → ℝ)) (radius : ℝ) (scale normalize : Bool)
    (hb : 0 < x.resBeta) (ha : 0 < x.resAlpha) {y w : Fin x.resBeta → ℝ} (hq : quadratureWeights lg x.quad x.resBeta = .ok (y, w))
    (hz : scale = true → normalize = true → ∃ b a, x.values b a () ≠ 0) :
    ∃ r f M, padToPlot lg x translation radius scale normalize hb ha = .ok (r, f) ∧
      -- the signal inside
      (∀ (b : Fin x.resBeta) (a : Fin x.resAlpha), f b.succ.castSucc a.castSucc = x.values b a () ∧
        r b.succ.castSucc a.castSucc = fun k => plotScale scale normalize radius M (x.values b a ()) * gridVector (y b) (gridAlpha x.resAlpha a) k + (translation.getD fun _ => 0) k) ∧
      -- closed around the axis
      (∀ i, f i (Fin.last _) = f i 0 ∧ r i (Fin.last _) = r i 0) ∧
      -- the poles
      (∀ j, f 0 j = (∑ a, x.values ⟨0, hb⟩ a ()) / x.resAlpha ∧ f (Fin.last _) j = (∑ a, x.values ⟨x.resBeta - 1, by omega⟩ a ()) / x.resAlpha ∧
        r 0 j = (fun k => plotScale scale normalize radius M (f 0 0) * ![0, -1, 0] k + (translation.getD fun _ => 0) k) ∧
        r (Fin.last _) j = fun k => plotScale scale normalize radius M (f (Fin.last _) 0) * ![0, 1, 0] k + (translation.getD fun _ => 0) k) ∧
      -- the distance from the centre
      (∀ i j, ∑ k, (r i j k - (translation.getD fun _ => 0) k) ^ 2 = plotScale scale normalize radius M (f i j) ^ 2) ∧
      -- the greatest absolute value
      (∀ i j, |f i j| ≤ M) ∧ (∃ i j, |f i j| = M) ∧ (scale = true → normalize = true → 0 < M) := by
  have hf : ∀ (i : Fin (x.resBeta + 2)), ∀ j, (i : ℕ) = 0 → padF hb ha (fun b a => x.values b a ()) i j = (∑ a, x.values ⟨0, hb⟩ a ()) / x.resAlpha := by
    intro i j h; unfold padF; simp only [if_pos h]; rfl
  have hl : ∀ j, padF hb ha (fun b a => x.values b a ()) (Fin.last _) j = (∑ a, x.values ⟨x.resBeta - 1, by omega⟩ a ()) / x.resAlpha := by
    intro j; unfold padF
    rw [if_neg (by simp), dif_neg (by simp)]; rfl
  have hpole : ∀ (s α : ℝ), s ^ 2 = 1 → gridVector s α = ![0, s, 0] := by
    intro s α hs
    funext k
    fin_cases k <;> simp [gridVector, hs]
  have hin : ∀ (b : Fin x.resBeta) (a : Fin x.resAlpha), padF hb ha (fun b a => x.values b a ()) b.succ.castSucc a.castSucc = x.values b a () := by
    intro b a
    unfold padF
    rw [if_neg (by simp), dif_pos (by simp)]
    simp
  have hle : ∀ i j, |padF hb ha (fun b a => x.values b a ()) i j| ≤ maxAbs (padF hb ha fun b a => x.values b a ()) := fun i j =>
    Finset.le_sup' (fun ij : Fin (x.resBeta + 2) × Fin (x.resAlpha + 1) => |padF hb ha (fun b a => x.values b a ()) ij.1 ij.2|) (Finset.mem_univ (i, j))
  refine ⟨_, _, maxAbs (padF hb ha fun b a => x.values b a ()), padToPlot_eq x translation radius scale normalize hb ha hq, ?_, ?_, ?_, ?_, ?_, ?_, ?_⟩
  · intro b a
    have e1 := hin b a
    refine ⟨e1, ?_⟩
    funext k
    have e2 : padY y b.succ.castSucc = y b := by
      unfold padY
      rw [if_neg (by simp), dif_pos (by simp)]
      simp
    have e3 : padAlpha x.resAlpha a.castSucc = gridAlpha x.resAlpha a := by
      unfold padAlpha
      rw [if_pos (by simp)]; simp
    simp only [e1, e2, e3]
  · intro i
    have e1 : padF hb ha (fun b a => x.values b a ()) i (Fin.last _) = padF hb ha (fun b a => x.values b a ()) i 0 := by
      unfold padF
      simp [ha]
    have e3 : padAlpha x.resAlpha (Fin.last _) = padAlpha x.resAlpha 0 := by
      unfold padAlpha
      simp [ha]
    refine ⟨e1, ?_⟩
    funext k
    simp only [e1, e3]
  · intro j
    refine ⟨hf 0 j rfl, hl j, ?_, ?_⟩
    · funext k
      have e2 : padY y 0 = -1 := by unfold padY; rw [if_pos (by simp)]
      simp only [e2, hf 0 _ rfl, hpole (-1) _ (by norm_num)]
    · funext k
      have e2 : padY y (Fin.last _) = 1 := by unfold padY; rw [if_neg (by simp), dif_neg (by simp)]
      simp only [e2, hl, hpole 1 _ (by norm_num)]
  · intro i j
    have hu : gridVector (padY y i) (padAlpha x.resAlpha j) 0 ^ 2 + gridVector (padY y i) (padAlpha x.resAlpha j) 1 ^ 2 + gridVector (padY y i) (padAlpha x.resAlpha j) 2 ^ 2 = 1 := by
      unfold padY
      split
      · rw [hpole (-1) _ (by norm_num)]; simp [Matrix.cons_val]
      · split
        · exact C75_unit hlg hq _ _
        · rw [hpole 1 _ (by norm_num)]; simp [Matrix.cons_val]
    rw [Fin.sum_univ_three]
    simp only [add_sub_cancel_right]
    linear_combination (plotScale scale normalize radius (maxAbs (padF hb ha fun b a => x.values b a ())) (padF hb ha (fun b a => x.values b a ()) i j)) ^ 2 * hu
  · exact hle
  · obtain ⟨ij, -, h⟩ := Finset.exists_mem_eq_sup' (s := Finset.univ) ⟨((0 : Fin (x.resBeta + 2)), (0 : Fin (x.resAlpha + 1))), Finset.mem_univ _⟩
      fun ij : Fin (x.resBeta + 2) × Fin (x.resAlpha + 1) => |padF hb ha (fun b a => x.values b a ()) ij.1 ij.2|
    exact ⟨ij.1, ij.2, h.symm⟩
  · intro h1 h2
    obtain ⟨b, a, hne⟩ := hz h1 h2
    have := hle b.succ.castSucc a.castSucc
    rw [hin b a] at this
    exact lt_of_lt_of_le (abs_pos.mpr hne) this

/-- A signal on a grid of 2 by 3 meets the hypotheses, and the row at the south pole has the mean of the first row. -/
example (lg : LegGauss) (hlg : GaussLegendre lg) : ∃ r f, padToPlot lg ⟨2, 3, fun _ a _ => (a : ℕ), .soft, .e, .o⟩ none 1 true true (by decide) (by decide) = .ok (r, f) ∧ f 0 2 = 1 := by
  have hq : quadratureWeights lg .soft 2 = .ok (fun i : Fin 2 => -Real.cos ((i + 0.5) / (2 : ℕ) * Real.pi), fun i : Fin 2 => softWeight 2 i / 2) := by unfold quadratureWeights; simp
  obtain ⟨r, f, M, h, -, -, hp, -⟩ := C118_pad_to_plot hlg ⟨2, 3, fun _ a _ => (a : ℕ), .soft, .e, .o⟩ none 1 true true (by decide) (by decide) hq
    (fun _ _ => ⟨0, 1, by simp⟩)
  refine ⟨r, f, h, ?_⟩
  rw [(hp 2).1]
  show (∑ a : Fin 3, ((a : ℕ) : ℝ)) / (3 : ℕ) = 1
  rw [Fin.sum_univ_three]
  norm_num

end E3nn.S2
