import Verif.Model.MLP
import Verif.Spec.MLP
import Verif.Props.C89
import Verif.Spec.Normalisation

/-!
# C90: `MultiLayerPerceptron`
-/

namespace E3nn.MLP
open E3nn.IArr E3nn.Wig E3nn.Perceptron

/-- The parameters have the shapes that the layers ask for, on an input of size `n`. -/
def Shaped (c : Cfg) (n : ℕ) (P : Params) : Prop :=
  ∀ i < c.neurons.length, Fits c.withBias ((n :: c.neurons).getD i 0) ((n :: c.neurons).getD (i + 1) 0) (P i)

/-- No layer without neurons has a layer after it. -/
def Positive (c : Cfg) (n : ℕ) : Prop := ∀ i < c.neurons.length, (n :: c.neurons).getD i 0 ≠ 0

/-- The activation of layer `i`: the normalised `act`, and for the last layer what `output_activation` says. -/
noncomputable def sigma (pts : List ℝ) (c : Cfg) (i : ℕ) : ℝ → ℝ :=
  ((if i + 1 = c.neurons.length then (match c.out with | .yes => c.act | .no => none | .fn f => some f) else c.act).map
    (Activ.normalizeFunction pts)).getD id

theorem zip_sum (h j : ℕ) : ∀ (x : List ℝ) (k : List (List ℝ)), k.length = x.length →
    (List.zipWith (fun a r => a * r.getD j 0) x k).sum = ∑ i ∈ Finset.range x.length, x.getD i 0 * (k.getD i []).getD j 0
  | [], k, _ => by simp
  | a :: x, [], hk => by simp at hk
  | a :: x, r :: k, hk => by
    rw [List.zipWith_cons_cons, List.sum_cons, zip_sum h j x k (by simpa using hk), List.length_cons, Finset.sum_range_succ']
    simp [add_comm]

theorem activate_eq (o : Option (ℝ → ℝ)) (y : List ℝ) : activate o y = y.map (o.getD id) := by
  cases o <;> simp [activate]

/-- One layer. -/
theorem dense_eq (c : Cfg) {h : ℕ} {p : Dense} {x : List ℝ} (hx : x.length ≠ 0) (hp : Fits c.withBias x.length h p) :
    dense c h p x = .ok ((List.range h).map fun j => (1 / Real.sqrt x.length) ^ c.g *
      (∑ k ∈ Finset.range x.length, x.getD k 0 * (p.kernel.getD k []).getD j 0 + if c.withBias then p.bias.getD j 0 else 0)) := by
  rw [dense, if_neg hx, if_pos hp, product]
  simp only [List.map_map, Except.ok.injEq]
  refine List.map_congr_left fun j _ => ?_
  simp only [Function.comp_apply]
  rw [zip_sum h j x _ hp.1]
  congr 2
  rw [Real.sqrt_div zero_le_one, Real.sqrt_one]

theorem range_getD {n : ℕ} (f : ℕ → ℝ) {k : ℕ} (hk : k < n) : ((List.range n).map f).getD k 0 = f k := by
  rw [List.getD_eq_getElem _ _ (by simpa using hk)]
  simp

/-- The loop from layer `i` on. -/
theorem loop_spec (c : Cfg) (act last : Option (ℝ → ℝ)) (P : Params) : ∀ (hs : List ℕ) (i : ℕ) (x : List ℝ), i + hs.length = c.neurons.length →
    (∀ m < hs.length, Fits c.withBias ((x.length :: hs).getD m 0) ((x.length :: hs).getD (m + 1) 0) (P (i + m))) →
    (∀ m < hs.length, (x.length :: hs).getD m 0 ≠ 0) →
    ∃ y, loop c act last P i hs x = .ok y ∧ IsOutput (x.length :: hs) (fun m k j => ((P (i + m)).kernel.getD k []).getD j 0)
      (fun m j => if c.withBias then (P (i + m)).bias.getD j 0 else 0) (fun m => (if i + m + 1 < c.neurons.length then act else last).getD id) c.g x y
  | [], i, x, _, _, _ => by
    refine ⟨x, rfl, fun _ k => x.getD k 0, fun _ _ => rfl, fun m hm => by simp at hm, ?_⟩
    simp only [List.length_cons, List.length_nil, Nat.zero_add, Nat.sub_self, List.getD_cons_zero]
    apply List.ext_getElem (by simp)
    intro k h1 h2
    simp [List.getElem_map, h1]
  | h :: hs, i, x, hi, hP, hn => by
    have h0 := hP 0 (by simp)
    have n0 := hn 0 (by simp)
    simp only [List.getD_cons_zero, List.getD_cons_succ, Nat.add_zero] at h0 n0
    rw [loop, dense_eq c n0 h0]
    simp only [activate_eq, List.map_map]
    generalize hy : List.map _ (List.range h) = y
    have hl : y.length = h := by rw [← hy]; simp
    simp only [List.length_cons] at hi
    obtain ⟨u, u1, z, z1, z2, z3⟩ := loop_spec c act last P hs (i + 1) y (by omega)
      (fun m hm => by
        have := hP (m + 1) (by simpa using hm)
        rw [hl, show i + 1 + m = i + (m + 1) by omega]
        simpa using this)
      (fun m hm => by
        have := hn (m + 1) (by simpa using hm)
        rw [hl]
        simpa using this)
    refine ⟨u, u1, fun m => match m with | 0 => fun k => x.getD k 0 | m + 1 => z m, fun _ _ => rfl, ?_, ?_⟩
    · rw [hl] at z1 z2
      intro m hm j hj
      cases m with
      | zero =>
        simp only [List.getD_cons_succ, List.getD_cons_zero, Nat.zero_add, Nat.add_zero] at hj ⊢
        rw [z1 j (by simpa using hj), ← hy, range_getD _ hj]
        rfl
      | succ m =>
        simp only [List.getD_cons_succ, List.length_cons] at hj hm ⊢
        have := z2 m (by simpa using hm) j (by simpa using hj)
        simp only [show i + 1 + m = i + (m + 1) by omega] at this
        simpa using this
    · rw [hl] at z3
      simpa using z3

/-- **C90 (the network).** With parameters of the shapes that the layers ask for, and no empty layer before another layer, the
module returns on an array of numbers: the result has the size of the last layer, and is computed layer by layer by
`z (i+1) = σ (n ^ (-g/2) * (z i W + b))`, with the normalised activation on all the layers and on the last layer the
normalised `output_activation` (none for `False`, `act` for `True`). -/
theorem C90_call (pts : List ℝ) (c : Cfg) {P : Params} {x : List ℝ} (hP : Shaped c x.length P) (hn : Positive c x.length) :
    ∃ y, callArray pts c P x = .ok y ∧ y.length = (x.length :: c.neurons).getLastD 0 ∧
      IsOutput (x.length :: c.neurons) (fun i k j => ((P i).kernel.getD k []).getD j 0) (fun i j => if c.withBias then (P i).bias.getD j 0 else 0)
        (sigma pts c) c.g x y := by
  obtain ⟨y, y1, z, z1, z2, z3⟩ := loop_spec c (c.act.map (Activ.normalizeFunction pts)) ((outputActivation c).map (Activ.normalizeFunction pts)) P
    c.neurons 0 x (by simp) (by simpa [Shaped] using hP) (by simpa [Positive] using hn)
  refine ⟨y, y1, ?_, z, z1, ?_, z3⟩
  · rw [z3, List.length_map, List.length_range]
    simp only [List.length_cons, Nat.add_sub_cancel, List.getLastD_cons]
    cases h : c.neurons using List.reverseRecOn with
    | nil => rfl
    | append_singleton l a => simp
  · intro i hi j hj
    simp only [List.length_cons] at hi
    rw [z2 i (by simpa using hi) j hj]
    simp only [Nat.zero_add, sigma, outputActivation]
    by_cases h : i + 1 = c.neurons.length
    · rw [if_pos h, if_neg (by omega)]
      cases c.out <;> rfl
    · rw [if_neg h, if_pos (by omega)]

/-- The values of a layer do not depend on how they are obtained: the network has one output. -/
theorem IsOutput.unique {sizes : List ℕ} {W : ℕ → ℕ → ℕ → ℝ} {b : ℕ → ℕ → ℝ} {σ : ℕ → ℝ → ℝ} {g : ℝ} {x y y' : List ℝ}
    (h : IsOutput sizes W b σ g x y) (h' : IsOutput sizes W b σ g x y') : y = y' := by
  obtain ⟨z, z1, z2, z3⟩ := h
  obtain ⟨z', z1', z2', z3'⟩ := h'
  have key : ∀ i < sizes.length, ∀ j < sizes.getD i 0, z i j = z' i j := by
    intro i
    induction i with
    | zero => exact fun _ j hj => (z1 j hj).trans (z1' j hj).symm
    | succ i ih =>
      intro hi j hj
      rw [z2 i hi j hj, z2' i hi j hj]
      congr 3
      exact Finset.sum_congr rfl fun k hk => by rw [ih (by omega) k (Finset.mem_range.mp hk)]
  rw [z3, z3']
  refine List.map_congr_left fun j hj => key _ ?_ _ (List.mem_range.mp hj)
  by_contra hne
  have : sizes.length - 1 = sizes.length ∨ sizes = [] := by
    rcases sizes with _ | ⟨a, l⟩
    · exact .inr rfl
    · simp at hne
  rcases this with h | h
  · rcases sizes with _ | ⟨a, l⟩
    · simp at hj
    · simp at h
  · subst h
    simp at hj

theorem isScalar_iff (ms : Irreps) : ms.isScalar = true ↔ ms ≠ [] ∧ ∀ m ∈ ms, m.ir = ⟨0, .e⟩ := by
  simp [Irreps.isScalar]

/-- **C90 (`IrrepsArray`).** On an `IrrepsArray` of `0e`s the module returns `N x 0e` with the entries that it computes from
the array, `N` the size of the last layer. -/
theorem C90_irreps (pts : List ℝ) (c : Cfg) {P : Params} {x : IArr ℝ} (hx : x.Coherent) (hne : x.irreps ≠ []) (hs : ∀ m ∈ x.irreps, m.ir = ⟨0, .e⟩)
    (hP : Shaped c x.irreps.dim P) (hn : Positive c x.irreps.dim) :
    ∃ y a, callArray pts c P x.array = .ok a ∧ call pts c P x = .ok y ∧ y.Coherent ∧ y.array = a ∧
      y.irreps = [⟨(x.irreps.dim :: c.neurons).getLastD 0, ⟨0, .e⟩⟩] := by
  have hl : x.array.length = x.irreps.dim := by rw [hx.array_length, ← Irreps.dim_eq_dimOf_expand]
  rw [← hl] at hP hn
  obtain ⟨a, a1, a2, -⟩ := C90_call pts c hP hn
  obtain ⟨y, y1, y2, y3, y4, -⟩ := (C12_from_array [⟨a.length, ⟨0, .e⟩⟩] a).1 (by simp [expand, Irrep.dim, dimOf])
  refine ⟨y, a, a1, ?_, y2, y4, ?_⟩
  · rw [call, (isScalar_iff _).mpr ⟨hne, hs⟩, a1]
    exact y1
  · rw [y3, a2, hl]

/-- **C90 (refusal).** Anything that contains another irrep than `0e`, even with multiplicity zero, and an array without any
irreps, raises `ValueError`. -/
theorem C90_refuse (pts : List ℝ) (c : Cfg) (P : Params) {x : IArr ℝ} (hs : x.irreps = [] ∨ ∃ m ∈ x.irreps, m.ir ≠ ⟨0, .e⟩) :
    call pts c P x = .error .valueError := by
  have : x.irreps.isScalar = false := by
    rw [← Bool.not_eq_true, isScalar_iff]
    rintro ⟨h1, h2⟩
    rcases hs with h | ⟨m, m1, m2⟩
    · exact h1 h
    · exact m2 (h2 m m1)
  rw [call, this]
  rfl

/-- **C90 (invariance).** A rotation or reflection of the input changes nothing, and the result is itself invariant. -/
theorem C90_invariant (pts : List ℝ) (c : Cfg) {P : Params} {x : IArr ℝ} (hx : x.Coherent) {R : Matrix (Fin 3) (Fin 3) ℝ} (hR : IsOrth R)
    {x' y : IArr ℝ} (h : x.transformByMatrix R = .ok x') (hy : call pts c P x = .ok y) :
    call pts c P x' = .ok y ∧ ∃ y', y.transformByMatrix R = .ok y' ∧ y'.irreps = y.irreps ∧ y'.array = y.array := by
  have hs : x.irreps.isScalar = true := by
    by_contra hs
    rw [call] at hy
    simp [hs] at hy
  obtain ⟨e1, e2⟩ := LinM.scalar_fixed hR hx hs h
  refine ⟨?_, ?_⟩
  · rw [call, e1, e2]
    exact hy
  · rw [call, hs] at hy
    simp only [Bool.not_true, Bool.false_eq_true, if_false] at hy
    cases ha : callArray pts c P x.array with
    | error e => rw [ha] at hy; cases hy
    | ok a =>
      rw [ha] at hy
      obtain ⟨y', y1, y2, y3, -⟩ := (C12_from_array [⟨a.length, ⟨0, .e⟩⟩] a).1 (by simp [expand, Irrep.dim, dimOf])
      rw [show IArr.ofArray [⟨a.length, ⟨0, .e⟩⟩] a = .ok y from hy] at y1
      cases y1
      obtain ⟨u, u1, -⟩ := C59_transform R y y2
      exact ⟨u, u1, LinM.scalar_fixed hR y2 (by rw [y3]; rfl) u1⟩

/-- **C90 (normalisation).** At initialisation, whatever the gradient normalisation, the input of every activation has as
second moment the mean square of the neurons of the layer before: for uncorrelated kernel entries with the standard deviation
that the module asks for, and zero biases. -/
theorem C90_normalised {Ω : Type} [MeasurableSpace Ω] (μ : MeasureTheory.Measure Ω) (c : Cfg) {n : ℕ} (hn : 0 < n) (w : ℕ → Ω → ℝ)
    (hw : ∀ k < n, ∀ k' < n, Stat.Corr μ (w k) (w k') (if k = k' then kernelStd c n ^ 2 else 0)) (z : ℕ → ℝ) :
    Stat.Corr μ (fun ω => (1 / Real.sqrt n) ^ c.g * ∑ k ∈ Finset.range n, z k * w k ω)
      (fun ω => (1 / Real.sqrt n) ^ c.g * ∑ k ∈ Finset.range n, z k * w k ω) ((∑ k ∈ Finset.range n, z k ^ 2) / n) := by
  have hs : (0 : ℝ) < 1 / Real.sqrt n := by positivity
  have hsq : ((1 / Real.sqrt n) ^ c.g) ^ 2 * kernelStd c n ^ 2 = 1 / n := by
    rw [kernelStd, Real.sqrt_div zero_le_one, Real.sqrt_one, ← mul_pow, ← Real.rpow_add hs]
    simp only [add_sub_cancel, Real.rpow_one]
    rw [div_pow, Real.sq_sqrt (Nat.cast_nonneg n), one_pow]
  generalize (1 / Real.sqrt n) ^ c.g = s at *
  have e : (fun ω => (s * ∑ k ∈ Finset.range n, z k * w k ω) * (s * ∑ k ∈ Finset.range n, z k * w k ω)) =
      fun ω => ∑ k ∈ Finset.range n, ∑ k' ∈ Finset.range n, s ^ 2 * z k * z k' * (w k ω * w k' ω) := by
    funext ω
    rw [show (s * ∑ k ∈ Finset.range n, z k * w k ω) * (s * ∑ k ∈ Finset.range n, z k * w k ω) =
      s ^ 2 * ((∑ k ∈ Finset.range n, z k * w k ω) * ∑ k ∈ Finset.range n, z k * w k ω) by ring, Finset.sum_mul_sum, Finset.mul_sum]
    refine Finset.sum_congr rfl fun k _ => ?_
    rw [Finset.mul_sum]
    exact Finset.sum_congr rfl fun k' _ => by ring
  have hint : ∀ k ∈ Finset.range n, ∀ k' ∈ Finset.range n, MeasureTheory.Integrable (fun ω => s ^ 2 * z k * z k' * (w k ω * w k' ω)) μ :=
    fun k hk k' hk' => (hw k (Finset.mem_range.mp hk) k' (Finset.mem_range.mp hk')).1.const_mul _
  unfold Stat.Corr
  rw [e]
  refine ⟨MeasureTheory.integrable_finsetSum _ fun k hk => MeasureTheory.integrable_finsetSum _ fun k' hk' => hint k hk k' hk', ?_⟩
  rw [MeasureTheory.integral_finsetSum _ fun k hk => MeasureTheory.integrable_finsetSum _ fun k' hk' => hint k hk k' hk', Finset.sum_div]
  refine Finset.sum_congr rfl fun k hk => ?_
  rw [MeasureTheory.integral_finsetSum _ fun k' hk' => hint k hk k' hk']
  rw [Finset.sum_eq_single k]
  · rw [MeasureTheory.integral_const_mul, (hw k (Finset.mem_range.mp hk) k (Finset.mem_range.mp hk)).2, if_pos rfl,
      show s ^ 2 * z k * z k * kernelStd c n ^ 2 = (s ^ 2 * kernelStd c n ^ 2) * z k ^ 2 by ring, hsq]
    ring
  · intro k' hk' hne
    rw [MeasureTheory.integral_const_mul, (hw k (Finset.mem_range.mp hk) k' (Finset.mem_range.mp hk')).2, if_neg (Ne.symm hne), mul_zero]
  · exact fun h => absurd hk h

/-- A network with layers of sizes 3, 2 and 1 meets the hypotheses. -/
example : ∃ (c : Cfg) (P : Params) (x : IArr ℝ), x.Coherent ∧ x.irreps ≠ [] ∧ (∀ m ∈ x.irreps, m.ir = ⟨0, .e⟩) ∧ Shaped c x.irreps.dim P ∧ Positive c x.irreps.dim ∧ c.neurons.length = 2 := by
  obtain ⟨x, x1, x2, x3, -⟩ := (C12_from_array [⟨3, ⟨0, .e⟩⟩] [(1 : ℝ), 2, 3]).1 (by decide)
  refine ⟨⟨[2, 1], some Real.exp, .no, 1, true⟩, fun i => match i with | 0 => ⟨[[1, 2], [3, 4], [5, 6]], [1, 1]⟩ | _ => ⟨[[1], [2]], [3]⟩, x, x2, ?_, ?_, ?_, ?_, rfl⟩
  · rw [x3]; simp
  · rw [x3]; simp
  · rw [x3, show Irreps.dim [⟨3, ⟨0, .e⟩⟩] = 3 by decide]
    intro i hi
    have : i = 0 ∨ i = 1 := by simp at hi; omega
    rcases this with rfl | rfl <;> simp [Fits]
  · rw [x3, show Irreps.dim [⟨3, ⟨0, .e⟩⟩] = 3 by decide]
    intro i hi
    have : i = 0 ∨ i = 1 := by simp at hi; omega
    rcases this with rfl | rfl <;> simp

end E3nn.MLP
