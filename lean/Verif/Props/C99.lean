import Verif.Lemmas.LinearSHTP3
import Verif.Spec.LinearSHTP

/-!
# C99: `LinearSHTP` and `shtp`
-/

namespace E3nn.LSH

open E3nn.IArr E3nn.Rot E3nn.Wig E3nn.SU2 E3nn.SH E3nn.TPSH Matrix

theorem sepOne_full (par : Params) (irz : Irrep) (iz : ℕ) (p : Parity) (ix : ℕ) (m : MulIrrep) (c : Chunk Col) : ∀ q ∈ sepOne par irz iz p ix m c, q.2 ≠ none := by
  intro q hq
  cases c with
  | none => simp [sepOne] at hq
  | some rows =>
    unfold sepOne at hq
    simp only at hq
    rcases List.mem_append.mp hq with hq | hq <;> split at hq <;> simp at hq <;> rw [hq] <;> simp

theorem shtpOne_full (irz : Irrep) (p : Parity) (m : MulIrrep) (c : Chunk Col) : ∀ q ∈ shtpOne irz p m c, q.2 ≠ none := by
  intro q hq
  cases c with
  | none => simp [shtpOne] at hq
  | some rows =>
    unfold shtpOne at hq
    simp only at hq
    rcases List.mem_append.mp hq with hq | hq <;> split at hq <;> simp at hq <;> rw [hq] <;> simp

theorem good_shtp (filter : List Irrep) :
    GoodLoops (fun p input => if filterOf filter = [] ∨ input = [] then .error .nameError else .ok (shtpEntries (filterOf filter) p input)) := by
  refine ⟨?_, ?_, ?_⟩
  · intro p P es hP he
    split at he
    · cases he
    · cases he; exact shtpEntries_shaped _ _ hP
  · intro p S P hS hP
    simp only [actP_nil_iff]
    split
    · rfl
    · rw [shtpEntries_act _ hS hP]; rfl
  · intro p P es hP he
    split at he
    · cases he
    · cases he
      intro q hq
      rw [shtpEntries_one] at hq
      obtain ⟨irz, -, hq⟩ := List.mem_flatMap.mp hq
      obtain ⟨q0, -, hq⟩ := List.mem_flatMap.mp hq
      exact shtpOne_full _ _ _ _ q hq

theorem good_linear (par : Params) (out : Irreps) (mix : Bool) :
    GoodLoops (fun p input => if mix then mixEntries par out p input else do
      let out ← out.regroup
      .ok (sepEntries par out p input)) := by
  obtain ⟨g, hg, -⟩ := C07_regroup_spec out
  cases mix with
  | true =>
    refine ⟨?_, ?_, ?_⟩
    · intro p P es hP he
      simp only [if_true] at he
      exact ((mixEntries_act par out (S := 1) (p := p) ⟨by unfold IsOrth; simp, by rw [C39_identity, Matrix.one_mulVec]⟩ hP).2 es he).1
    · intro p S P hS hP
      simp only [if_true]
      exact (mixEntries_act par out hS hP).1
    · intro p P es hP he
      simp only [if_true] at he
      exact ((mixEntries_act par out (S := 1) (p := p) ⟨by unfold IsOrth; simp, by rw [C39_identity, Matrix.one_mulVec]⟩ hP).2 es he).2.1
  | false =>
    simp only [Bool.false_eq_true, if_false, hg, bind, Except.bind]
    refine ⟨?_, ?_, ?_⟩
    · intro p P es hP he
      cases he; exact sepEntries_shaped _ _ _ hP
    · intro p S P hS hP
      rw [sepEntries_act _ _ hS hP]; rfl
    · intro p P es hP he
      cases he
      intro q hq
      rw [sepEntries_one] at hq
      obtain ⟨mz, -, hq⟩ := List.mem_flatMap.mp hq
      obtain ⟨q0, -, hq⟩ := List.mem_flatMap.mp hq
      exact sepOne_full _ _ _ _ _ _ _ q hq

/-- **C99 (`shtp` is equivariant).** For every input, every nonzero direction (`1x1o` or `1x1e`), every filter and every orthogonal matrix (rotations, reflections and
the inversion): transforming the input and the direction transforms the output. -/
theorem C99_shtp_equivariant (filter : List Irrep) {p : Parity} {d d' x x' : IArr Col} (hd : d.Coherent) (hdi : d.irreps = [⟨1, ⟨1, p⟩⟩])
    (h0 : ∃ k < 3, d.array.getD k 0 () ≠ 0) (hx : x.Coherent) {R : Matrix (Fin 3) (Fin 3) ℝ} (hR : R * Rᵀ = 1)
    (hd' : d.transformByMatrix R = .ok d') (hx' : x.transformByMatrix R = .ok x') :
    (∀ e, shtp x d filter = .error e → shtp x' d' filter = .error e) ∧
    (∀ y, shtp x d filter = .ok y → ∃ y' y'', shtp x' d' filter = .ok y' ∧ y.transformByMatrix R = .ok y'' ∧ y'.irreps = y''.irreps ∧ y'.array = y''.array) := by
  have h0' : TPSH.vec d ≠ 0 := by
    obtain ⟨k, hk, hne⟩ := h0
    intro e
    exact hne (congrFun e ⟨k, hk⟩)
  exact frame_equivariant (good_shtp filter) hd hdi h0' hx hR hd' hx'

/-- **C99 (`LinearSHTP` is equivariant).** For every value of the parameters, every `irreps_out`, with and without `mix`. -/
theorem C99_linear_equivariant (par : Params) (out : Irreps) (mix : Bool) {p : Parity} {d d' x x' : IArr Col} (hd : d.Coherent) (hdi : d.irreps = [⟨1, ⟨1, p⟩⟩])
    (h0 : ∃ k < 3, d.array.getD k 0 () ≠ 0) (hx : x.Coherent) {R : Matrix (Fin 3) (Fin 3) ℝ} (hR : R * Rᵀ = 1)
    (hd' : d.transformByMatrix R = .ok d') (hx' : x.transformByMatrix R = .ok x') :
    (∀ e, linearSHTP par out mix x d = .error e → linearSHTP par out mix x' d' = .error e) ∧
    (∀ y, linearSHTP par out mix x d = .ok y → ∃ y' y'', linearSHTP par out mix x' d' = .ok y' ∧ y.transformByMatrix R = .ok y'' ∧ y'.irreps = y''.irreps ∧ y'.array = y''.array) := by
  have h0' : TPSH.vec d ≠ 0 := by
    obtain ⟨k, hk, hne⟩ := h0
    intro e
    exact hne (congrFun e ⟨k, hk⟩)
  exact frame_equivariant (good_linear par out mix) hd hdi h0' hx hR hd' hx'

/-- **C99 (refused directions).** Any other irreps for the direction are refused. -/
theorem C99_refused (par : Params) (out : Irreps) (mix : Bool) (filter : List Irrep) (x : IArr Col) {d : IArr Col}
    (h : ∀ p, d.irreps ≠ [⟨1, ⟨1, p⟩⟩]) : linearSHTP par out mix x d = .error .assertion ∧ shtp x d filter = .error .assertion := by
  have : ∀ loops, frame loops x d = .error .assertion := by
    intro loops
    unfold frame
    split
    · rename_i p hp; exact absurd hp (h p)
    · rfl
  exact ⟨this _, this _⟩

theorem normalize_scale {c : ℝ} (hc : 0 < c) (v : List Col) : TPSH.normalize (v.map fun a u => c * a u) = TPSH.normalize v := by
  unfold TPSH.normalize
  simp only [List.map_map]
  have hs : (v.map ((fun a : Col => a () ^ 2) ∘ fun (a : Col) (u : Unit) => c * a u)).sum = c ^ 2 * (v.map fun a : Col => a () ^ 2).sum := by
    rw [← List.sum_map_mul_left]
    congr 1
    apply List.map_congr_left
    intro a _
    simp [mul_pow]
  rw [hs]
  have hnn : 0 ≤ (v.map fun a : Col => a () ^ 2).sum := List.sum_nonneg (by
    intro a ha
    obtain ⟨b, -, rfl⟩ := List.mem_map.mp ha
    positivity)
  by_cases h0 : (v.map fun a : Col => a () ^ 2).sum > 0
  · have h1 : c ^ 2 * (v.map fun a : Col => a () ^ 2).sum > 0 := by positivity
    rw [if_pos h0, if_pos h1, Real.sqrt_mul (by positivity), Real.sqrt_sq hc.le]
    apply List.map_congr_left
    intro a _
    funext u
    simp only [Function.comp_apply]
    rw [mul_div_mul_left _ _ hc.ne']
  · have h2 : (v.map fun a : Col => a () ^ 2).sum = 0 := le_antisymm (not_lt.mp h0) hnn
    apply List.map_congr_left
    intro a ha
    have : a () ^ 2 = 0 := by
      have hle : a () ^ 2 ≤ (v.map fun a : Col => a () ^ 2).sum := List.single_le_sum (by
        intro a ha
        obtain ⟨b, -, rfl⟩ := List.mem_map.mp ha
        positivity) _ (List.mem_map.mpr ⟨a, ha, rfl⟩)
      have : 0 ≤ a () ^ 2 := by positivity
      linarith
    have ha0 : a () = 0 := by simpa using this
    funext u
    have : a u = 0 := ha0
    simp [this]

/-- **C99 (only the direction matters).** Multiplying the direction by a positive number does not change the result. -/
theorem C99_direction (par : Params) (out : Irreps) (mix : Bool) (filter : List Irrep) (x : IArr Col) {d d' : IArr Col} {c : ℝ} (hc : 0 < c)
    (hi : d'.irreps = d.irreps) (ha : d'.array = d.array.map fun a u => c * a u) :
    linearSHTP par out mix x d' = linearSHTP par out mix x d ∧ shtp x d' filter = shtp x d filter := by
  have : ∀ loops, frame loops x d' = frame loops x d := by
    intro loops
    unfold frame
    rw [hi, ha, normalize_scale hc]
  exact ⟨this _, this _⟩

end E3nn.LSH
