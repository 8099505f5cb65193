import Verif.Props.C73_Local

/-!
# C73: a mask selects a part of the batch
-/

namespace E3nn.BN

open E3nn.IArr

variable {β σ : Type} [Fintype β] [Fintype σ] [Nonempty σ]

/-- The part of a column at the valid elements of the batch. -/
def keep (V : β → Prop) (v : Col β σ) : Col {b // V b} σ := fun p => v (p.1.1, p.2)

/-- The mask of the valid elements. -/
noncomputable def maskOf (V : β → Prop) [DecidablePred V] : Option (β → ℝ) := some fun b => if V b then 1 else 0

omit [Fintype σ] [Nonempty σ] in
theorem batchAverage_mask (V : β → Prop) [DecidablePred V] (f : β → ℝ) : batchAverage (maskOf V) f = batchAverage none fun b : {b // V b} => f b.1 := by
  unfold batchAverage maskOf
  simp only [Option.getD_some, Option.getD_none, Pi.one_apply, mul_one]
  have h : ∀ g : β → ℝ, ∑ b, g b * (if V b then 1 else 0) = ∑ b : {b // V b}, g b.1 := by
    intro g
    simp only [mul_ite, mul_one, mul_zero]
    rw [← Finset.sum_filter]
    exact Finset.sum_subtype _ (by simp) g
  rw [h f]
  congr 1
  have := h 1
  simpa using this

theorem meanUsed_mask (c : Cfg) (V : β → Prop) [DecidablePred V] (a : ℝ) (v : Col β σ) (b : {b // V b}) :
    meanUsed c none a (keep V v) b = meanUsed c (maskOf V) a v b.1 := by
  unfold meanUsed
  rw [batchAverage_mask]
  rfl

theorem centred_mask (c : Cfg) (V : β → Prop) [DecidablePred V] (a : ℝ) (ir : Irrep) (r : List (Col β σ)) :
    centred c none a ir (r.map (keep V)) = (centred c (maskOf V) a ir r).map (keep V) := by
  unfold centred
  split
  · rw [List.map_map, List.map_map]
    apply List.map_congr_left
    intro v _
    funext p
    simp only [Function.comp_apply, meanUsed_mask]
    rfl
  · rfl

omit [Fintype β] [Fintype σ] [Nonempty σ] in
theorem size_mask (c : Cfg) (V : β → Prop) (r : List (Col β σ)) (p : {b // V b} × σ) : size c (r.map (keep V)) p = size c r (p.1.1, p.2) := by
  unfold size
  rw [List.map_map, List.length_map]
  rfl

omit [Fintype β] [Nonempty σ] in
theorem spread_mask (c : Cfg) (V : β → Prop) (r : List (Col β σ)) (b : {b // V b}) : spread c (r.map (keep V)) b = spread c r b.1 := by
  unfold spread
  simp only [size_mask]

omit [Nonempty σ] in
theorem avSpread_mask (c : Cfg) (V : β → Prop) [DecidablePred V] (r : List (Col β σ)) :
    batchAverage none (spread c (r.map (keep V))) = batchAverage (maskOf V) (spread c r) := by
  rw [batchAverage_mask]
  congr 1
  funext b
  exact spread_mask c V r b

theorem varUsed_mask (c : Cfg) (V : β → Prop) [DecidablePred V] (a : ℝ) (r : List (Col β σ)) (b : {b // V b}) :
    varUsed c none a (r.map (keep V)) b = varUsed c (maskOf V) a r b.1 := by
  unfold varUsed
  rw [avSpread_mask, spread_mask]

theorem normalised_mask (c : Cfg) (V : β → Prop) [DecidablePred V] (a v w d : ℝ) (ir : Irrep) (r : List (Col β σ)) :
    normalised c none a v w d ir (r.map (keep V)) = (normalised c (maskOf V) a v w d ir r).map (keep V) := by
  unfold normalised
  simp only [centred_mask, List.map_map]
  apply List.map_congr_left
  intro f _
  funext p
  simp only [Function.comp_apply, varUsed_mask]
  rfl

omit [Fintype β] [Fintype σ] [Nonempty σ] in
theorem blocksOf_cols {γ δ : Type} {f : γ → δ} (s : List Irrep) (a : List γ) : blocksOf s (a.map f) = (blocksOf s a).map fun b => (b.1, b.2.map f) := by
  induction s generalizing a with
  | nil => rfl
  | cons ir s ih => simp only [blocksOf, List.map_cons, ← List.map_take, ← List.map_drop, ih]

omit [Fintype β] [Fintype σ] [Nonempty σ] in
/-- The restriction of an array to the valid elements of the batch. -/
theorem keep_spec (V : β → Prop) {x : IArr (Col β σ)} (hx : x.Coherent) : ∃ x', mapCols (keep V) x = .ok x' ∧ x'.Coherent ∧ x'.irreps = x.irreps ∧
    x'.zeroFlags = x.zeroFlags ∧ x'.array = x.array.map (keep V) ∧ x'.blocks = x.blocks.map fun b => (b.1, b.2.map (keep V)) := by
  obtain ⟨x', h1, h2, h3, h4, h5⟩ := mapCols_spec (f := keep V) rfl hx.inv
  refine ⟨x', h1, h2.coherent, h3, h5, h4, ?_⟩
  unfold IArr.blocks
  rw [h4, h3, blocksOf_cols]

/-- **C73 (mask).** With the mask of a part `V` of the batch, the new running statistics are those of the array restricted to `V` without a mask, and the
result at the elements of `V` is the result for the restricted array. -/
theorem C73_mask {c : Cfg} {P : Params} (V : β → Prop) [DecidablePred V] {x : IArr (Col β σ)} (hx : x.Coherent) (hf : Fits c P x) :
    ∃ x' y y' y'' new, mapCols (keep V) x = .ok x' ∧ batchNorm c P (maskOf V) x = .ok (y, new) ∧ batchNorm c P none x' = .ok (y', new) ∧
      mapCols (keep V) y = .ok y'' ∧ y'.irreps = y''.irreps ∧ y'.zeroFlags = y''.zeroFlags ∧ y'.array = y''.array := by
  obtain ⟨x', a1, a2, a3, a4, -, a5⟩ := keep_spec V hx
  obtain ⟨y, new, b1, b2, b3, b4, b5, b6⟩ := C73_value (maskOf V) hx hf
  obtain ⟨y', new', c1, c2, c3, c4, c5, c6⟩ := C73_value (c := c) (P := P) none a2 ⟨hf.options, by rw [a3]; exact hf.nonempty, hf.stats, hf.weights,
    by rw [a3]; exact hf.mean, by rw [a3]; exact hf.var, by rw [a3]; exact hf.weight, by rw [a3]; exact hf.bias⟩
  obtain ⟨y'', d1, d2, d3, d4, -, d5⟩ := keep_spec V b2
  have ht := tagged_of_blocks a3 a4 (f := fun _ r => r.map (keep V)) a5
  have hfm : ((tagged x).map fun t => (t.1, t.2.1, t.2.2.map (keep V))).filter Even0 = ((tagged x).filter Even0).map fun t => (t.1, t.2.1, t.2.2.map (keep V)) := by
    rw [List.filter_map]; rfl
  have hmm : ∀ {γ δ ε : Type} (l : List γ) (f : ℕ → γ → δ) (g : δ → ε), (l.mapIdx f).map g = l.mapIdx fun u r => g (f u r) := by
    intro γ δ ε l f g
    apply List.ext_getElem <;> simp
  have hnew : new' = new := by
    rw [c6, b6, ht, hfm]
    cases c.inst with
    | true => rfl
    | false =>
      simp only [Bool.false_eq_true, if_false, Option.some.injEq, Prod.mk.injEq]
      constructor
      · apply List.ext_getElem
        · simp
        · intro n h1 h2
          simp only [List.length_mapIdx] at h2
          simp only [List.getElem_mapIdx, List.getElem_map, batchAverage_mask]
          have hd : ∀ r : List (Col β σ), (r.map (keep V)).headD 0 = keep V (r.headD 0) := by intro r; cases r <;> rfl
          rw [hd]
          rfl
      · apply List.ext_getElem
        · simp
        · intro n h1 h2
          simp only [List.length_mapIdx] at h2
          simp only [List.getElem_mapIdx, List.getElem_map, before_map, centred_mask, avSpread_mask]
  subst hnew
  refine ⟨x', y, y', y'', new', a1, b1, c1, d1, by rw [c3, a3, d3, b3], by rw [c4, a4, d4, b4], ?_⟩
  rw [← c2.inv.array_eq_blocks, ← d2.inv.array_eq_blocks, c5, d5, b5, ht]
  congr 2
  rw [hmm]
  apply List.ext_getElem
  · simp
  · intro n h1 h2
    simp only [List.length_mapIdx, List.length_map] at h1
    simp only [List.getElem_mapIdx, List.getElem_map, before_map, normalised_mask]
    split <;> rfl

end E3nn.BN
