import Verif.Props.C73
import Mathlib.Data.List.Forall2

/-!
# C73: what the entries of the result of `batch_norm` depend on
-/

namespace E3nn.BN

open E3nn.IArr

variable {β σ : Type} [Fintype β] [Fintype σ] [Nonempty σ]

/-- Two columns agree on `S`. -/
def OnCol (S : Set (β × σ)) (v v' : Col β σ) : Prop := ∀ p ∈ S, v p = v' p

/-- Two arrays have the same irreps and flags, and the same entries at the points (batch, sample) of `S`. -/
def Agree (S : Set (β × σ)) (x x' : IArr (Col β σ)) : Prop :=
  x.irreps = x'.irreps ∧ x.zeroFlags = x'.zeroFlags ∧ List.Forall₂ (OnCol S) x.array x'.array

/-- `S` contains all points of the elements of the batch with a weight in the averages (all of them without a mask). -/
def Supports (mask : Option (β → ℝ)) (S : Set (β × σ)) : Prop := ∀ b, (mask.getD 1) b ≠ 0 → ∀ s, (b, s) ∈ S

/-- `S` contains all points that the mode of `batch_norm` combines with the points of `S`. -/
def Closed (c : Cfg) (mask : Option (β → ℝ)) (S : Set (β × σ)) : Prop :=
  c.running = true ∨ (c.inst = true ∧ ∀ b s, (b, s) ∈ S → ∀ s', (b, s') ∈ S) ∨ (c.inst = false ∧ Supports mask S)

omit [Fintype β] [Fintype σ] [Nonempty σ] in
theorem blocks_agree {S : Set (β × σ)} : ∀ (s : List Irrep) {a a' : List (Col β σ)}, List.Forall₂ (OnCol S) a a' →
    List.Forall₂ (fun b b' => b.1 = b'.1 ∧ List.Forall₂ (OnCol S) b.2 b'.2) (blocksOf s a) (blocksOf s a') := by
  intro s
  induction s with
  | nil => intro a a' _; exact List.Forall₂.nil
  | cons ir s ih =>
    intro a a' h
    exact List.Forall₂.cons ⟨rfl, List.forall₂_take _ h⟩ (ih (List.forall₂_drop _ h))

/-- Two irreps of two arrays correspond. -/
def OnTag (S : Set (β × σ)) (t t' : Irrep × Bool × List (Col β σ)) : Prop := t.1 = t'.1 ∧ t.2.1 = t'.2.1 ∧ List.Forall₂ (OnCol S) t.2.2 t'.2.2

omit [Fintype β] [Fintype σ] [Nonempty σ] in
theorem tagged_agree {S : Set (β × σ)} {x x' : IArr (Col β σ)} (h : Agree S x x') : List.Forall₂ (OnTag S) (tagged x) (tagged x') := by
  obtain ⟨h1, h2, h3⟩ := h
  unfold tagged IArr.blocks
  rw [h1, h2]
  have := blocks_agree (expand x'.irreps) h3
  generalize blocksOf (expand x'.irreps) x.array = l at this ⊢
  generalize blocksOf (expand x'.irreps) x'.array = l' at this ⊢
  generalize ((x'.irreps.zip x'.zeroFlags).flatMap fun p => List.replicate p.1.mul p.2) = fs
  induction this generalizing fs with
  | nil => exact List.Forall₂.nil
  | cons hb _ ih =>
    cases fs with
    | nil => exact List.Forall₂.nil
    | cons f fs => exact List.Forall₂.cons ⟨hb.1, rfl, hb.2⟩ (ih fs)

omit [Fintype σ] [Nonempty σ] in
theorem batchAverage_congr {mask : Option (β → ℝ)} {f g : β → ℝ} (h : ∀ b, (mask.getD 1) b ≠ 0 → f b = g b) : batchAverage mask f = batchAverage mask g := by
  unfold batchAverage
  congr 1
  refine Finset.sum_congr rfl fun b _ => ?_
  by_cases e : (mask.getD 1) b = 0
  · rw [e, mul_zero, mul_zero]
  · rw [h b e]

omit [Nonempty σ] in
theorem mean_supports {mask : Option (β → ℝ)} {S : Set (β × σ)} (hS : Supports mask S) {v v' : Col β σ} (h : OnCol S v v') :
    (batchAverage mask fun b => sampleAverage fun s => v (b, s)) = batchAverage mask fun b => sampleAverage fun s => v' (b, s) :=
  batchAverage_congr fun b hb => by
    congr 1
    funext s
    exact h _ (hS b hb s)

omit [Nonempty σ] in
theorem meanUsed_agree {c : Cfg} {mask : Option (β → ℝ)} {S : Set (β × σ)} (hS : Closed c mask S) (a : ℝ) {v v' : Col β σ} (h : OnCol S v v') {p : β × σ} (hp : p ∈ S) :
    meanUsed c mask a v p.1 = meanUsed c mask a v' p.1 := by
  unfold meanUsed
  rcases hS with h0 | ⟨hi, h0⟩ | ⟨hi, h0⟩
  · rw [if_pos h0, if_pos h0]
  · split
    · rfl
    · congr 1
      funext s
      exact h _ (h0 p.1 p.2 hp s)
  · rw [hi, mean_supports h0 h]
    simp

omit [Nonempty σ] in
theorem centred_agree {c : Cfg} {mask : Option (β → ℝ)} {S : Set (β × σ)} (hS : Closed c mask S) (a : ℝ) (ir : Irrep) {r r' : List (Col β σ)} (h : List.Forall₂ (OnCol S) r r') :
    List.Forall₂ (OnCol S) (centred c mask a ir r) (centred c mask a ir r') := by
  unfold centred
  split
  · rw [List.forall₂_map_left_iff, List.forall₂_map_right_iff]
    refine h.imp fun v v' hv p hp => ?_
    beta_reduce
    rw [hv p hp, meanUsed_agree hS a hv hp]
  · exact h

omit [Fintype β] [Fintype σ] [Nonempty σ] in
theorem size_agree (c : Cfg) {S : Set (β × σ)} {r r' : List (Col β σ)} (h : List.Forall₂ (OnCol S) r r') {p : β × σ} (hp : p ∈ S) : size c r p = size c r' p := by
  unfold size
  rw [h.length_eq]
  congr 2
  induction h with
  | nil => rfl
  | cons hv _ ih => rw [List.map_cons, List.map_cons, ih, hv p hp]

omit [Fintype β] [Nonempty σ] in
theorem spread_agree (c : Cfg) {S : Set (β × σ)} {r r' : List (Col β σ)} (h : List.Forall₂ (OnCol S) r r') {b : β} (hb : ∀ s, (b, s) ∈ S) : spread c r b = spread c r' b := by
  unfold spread
  have : ∀ s, size c r (b, s) = size c r' (b, s) := fun s => size_agree c h (hb s)
  simp only [this]

omit [Nonempty σ] in
theorem varUsed_agree {c : Cfg} {mask : Option (β → ℝ)} {S : Set (β × σ)} (hS : Closed c mask S) (a : ℝ) {r r' : List (Col β σ)} (h : List.Forall₂ (OnCol S) r r') {p : β × σ} (hp : p ∈ S) :
    varUsed c mask a r p.1 = varUsed c mask a r' p.1 := by
  unfold varUsed
  rcases hS with h0 | ⟨hi, h0⟩ | ⟨hi, h0⟩
  · rw [if_pos h0, if_pos h0]
  · rw [if_pos hi, if_pos hi, spread_agree c h fun s => h0 p.1 p.2 hp s]
  · rw [hi, batchAverage_congr fun b hb => spread_agree c h (h0 b hb)]
    simp

omit [Nonempty σ] in
theorem normalised_agree {c : Cfg} {mask : Option (β → ℝ)} {S : Set (β × σ)} (hS : Closed c mask S) (a v w d : ℝ) (ir : Irrep) {r r' : List (Col β σ)} (h : List.Forall₂ (OnCol S) r r') :
    List.Forall₂ (OnCol S) (normalised c mask a v w d ir r) (normalised c mask a v w d ir r') := by
  unfold normalised
  have hc := centred_agree hS a ir h
  simp only
  rw [List.forall₂_map_left_iff, List.forall₂_map_right_iff]
  refine hc.imp fun f f' hf p hp => ?_
  beta_reduce
  rw [hf p hp, varUsed_agree hS v hc hp]

omit [Fintype β] [Fintype σ] [Nonempty σ] in
theorem before_agree {S : Set (β × σ)} {ts ts' : List (Irrep × Bool × List (Col β σ))} (h : List.Forall₂ (OnTag S) ts ts') (n : ℕ) : before ts n = before ts' n := by
  unfold before
  have h := List.forall₂_take n h
  generalize ts.take n = a at h ⊢
  generalize ts'.take n = a' at h ⊢
  induction h with
  | nil => rfl
  | cons ht _ ih =>
    rw [List.filter_cons, List.filter_cons]
    unfold Even0 at *
    rw [ht.1]
    split
    · simp only [List.length_cons, ih]
    · exact ih

omit [Fintype β] [Fintype σ] [Nonempty σ] in
theorem filter_agree {S : Set (β × σ)} {ts ts' : List (Irrep × Bool × List (Col β σ))} (h : List.Forall₂ (OnTag S) ts ts') :
    List.Forall₂ (OnTag S) (ts.filter Even0) (ts'.filter Even0) := by
  induction h with
  | nil => exact List.Forall₂.nil
  | cons ht _ ih =>
    rw [List.filter_cons, List.filter_cons]
    unfold Even0 at *
    rw [ht.1]
    split
    · exact List.Forall₂.cons ht ih
    · exact ih

/-- **C73 (what an entry depends on).** Let two inputs agree on `S`.  With running averages, for every `S`; for instance normalisation, if `S` consists of whole elements of the
batch; otherwise, if `S` contains all elements of the batch with nonzero mask: the results agree on `S`.  In the last case, and whenever `S` contains those elements, the new running
statistics agree too.  So evaluation treats every point alone, instance normalisation every element of the batch alone, and masked elements never influence the others. -/
theorem C73_local {c : Cfg} {P : Params} (mask : Option (β → ℝ)) {x x' : IArr (Col β σ)} (hx : x.Coherent) (hx' : x'.Coherent) (hf : Fits c P x) {S : Set (β × σ)}
    (hS : Closed c mask S) (h : Agree S x x') :
    ∃ y y' new new', batchNorm c P mask x = .ok (y, new) ∧ batchNorm c P mask x' = .ok (y', new') ∧ Agree S y y' ∧ (Supports mask S → new = new') := by
  obtain ⟨y, new, b1, b2, b3, b4, b5, b6⟩ := C73_value mask hx hf
  have a3 : x'.irreps = x.irreps := h.1.symm
  obtain ⟨y', new', c1, c2, c3, c4, c5, c6⟩ := C73_value (c := c) (P := P) mask hx' ⟨hf.options, by rw [a3]; exact hf.nonempty, hf.stats, hf.weights,
    by rw [a3]; exact hf.mean, by rw [a3]; exact hf.var, by rw [a3]; exact hf.weight, by rw [a3]; exact hf.bias⟩
  have ht := tagged_agree h
  have hfa := filter_agree ht
  have hl := ht.length_eq
  have hfl := hfa.length_eq
  have hg : ∀ n (h1 : n < (tagged x).length) (h2 : n < (tagged x').length), OnTag S (tagged x)[n] (tagged x')[n] := fun n h1 h2 => List.Forall₂.get ht h1 h2
  have hgf : ∀ n (h1 : n < ((tagged x).filter Even0).length) (h2 : n < ((tagged x').filter Even0).length), OnTag S ((tagged x).filter Even0)[n] ((tagged x').filter Even0)[n] :=
    fun n h1 h2 => List.Forall₂.get hfa h1 h2
  refine ⟨y, y', new, new', b1, c1, ⟨by rw [b3, c3, a3], by rw [b4, c4, h.2.1], ?_⟩, ?_⟩
  · rw [← b2.inv.array_eq_blocks, ← c2.inv.array_eq_blocks]
    have hb : List.Forall₂ (fun b b' : Irrep × List (Col β σ) => List.Forall₂ (OnCol S) b.2 b'.2) y.blocks y'.blocks := by
      rw [b5, c5, List.forall₂_iff_get]
      refine ⟨by simp [hl], ?_⟩
      intro n h1 h2
      simp only [List.length_mapIdx] at h1 h2
      simp only [List.get_eq_getElem, List.getElem_mapIdx]
      obtain ⟨e1, e2, e3⟩ := hg n h1 h2
      rw [e1, e2, before_agree ht]
      split
      · exact e3
      · exact normalised_agree hS _ _ _ _ _ e3
    have hb2 : List.Forall₂ (List.Forall₂ (OnCol S)) (y.blocks.map Prod.snd) (y'.blocks.map Prod.snd) := by
      rw [List.forall₂_map_left_iff, List.forall₂_map_right_iff]; exact hb
    exact List.rel_flatten hb2
  · intro hs
    rw [b6, c6]
    cases hi : c.inst with
    | true => rfl
    | false =>
      simp only [Bool.false_eq_true, if_false, Option.some.injEq, Prod.mk.injEq]
      constructor
      · apply List.ext_getElem
        · simp [hfl]
        · intro n h1 h2
          simp only [List.length_mapIdx] at h1 h2
          obtain ⟨e1, e2, e3⟩ := hgf n h1 h2
          simp only [List.getElem_mapIdx]
          rw [e2]
          have hh : OnCol S (((tagged x).filter Even0)[n].2.2.headD 0) (((tagged x').filter Even0)[n].2.2.headD 0) := by
            generalize (((tagged x).filter Even0)[n]).2.2 = r at e3 ⊢
            generalize (((tagged x').filter Even0)[n]).2.2 = r' at e3 ⊢
            cases e3 with
            | nil => exact fun _ _ => rfl
            | cons hv _ => exact hv
          rw [mean_supports hs hh]
      · apply List.ext_getElem
        · simp [hl]
        · intro n h1 h2
          simp only [List.length_mapIdx] at h1 h2
          obtain ⟨e1, e2, e3⟩ := hg n h1 h2
          simp only [List.getElem_mapIdx]
          rw [e1, e2, before_agree ht, batchAverage_congr fun b hb => spread_agree c (centred_agree hS _ _ e3) (hs b hb)]

end E3nn.BN
