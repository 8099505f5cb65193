import Verif.Props.C73_Mask
import Mathlib.Tactic.NormNum

/-!
# C73: wrong parameters; the zero flags matter
-/

namespace E3nn.BN

open E3nn.IArr

variable {β σ : Type} [Fintype β] [Fintype σ] [Nonempty σ]

theorem step_counts {c : Cfg} {P : Params} {mask : Option (β → ℝ)} {st st' : St β σ} {q : MulIrrep × Chunk (Col β σ)} (h : step c P mask st q = .ok st') :
    st'.iWei = st.iWei + q.1.mul ∧ st'.iRmu = st.iRmu + (if q.1.ir == ⟨0, .e⟩ then q.1.mul else 0) ∧
      st'.iBia = st.iBia + (if c.affine && q.1.ir == ⟨0, .e⟩ then q.1.mul else 0) := by
  obtain ⟨m, ch⟩ := q
  cases ch with
  | none =>
    simp only [step, Except.ok.injEq] at h
    subst h
    refine ⟨rfl, ?_, ?_⟩ <;> simp only <;> split <;> simp
  | some rows =>
    simp only [step] at h
    cases h1 : (if (m.ir == ⟨0, .e⟩) = true then centerChunk c P mask st.iRmu m.mul rows else .ok ([], rows)) with
    | error e => rw [h1] at h; simp [bind, Except.bind] at h
    | ok a =>
      rw [h1] at h
      simp only [bind, Except.bind] at h
      cases h2 : scaleChunk c P mask st.iWei st.iBia m a.2 with
      | error e => rw [h2] at h; simp at h
      | ok b =>
        rw [h2] at h
        simp only [Except.ok.injEq] at h
        subst h
        refine ⟨rfl, ?_, ?_⟩ <;> simp only <;> split <;> simp

theorem fold_counts {c : Cfg} {P : Params} {mask : Option (β → ℝ)} (ps : List (MulIrrep × Chunk (Col β σ))) : ∀ (st st' : St β σ), ps.foldlM (step c P mask) st = .ok st' →
    st'.iWei = st.iWei + (expand (ps.map Prod.fst)).length ∧ st'.iRmu = st.iRmu + ((expand (ps.map Prod.fst)).filter (· == ⟨0, .e⟩)).length ∧
      st'.iBia = st.iBia + if c.affine then ((expand (ps.map Prod.fst)).filter (· == ⟨0, .e⟩)).length else 0 := by
  induction ps with
  | nil => intro st st' h; cases h; simp [expand]
  | cons q ps ih =>
    intro st st' h
    rw [List.foldlM_cons] at h
    cases h1 : step c P mask st q with
    | error e => rw [h1] at h; simp [bind, Except.bind] at h
    | ok st1 =>
      rw [h1] at h
      simp only [bind, Except.bind] at h
      obtain ⟨a1, a2, a3⟩ := step_counts h1
      obtain ⟨b1, b2, b3⟩ := ih st1 st' h
      have he : expand ((q :: ps).map Prod.fst) = List.replicate q.1.mul q.1.ir ++ expand (ps.map Prod.fst) := rfl
      rw [he, List.filter_append, List.length_append, List.length_append, List.length_replicate]
      have hf : ((List.replicate q.1.mul q.1.ir).filter (· == ⟨0, .e⟩)).length = if q.1.ir == ⟨0, .e⟩ then q.1.mul else 0 := by
        rw [List.filter_replicate]; split <;> simp
      rw [hf, b1, b2, b3, a1, a2, a3]
      refine ⟨by omega, by omega, ?_⟩
      cases c.affine <;> simp [Nat.add_assoc]

/-- **C73 (wrong lengths).** If `batch_norm` returns, every running statistic, weight and bias that was passed has the length given by the irreps of the input. -/
theorem C73_refuse {c : Cfg} {P : Params} {mask : Option (β → ℝ)} {x : IArr (Col β σ)} (hx : x.Coherent) {r} (h : batchNorm c P mask x = .ok r) :
    (∀ l, P.raMean = some l → l.length = ((expand x.irreps).filter (· == ⟨0, .e⟩)).length) ∧ (∀ l, P.raVar = some l → l.length = (expand x.irreps).length) ∧
    (∀ l, P.weight = some l → l.length = (expand x.irreps).length) ∧
    (∀ l, P.bias = some l → l.length = if c.affine then ((expand x.irreps).filter (· == ⟨0, .e⟩)).length else 0) := by
  unfold batchNorm at h
  cases h1 : (x.irreps.zip x.chunks).foldlM (step c P mask) ⟨0, 0, 0, [], [], []⟩ with
  | error e => rw [h1] at h; simp [bind, Except.bind] at h
  | ok st =>
    rw [h1] at h
    simp only [bind, Except.bind] at h
    obtain ⟨a1, a2, a3⟩ := fold_counts _ _ _ h1
    rw [hx.inv.pairs.2.1] at a1 a2 a3
    simp only [Nat.zero_add] at a1 a2 a3
    unfold finish at h
    split at h
    · cases h
    · rename_i hl
      simp only [Bool.not_eq_true', Bool.not_eq_false, Bool.and_eq_true] at hl
      obtain ⟨⟨⟨l1, l2⟩, l3⟩, l4⟩ := hl
      refine ⟨fun l e => ?_, fun l e => ?_, fun l e => ?_, fun l e => ?_⟩
      · rw [e] at l4; simp only [lengthOk, beq_iff_eq] at l4; omega
      · rw [e] at l2; simp only [lengthOk, beq_iff_eq] at l2; omega
      · rw [e] at l1; simp only [lengthOk, beq_iff_eq] at l1; omega
      · rw [e] at l3; simp only [lengthOk, beq_iff_eq] at l3; omega

/-- **C73 (invalid options).** An unknown `normalization` or `reduce` raises `ValueError`, unless all terms are flagged as zero (or something else raises first). -/
theorem C73_options {c : Cfg} {P : Params} {mask : Option (β → ℝ)} {x : IArr (Col β σ)} (hx : x.Coherent) (ho : c.normalization = .other ∨ c.reduce = .other)
    (hz : false ∈ x.zeroFlags) : ∃ e, batchNorm c P mask x = .error e := by
  rw [← hx.inv.pairs.2.2.2.2.1] at hz
  obtain ⟨q, hq, e⟩ := List.mem_map.mp hz
  have key : ∀ (ps : List (MulIrrep × Chunk (Col β σ))) (st : St β σ), q ∈ ps → ∃ e, ps.foldlM (step c P mask) st = .error e := by
    intro ps
    induction ps with
    | nil => intro st h; cases h
    | cons p ps ih =>
      intro st h
      rw [List.foldlM_cons]
      cases h1 : step c P mask st p with
      | error e => exact ⟨e, rfl⟩
      | ok st1 =>
        rcases List.mem_cons.mp h with rfl | h
        · exfalso
          obtain ⟨m, ch⟩ := q
          cases ch with
          | none => cases e
          | some rows =>
            simp only [step] at h1
            cases h2 : (if (m.ir == ⟨0, .e⟩) = true then centerChunk c P mask st.iRmu m.mul rows else .ok ([], rows)) with
            | error e => rw [h2] at h1; simp [bind, Except.bind] at h1
            | ok a =>
              rw [h2] at h1
              simp only [bind, Except.bind] at h1
              have : ∃ e, scaleChunk c P mask st.iWei st.iBia m a.2 = .error e := by
                unfold scaleChunk
                by_cases hn : c.normalization = .other
                · exact ⟨_, if_pos hn⟩
                · exact ⟨_, (if_neg hn).trans (if_pos (ho.resolve_left hn))⟩
              obtain ⟨e, he⟩ := this
              rw [he] at h1
              cases h1
        · exact ih st1 h
  obtain ⟨e, he⟩ := key _ ⟨0, 0, 0, [], [], []⟩ hq
  refine ⟨e, ?_⟩
  unfold batchNorm
  rw [he]
  rfl

/-- Options for the witness. -/
noncomputable def witnessCfg : Cfg := ⟨.component, .mean, false, false, true, 1 / 2, 1 / 2⟩

/-- **C73 (the zero flags matter).** Two arrays with the same irreps and the same entries (0), one flagged as zero, the other not: `batch_norm` resets the running statistics
to 0 and 1 and leaves out the bias for the first, and updates the statistics and adds the bias for the second. -/
theorem C73_flags : ∃ (x u y v : IArr (Col Unit Unit)), x.Coherent ∧ u.Coherent ∧ x.irreps = u.irreps ∧ x.array = u.array ∧
    batchNorm witnessCfg ⟨some [1], some [3], some [1], some [5]⟩ none x = .ok (y, some ([0], [1])) ∧
    batchNorm witnessCfg ⟨some [1], some [3], some [1], some [5]⟩ none u = .ok (v, some ([1 / 2], [3 / 2])) ∧
    y.array = [fun _ => 0] ∧ v.array = [fun _ => 5] := by
  let x : IArr (Col Unit Unit) := ⟨[⟨1, ⟨0, .e⟩⟩], [0], some [true], none⟩
  let u : IArr (Col Unit Unit) := ⟨[⟨1, ⟨0, .e⟩⟩], [0], some [false], none⟩
  have hx : x.Coherent := (⟨by simp [x, FlagsOk, IArr.zeroFlags, termsOf, MulIrrep.dim, Irrep.dim], by simp [x]⟩ : Inv x).coherent
  have hu : u.Coherent := (⟨by simp [u, FlagsOk, IArr.zeroFlags, termsOf, MulIrrep.dim, Irrep.dim], by simp [u]⟩ : Inv u).coherent
  have fx : ∀ z : IArr (Col Unit Unit), z.irreps = [⟨1, ⟨0, .e⟩⟩] → Fits witnessCfg ⟨some [1], some [3], some [1], some [5]⟩ z := by
    intro z hz
    have e1 : (expand z.irreps) = [⟨0, .e⟩] := by rw [hz]; rfl
    refine ⟨by simp [witnessCfg], by simp [hz], by simp, by simp, ?_, ?_, ?_, ?_⟩ <;> simp [e1, witnessCfg]
  obtain ⟨y, n1, a1, a2, a3, a4, a5, a6⟩ := C73_value none hx (fx x rfl)
  obtain ⟨v, n2, b1, b2, b3, b4, b5, b6⟩ := C73_value none hu (fx u rfl)
  have tx : tagged x = [(⟨0, .e⟩, true, [0])] := rfl
  have tu : tagged u = [(⟨0, .e⟩, false, [0])] := rfl
  rw [tx] at a5 a6
  rw [tu] at b5 b6
  refine ⟨x, u, y, v, hx, hu, rfl, rfl, ?_, ?_, ?_, ?_⟩
  · rw [a1, a6]
    simp [witnessCfg]
  · rw [b1, b6]
    simp [witnessCfg, rolled, at', before, batchAverage, sampleAverage, spread, centred, meanUsed, size]
    norm_num
  · rw [← a2.inv.array_eq_blocks, a5]
    simp
    rfl
  · rw [← b2.inv.array_eq_blocks, b5]
    simp [witnessCfg, normalised, at', before, batchAverage, sampleAverage, spread, centred, meanUsed, size]

end E3nn.BN
