import Verif.Props.C46
import Verif.Props.C92b

/-!
# C46, continued: `tensor_square` and `gate` do not look at the zero flags
-/

namespace E3nn
open IArr TP Activ

section
variable {K : Type} [CommRing K]

/-- The blocks made by `tensor_square` in terms of the blocks of the terms. -/
theorem squareStep_blk {ctx : TPCtx K} (hc : CgOk ctx) (n : IrNorm) (ni : Bool) {q1 q2 : (MulIrrep × Chunk K) × Nat}
    (s1 : shapeOk q1.1.1 q1.1.2 = true) (s2 : shapeOk q2.1.1 q2.1.2 = true) (he : q1.2 = q2.2 → q1.1 = q2.1) (ir : Irrep) :
    (squareStep ctx n ni q1 q2 ir).flatMap blk =
      if q1.2 < q2.2 then (blk q1.1).flatMap fun b1 => (blk q2.1).map fun b2 =>
        (ir, contract ir.dim (offC ctx n ni q1.1.1.ir q2.1.1.ir ir) b1.2 b2.2)
      else if q1.2 = q2.2 then ((pairsOf (blk q1.1)).map fun b => (ir, contract ir.dim (offC ctx n ni q1.1.1.ir q1.1.1.ir ir) b.1.2 b.2.2)) ++
        (if ir.l % 2 = 0 then (blk q1.1).map fun b => (ir, contract ir.dim (diagC ctx n ni q1.1.1.ir ir) b.2 b.2) else [])
      else [] := by
  unfold squareStep
  split
  · simp only [List.flatMap_cons, List.flatMap_nil, List.append_nil]
    exact blk_outer (C := offC ctx n ni q1.1.1.ir q2.1.1.ir ir) (scale_shape (hc _ _ _) _) s1 s2
  · split
    · rename_i heq
      have hq := he heq
      rw [← hq, List.flatMap_append]
      congr 1
      · split
        · simp only [List.flatMap_cons, List.flatMap_nil, List.append_nil]
          exact blk_pairs (C := offC ctx n ni q1.1.1.ir q1.1.1.ir ir) (scale_shape (hc _ _ _) _) s1
        · have : (pairsOf (blk q1.1)).length = 0 := by
            rw [pairsOf_length, blk_length]
            have : q1.1.1.mul = 0 ∨ q1.1.1.mul = 1 := by omega
            rcases this with h | h <;> rw [h]
          rw [List.length_eq_zero_iff.mp this]; rfl
      · split
        · simp only [List.flatMap_cons, List.flatMap_nil, List.append_nil]
          exact blk_diag (C := diagC ctx n ni q1.1.1.ir ir) (scale_shape (hc _ _ _) _) s1
        · rfl
    · rfl

theorem squareEntries_sig {ctx : TPCtx K} (hc : CgOk ctx) (n : IrNorm) (ni : Bool) {P Q : List (MulIrrep × Chunk K)} (s : Shaped P) (r : Shaped Q)
    (h : P.map sig = Q.map sig) : (squareEntries ctx n ni P).flatMap blk = (squareEntries ctx n ni Q).flatMap blk := by
  have e : ∀ P : List (MulIrrep × Chunk K), Shaped P → (squareEntries ctx n ni P).flatMap blk =
      (P.map sig).zipIdx.flatMap fun q1 => (P.map sig).zipIdx.flatMap fun q2 => (q1.1.1.ir.mul q2.1.1.ir).flatMap fun ir =>
        if q1.2 < q2.2 then q1.1.2.flatMap fun b1 => q2.1.2.map fun b2 =>
          (ir, contract ir.dim (offC ctx n ni q1.1.1.ir q2.1.1.ir ir) b1.2 b2.2)
        else if q1.2 = q2.2 then ((pairsOf q1.1.2).map fun b => (ir, contract ir.dim (offC ctx n ni q1.1.1.ir q1.1.1.ir ir) b.1.2 b.2.2)) ++
          (if ir.l % 2 = 0 then q1.1.2.map fun b => (ir, contract ir.dim (diagC ctx n ni q1.1.1.ir ir) b.2 b.2) else [])
        else [] := by
    intro P hP
    have hz : (P.map sig).zipIdx = P.zipIdx.map fun q => (sig q.1, q.2) := by
      rw [List.zipIdx_map]; rfl
    simp only [squareEntries, hz, List.flatMap_map, List.flatMap_assoc]
    refine List.flatMap_congr fun q1 hq1 => List.flatMap_congr fun q2 hq2 => ?_
    refine List.flatMap_congr fun ir _ => ?_
    have e1 := List.mem_zipIdx' hq1
    have e2 := List.mem_zipIdx' hq2
    refine squareStep_blk hc n ni (hP _ (e1.2 ▸ List.getElem_mem _ : q1.1 ∈ P)) (hP _ (e2.2 ▸ List.getElem_mem _ : q2.1 ∈ P)) ?_ ir
    intro heq
    obtain ⟨p1, i1⟩ := q1
    obtain ⟨p2, i2⟩ := q2
    simp only at heq e1 e2
    subst heq
    simp only
    rw [e1.2, e2.2]
  rw [e P s, e Q r, h]

/-- **C46 (`tensor_square`).** -/
theorem C46_tensor_square {ctx : TPCtx K} (hc : CgShape ctx) {n : IrNorm} (hn : n ≠ .other) (normalizedInput regroup : Bool) :
    FlagBlind (tensorSquare ctx n normalizedInput regroup) := by
  intro x u h y hy
  obtain ⟨z, y', a1, a3, a5, a6, -⟩ := tensorSquare_spec hc.ok hn normalizedInput regroup h.1.inv
  obtain ⟨w, v, b1, b3, b5, b6, -⟩ := tensorSquare_spec hc.ok hn normalizedInput regroup h.2.1.inv
  rw [hy] at a6; cases a6
  refine ⟨v, b6, ?_⟩
  have hs := prepare_same regroup h a1 b1
  refine finish_same regroup (squareEntries_shaped hc.ok n normalizedInput a3.pairs.1) (squareEntries_shaped hc.ok n normalizedInput b3.pairs.1) ?_
    (squareEntries_sig hc.ok n normalizedInput a3.pairs.1 b3.pairs.1 hs.sig) a5 b5
  apply squareEntries_fst
  rw [a3.pairs.2.1, b3.pairs.2.1, hs.2.2.1]

end

section
variable {ι : Type}

theorem SameData.chunks_of_allSome {α : Type} [Zero α] {x u : IArr α} (h : SameData x u) (fx : AllSome (x.irreps.zip x.chunks))
    (fu : AllSome (u.irreps.zip u.chunks)) : x.chunks = u.chunks := by
  have e : ∀ z : IArr α, z.Coherent → AllSome (z.irreps.zip z.chunks) → z.zeroFlags = List.replicate z.irreps.length false := by
    intro z hz hf
    rw [← hz.inv.pairs.2.2.2.2.1]
    conv_rhs => rw [← hz.inv.pairs.2.1, List.length_map]
    rw [List.eq_replicate_iff]
    refine ⟨by simp, fun b hb => ?_⟩
    obtain ⟨q, hq, rfl⟩ := List.mem_map.mp hb
    have := hf q hq
    cases hq2 : q.2 with
    | none => exact absurd hq2 this
    | some c => rfl
  rw [h.1.inv.chunks_eq, h.2.1.inv.chunks_eq, e x h.1 fx, e u h.2.1 fu, h.2.2.1, h.2.2.2]

theorem mul_same {n : IrNorm} (hn : n ≠ .other) {d w w' g : IArr (Col ι)} (hd : d.Coherent) (hw : SameData w w') (hg : mulArrays n d w = .ok g) :
    ∃ g', mulArrays n d w' = .ok g' ∧ SameData g g' := by
  unfold mulArrays at hg
  split at hg
  · cases hg
  rename_i h0
  cases hz : elementwise (realCtx (Col ι)) n none d w with
  | error e => rw [hz] at hg; cases hg
  | ok z =>
  rw [hz] at hg
  simp only [bind, Except.bind] at hg
  split at hg
  · cases hg
  rename_i h2
  have hzg : z = g := Except.ok.inj hg
  subst hzg
  obtain ⟨hnum, r, hr⟩ := elementwise_align hz
  have hc := (realCtx_shape (Col ι)).ok
  obtain ⟨p, q, y, a1, a2, a3, a4, a5, a6, a7, a8, a9, a10, -⟩ := elementwise_spec hc hn none hd.inv hw.1.inv hnum hr
  obtain ⟨p', q', v, b1, b2, b3, b4, b5, b6, b7, b8, b9, b10, -⟩ := elementwise_spec (r := r) hc hn none hd.inv hw.2.1.inv
    (by rw [← hw.2.2.1]; exact hnum) (by rw [← hw.2.2.1]; exact hr)
  rw [hz] at a8; cases a8
  rw [a6] at b6; cases b6
  obtain ⟨w2, d1, d2⟩ := C46_rechunk r.2 w w' hw q a7
  beta_reduce at d1
  rw [b7] at d1; cases d1
  have hm := (alignTwo_spec hr).2.2
  have m1 := pairs_muls a2 a3 (by rw [a4, a5, hm])
  have m2 := pairs_muls b2 b3 (by rw [b4, b5, hm])
  have key : (z.irreps.zip z.chunks).map sig = (v.irreps.zip v.chunks).map sig := by
    rw [a10, b10, elEntries_sig hc n none a2.pairs.1 a3.pairs.1 m1, elEntries_sig hc n none b2.pairs.1 b3.pairs.1 m2, d2.sig]
  have k1 := congrArg (List.map Prod.fst) key
  rw [List.map_map, List.map_map] at k1
  have k2 := congrArg (List.flatMap Prod.snd) key
  rw [List.flatMap_map, List.flatMap_map] at k2
  have hi : z.irreps = v.irreps := by rw [← a9.pairs.2.1, ← b9.pairs.2.1]; exact k1
  refine ⟨v, ?_, SameData.of_blocks a9.coherent b9.coherent hi ?_⟩
  · unfold mulArrays
    rw [if_neg (by rw [← hw.2.2.1]; exact h0), b8]
    simp only [bind, Except.bind]
    rw [if_neg (by rw [← hi]; exact h2)]; rfl
  · rw [a9.blocks_pairs, b9.blocks_pairs]; exact k2

/-- **C46 (`gate`).** The flags of the terms with `l > 0` do not matter, when no scalar is flagged zero. (A flagged scalar would go
through `scalar_activation`, where the flag does matter: `C46_activation_witness`.) -/
theorem C46_gate (env : ℕ → ℝ → ℝ) (pts : List ℝ) {n : IrNorm} (hn : n ≠ .other) (evenAct oddAct evenGate oddGate : ℕ) (nrm : Bool) {x u y : IArr (Col ι)}
    (h : SameData x u) (fx : ∀ (i : ℕ) (m : MulIrrep), x.irreps[i]? = some m → m.ir.l = 0 → x.zeroFlags[i]? = some false)
    (fu : ∀ (i : ℕ) (m : MulIrrep), u.irreps[i]? = some m → m.ir.l = 0 → u.zeroFlags[i]? = some false)
    (hy : gate env pts n evenAct oddAct evenGate oddGate nrm x = .ok y) :
    ∃ v, gate env pts n evenAct oddAct evenGate oddGate nrm u = .ok v ∧ SameData y v := by
  have toP : ∀ z : IArr (Col ι), z.Coherent → (∀ (i : ℕ) (m : MulIrrep), z.irreps[i]? = some m → m.ir.l = 0 → z.zeroFlags[i]? = some false) →
      ∀ q ∈ z.irreps.zip z.chunks, q.1.ir.l = 0 → q.2 ≠ none := by
    rintro z hz hf ⟨m, c⟩ hq hl hnone
    obtain ⟨j, hj⟩ := List.mem_iff_getElem?.mp hq
    simp only at hnone hl; subst hnone
    have := (zip_spec_flag hz.inv j m).mp hj
    rw [hf j m this.1 hl] at this
    cases this.2
  have scal : ∀ z : IArr (Col ι), z.Coherent → (∀ q ∈ z.irreps.zip z.chunks, q.1.ir.l = 0 → q.2 ≠ none) →
      ∃ s, filterBy z (.keep [⟨0, .e⟩, ⟨0, .o⟩]) = .ok s ∧ AllSome (s.irreps.zip s.chunks) ∧ (∀ m ∈ s.irreps, m.ir.l = 0) := by
    intro z hz hf
    obtain ⟨s, s1, s2, s5⟩ := filterBy_pairs hz (.keep [⟨0, .e⟩, ⟨0, .o⟩])
    simp only [IrCrit.sat, scalar_list] at s5
    refine ⟨s, s1, ?_, ?_⟩
    · rw [s5]; intro q hq
      obtain ⟨h1, h2⟩ := List.mem_filter.mp hq
      exact hf q h1 (by simpa using h2)
    · intro m hm
      rw [← s2.pairs.2.1, s5] at hm
      obtain ⟨q, hq, rfl⟩ := List.mem_map.mp hm
      simpa using (List.mem_filter.mp hq).2
  obtain ⟨s, s1, s2, s3⟩ := scal x h.1 (toP x h.1 fx)
  obtain ⟨s', t1, t2, -⟩ := scal u h.2.1 (toP u h.2.1 fu)
  obtain ⟨s'', t3, hs⟩ := C46_filter _ x u h s s1
  beta_reduce at t3
  rw [t1] at t3; cases t3
  obtain ⟨w, w1, w2, -⟩ := filterBy_pairs h.1 (.drop [⟨0, .e⟩, ⟨0, .o⟩])
  obtain ⟨w', w1', hw⟩ := C46_filter _ x u h w w1
  beta_reduce at w1'
  have hch := hs.chunks_of_allSome s2 t2
  simp only [filterBy] at s1 t1 w1 w1'
  unfold gate at hy ⊢
  rw [s1, w1] at hy
  rw [t1, w1']
  simp only [bind, Except.bind] at hy ⊢
  rw [← hw.2.2.2, ← hw.2.2.1, ← hs.2.2.1]
  have hact : scalarActivation env pts none evenAct oddAct nrm s' = scalarActivation env pts none evenAct oddAct nrm s := by
    unfold scalarActivation
    rw [hch, hs.2.2.1, hs.2.2.2]
  have hslice : ∀ t : PySlice, s'.sliceByMul t = s.sliceByMul t := by
    intro t
    unfold sliceByMul
    rw [hch, hs.2.2.1]
  rw [hact]
  split at hy
  · rename_i h0
    rw [if_pos h0]
    have hc := (act_inv env pts none evenAct oddAct nrm hs.1.inv s2 hy).coherent
    exact ⟨y, hy, hc, hc, rfl, rfl⟩
  rename_i h0
  rw [if_neg h0]
  split at hy
  · cases hy
  rename_i hd
  rw [if_neg hd, hslice, hslice]
  have hdim := dim_scalar s3
  generalize hk : (s.irreps.dim : ℤ) - w.irreps.numIrreps = k at hy ⊢
  cases hA : s.sliceByMul ⟨none, some k, none⟩ with
  | error e => rw [hA] at hy; cases hy
  | ok ex =>
  obtain ⟨-, -, a2, -, -, a5, -⟩ := slice_blind hs.1.inv hs.1.inv rfl s2 s2 ⟨none, some k, none⟩ rfl (by simp [PySlice.bounds]) hA
  rw [hA] at hy
  simp only at hy ⊢
  cases hB : s.sliceByMul ⟨some k, none, none⟩ with
  | error e => rw [hB] at hy; cases hy
  | ok ga =>
  obtain ⟨-, -, b2, -, -, b5, -⟩ := slice_blind hs.1.inv hs.1.inv rfl s2 s2 ⟨some k, none, none⟩ rfl
    (by simp only [PySlice.bounds, Option.map_none, Option.getD_none, Option.map_some, Option.getD_some, adjustIndex]; split <;> omega) hB
  rw [hB] at hy
  simp only at hy ⊢
  cases hC : scalarActivation env pts none evenAct oddAct nrm ex with
  | error e => rw [hC] at hy; cases hy
  | ok c =>
  have hc := (act_inv env pts none evenAct oddAct nrm a2 a5 hC).coherent
  rw [hC] at hy
  simp only at hy ⊢
  cases hD : scalarActivation env pts none evenGate oddGate nrm ga with
  | error e => rw [hD] at hy; cases hy
  | ok d =>
  have hd := (act_inv env pts none evenGate oddGate nrm b2 b5 hD).coherent
  rw [hD] at hy
  simp only at hy ⊢
  cases hE : mulArrays n d w with
  | error e => rw [hE] at hy; cases hy
  | ok g =>
  obtain ⟨g', g1, g2⟩ := mul_same hn hd hw hE
  rw [hE] at hy
  rw [g1]
  simp only at hy ⊢
  obtain ⟨p, q, p1, q1, r⟩ := C46_concatenate (x1 := c) (u1 := c) ⟨hc, hc, rfl, rfl⟩ g2
  rw [p1] at hy; cases hy
  exact ⟨q, q1, r⟩

end

end E3nn
