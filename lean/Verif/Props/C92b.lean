import Verif.Props.C92
import Verif.Props.C108
import Verif.Props.C109

/-!
# C92, continued: `tensor_square` and `gate` act row by row
-/

namespace E3nn

namespace TP
open IArr

variable {K L : Type} [CommRing K] [CommRing L] {φ : K →+* L}

theorem rowsOf_map' (d : ℕ) (C : List (List (List K))) (ps : List (List K × List K)) :
    rowsOf d (C.map fun m => m.map fun r => r.map φ) (ps.map fun q => (q.1.map φ, q.2.map φ)) = (rowsOf d C ps).map fun r => r.map φ := by
  unfold rowsOf
  rw [List.map_map, List.map_map]
  refine List.map_congr_left fun q _ => ?_
  simp only [Function.comp, contract_map]

theorem squareStep_map {c : TPCtx K} {c' : TPCtx L} (h : CtxMap φ c c') (n : IrNorm) (ni : Bool) (q1 q2 : (MulIrrep × Chunk K) × Nat) (ir : Irrep) :
    squareStep c' n ni (MP φ q1.1, q1.2) (MP φ q2.1, q2.2) ir = (squareStep c n ni q1 q2 ir).map (MP φ) := by
  obtain ⟨⟨m1, c1⟩, i1⟩ := q1
  obtain ⟨⟨m2, c2⟩, i2⟩ := q2
  unfold squareStep
  simp only [MP, h.cg, h.sqrt, scaleCg_map]
  split
  · simp only [List.map_cons, List.map_nil]
    congr 1
    cases c1 with
    | none => rfl
    | some a =>
      cases c2 with
      | none => rfl
      | some b => simp only [mapChunk, Option.map_some, outer_map, rowsOf_map', MP]
  · split
    · rw [List.map_append]
      congr 1
      · split
        · simp only [List.map_cons, List.map_nil]
          cases c1 with
          | none => rfl
          | some a => simp only [mapChunk, Option.map_some, pairsOf_map, rowsOf_map', MP]
        · rfl
      · split
        · simp only [List.map_cons, List.map_nil]
          cases c1 with
          | none => rfl
          | some a =>
            simp only [mapChunk, Option.map_some, List.map_map, MP]
            rw [← rowsOf_map', List.map_map]
            rfl
        · rfl
    · rfl

theorem squareEntries_map {c : TPCtx K} {c' : TPCtx L} (h : CtxMap φ c c') (n : IrNorm) (ni : Bool) (P : List (MulIrrep × Chunk K)) :
    squareEntries c' n ni (P.map (MP φ)) = (squareEntries c n ni P).map (MP φ) := by
  have hz : (P.map (MP φ)).zipIdx = P.zipIdx.map fun q => (MP φ q.1, q.2) := by
    rw [List.zipIdx_map]
    rfl
  simp only [squareEntries, hz, List.flatMap_map, List.map_flatMap]
  refine List.flatMap_congr fun q1 _ => List.flatMap_congr fun q2 _ => ?_
  refine List.flatMap_congr fun ir _ => ?_
  exact squareStep_map h n ni q1 q2 ir

theorem mp_tensorSquare {c : TPCtx K} {c' : TPCtx L} (hc : CgOk c) (hc' : CgOk c') (h : CtxMap φ c c') {n : IrNorm}
    (hn : n ≠ .other) (ni rg : Bool) {x y : IArr K} {x' : IArr L} (t : Mp φ x x') (hy : tensorSquare c n ni rg x = .ok y) :
    ∃ y', tensorSquare c' n ni rg x' = .ok y' ∧ Mp φ y y' := by
  obtain ⟨z, w, a1, a3, a5, a6, -⟩ := tensorSquare_spec hc hn ni rg t.inv
  obtain ⟨z', w', b1, b3, b5, b6, -⟩ := tensorSquare_spec hc' hn ni rg t.inv'
  rw [hy] at a6; cases a6
  refine ⟨w', b6, ?_⟩
  obtain ⟨u1, c1, d1⟩ := mp_prepare rg t a1
  rw [b1] at c1; cases c1
  obtain ⟨v, v1, v2⟩ := mp_finish (φ := φ) rg (squareEntries_shaped hc n ni a3.pairs.1) a5
  rw [← squareEntries_map h n ni, ← d1.pairs, b5] at v1
  cases v1; exact v2

end TP

namespace MPC
open E3nn.IArr E3nn.Wig E3nn.SH E3nn.Activ

/-- **C92 (`tensor_square`).** It acts row by row. -/
theorem C92_tensor_square {n : IrNorm} (hn : n ≠ .other) (normalizedInput regroup : Bool) :
    RowWise (fun κ => TP.tensorSquare (realCtx (κ → ℝ)) n normalizedInput regroup) :=
  rowWise_of fun {_ _} i _ _ _ h hy => TP.mp_tensorSquare (φ := (pull i).toRingHom) (realCtx_shape _).ok (realCtx_shape _).ok (realCtx_map (pull i)) hn normalizedInput regroup h hy

variable {ν ε : Type}

theorem mp_act {i : ε → ν} (env : ℕ → ℝ → ℝ) (pts : List ℝ) (even odd : ℕ) (nrm : Bool) {x y : IArr (ν → ℝ)} {x' : IArr (ε → ℝ)} (h : Mp (pull i) x x')
    (hf : AllSome (x.irreps.zip x.chunks)) (hy : scalarActivation env pts none even odd nrm x = .ok y) :
    ∃ y', scalarActivation env pts none even odd nrm x' = .ok y' ∧ Mp (pull i) y y' :=
  mp_scalarActivation i env pts none even odd nrm h (fun q hq hn => absurd hn (hf _ (List.of_mem_zip hq).1)) hy

theorem mp_gate (i : ε → ν) (env : ℕ → ℝ → ℝ) (pts : List ℝ) {n : IrNorm} (hn : n ≠ .other) (evenAct oddAct evenGate oddGate : ℕ) (nrm : Bool)
    {x y : IArr (ν → ℝ)} {x' : IArr (ε → ℝ)} (h : Mp (pull i) x x')
    (fx : ∀ q ∈ x.irreps.zip x.chunks, q.1.ir.l = 0 → q.2 ≠ none) (hy : gate env pts n evenAct oddAct evenGate oddGate nrm x = .ok y) :
    ∃ y', gate env pts n evenAct oddAct evenGate oddGate nrm x' = .ok y' ∧ Mp (pull i) y y' := by
  obtain ⟨s, s1, s2, s5⟩ := filterBy_pairs h.inv.coherent (.keep [⟨0, .e⟩, ⟨0, .o⟩])
  obtain ⟨w, w1, w2, -⟩ := filterBy_pairs h.inv.coherent (.drop [⟨0, .e⟩, ⟨0, .o⟩])
  simp only [IrCrit.sat, scalar_list] at s5
  have fs : AllSome (s.irreps.zip s.chunks) := by
    rw [s5]; intro q hq
    obtain ⟨h1, h2⟩ := List.mem_filter.mp hq
    exact fx q h1 (by simpa using h2)
  have hsl : ∀ m ∈ s.irreps, m.ir.l = 0 := by
    intro m hm
    rw [← s2.pairs.2.1, s5] at hm
    obtain ⟨q, hq, rfl⟩ := List.mem_map.mp hm
    simpa using (List.mem_filter.mp hq).2
  simp only [filterBy] at s1 w1
  obtain ⟨s', s1', s2'⟩ := mp_filter (map_zero (pull i)) h s1
  obtain ⟨w', w1', w2'⟩ := mp_filter (map_zero (pull i)) h w1
  unfold gate at hy ⊢
  rw [s1, w1] at hy
  rw [s1', w1']
  have hlen : w'.array.length = w.array.length := by rw [w2'.array, List.length_map]
  simp only [bind, Except.bind] at hy ⊢
  rw [hlen, s2'.irreps, w2'.irreps]
  split at hy
  · rename_i h0
    rw [if_pos h0]
    exact mp_act env pts evenAct oddAct nrm s2' fs hy
  rename_i h0
  rw [if_neg h0]
  split at hy
  · cases hy
  rename_i hd
  rw [if_neg hd]
  have hdim := dim_scalar hsl
  generalize hk : (s.irreps.dim : ℤ) - w.irreps.numIrreps = k at hy ⊢
  cases hA : s.sliceByMul ⟨none, some k, none⟩ with
  | error e => rw [hA] at hy; cases hy
  | ok ex =>
  obtain ⟨-, -, a2, -, -, a5, -⟩ := slice_blind s2 s2 rfl fs fs ⟨none, some k, none⟩ rfl (by simp [PySlice.bounds]) hA
  obtain ⟨ex', a1, a3⟩ := mp_sliceByMul (map_zero (pull i)) s2' hA
  rw [hA] at hy
  rw [a1]
  simp only at hy ⊢
  cases hB : s.sliceByMul ⟨some k, none, none⟩ with
  | error e => rw [hB] at hy; cases hy
  | ok ga =>
  obtain ⟨-, -, b2, -, -, b5, -⟩ := slice_blind s2 s2 rfl fs fs ⟨some k, none, none⟩ rfl
    (by simp only [PySlice.bounds, Option.map_none, Option.getD_none, Option.map_some, Option.getD_some, adjustIndex]; split <;> omega) hB
  obtain ⟨ga', b1, b3⟩ := mp_sliceByMul (map_zero (pull i)) s2' hB
  rw [hB] at hy
  rw [b1]
  simp only at hy ⊢
  cases hC : scalarActivation env pts none evenAct oddAct nrm ex with
  | error e => rw [hC] at hy; cases hy
  | ok c =>
  obtain ⟨c', c1, c2⟩ := mp_act env pts evenAct oddAct nrm a3 a5 hC
  rw [hC] at hy
  rw [c1]
  simp only at hy ⊢
  cases hD : scalarActivation env pts none evenGate oddGate nrm ga with
  | error e => rw [hD] at hy; cases hy
  | ok d =>
  obtain ⟨d', d1, d2⟩ := mp_act env pts evenGate oddGate nrm b3 b5 hD
  rw [hD] at hy
  rw [d1]
  simp only at hy ⊢
  cases hE : mulArrays n d w with
  | error e => rw [hE] at hy; cases hy
  | ok g =>
  obtain ⟨g', g1, g2⟩ := mp_mulArrays hn i d2 w2' hE
  rw [hE] at hy
  rw [g1]
  simp only at hy ⊢
  exact mp_concatenate (.cons c2 (.cons g2 .nil)) hy

/-- **C92 (`gate`).** It acts row by row, when no scalar is marked as zero. -/
theorem C92_gate (env : ℕ → ℝ → ℝ) (pts : List ℝ) {n : IrNorm} (hn : n ≠ .other) (evenAct oddAct evenGate oddGate : ℕ) (nrm : Bool) (i : ε → ν) {x y : IArr (ν → ℝ)} (hx : x.Coherent)
    (hflag : ∀ (i : ℕ) (m : MulIrrep), x.irreps[i]? = some m → m.ir.l = 0 → x.zeroFlags[i]? = some false) (hy : gate env pts n evenAct oddAct evenGate oddGate nrm x = .ok y) :
    ∃ x' y' z, gather i x = .ok x' ∧ gate env pts n evenAct oddAct evenGate oddGate nrm x' = .ok y' ∧ gather i y = .ok z ∧ y'.Equal z := by
  obtain ⟨x', x1, x2⟩ := gather_mp i hx.inv
  obtain ⟨y', y1, y2⟩ := mp_gate i env pts hn evenAct oddAct evenGate oddGate nrm x2 (by
    rintro ⟨m, c⟩ hq hl h
    obtain ⟨j, hj⟩ := List.mem_iff_getElem?.mp hq
    simp only at h hl; subst h
    have := (zip_spec_flag hx.inv j m).mp hj
    rw [hflag j m this.1 hl] at this
    cases this.2) hy
  obtain ⟨z, z1, z2⟩ := gather_mp i y2.inv
  exact ⟨x', y', z, x1, y1, z1, y2.unique z2⟩

end MPC

namespace Vmap
open E3nn.IArr E3nn.MPC

/-- **C109 (`gate`).** -/
theorem C109_gate {ν : Type} [Nonempty ν] (env : ℕ → ℝ → ℝ) (pts : List ℝ) {n : IrNorm} (hn : n ≠ .other) (evenAct oddAct evenGate oddGate : ℕ) (nrm : Bool) (x y : IArr (ν → ℝ))
    (hx : x.Coherent) (hflag : ∀ (i : ℕ) (m : MulIrrep), x.irreps[i]? = some m → m.ir.l = 0 → x.zeroFlags[i]? = some false)
    (h : Activ.gate env pts n evenAct oddAct evenGate oddGate nrm x = .ok y) (hy : y.Coherent) :
    ∃ z, vmap (Activ.gate env pts n evenAct oddAct evenGate oddGate nrm) x = .ok z ∧ z.Equal y ∧ z.Coherent :=
  vmap_rows hy fun i => C92_gate env pts hn evenAct oddAct evenGate oddGate nrm (fun _ : Unit => i) hx hflag h

/-- **C109 (`tensor_square`).** -/
theorem C109_tensor_square {ν : Type} [Nonempty ν] {n : IrNorm} (hn : n ≠ .other) (normalizedInput regroup : Bool) (x : IArr (ν → ℝ)) (hx : x.Coherent) :
    ∃ y z, TP.tensorSquare (realCtx (ν → ℝ)) n normalizedInput regroup x = .ok y ∧
      vmap (TP.tensorSquare (realCtx (Unit → ℝ)) n normalizedInput regroup) x = .ok z ∧ z.Equal y ∧ z.Coherent := by
  obtain ⟨-, y, -, -, -, y1, y2, -⟩ := TP.tensorSquare_spec (realCtx_shape (ν → ℝ)).ok hn normalizedInput regroup hx.inv
  obtain ⟨z, z1, z2⟩ := C109_vmap (fun κ => TP.tensorSquare (realCtx (κ → ℝ)) n normalizedInput regroup) (C92_tensor_square hn normalizedInput regroup) x y hx y2.coherent y1
  exact ⟨y, z, y1, z1, z2⟩

end Vmap
end E3nn
