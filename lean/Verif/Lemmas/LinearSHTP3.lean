import Verif.Lemmas.LinearSHTP2
import Verif.Props.C46

/-!
# Lemmas about `LinearSHTP` and `shtp`: the rotation of the input and of the output
-/

namespace E3nn.LSH

open E3nn.IArr E3nn.Rot E3nn.Wig E3nn.SU2 E3nn.SH E3nn.TPSH Matrix

/-- Terms without `None`. -/
def Full (P : List (MulIrrep × Chunk Col)) : Prop := ∀ q ∈ P, q.2 ≠ none

theorem actP_fst (S : Mat) (P : List (MulIrrep × Chunk Col)) : (actP S P).map Prod.fst = P.map Prod.fst := by
  unfold actP; rw [List.map_map]; rfl

theorem actP_shaped (S : Mat) {P : List (MulIrrep × Chunk Col)} (h : Shaped P) : Shaped (actP S P) := by
  intro q hq
  obtain ⟨⟨m, c⟩, h0, rfl⟩ := List.mem_map.mp hq
  cases c with
  | none => rfl
  | some rows =>
    obtain ⟨h1, h2⟩ := shaped_rows h h0 rfl
    refine shapeOk_some (by simpa using h1) ?_
    intro r hr
    obtain ⟨r0, -, rfl⟩ := List.mem_map.mp hr
    exact rowD_length _ _ _

theorem actP_full (S : Mat) {P : List (MulIrrep × Chunk Col)} (h : Full P) : Full (actP S P) := by
  intro q hq
  obtain ⟨q0, h0, rfl⟩ := List.mem_map.mp hq
  have := h q0 h0
  cases hc : q0.2 with
  | none => exact absurd hc this
  | some rows => simp [hc]

theorem actP_blk (S : Mat) {P : List (MulIrrep × Chunk Col)} (h : Shaped P) (hf : Full P) : (actP S P).flatMap blk = act S (P.flatMap blk) := by
  have hs := actP_shaped S h
  unfold actP at hs ⊢
  unfold act
  rw [List.flatMap_map, List.map_flatMap]
  apply List.flatMap_congr
  rintro ⟨m, c⟩ hq
  cases c with
  | none => exact absurd rfl (hf _ hq)
  | some rows =>
    have h1 := h _ hq
    have h2 := hs _ (List.mem_map.mpr ⟨_, hq, rfl⟩)
    simp only [Option.map_some] at h2 ⊢
    rw [blk_some h1, blk_some h2, List.map_map, List.map_map]
    rfl

/-- The blocks determine the terms. -/
theorem pairs_of_blk {P P' : List (MulIrrep × Chunk Col)} (h1 : Shaped P) (h1' : Shaped P') (h2 : Full P) (h2' : Full P') (h3 : P.map Prod.fst = P'.map Prod.fst)
    (h4 : P.flatMap blk = P'.flatMap blk) : P = P' := by
  induction P generalizing P' with
  | nil =>
    cases P' with
    | nil => rfl
    | cons q P' => simp at h3
  | cons q P ih =>
    cases P' with
    | nil => simp at h3
    | cons q' P' =>
      obtain ⟨m, c⟩ := q
      obtain ⟨m', c'⟩ := q'
      simp only [List.map_cons, List.cons.injEq] at h3
      obtain ⟨rfl, h3⟩ := h3
      cases c with
      | none => exact absurd rfl (h2 _ (List.mem_cons_self ..))
      | some r =>
        cases c' with
        | none => exact absurd rfl (h2' _ (List.mem_cons_self ..))
        | some r' =>
          have s1 := h1 _ (List.mem_cons_self ..)
          have s2 := h1' _ (List.mem_cons_self ..)
          simp only [List.flatMap_cons] at h4
          have hl : (blk (m, some r)).length = (blk (m, some r')).length := by rw [blk_length, blk_length]
          obtain ⟨e1, e2⟩ := List.append_inj h4 hl
          rw [blk_some s1, blk_some s2] at e1
          have e3 : r = r' := by
            have := congrArg (List.map Prod.snd) e1
            simpa [List.map_map, Function.comp_def] using this
          rw [e3, ih (fun q hq => h1 q (List.mem_cons_of_mem _ hq)) (fun q hq => h1' q (List.mem_cons_of_mem _ hq)) (fun q hq => h2 q (List.mem_cons_of_mem _ hq))
            (fun q hq => h2' q (List.mem_cons_of_mem _ hq)) h3 e2]

variable {loops : Parity → List (MulIrrep × Chunk Col) → Except PyErr (List (MulIrrep × Chunk Col))}

/-- What the loops must satisfy. -/
structure GoodLoops (loops : Parity → List (MulIrrep × Chunk Col) → Except PyErr (List (MulIrrep × Chunk Col))) : Prop where
  shaped : ∀ p P es, Shaped P → loops p P = .ok es → Shaped es
  act : ∀ p S P, Stab p S → Shaped P → loops p (actP S P) = (loops p P).map (actP S)
  full : ∀ p P es, Shaped P → loops p P = .ok es → Full es

/-- The general form of the result: there is a rotation that brings the pole to the direction such that the input is rotated back, given to the
loops, regrouped, and rotated. -/
theorem frame_spec (h : GoodLoops loops) {p : Parity} {d : IArr Col} (hd : d.Coherent) (hdi : d.irreps = [⟨1, ⟨1, p⟩⟩]) :
    ∃ Q, IsRotation Q ∧ Q *ᵥ ![0, 1, 0] = usedDirection (vec d) ∧ ∀ x : IArr Col, x.Coherent →
      ∃ P, Shaped P ∧ Full P ∧ P.map Prod.fst = x.irreps ∧ P.flatMap blk = act Qᵀ x.blocks ∧
        (∀ e, loops p P = .error e → frame loops x d = .error e) ∧
        (∀ es, loops p P = .ok es → ∃ u r y, fromChunks (es.map Prod.fst) (es.map Prod.snd) = .ok u ∧ u.Coherent ∧ u.irreps = es.map Prod.fst ∧ u.blocks = es.flatMap blk ∧
          u.regroup = .ok r ∧ r.Coherent ∧ frame loops x d = .ok y ∧ y.Coherent ∧ y.irreps = r.irreps ∧ y.blocks = act Q r.blocks) := by
  have hvl : (TPSH.normalize d.array).length = dimOf (expand d.irreps) := by
    rw [hdi, vec_normalize hd hdi]; simp [expand, dimOf, Irrep.dim]
  obtain ⟨v1, a1, a2, a3, a4, -⟩ := (C12_from_array d.irreps (TPSH.normalize d.array)).1 hvl
  have hv1i : v1.irreps = [⟨1, ⟨1, p⟩⟩] := by rw [a3, hdi]
  have hv1 : vec v1 = Rot.normalize (vec d) := by
    funext k
    unfold TPSH.vec
    rw [a4, vec_normalize hd hdi, getD_ofFn]
    rfl
  generalize hlock : decide (|v1.array.getD 1 0 ()| > 0.99) = lock
  have hlock' : lock = decide (|Rot.normalize (vec d) 1| > 0.99) := by rw [← hlock, ← hv1]; rfl
  obtain ⟨v2, c1, c2, c3, c4, -⟩ := fix_spec lock true a2
  have hG := lockMat_rot lock
  have hv2 : vec v2 = (lockMat lock)ᵀ *ᵥ Rot.normalize (vec d) := by
    rw [← hv1]; exact vec_act a2 hv1i c2 c3 (transpose_rot hG) c4
  generalize hab : xyzToAngles (fun k : Fin 3 => v2.array.getD k 0 ()) = ab
  have hA : IsRotation (anglesToMatrix ab.1 ab.2 0) := anglesToMatrix_rot _ _ _
  have hey := align hlock' hv2
  rw [show xyzToAngles (vec v2) = ab from hab] at hey
  generalize hAm : anglesToMatrix ab.1 ab.2 0 = A at hA hey
  have hA0 : ∀ (b : Bool) (x : IArr Col), x.transformByAngles (.arr ab.1) (.arr ab.2) (.py 0) 0 b = x.transformByMatrix (if b then Aᵀ else A) := by
    intro b x
    rw [angles_zero]
    simp only [Angle.val, hAm]
  refine ⟨lockMat lock * A, hG.mul hA, hey, ?_⟩
  intro x hx
  obtain ⟨in1, b1, b2, b3, b4, b5⟩ := fix_spec lock true hx
  obtain ⟨in2, d1, d2, d3, d4, d5⟩ := act_transform Aᵀ b2
  have bl1 : ∀ b ∈ x.blocks, b.2.length = b.1.dim := fun b hb => block_length hx hb
  refine ⟨in2.irreps.zip in2.chunks, d2.inv.pairs.1, ?_, ?_, ?_, ?_, ?_⟩
  · intro q hq hn
    have h1 : q.2.isNone ∈ in2.zeroFlags := by
      rw [← d2.inv.pairs.2.2.2.2.1]; exact List.mem_map.mpr ⟨q, hq, rfl⟩
    rw [d4] at h1
    have := b5 _ h1
    rw [hn] at this
    cases this
  · rw [d2.inv.pairs.2.1, d3, b3]
  · rw [← d2.inv.blocks_pairs, d5, b4]
    simp only [if_true]
    rw [Matrix.transpose_mul, act_mul (transpose_orth hA.1) (transpose_orth hG.1) bl1]
  · intro e he
    unfold frame
    rw [hdi]
    simp only
    rw [hdi] at a1
    simp only [a1, bind, Except.bind, hlock, b1, c1, hab, hA0, if_true, d1, he]
  · intro es he
    have hs := h.shaped p _ es d2.inv.pairs.1 he
    obtain ⟨u, u1, u2, u3, -⟩ := fromChunks_pairs es hs
    have hub : u.blocks = es.flatMap blk := by
      rw [u2.blocks_pairs]
      congr 1
      obtain ⟨u', w1, -, w3, -, -, -, w7, -⟩ := fromChunks_pairs es hs
      rw [u1] at w1; cases w1
      rw [u3, w7, List.zip_map']
      simp
    obtain ⟨r, j1, j2, -⟩ := C17_regroup u u2.coherent
    obtain ⟨y2, n1, n2, n3, -, n5⟩ := act_transform A j2
    obtain ⟨y3, o1, o2, o3, o4, -⟩ := fix_spec lock false n2
    refine ⟨u, r, y3, u1, u2.coherent, u3, hub, j1, j2, ?_, o2, by rw [o3, n3], ?_⟩
    · unfold frame
      rw [hdi]
      simp only
      rw [hdi] at a1
      simp only [a1, bind, Except.bind, hlock, b1, c1, hab, hA0, if_true, d1, he, u1, j1, Bool.false_eq_true, if_false, n1, o1]
    · have bl2 : ∀ b ∈ r.blocks, b.2.length = b.1.dim := fun b hb => block_length j2 hb
      rw [o4, n5, act_mul hG.1 hA.1 bl2]
      rfl

/-- Equivariance of the frame. -/
theorem frame_equivariant (h : GoodLoops loops) {p : Parity} {d d' x x' : IArr Col} (hd : d.Coherent) (hdi : d.irreps = [⟨1, ⟨1, p⟩⟩]) (h0 : vec d ≠ 0) (hx : x.Coherent)
    {R : Mat} (hR : IsOrth R) (hd' : d.transformByMatrix R = .ok d') (hx' : x.transformByMatrix R = .ok x') :
    (∀ e, frame loops x d = .error e → frame loops x' d' = .error e) ∧
    (∀ y, frame loops x d = .ok y → ∃ y' y'', frame loops x' d' = .ok y' ∧ y.transformByMatrix R = .ok y'' ∧ y'.irreps = y''.irreps ∧ y'.array = y''.array) := by
  obtain ⟨Q, hQ, hQy, hQf⟩ := frame_spec h hd hdi
  obtain ⟨w, w1, w2, w3, -, w5⟩ := act_transform R hd
  rw [hd'] at w1; cases w1
  have hdi' : d'.irreps = [⟨1, ⟨1, p⟩⟩] := by rw [w3, hdi]
  obtain ⟨Q', hQ', hQy', hQf'⟩ := frame_spec h w2 hdi'
  obtain ⟨w, z1, z2, z3, -, z5⟩ := act_transform R hx
  rw [hx'] at z1; cases z1
  obtain ⟨P, a1, a2, a3, a4, a5, a6⟩ := hQf x hx
  obtain ⟨P', b1, b2, b3, b4, b5, b6⟩ := hQf' x' z2
  -- the direction
  have hvd : vec d' = Wig.dMatrix ⟨1, p⟩ R *ᵥ vec d := by
    rw [blocks_three hd hdi, blocks_three w2 hdi'] at w5
    unfold act at w5
    simp only [List.map_cons, List.map_nil, List.cons.injEq, Prod.mk.injEq, and_true, true_and] at w5
    have h2 := matVec_ofFn (α := Col) (Wig.dMatrix ⟨1, p⟩ R) (fun k : Fin 3 => d.array.getD k 0)
    have h3 := w5.trans h2
    have h4 := List.ofFn_injective h3
    funext k
    unfold TPSH.vec
    rw [congrFun h4 k]
    simp [Matrix.mulVec, dotProduct, TPSH.vec]
  have ho := C39_orthogonal ⟨1, p⟩ hR
  have hud : usedDirection (vec d') = Wig.dMatrix ⟨1, p⟩ R *ᵥ usedDirection (vec d) := by
    have hne : vec d' ≠ 0 := by
      intro e
      apply h0
      have : (Wig.dMatrix ⟨1, p⟩ R)ᵀ *ᵥ vec d' = vec d := by
        rw [hvd, Matrix.mulVec_mulVec, mul_eq_one_comm.mp ho.1, Matrix.one_mulVec]
      rw [← this, e, Matrix.mulVec_zero]
    have hn : vnormSq (vec d') = vnormSq (vec d) := by
      have e : ∀ z : Fin 3 → ℝ, vnormSq z = z ⬝ᵥ z := by intro z; simp [vnormSq, dotProduct, Fin.sum_univ_three]; ring
      have h1 : (Wig.dMatrix ⟨1, p⟩ R)ᵀ * Wig.dMatrix ⟨1, p⟩ R = 1 := mul_eq_one_comm.mp ho.1
      rw [e, e, hvd]
      have h2 : Wig.dMatrix ⟨1, p⟩ R *ᵥ vec d = vec d ᵥ* (Wig.dMatrix ⟨1, p⟩ R)ᵀ := (Matrix.vecMul_transpose _ _).symm
      conv_lhs => arg 1; rw [h2]
      rw [← Matrix.dotProduct_mulVec, Matrix.mulVec_mulVec, h1, Matrix.one_mulVec]
    unfold usedDirection
    rw [if_neg hne, if_neg h0]
    have hdir : direction (vec d') = (Real.sqrt (vnormSq (vec d)))⁻¹ • vec d' := by
      rw [← hn]; funext k; simp [direction, vnormSq, div_eq_inv_mul]
    have hdir2 : direction (vec d) = (Real.sqrt (vnormSq (vec d)))⁻¹ • vec d := by
      funext k; simp [direction, vnormSq, div_eq_inv_mul]
    rw [hdir, hdir2, Matrix.mulVec_smul, hvd]
  -- the transformation that keeps the pole
  have hQt := transpose_orth hQ'.1
  have hS : Stab p (Q'ᵀ * R * Q) := by
    refine ⟨IsOrth.mul (IsOrth.mul hQt hR) hQ.1, ?_⟩
    rw [C39_homomorphism _ (IsOrth.mul hQt hR) hQ.1, C39_homomorphism _ hQt hR, dMatrix_one p (transpose_rot hQ'), dMatrix_one p hQ,
      ← Matrix.mulVec_mulVec, ← Matrix.mulVec_mulVec, hQy, ← hud, ← hQy', Matrix.mulVec_mulVec, mul_eq_one_comm.mp hQ'.1, Matrix.one_mulVec]
  have bl : ∀ b ∈ x.blocks, b.2.length = b.1.dim := fun b hb => block_length hx hb
  have blq : ∀ (T : Mat) (bs : List (Irrep × List Col)), ∀ b ∈ act T bs, b.2.length = b.1.dim := by
    intro T bs b hb
    obtain ⟨b0, -, rfl⟩ := List.mem_map.mp hb
    rw [matVec_length]; simp [matRows, Irrep.dim]
  have hPP : P' = actP (Q'ᵀ * R * Q) P := by
    apply pairs_of_blk b1 (actP_shaped _ a1) b2 (actP_full _ a2) (by rw [actP_fst, b3, a3, z3])
    rw [actP_blk _ a1 a2, a4, b4, z5, ← act_mul hQt hR bl, ← act_mul (IsOrth.mul (IsOrth.mul hQt hR) hQ.1) (transpose_orth hQ.1) bl]
    congr 1
    rw [Matrix.mul_assoc (Q'ᵀ * R), hQ.1, Matrix.mul_one]
  have hloop := h.act p _ P hS a1
  rw [← hPP] at hloop
  cases hl : loops p P with
  | error e =>
    rw [hl] at hloop
    have e1 := a5 e hl
    have e2 := b5 e hloop
    refine ⟨fun e' he' => ?_, fun y hy => ?_⟩
    · rw [e1] at he'; cases he'; exact e2
    · rw [e1] at hy; cases hy
  | ok es =>
    rw [hl] at hloop
    obtain ⟨u, r, y, u1, u2, u3, u4, u5, u6, u7, u8, u9, u10⟩ := a6 es hl
    obtain ⟨u', r', y', v1, v2, v3, v4, v5, v6, v7, v8, v9, v10⟩ := b6 _ hloop
    refine ⟨fun e he => (by rw [u7] at he; cases he), ?_⟩
    intro y0 hy0
    rw [u7] at hy0; cases hy0
    have hes := h.shaped p P es a1 hl
    -- regroup commutes with the action
    obtain ⟨t1, r1, q, s1, s2, s3, s4⟩ := C59_structural (fun x : IArr Col => x.regroup) C22_regroup (Q'ᵀ * R * Q) u u2 r u5
    obtain ⟨w, k1, k2, k3, -, k5⟩ := act_transform (Q'ᵀ * R * Q) u2
    rw [s1] at k1; cases k1
    have sd : SameData t1 u' := by
      refine SameData.of_blocks k2 v2 (by rw [k3, u3, v3, actP_fst]) ?_
      rw [k5, u4, v4, actP_blk _ hes (h.full p P es a1 hl)]
    obtain ⟨r2, g1, g2⟩ := (C46_sort_regroup (α := Col)).2 t1 u' sd r1 s2
    have g1' : u'.regroup = .ok r2 := g1
    rw [v5] at g1'; cases g1'
    obtain ⟨w, m1, m2, m3, -, m5⟩ := act_transform (Q'ᵀ * R * Q) u6
    rw [s3] at m1; cases m1
    have hr' : r'.irreps = r.irreps ∧ r'.blocks = act (Q'ᵀ * R * Q) r.blocks := by
      have e1 : r'.irreps = q.irreps := by rw [← g2.2.2.1, s4.1]
      have e2 : r'.array = q.array := by rw [← g2.2.2.2, s4.2.1]
      refine ⟨by rw [e1, m3], ?_⟩
      rw [← m5]
      unfold IArr.blocks
      rw [e1, e2]
    obtain ⟨y'', n1, n2, n3, -, n5⟩ := act_transform R u8
    have blr : ∀ b ∈ r.blocks, b.2.length = b.1.dim := fun b hb => block_length u6 hb
    have sf : SameData y' y'' := by
      refine SameData.of_blocks v8 n2 (by rw [v9, hr'.1, n3, u9]) ?_
      rw [v10, hr'.2, n5, u10, ← act_mul hQ'.1 (IsOrth.mul (IsOrth.mul hQt hR) hQ.1) blr, ← act_mul hR hQ.1 blr]
      congr 1
      rw [← Matrix.mul_assoc, ← Matrix.mul_assoc, hQ'.1, Matrix.one_mul]
    exact ⟨y', y'', v7, n1, sf.2.2.1, sf.2.2.2⟩

theorem filter_some_full {P : List (MulIrrep × Chunk Col)} (h : ∀ q ∈ P, ∃ r, q.2 = some r) : Full P := by
  intro q hq e
  obtain ⟨r, hr⟩ := h q hq
  rw [hr] at e; cases e

end E3nn.LSH
