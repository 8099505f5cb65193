import Verif.Model.Compare
import Verif.Props.C59
import Verif.Props.C46
import Verif.Props.C04_C11

/-!
# C111: comparing arrays
-/

namespace E3nn.Compare

open E3nn.IArr E3nn.Wig

theorem shape_iff {α : Type} {m : MulIrrep} {c : List (List α)} : shapeOk m (some c) = true ↔ c.length = m.mul ∧ ∀ r ∈ c, r.length = m.ir.dim := by
  simp only [shapeOk, Bool.and_eq_true, beq_iff_eq, List.all_eq_true]

section
variable {ι K : Type} [Zero K] [DecidableEq K]

/-- Whether two copies of an irrep are equal, for each leading index, as an even scalar. -/
def sameBlock (b b' : Irrep × List (ι → K)) : Irrep × List (ι → Bool) :=
  (⟨0, .e⟩, [fun i => decide (b.2.map (fun v => v i) = b'.2.map fun v => v i)])

theorem rowEq_eq {r s : List (ι → K)} (h : r.length = s.length) : rowEq r s = [fun i => decide (r.map (fun v => v i) = s.map fun v => v i)] := by
  unfold rowEq
  congr 1
  funext i
  induction r generalizing s with
  | nil => cases s with
    | nil => rfl
    | cons b s => simp at h
  | cons a r ih => cases s with
    | nil => simp at h
    | cons b s =>
      simp only [List.length_cons, Nat.add_right_cancel_iff] at h
      simp only [List.zip_cons_cons, List.all_cons, ih h, List.map_cons, List.cons.injEq, Bool.decide_and]

theorem rowEq_zip {d : ℕ} : ∀ {a b : List (List (ι → K))}, a.length = b.length → (∀ r ∈ a, r.length = d) → (∀ r ∈ b, r.length = d) → ∀ ir : Irrep,
    (List.zipWith rowEq a b).map (fun r => ((⟨0, .e⟩ : Irrep), r)) = List.zipWith sameBlock (a.map fun r => (ir, r)) (b.map fun r => (ir, r))
  | [], [], _, _, _, _ => rfl
  | [], _ :: _, h, _, _, _ => by simp at h
  | _ :: _, [], h, _, _, _ => by simp at h
  | r :: a, s :: b, h, h1, h2, ir => by
    simp only [List.zipWith_cons_cons, List.map_cons]
    rw [rowEq_zip (by simpa using h) (fun r hr => h1 r (by simp [hr])) (fun r hr => h2 r (by simp [hr])) ir, rowEq_eq (by rw [h1 r (by simp), h2 s (by simp)])]
    rfl

theorem eqChunk_blk {m : MulIrrep} {a b : Chunk (ι → K)} (ha : shapeOk m a = true) (hb : shapeOk m b = true) :
    shapeOk (⟨m.mul, ⟨0, .e⟩⟩ : MulIrrep) (some (eqChunk m.mul a b)) = true ∧
    blk ((⟨m.mul, ⟨0, .e⟩⟩ : MulIrrep), some (eqChunk m.mul a b)) = List.zipWith sameBlock (blk (m, a)) (blk (m, b)) := by
  have hs : shapeOk (⟨m.mul, ⟨0, .e⟩⟩ : MulIrrep) (some (eqChunk m.mul a b)) = true := by
    rw [shape_iff]
    have hd : (⟨0, .e⟩ : Irrep).dim = 1 := rfl
    cases a with
    | none =>
      cases b with
      | none => exact ⟨by simp [eqChunk], by simp [eqChunk, hd]⟩
      | some b =>
        rw [shape_iff] at hb
        exact ⟨by simp [eqChunk, hb.1], by simp [eqChunk, rowEq, hd]⟩
    | some a =>
      rw [shape_iff] at ha
      cases b with
      | none => exact ⟨by simp [eqChunk, ha.1], by simp [eqChunk, rowEq, hd]⟩
      | some b =>
        rw [shape_iff] at hb
        refine ⟨by simp [eqChunk, ha.1, hb.1], fun r hr => ?_⟩
        simp only [eqChunk] at hr
        obtain ⟨i, hi, rfl⟩ := List.getElem_of_mem hr
        rw [List.getElem_zipWith]; rfl
  refine ⟨hs, ?_⟩
  rw [blk_some hs]
  have fillz : ∀ {c : List (List (ι → K))}, (∀ r ∈ c, r.length = m.ir.dim) → c.length = m.mul →
      blk (m, (none : Chunk (ι → K))) = (c.map fun s => s.map fun _ => (0 : ι → K)).map fun r => (m.ir, r) := by
    intro c h1 h2
    rw [blk_none]
    symm
    rw [List.eq_replicate_iff]
    refine ⟨by simp [h2], fun q hq => ?_⟩
    simp only [List.mem_map] at hq
    obtain ⟨r, ⟨s, hs, rfl⟩, rfl⟩ := hq
    congr 1
    rw [List.eq_replicate_iff]
    refine ⟨by simp [h1 s hs], by simp⟩
  cases a with
  | none =>
    cases b with
    | none =>
      rw [blk_none]
      simp only [eqChunk, List.map_replicate, List.zipWith_replicate, min_self]
      congr 1
      simp [sameBlock]
    | some b =>
      rw [blk_some hb]
      rw [shape_iff] at hb
      rw [fillz hb.2 hb.1, ← rowEq_zip (d := m.ir.dim) (by simp) _ hb.2]
      · simp only [eqChunk]
        congr 1
        rw [List.zipWith_map_left, List.zipWith_self]
      · intro r hr
        obtain ⟨s, hs, rfl⟩ := List.mem_map.mp hr
        rw [List.length_map, hb.2 s hs]
  | some a =>
    rw [blk_some ha]
    rw [shape_iff] at ha
    cases b with
    | none =>
      rw [fillz ha.2 ha.1, ← rowEq_zip (d := m.ir.dim) (by simp) ha.2 _]
      · simp only [eqChunk]
        congr 1
        rw [List.zipWith_map_right, List.zipWith_self]
      · intro r hr
        obtain ⟨s, hs, rfl⟩ := List.mem_map.mp hr
        rw [List.length_map, ha.2 s hs]
    | some b =>
      rw [blk_some hb]
      rw [shape_iff] at hb
      rw [← rowEq_zip (d := m.ir.dim) (by rw [ha.1, hb.1]) ha.2 hb.2]
      rfl

theorem zipWith_flatMap {α β γ δ : Type} (F : β → γ → δ) (f : α → List β) : ∀ {P Q : List α} {g : α → List γ}, P.length = Q.length →
    (∀ q ∈ P.zip Q, (f q.1).length = (g q.2).length) →
    List.zipWith F (P.flatMap f) (Q.flatMap g) = (P.zip Q).flatMap fun q => List.zipWith F (f q.1) (g q.2)
  | [], [], _, _, _ => rfl
  | [], _ :: _, _, h, _ => by simp at h
  | _ :: _, [], _, h, _ => by simp at h
  | p :: P, q :: Q, g, h, h2 => by
    simp only [List.flatMap_cons, List.zip_cons_cons]
    rw [List.zipWith_append (by exact h2 (p, q) (by simp)), zipWith_flatMap F f (by simpa using h) fun q hq => h2 q (by simp [hq])]

/-- **C111 (two arrays).** `x == y` raises `ValueError` if the irreps differ. Otherwise it has one even scalar for each copy of an irrep in `x`,
which is true at a leading index exactly if all the components of this copy are equal there; marked zeros count as zeros. -/
theorem C111_arrays (x y : IArr (ι → K)) (hx : x.Coherent) (hy : y.Coherent) :
    (x.irreps ≠ y.irreps → eqArrays x y = .error .valueError) ∧
    (x.irreps = y.irreps → ∃ z, eqArrays x y = .ok z ∧ z.Coherent ∧ z.irreps = x.irreps.map (fun m => ⟨m.mul, ⟨0, .e⟩⟩) ∧
      z.blocks = List.zipWith sameBlock x.blocks y.blocks) := by
  refine ⟨fun h => if_pos h, fun he => ?_⟩
  have hX := hx.inv.pairs
  have hY := hy.inv.pairs
  let ps : List (MulIrrep × Chunk (ι → Bool)) := ((x.irreps.zip x.chunks).zip (y.irreps.zip y.chunks)).map fun q =>
    (⟨q.1.1.mul, ⟨0, .e⟩⟩, some (eqChunk q.1.1.mul q.1.2 q.2.2))
  have hlx : x.chunks.length = x.irreps.length := by
    have h1 := congrArg List.length hX.2.1
    have h2 := congrArg List.length hX.2.2.1
    rw [List.length_map] at h1 h2
    omega
  have hly : y.chunks.length = y.irreps.length := by
    have h1 := congrArg List.length hY.2.1
    have h2 := congrArg List.length hY.2.2.1
    rw [List.length_map] at h1 h2
    omega
  have hsame : ∀ q ∈ (x.irreps.zip x.chunks).zip (y.irreps.zip y.chunks), q.1.1 = q.2.1 := by
    intro q hq
    obtain ⟨i, hi, rfl⟩ := List.getElem_of_mem hq
    simp only [List.getElem_zip, he]
  have hmem : ∀ q ∈ (x.irreps.zip x.chunks).zip (y.irreps.zip y.chunks), q.1 ∈ x.irreps.zip x.chunks ∧ q.2 ∈ y.irreps.zip y.chunks :=
    fun q hq => List.of_mem_zip hq
  have hk : ∀ q ∈ (x.irreps.zip x.chunks).zip (y.irreps.zip y.chunks), _ := fun q hq =>
    eqChunk_blk (m := q.1.1) (a := q.1.2) (b := q.2.2) (hX.1 q.1 (hmem q hq).1) (by rw [hsame q hq]; exact hY.1 q.2 (hmem q hq).2)
  obtain ⟨z, z1, z2, z3, -, -, -, z4, -⟩ := fromChunks_pairs ps (by
    intro p hp
    obtain ⟨q, hq, rfl⟩ := List.mem_map.mp hp
    exact (hk q hq).1)
  have e1 : ps.map Prod.fst = x.irreps.map fun m => ⟨m.mul, ⟨0, .e⟩⟩ := by
    apply List.ext_getElem
    · simp [ps, hlx, hly, he]
    · intro i h1 h2
      simp [ps]
  have e2 : ps.map Prod.snd = (x.irreps.zip (x.chunks.zip y.chunks)).map fun q => some (eqChunk q.1.mul q.2.1 q.2.2) := by
    apply List.ext_getElem
    · simp [ps, hlx, hly, he]
    · intro i h1 h2
      simp [ps]
  refine ⟨z, ?_, z2.coherent, by rw [z3, e1], ?_⟩
  · unfold eqArrays
    rw [if_neg (by simpa using he), ← e1, ← e2]; exact z1
  · have ez : z.irreps.zip z.chunks = ps := by
      rw [z3, z4, List.zip_map']; simp
    rw [z2.blocks_pairs, ez, hx.inv.blocks_pairs, hy.inv.blocks_pairs, zipWith_flatMap]
    · simp only [ps, List.flatMap_map]
      refine List.flatMap_congr fun q hq => ?_
      rw [(hk q hq).2]
      congr 1
      rw [hsame q hq]
    · rw [List.length_zip, List.length_zip, hlx, hly, he]
    · intro q hq
      rw [blk_length, blk_length, hsame q hq]

/-- **C111 (equal arrays).** All entries of `x == y` are true at a leading index exactly if the arrays are equal there. -/
theorem C111_all (x y : IArr (ι → K)) (hx : x.Coherent) (hy : y.Coherent) (z : IArr (ι → Bool)) (h : eqArrays x y = .ok z) (i : ι) :
    (∀ v ∈ z.array, v i = true) ↔ x.array.map (fun v => v i) = y.array.map fun v => v i := by
  have he : x.irreps = y.irreps := by
    by_contra hne
    rw [(C111_arrays x y hx hy).1 hne] at h; cases h
  obtain ⟨z', z1, z2, z3, z4⟩ := (C111_arrays x y hx hy).2 he
  rw [h] at z1; cases z1
  rw [← z2.inv.array_eq_blocks, z4, ← hx.inv.array_eq_blocks, ← hy.inv.array_eq_blocks]
  have hir : x.blocks.map Prod.fst = y.blocks.map Prod.fst := by rw [blocks_irs, blocks_irs, he]
  have hlx : ∀ b ∈ x.blocks, b.2.length = 2 * b.1.l + 1 := fun b hb => blocksOf_row_length _ _ hx.array_length b hb
  have hly : ∀ b ∈ y.blocks, b.2.length = 2 * b.1.l + 1 := fun b hb => blocksOf_row_length _ _ hy.array_length b hb
  generalize x.blocks = A at *
  generalize y.blocks = B at *
  clear z4 z3
  induction A generalizing B with
  | nil => cases B with
    | nil => simp
    | cons b B => simp at hir
  | cons a A ih => cases B with
    | nil => simp at hir
    | cons b B =>
      simp only [List.map_cons, List.cons.injEq] at hir
      have hab : a.2.length = b.2.length := by rw [hlx a (by simp), hly b (by simp), hir.1]
      have := ih (fun b hb => hlx b (by simp [hb])) B (fun b hb => hly b (by simp [hb])) hir.2
      simp only [List.zipWith_cons_cons, List.map_cons, List.flatten_cons, List.map_append, sameBlock, List.cons_append, List.nil_append, List.mem_cons, forall_eq_or_imp,
        decide_eq_true_eq]
      rw [List.append_eq_append_iff_of_size_eq_left (by simp [hab])]
      exact and_congr Iff.rfl this

/-- **C111 (a number).** Irreps with `l > 0` (and irreps without any copy) are refused; otherwise the components are compared with the number. -/
theorem C111_number (x : IArr (ι → K)) (hx : x.Coherent) (c : ι → K) :
    ((∃ ir ∈ expand x.irreps, 0 < ir.l) ∨ expand x.irreps = [] → eqNumber x c = .error .valueError) ∧
    (expand x.irreps ≠ [] → (∀ ir ∈ expand x.irreps, ir.l = 0) → ∃ z, eqNumber x c = .ok z ∧ z.Coherent ∧ z.irreps = x.irreps ∧
      z.array = x.array.map fun v i => decide (v i = c i)) := by
  have hL := C11_lmax x.irreps
  unfold eqNumber
  cases hl : x.irreps.lmax with
  | error e =>
    have he : e = .valueError := by
      unfold Irreps.lmax at hl
      split at hl
      · exact (Except.error.inj hl).symm
      · split at hl
        · cases hl
        · exact (Except.error.inj hl).symm
    subst he
    exact ⟨fun _ => rfl, fun h => absurd (hL.1.mp hl) h⟩
  | ok L =>
    obtain ⟨⟨ir, h1, h2⟩, h3⟩ := hL.2 L hl
    simp only [bind, Except.bind]
    constructor
    · rintro (⟨ir', h4, h5⟩ | h4)
      · rw [if_pos (by have := h3 ir' h4; omega)]
      · rw [h4] at h1; simp at h1
    · intro _ h0
      rw [if_neg (by rw [← h2, h0 ir h1]; simp)]
      obtain ⟨z, z1, z2, z3, z4, -⟩ := (C12_from_array x.irreps (x.array.map fun v i => decide (v i = c i))).1 (by rw [List.length_map]; exact hx.array_length)
      exact ⟨z, z1, z2, z3, z4⟩

end

theorem matVec_eval {ι : Type} (M : List (List ℝ)) (v : List (ι → ℝ)) (i : ι) : (matVec M v).map (fun w => w i) = matVec M (v.map fun w => w i) :=
  (matVec_map (LinearMap.proj i : (ι → ℝ) →ₗ[ℝ] ℝ) M v)

open Classical in
/-- **C111 (equivariance).** The comparison of the transformed arrays is the comparison of the arrays. -/
theorem C111_invariant {ι : Type} {R : Matrix (Fin 3) (Fin 3) ℝ} (hR : IsOrth R) (x y : IArr (ι → ℝ)) (hx : x.Coherent) (hy : y.Coherent) (z : IArr (ι → Bool))
    (h : eqArrays x y = .ok z) :
    ∃ x' y' z', x.transformByMatrix R = .ok x' ∧ y.transformByMatrix R = .ok y' ∧ eqArrays x' y' = .ok z' ∧ z'.irreps = z.irreps ∧ z'.array = z.array := by
  have he : x.irreps = y.irreps := by
    by_contra hne
    rw [(C111_arrays x y hx hy).1 hne] at h; cases h
  obtain ⟨x', x1, x2, x3, -, x5⟩ := C59_transform R x hx
  obtain ⟨y', y1, y2, y3, -, y5⟩ := C59_transform R y hy
  obtain ⟨w, w1, w2, w3, w4⟩ := (C111_arrays x y hx hy).2 he
  rw [h] at w1; cases w1
  obtain ⟨z', z1, z2, z3, z4⟩ := (C111_arrays x' y' x2 y2).2 (by rw [x3, y3, he])
  refine ⟨x', y', z', x1, y1, z1, by rw [z3, w3, x3], ?_⟩
  rw [← z2.inv.array_eq_blocks, ← w2.inv.array_eq_blocks, z4, w4, x5, y5, List.zipWith_map]
  congr 2
  have hir : x.blocks.map Prod.fst = y.blocks.map Prod.fst := by rw [blocks_irs, blocks_irs, he]
  have hlx : ∀ b ∈ x.blocks, b.2.length = 2 * b.1.l + 1 := fun b hb => blocksOf_row_length _ _ hx.array_length b hb
  have hly : ∀ b ∈ y.blocks, b.2.length = 2 * b.1.l + 1 := fun b hb => blocksOf_row_length _ _ hy.array_length b hb
  generalize x.blocks = A at *
  generalize y.blocks = B at *
  clear z4 w4 x5 y5
  induction A generalizing B with
  | nil => cases B with
    | nil => simp
    | cons b B => simp at hir
  | cons a A ih => cases B with
    | nil => simp at hir
    | cons b B =>
      simp only [List.map_cons, List.cons.injEq] at hir
      rw [List.zipWith_cons_cons, List.zipWith_cons_cons, ih (fun b hb => hlx b (by simp [hb])) B (fun b hb => hly b (by simp [hb])) hir.2]
      congr 1
      unfold sameBlock
      congr 3
      funext i
      rw [decide_eq_decide, matVec_eval, matVec_eval, ← hir.1]
      have inj : ∀ v w : List ℝ, v.length = 2 * a.1.l + 1 → w.length = 2 * a.1.l + 1 →
          matVec (matRows (dMatrix a.1 R)) v = matVec (matRows (dMatrix a.1 R)) w → v = w := by
        intro v w hv hw e
        have ho : (dMatrix a.1 R).transpose * dMatrix a.1 R = 1 := by
          rw [mul_eq_one_comm]; exact (C39_orthogonal a.1 hR).1
        have e2 := congrArg (matVec (matRows (dMatrix a.1 R).transpose)) e
        rwa [← matVec_mul _ _ hv, ← matVec_mul _ _ hw, ho, matVec_one hv, matVec_one hw] at e2
      exact ⟨fun e => inj _ _ (by simp [hlx a (by simp)]) (by simp [hly b (by simp), hir.1]) e, fun e => by rw [e]⟩

open Classical in
/-- **C111 (a number, equivariance).** On even scalars the comparison with a number is invariant. -/
theorem C111_number_invariant {ι : Type} {R : Matrix (Fin 3) (Fin 3) ℝ} (hR : IsOrth R) (x : IArr (ι → ℝ)) (hx : x.Coherent) (c : ι → ℝ)
    (h0 : ∀ ir ∈ expand x.irreps, ir = ⟨0, .e⟩) (z : IArr (ι → Bool)) (h : eqNumber x c = .ok z) :
    ∃ x' z', x.transformByMatrix R = .ok x' ∧ eqNumber x' c = .ok z' ∧ z'.irreps = z.irreps ∧ z'.array = z.array := by
  obtain ⟨x', x1, x2, x3, -, x5⟩ := C59_transform R x hx
  have ha : x'.array = x.array := by
    rw [← x2.inv.array_eq_blocks, ← hx.inv.array_eq_blocks, x5]
    congr 2
    conv_rhs => rw [← List.map_id x.blocks]
    apply List.map_congr_left
    intro b hb
    have hb1 : b.1 = ⟨0, .e⟩ := h0 _ (by rw [← blocks_irs]; exact List.mem_map_of_mem hb)
    have hl : b.2.length = 2 * b.1.l + 1 := blocksOf_row_length _ _ hx.array_length b hb
    have hD : dMatrix b.1 R = 1 := by
      rw [hb1]; exact (C39_defining hR).2.2.1
    rw [hD, matVec_one hl]; rfl
  refine ⟨x', z, x1, ?_, rfl, rfl⟩
  have : eqNumber x' c = eqNumber x c := by unfold eqNumber; rw [x3, ha]
  rw [this, h]

open Classical in
/-- The same is false of odd scalars, which the code accepts: `1x0o` with the component `1` compared with `1` gives true, and after the inversion
of space false, both with irreps `1x0o`. -/
theorem C111_odd_witness :
    let x : IArr (Unit → ℝ) := ⟨[⟨1, ⟨0, .o⟩⟩], [fun _ => 1], none, none⟩
    ∃ x' z z', x.Coherent ∧ x.transformByMatrix (-1) = .ok x' ∧ eqNumber x (fun _ => 1) = .ok z ∧ eqNumber x' (fun _ => 1) = .ok z' ∧
      z.array = [fun _ => true] ∧ z'.array = [fun _ => false] ∧ z.irreps = [⟨1, ⟨0, .o⟩⟩] := by
  intro x
  obtain ⟨x0, e1, hx, -⟩ := (C12_from_array [⟨1, ⟨0, .o⟩⟩] [(fun _ => 1 : Unit → ℝ)]).1 rfl
  have e2 : x0 = x := (Except.ok.inj e1).symm
  rw [e2] at hx
  obtain ⟨x', x1, x2, x3, -, x5⟩ := C59_transform (-1) x hx
  have hb : x.blocks = [(⟨0, .o⟩, [fun _ => 1])] := rfl
  have ha : x'.array = [fun _ => -1] := by
    rw [← x2.inv.array_eq_blocks, x5, hb]
    simp only [List.map_cons, List.map_nil, C39_inversion]
    simp [matVec, matRows, Parity.toInt]
    funext i; rfl
  obtain ⟨z, z1, z2, z3, z4⟩ := (C111_number x hx fun _ => 1).2 (by decide) (by decide)
  obtain ⟨z', w1, w2, w3, w4⟩ := (C111_number x' x2 fun _ => 1).2 (by rw [x3]; decide) (by rw [x3]; decide)
  refine ⟨x', z, z', hx, x1, z1, w1, ?_, ?_, z3⟩
  · rw [z4]; simp [x]
  · rw [w4, ha]; simp; norm_num

/-- A concrete case: on `1x0e + 2x1o`, flagged zeros against explicit components. -/
example : let x : IArr (Unit → ℤ) := ⟨[⟨1, ⟨0, .e⟩⟩, ⟨2, ⟨1, .o⟩⟩], [fun _ => 3, 0, 0, 0, 0, 0, 0], some [false, true], none⟩
    let y : IArr (Unit → ℤ) := ⟨[⟨1, ⟨0, .e⟩⟩, ⟨2, ⟨1, .o⟩⟩], [fun _ => 3, 0, 0, 0, 0, fun _ => 1, 0], none, none⟩
    ∃ z, eqArrays x y = .ok z ∧ z.array.map (fun v => v ()) = [true, true, false] := by
  exact ⟨_, rfl, by decide⟩

end E3nn.Compare
