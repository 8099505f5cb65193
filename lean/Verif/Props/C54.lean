import Verif.Model.Dropout
import Verif.Lemmas.MapRows
import Verif.Lemmas.TransformO3
import Verif.Props.C12_C20
import Verif.Props.C47
import Mathlib.Tactic.NormNum

/-! # C54: dropout -/

namespace E3nn.Dropout

open E3nn.IArr

variable {α : Type} [AddCommMonoid α] [Module ℝ α]

/-- The factors of the irreps of one term. -/
noncomputable def factors (p : ℝ) (bern : ℕ → List Bool) (m : MulIrrep) (a : Chunk α) : List ℝ :=
  open Classical in
  if 1 ≤ p then List.replicate m.mul 0
  else if p ≤ 0 then List.replicate m.mul 1
  else match a with
    | none => List.replicate m.mul 0
    | some _ => (bern m.mul).map fun b => (if b then 1 else 0) / (1 - p)

theorem flatMap_replicate (n d : ℕ) (c : ℝ) : (List.replicate n c).flatMap (List.replicate d) = List.replicate (n * d) c := by
  rw [List.flatMap_replicate, List.flatten_replicate_replicate]

theorem noise_eq (p : ℝ) (bern : ℕ → List Bool) (m : MulIrrep) (a : Chunk α) :
    noise p bern m a = (factors p bern m a).flatMap (List.replicate m.ir.dim) := by
  unfold noise factors
  split
  · rw [flatMap_replicate]
  · split
    · rw [flatMap_replicate]
    · cases a with
      | none => simp only; rw [flatMap_replicate]
      | some c => simp only; rw [List.flatMap_map]

theorem factors_length (p : ℝ) {bern : ℕ → List Bool} (hb : ∀ n, (bern n).length = n) (m : MulIrrep) (a : Chunk α) :
    (factors p bern m a).length = m.mul := by
  unfold factors
  split
  · simp
  · split
    · simp
    · cases a <;> simp [hb]

/-- Multiply an irrep by a number. -/
def scaleBlock (b : Irrep × List α) (s : ℝ) : Irrep × List α := (b.1, b.2.map fun a => s • a)

theorem zipWith_flatten (d : ℕ) (R : List (List α)) (F : List ℝ) (h : R.length = F.length) (hd : ∀ r ∈ R, r.length = d) :
    List.zipWith (fun a s => s • a) R.flatten (F.flatMap (List.replicate d)) = (List.zipWith (fun r s => r.map fun a => s • a) R F).flatten := by
  induction R generalizing F with
  | nil => simp
  | cons r R ih =>
    cases F with
    | nil => simp at h
    | cons s F =>
      simp only [List.flatten_cons, List.flatMap_cons, List.zipWith_cons_cons]
      have hr : r.length = d := hd r (by simp)
      rw [List.zipWith_append (by simpa using hr), ih F (by simpa using h) (fun r hr => hd r (by simp [hr])), ← hr, IArr.zipWith_replicate_right]

/-- The term after dropout. -/
noncomputable def newPair (p : ℝ) (bern : ℕ → List Bool) (q : MulIrrep × Chunk α) : MulIrrep × Chunk α :=
  (q.1, if flag p q.2 then none else some (List.zipWith (fun r s => r.map fun a => s • a) ((blk q).map Prod.snd) (factors p bern q.1 q.2)))

theorem flatten_blk (q : MulIrrep × Chunk α) (hq : shapeOk q.1 q.2 = true) : ((blk q).map Prod.snd).flatten = flatChunk q.1 q.2 := by
  obtain ⟨m, c⟩ := q
  cases c with
  | none =>
    rw [blk_none, List.map_replicate, List.flatten_replicate_replicate]
    rfl
  | some c =>
    rw [blk_some hq, List.map_map]
    simp only [flatChunk]
    congr 1
    exact List.map_id _

theorem flag_factors {p : ℝ} {bern : ℕ → List Bool} {m : MulIrrep} {a : Chunk α} (h : flag p a = true) :
    factors p bern m a = List.replicate m.mul 0 := by
  unfold flag at h
  unfold factors
  split
  · rfl
  · rename_i h1
    rw [if_neg h1] at h
    split
    · rename_i h2
      rw [if_pos h2] at h
      cases h
    · rename_i h2
      rw [if_neg h2] at h
      cases a with
      | none => rfl
      | some c => cases h

theorem newPair_spec (p : ℝ) {bern : ℕ → List Bool} (hb : ∀ n, (bern n).length = n) (q : MulIrrep × Chunk α) (hq : shapeOk q.1 q.2 = true) :
    shapeOk (newPair p bern q).1 (newPair p bern q).2 = true ∧
    flatChunk (newPair p bern q).1 (newPair p bern q).2 = List.zipWith (fun a s => s • a) (flatChunk q.1 q.2) (noise p bern q.1 q.2) ∧
    blk (newPair p bern q) = List.zipWith scaleBlock (blk q) (factors p bern q.1 q.2) := by
  have hd := blk_dim q hq
  have hlen : ((blk q).map Prod.snd).length = (factors p bern q.1 q.2).length := by rw [List.length_map, blk_length, factors_length p hb]
  have hd2 : ∀ r ∈ (blk q).map Prod.snd, r.length = q.1.ir.dim := by
    intro r hr
    obtain ⟨b, hb, rfl⟩ := List.mem_map.mp hr
    exact (hd b hb).2
  have hflat : List.zipWith (fun a s => s • a) (flatChunk q.1 q.2) (noise p bern q.1 q.2) =
      (List.zipWith (fun r s => r.map fun a => s • a) ((blk q).map Prod.snd) (factors p bern q.1 q.2)).flatten := by
    rw [noise_eq, ← flatten_blk q hq, zipWith_flatten _ _ _ hlen hd2]
  have hs : shapeOk q.1 (some (List.zipWith (fun r s => r.map fun a => s • a) ((blk q).map Prod.snd) (factors p bern q.1 q.2))) = true := by
    simp only [shapeOk, Bool.and_eq_true, beq_iff_eq, List.all_eq_true]
    refine ⟨by rw [List.length_zipWith, hlen, factors_length p hb]; simp, ?_⟩
    intro r hr
    obtain ⟨i, hi, rfl⟩ := List.mem_iff_getElem.mp hr
    rw [List.getElem_zipWith, List.length_map]
    exact hd2 _ (List.getElem_mem _)
  have hblk : List.zipWith scaleBlock (blk q) (factors p bern q.1 q.2) =
      (List.zipWith (fun r s => r.map fun a => s • a) ((blk q).map Prod.snd) (factors p bern q.1 q.2)).map fun r => (q.1.ir, r) := by
    rw [List.map_zipWith, List.zipWith_map_left]
    apply List.ext_getElem (by simp)
    intro i h1 h2
    rw [List.getElem_zipWith, List.getElem_zipWith]
    unfold scaleBlock
    rw [(hd _ (List.getElem_mem _)).1]
  by_cases hf : flag p q.2 = true
  · have hfac := flag_factors (bern := bern) (m := q.1) hf
    have e1 : newPair p bern q = (q.1, none) := by unfold newPair; rw [if_pos hf]
    have hz : List.zipWith (fun r s => r.map fun a => s • a) ((blk q).map Prod.snd) (factors p bern q.1 q.2) = List.replicate q.1.mul (List.replicate q.1.ir.dim (0 : α)) := by
      apply List.ext_getElem
      · rw [List.length_zipWith, hlen, factors_length p hb]; simp
      · intro i h1 h2
        rw [List.getElem_zipWith, List.getElem_replicate]
        simp only [hfac, List.getElem_replicate, zero_smul]
        rw [List.map_const', hd2 _ (List.getElem_mem _)]
    rw [e1, hflat, hblk, hz]
    refine ⟨rfl, ?_, ?_⟩
    · simp only [flatChunk]
      rw [List.flatten_replicate_replicate]
      rfl
    · rw [blk_none, List.map_replicate]
  · have e1 : newPair p bern q = (q.1, some (List.zipWith (fun r s => r.map fun a => s • a) ((blk q).map Prod.snd) (factors p bern q.1 q.2))) := by
      unfold newPair; rw [if_neg hf]
    rw [e1, hflat, hblk]
    exact ⟨hs, rfl, blk_some hs⟩

theorem zipWith_flat (f : MulIrrep × Chunk α → List α) (g : MulIrrep × Chunk α → List ℝ) (ps : List (MulIrrep × Chunk α)) (h : ∀ q ∈ ps, (f q).length = (g q).length) :
    List.zipWith (fun a s => s • a) (ps.map f).flatten (ps.map g).flatten = (ps.map fun q => List.zipWith (fun a s => s • a) (f q) (g q)).flatten := by
  induction ps with
  | nil => simp
  | cons q ps ih =>
    simp only [List.map_cons, List.flatten_cons]
    rw [List.zipWith_append (h q (by simp)), ih fun q hq => h q (by simp [hq])]

/-- All the factors. -/
noncomputable def allFactors (p : ℝ) (bern : ℕ → List Bool) (ps : List (MulIrrep × Chunk α)) : List ℝ := ps.flatMap fun q => factors p bern q.1 q.2

theorem drop_spec (p : ℝ) {bern : ℕ → List Bool} (hb : ∀ n, (bern n).length = n) {x : IArr α} (hx : Inv x) (hne : x.irreps ≠ []) :
    ∃ y, drop p bern x = .ok y ∧ Inv y ∧ y.irreps = x.irreps ∧ y.zeroFlags = (x.irreps.zip x.chunks).map (fun q => flag p q.2) ∧
      y.blocks = List.zipWith scaleBlock x.blocks (allFactors p bern (x.irreps.zip x.chunks)) := by
  have hp := hx.pairs
  set ps := (x.irreps.zip x.chunks).map (newPair p bern) with hps
  have hs : Shaped ps := by
    intro q hq
    obtain ⟨q', h, rfl⟩ := List.mem_map.mp hq
    exact (newPair_spec p hb q' (hp.1 q' h)).1
  obtain ⟨s1, s2, s3⟩ := pairs_spec ps hs
  have e1 : ps.map Prod.fst = x.irreps := by rw [hps, List.map_map]; exact hp.2.1
  have e2 : ps.map (fun p => p.2.isNone) = (x.irreps.zip x.chunks).map (fun q => flag p q.2) := by
    rw [hps, List.map_map]
    apply List.map_congr_left
    intro q _
    show (newPair p bern q).2.isNone = _
    unfold newPair
    by_cases hf : flag p q.2 = true
    · simp [hf]
    · simp [hf]
  have e3 : (ps.map fun p => flatChunk p.1 p.2).flatten = List.zipWith (fun a s => s • a) x.array ((x.irreps.zip x.chunks).map fun q => noise p bern q.1 q.2).flatten := by
    rw [← hp.2.2.2.2.2, zipWith_flat, hps, List.map_map]
    · congr 1
      apply List.map_congr_left
      intro q hq
      exact (newPair_spec p hb q (hp.1 q hq)).2.1
    · intro q hq
      rw [flatChunk_length (hp.1 q hq), noise_eq, List.length_flatMap]
      rw [List.map_congr_left (g := fun _ => q.1.ir.dim) (by simp), List.map_const', List.sum_replicate_nat, factors_length p hb]
      rfl
  rw [e1, e2, e3] at s1
  refine ⟨_, ?_, inv_nocache s1, rfl, rfl, ?_⟩
  · unfold drop
    rw [if_neg hne]
    exact make_nocache s1
  · have hI := inv_nocache s1
    rw [hI.blocks_pairs, hI.chunks_eq]
    have e4 : comp x.irreps (List.zipWith (fun a s => s • a) x.array ((x.irreps.zip x.chunks).map fun q => noise p bern q.1 q.2).flatten)
        ((x.irreps.zip x.chunks).map fun q => flag p q.2) = ps.map Prod.snd := by rw [← s2, e1, e2, e3]
    show (x.irreps.zip (comp _ _ _)).flatMap blk = _
    have e5 : x.irreps.zip (comp x.irreps (List.zipWith (fun a s => s • a) x.array ((x.irreps.zip x.chunks).map fun q => noise p bern q.1 q.2).flatten)
        ((x.irreps.zip x.chunks).map fun q => flag p q.2)) = ps := by
      rw [e4]
      conv_lhs => rw [← e1]
      rw [List.zip_map']
      simp
    show (x.irreps.zip (comp x.irreps (List.zipWith (fun a s => s • a) x.array ((x.irreps.zip x.chunks).map fun q => noise p bern q.1 q.2).flatten)
        ((x.irreps.zip x.chunks).map fun q => flag p q.2))).flatMap blk = _
    rw [e5, hx.blocks_pairs, hps, List.flatMap_map]
    unfold allFactors
    have : ∀ l : List (MulIrrep × Chunk α), (∀ q ∈ l, shapeOk q.1 q.2 = true) →
        l.flatMap (fun q => blk (newPair p bern q)) = List.zipWith scaleBlock (l.flatMap blk) (l.flatMap fun q => factors p bern q.1 q.2) := by
      intro l hl
      induction l with
      | nil => rfl
      | cons q l ih =>
        simp only [List.flatMap_cons]
        rw [List.zipWith_append (by rw [blk_length, factors_length p hb]), (newPair_spec p hb q (hl q (by simp))).2.2, ih fun q hq => hl q (by simp [hq])]
    exact this _ hp.1

theorem allFactors_length (p : ℝ) {bern : ℕ → List Bool} (hb : ∀ n, (bern n).length = n) {x : IArr α} (hx : Inv x) :
    (allFactors p bern (x.irreps.zip x.chunks)).length = (expand x.irreps).length := by
  have := hx.pairs.2.1
  unfold allFactors
  conv_rhs => rw [← this]
  generalize x.irreps.zip x.chunks = ps
  induction ps with
  | nil => rfl
  | cons q ps ih => simp only [List.flatMap_cons, List.length_append, factors_length p hb, ih, List.map_cons, expand, List.length_replicate]

/-- **C54.** Dropout multiplies every irrep, with all its components (and on all leading axes), by one number: `0` if `p ≥ 1`, `1` if `p ≤ 0`,
and otherwise `0` or `1/(1-p)` according to the mask of its term; `is_training=False` is the identity. -/
theorem C54_dropout (p : ℝ) (bern : ℕ → List Bool) (hb : ∀ n, (bern n).length = n) (x : IArr α) (hx : x.Coherent) :
    (∀ irreps, dropout p irreps false bern x = .ok x) ∧
    (∀ irreps : Option Irreps, (∀ ms, irreps = some ms → expand x.irreps = expand ms) → irreps.getD x.irreps ≠ [] →
      ∃ y fs, dropout p irreps true bern x = .ok y ∧ y.Coherent ∧ y.irreps = irreps.getD x.irreps ∧ fs.length = (expand x.irreps).length ∧
        y.blocks = List.zipWith scaleBlock x.blocks fs ∧
        (1 ≤ p → ∀ s ∈ fs, s = 0) ∧ (p ≤ 0 → ∀ s ∈ fs, s = 1) ∧ (0 < p → p < 1 → ∀ s ∈ fs, s = 0 ∨ s = 1 / (1 - p)) ∧
        (0 < p → p < 1 → (∀ f ∈ x.zeroFlags, f = false) → irreps = none →
          fs = x.irreps.flatMap fun m => (bern m.mul).map fun b => if b then 1 / (1 - p) else 0)) := by
  refine ⟨fun irreps => by unfold dropout; rfl, ?_⟩
  intro irreps hms hne
  have core : ∀ x : IArr α, Inv x → x.irreps ≠ [] → ∃ y fs, drop p bern x = .ok y ∧ y.Coherent ∧ y.irreps = x.irreps ∧ fs.length = (expand x.irreps).length ∧
        y.blocks = List.zipWith scaleBlock x.blocks fs ∧
        (1 ≤ p → ∀ s ∈ fs, s = 0) ∧ (p ≤ 0 → ∀ s ∈ fs, s = 1) ∧ (0 < p → p < 1 → ∀ s ∈ fs, s = 0 ∨ s = 1 / (1 - p)) ∧
        (0 < p → p < 1 → (∀ f ∈ x.zeroFlags, f = false) →
          fs = x.irreps.flatMap fun m => (bern m.mul).map fun b => if b then 1 / (1 - p) else 0) := by
    intro x hx hne
    obtain ⟨y, h1, h2, h3, h4, h5⟩ := drop_spec p hb hx hne
    refine ⟨y, _, h1, h2.coherent, h3, allFactors_length p hb hx, h5, ?_, ?_, ?_, ?_⟩
    · intro hp s hs
      obtain ⟨q, -, hq⟩ := List.mem_flatMap.mp hs
      unfold factors at hq
      rw [if_pos hp] at hq
      exact (List.mem_replicate.mp hq).2
    · intro hp s hs
      obtain ⟨q, -, hq⟩ := List.mem_flatMap.mp hs
      unfold factors at hq
      rw [if_neg (by linarith), if_pos hp] at hq
      exact (List.mem_replicate.mp hq).2
    · intro hp hp' s hs
      obtain ⟨⟨m, c⟩, -, hq⟩ := List.mem_flatMap.mp hs
      unfold factors at hq
      rw [if_neg (by linarith), if_neg (by linarith)] at hq
      cases c with
      | none => exact Or.inl (List.mem_replicate.mp hq).2
      | some c =>
        obtain ⟨b, -, rfl⟩ := List.mem_map.mp hq
        cases b
        · left; simp
        · right; simp
    · intro hp hp' hf
      unfold allFactors
      conv_rhs => rw [← hx.pairs.2.1, List.flatMap_map]
      apply List.flatMap_congr
      rintro ⟨m, c⟩ hq
      unfold factors
      rw [if_neg (by linarith), if_neg (by linarith)]
      have : (Option.isNone c) ∈ x.zeroFlags := by rw [← hx.pairs.2.2.2.2.1]; exact List.mem_map.mpr ⟨_, hq, rfl⟩
      cases c with
      | none => have := hf _ this; cases this
      | some c =>
        simp only
        apply List.map_congr_left
        intro b _
        cases b <;> simp
  unfold dropout
  cases irreps with
  | none =>
    obtain ⟨y, fs, h⟩ := core x hx.inv hne
    exact ⟨y, fs, h.1, h.2.1, h.2.2.1, h.2.2.2.1, h.2.2.2.2.1, h.2.2.2.2.2.1, h.2.2.2.2.2.2.1, h.2.2.2.2.2.2.2.1, fun a b c _ => h.2.2.2.2.2.2.2.2 a b c⟩
  | some ms =>
    obtain ⟨z, z1, z2, z3, z4, z5⟩ := (C13_rechunk x hx ms).1 (hms ms rfl)
    obtain ⟨y, fs, h1, h2, h3, h4, h5, h6, h7, h8, -⟩ := core z z2.inv (by rw [z3]; exact hne)
    refine ⟨y, fs, ?_, h2, by rw [h3, z3]; rfl, by rw [h4, z3, hms ms rfl], by rw [h5, z5], h6, h7, h8, fun _ _ _ h => by cases h⟩
    simp only [Bool.not_true]
    rw [if_neg (by simp), z1]
    exact h1

/-- `p ≤ 0` leaves the array unchanged. -/
theorem C54_identity (p : ℝ) (hp : p ≤ 0) (bern : ℕ → List Bool) (hb : ∀ n, (bern n).length = n) (x : IArr α) (hx : x.Coherent) (hne : x.irreps ≠ []) :
    ∃ y, dropout p none true bern x = .ok y ∧ y.irreps = x.irreps ∧ y.array = x.array := by
  obtain ⟨y, fs, h1, h2, h3, h4, h5, -, h7, -⟩ := (C54_dropout p bern hb x hx).2 none (by simp) hne
  refine ⟨y, h1, h3, ?_⟩
  have hfs : fs = List.replicate x.blocks.length 1 := by
    have hl : x.blocks.length = (expand x.irreps).length := by rw [← blocks_irs x, List.length_map]
    rw [hl, ← h4]
    exact List.eq_replicate_of_mem (h7 hp)
  rw [← h2.inv.array_eq_blocks, h5, hfs, IArr.zipWith_replicate_right, List.map_map, ← hx.inv.array_eq_blocks]
  congr 1
  apply List.map_congr_left
  intro b _
  simp [scaleBlock]

/-- **C54 (equivariance).** For every mask, dropout commutes with every representation. -/
theorem C54_equivariant (p : ℝ) (bern : ℕ → List Bool) (hb : ∀ n, (bern n).length = n)
    (M : (ir : Irrep) → Matrix (Fin (2 * ir.l + 1)) (Fin (2 * ir.l + 1)) ℝ) (x : IArr α) (hx : x.Coherent) (hne : x.irreps ≠ []) :
    ∃ x' y y' z, x.transform (fun ir => matRows (M ir)) = .ok x' ∧ dropout p none true bern x = .ok y ∧ y.transform (fun ir => matRows (M ir)) = .ok y' ∧
      dropout p none true bern x' = .ok z ∧ z.irreps = y'.irreps ∧ z.array = y'.array ∧ z.zeroFlags = y'.zeroFlags := by
  obtain ⟨x', x1, x2⟩ := transformBy_spec (Act_matRows (α := α) M) hx.inv
  obtain ⟨y, y1, y2, y3, y4, y5⟩ := drop_spec p hb hx.inv hne
  obtain ⟨y', w1, w2⟩ := transformBy_spec (Act_matRows (α := α) M) y2
  obtain ⟨z, z1, z2, z3, z4, z5⟩ := drop_spec p hb x2.inv' (by rw [x2.irreps]; exact hne)
  have hflag : ∀ q : MulIrrep × Chunk α, flag p (T (fun ir => matVec (α := α) (matRows (M ir))) q).2 = flag p q.2 := by
    rintro ⟨m, c⟩
    cases c <;> rfl
  have hfac : ∀ q : MulIrrep × Chunk α, factors p bern (T (fun ir => matVec (α := α) (matRows (M ir))) q).1 (T (fun ir => matVec (α := α) (matRows (M ir))) q).2 = factors p bern q.1 q.2 := by
    rintro ⟨m, c⟩
    cases c <;> rfl
  have ht : Tr (fun ir => matVec (α := α) (matRows (M ir))) y z := by
    refine Tr.of_blocks (Act_matRows M) y2 z2 (by rw [z3, x2.irreps, y3]) ?_ ?_
    · rw [z4, y4, x2.pairs, List.map_map]
      exact List.map_congr_left fun q _ => hflag q
    · rw [z5, y5, x2.blocks (Act_matRows M), List.map_zipWith, List.zipWith_map_left, x2.pairs]
      have : allFactors p bern ((x.irreps.zip x.chunks).map (T fun ir => matVec (α := α) (matRows (M ir)))) = allFactors p bern (x.irreps.zip x.chunks) := by
        unfold allFactors
        rw [List.flatMap_map]
        exact List.flatMap_congr fun q _ => hfac q
      rw [this]
      congr 1
      funext b s
      unfold scaleBlock TB
      simp only [Prod.mk.injEq, true_and]
      exact matVec_map (R := ℝ) (LinearMap.lsmul ℝ α s) (matRows (M b.1)) b.2
  obtain ⟨u1, u2, u3, -⟩ := ht.unique w2
  exact ⟨x', y, y', z, x1, y1, w1, z1, u1, u2, u3⟩

/-- **C54 (the masks are not independent).** Two terms with the same multiplicity always get the same mask, because the same key is used for
every term: `2x0e + 2x1o` drops the `i`-th scalar exactly when it drops the `i`-th vector. -/
theorem C54_shared_mask_witness (p : ℝ) (h0 : 0 < p) (h1 : p < 1) (bern : ℕ → List Bool) (hb : ∀ n, (bern n).length = n) (m m' : MulIrrep) (hm : m.mul = m'.mul)
    (a b : List (List α)) : factors p bern m (some a) = factors p bern m' (some b) := by
  unfold factors
  rw [if_neg (by linarith), if_neg (by linarith), if_neg (by linarith), if_neg (by linarith), hm]

/-- **C54 (empty).** Dropout of an array without irreps raises in training mode, whatever `p`. -/
theorem C54_empty (p : ℝ) (bern : ℕ → List Bool) (x : IArr α) (h : x.irreps = []) : dropout p none true bern x = .error .valueError := by
  unfold dropout drop
  simp [h]

/-- `2x0e + 1x1o`, `p = 1/2`, mask: the first scalar is dropped; the vector (mask of length 1) is kept. -/
example : (dropout (1/2 : ℝ) none true (fun n => List.ofFn fun i : Fin n => decide (n = 1 ∨ i.val = 1))
    (⟨[⟨2, ⟨0, .e⟩⟩, ⟨1, ⟨1, .o⟩⟩], [3, 4, 5, 6, 7], none, none⟩ : IArr ℝ)).toOption.map IArr.array = some [0, 8, 10, 12, 14] := by
  obtain ⟨y, fs, h1, h2, h3, h4, h5, -, -, -, h8⟩ := (C54_dropout (1/2 : ℝ) (fun n => List.ofFn fun i : Fin n => decide (n = 1 ∨ i.val = 1)) (by simp)
    (⟨[⟨2, ⟨0, .e⟩⟩, ⟨1, ⟨1, .o⟩⟩], [3, 4, 5, 6, 7], none, none⟩ : IArr ℝ) (Basic.coherent_plain _ _ rfl)).2 none (by simp) (by simp)
  have hf := h8 (by norm_num) (by norm_num) (by simp [IArr.zeroFlags]) rfl
  rw [h1]
  simp only [Except.toOption, Option.map_some, Option.some.injEq]
  rw [← h2.inv.array_eq_blocks, h5, hf]
  simp [IArr.blocks, expand, blocksOf, scaleBlock, List.ofFn_succ, List.replicate_succ]
  norm_num

end E3nn.Dropout
