import Verif.Props.C44
import Verif.Props.C33_C35
import Verif.Props.C12_C20
import Verif.Lemmas.CGScalar

/-!
# C45: `gate`
-/

namespace E3nn
open IArr TP Activ Wig Finset

/-! ### filtering and slicing keep positive multiplicities and unflagged terms -/

section
variable {α : Type} [Zero α]

/-- Positive multiplicities and no zero flag. -/
def Plain (x : IArr α) : Prop := ∀ q ∈ x.irreps.zip x.chunks, 0 < q.1.mul ∧ q.2 ≠ none

theorem filterBy_pairs {x : IArr α} (hx : x.Coherent) (k : IrCrit) :
    ∃ y, filterBy x k = .ok y ∧ Inv y ∧ y.irreps.zip y.chunks = (x.irreps.zip x.chunks).filter (fun q => decide (k.sat q.1.ir)) := by
  obtain ⟨y, y1, y2, y3, y4⟩ := C18_filter x hx k
  refine ⟨y, y1, y2.inv, ?_⟩
  obtain ⟨p1, p2, p3, p4, p5, p6⟩ := hx.inv.pairs
  set ps := x.irreps.zip x.chunks with hps
  obtain ⟨z, h1, h2, h3, h4, -, h6, h7, -⟩ := fromChunks_pairs (ps.filter fun q => decide (k.sat q.1.ir))
    (fun q hq => p1 q (List.mem_of_mem_filter hq))
  have e1 : (ps.filter fun q => decide (k.sat q.1.ir)).map Prod.fst = x.irreps.filter fun m => decide (k.sat m.ir) := by
    rw [← p2, List.filter_map]; rfl
  have e2 : (ps.filter fun q => decide (k.sat q.1.ir)).map Prod.snd =
      ((x.chunks.zip x.irreps).filter fun cm => decide (k.sat cm.2.ir)).map Prod.fst := by
    have : x.chunks.zip x.irreps = ps.map Prod.swap := by
      rw [hps]; exact (zip_swap' _ _).symm
    rw [this, List.filter_map, List.map_map]
    rfl
  have hfilt : ∀ cm ∈ x.chunks.zip x.irreps,
      (Irreps.contains (x.irreps.filter fun m => decide (k.sat m.ir)) cm.2.ir) =
      decide (k.sat cm.2.ir) := by
    rintro ⟨c, m⟩ hcm
    have hm := (List.of_mem_zip hcm).2
    rw [Bool.eq_iff_iff]
    simp only [Irreps.contains, List.contains_iff_mem, List.mem_map, List.mem_filter, decide_eq_true_eq]
    constructor
    · rintro ⟨m', ⟨_, h⟩, e⟩; rw [← e]; exact h
    · intro h; exact ⟨m, ⟨hm, h⟩, rfl⟩
  have key : ∀ (a b : Option Irreps.FilterArg) (c : Option Int),
      (a.isNone && b.isNone && c.isNone) = false →
      x.irreps.filter' a b c = .ok (x.irreps.filter fun m => decide (k.sat m.ir)) →
      x.filter a b c = .ok z := by
    intro a b c g1 g2
    unfold IArr.filter
    rw [if_neg (by simp [g1]), g2]
    simp only
    rw [List.filter_congr hfilt, ← e1, ← e2]
    exact h1
  have : y = z := by
    have : filterBy x k = .ok z := by
      cases k with
      | keep s =>
        refine key _ _ _ rfl ?_
        simp [Irreps.filter', IrCrit.sat, List.contains_eq_mem]
      | drop s =>
        refine key _ _ _ rfl ?_
        simp only [Irreps.filter', IrCrit.sat, List.contains_eq_mem, Option.isNone_none, Option.isNone_some,
          Option.isSome_none, Option.isSome_some, Bool.and_false, Bool.false_and, Bool.false_eq_true,
          if_false]
        congr 1
        apply List.filter_congr
        intro m _
        by_cases h : m.ir ∈ s <;> simp [h]
      | lmax L =>
        refine key _ _ _ rfl ?_
        simp [Irreps.filter', IrCrit.sat]
    rw [this] at y1
    injection y1 with h; exact h.symm
  rw [this, h3, h7, List.zip_map']
  simp

theorem sliceByMulLoop_plain {start stop : ℕ} : ∀ {i : ℕ} {ps : List (MulIrrep × Chunk α)} {r : List ((Int × Irrep) × Chunk α)},
    (start < stop ∨ start = 0) → (∀ q ∈ ps, 0 < q.1.mul ∧ q.2 ≠ none) → sliceByMulLoop start stop i ps = .ok r → ∀ q ∈ r, 0 < q.1.1 ∧ q.2 ≠ none := by
  intro i ps
  induction ps generalizing i with
  | nil =>
    intro r _ _ h q hq
    simp only [sliceByMulLoop, Except.ok.injEq] at h
    subst h; simp at hq
  | cons p ps ih =>
    obtain ⟨m, c⟩ := p
    intro r hs hp h
    obtain ⟨hm, hc⟩ := hp _ List.mem_cons_self
    have hp' := fun q hq => hp q (List.mem_cons_of_mem _ hq)
    simp only at hm hc
    unfold sliceByMulLoop at h
    by_cases h1 : start ≤ i ∧ i + m.mul ≤ stop
    · rw [if_pos h1] at h
      cases h2 : sliceByMulLoop start stop (i + m.mul) ps with
      | error e => rw [h2] at h; cases h
      | ok r' =>
        rw [h2] at h
        simp only [bind, Except.bind, pure, Except.pure, Except.ok.injEq] at h
        subst h
        intro q hq
        rcases List.mem_cons.mp hq with rfl | hq
        · exact ⟨by simp only; omega, hc⟩
        · exact ih hs hp' h2 q hq
    · rw [if_neg h1] at h
      by_cases h3 : start < i + m.mul ∧ i < stop
      · rw [if_pos h3] at h
        cases c with
        | none => exact absurd rfl hc
        | some c =>
          simp only at h
          cases h2 : sliceByMulLoop start stop (i + m.mul) ps with
          | error e => rw [h2] at h; cases h
          | ok r' =>
            rw [h2] at h
            simp only [bind, Except.bind, pure, Except.pure, Except.ok.injEq] at h
            subst h
            intro q hq
            rcases List.mem_cons.mp hq with rfl | hq
            · exact ⟨by simp only; omega, by simp⟩
            · exact ih hs hp' h2 q hq
      · rw [if_neg h3] at h
        exact ih hs hp' h

theorem ofPairs_pos {ps : List (Int × Irrep)} {ms : Irreps} (hp : ∀ q ∈ ps, 0 < q.1) (h : Irreps.ofPairs ps = .ok ms) : ∀ m ∈ ms, 0 < m.mul := by
  induction ps generalizing ms with
  | nil =>
    unfold Irreps.ofPairs at h
    simp [pure, Except.pure] at h
    subst h; simp
  | cons p ps ih =>
    have hp0 := hp _ List.mem_cons_self
    unfold Irreps.ofPairs at h
    rw [List.mapM_cons] at h
    obtain ⟨pm, pir⟩ := p
    simp only at hp0 h
    rw [if_pos (by omega)] at h
    cases h2 : Irreps.ofPairs ps with
    | error e => unfold Irreps.ofPairs at h2; rw [h2] at h; cases h
    | ok r =>
      have h2' := h2
      unfold Irreps.ofPairs at h2
      rw [h2] at h
      simp only [bind, Except.bind, pure, Except.pure, Except.ok.injEq] at h
      subst h
      intro m hm
      rcases List.mem_cons.mp hm with rfl | hm
      · simp only; omega
      · exact ih (fun q hq => hp q (List.mem_cons_of_mem _ hq)) h2' m hm

theorem fromChunks_flags {ms : Irreps} {cs : List (Chunk α)} {y : IArr α} (h : fromChunks ms cs = .ok y) : y.irreps = ms ∧ y.zeroFlags = cs.map Option.isNone := by
  unfold fromChunks at h
  split at h
  · cases h
  split at h
  · cases h
  split at h
  · cases h
  simp only at h
  generalize (if ms.dim > 0 then (List.map (fun mc => flatChunk mc.1 mc.2) (List.zip ms cs)).flatten else List.replicate 0 0) = a at h
  unfold make at h
  simp only at h
  by_cases h1 : a.length ≠ ms.dim
  · rw [if_pos h1] at h; cases h
  rw [if_neg h1] at h
  by_cases h2 : (!((ms.zip cs).all fun mc => shapeOk mc.1 mc.2)) = true
  · rw [if_pos h2] at h; cases h
  rw [if_neg h2] at h
  by_cases h3 : decide ((cs.map Option.isNone).length ≠ ms.length) = true
  · rw [if_pos h3] at h; cases h
  rw [if_neg h3] at h
  by_cases h4 : decide (cs.length ≠ ms.length) = true
  · rw [if_pos h4] at h; cases h
  rw [if_neg h4] at h
  injection h with h
  subst h
  exact ⟨rfl, rfl⟩

theorem sliceByMul_plain {x y : IArr α} {s : PySlice} (hs : (s.bounds x.irreps.numIrreps).1 < (s.bounds x.irreps.numIrreps).2 ∨ (s.bounds x.irreps.numIrreps).1 = 0)
    (hx : Plain x) (h : x.sliceByMul s = .ok y) : (∀ m ∈ y.irreps, 0 < m.mul) ∧ ∀ z ∈ y.zeroFlags, z = false := by
  unfold sliceByMul at h
  split at h
  · cases h
  split at h
  · simp only [bind, Except.bind] at h
    split at h
    · cases h
    · rename_i r hr
      have hg := sliceByMulLoop_plain hs hx hr
      split at h
      · cases h
      · rename_i ms hms
        obtain ⟨e1, e2⟩ := fromChunks_flags h
        constructor
        · rw [e1]
          exact ofPairs_pos (fun q hq => by obtain ⟨q', h1, rfl⟩ := List.mem_map.mp hq; exact (hg q' h1).1) hms
        · rw [e2]
          intro z hz
          obtain ⟨c, hc, rfl⟩ := List.mem_map.mp hz
          obtain ⟨q', h1, rfl⟩ := List.mem_map.mp hc
          have := (hg q' h1).2
          cases hq : q'.2 with
          | none => exact absurd hq this
          | some _ => rfl
  · cases h

end

/-! ### multiplying by scalars -/

section
variable {ι : Type}

theorem irsOut_scalar (p q : Parity) (l : ℕ) : irsOut none ⟨0, p⟩ ⟨l, q⟩ = [⟨l, p.mul q⟩] := by
  simp [irsOut, Irrep.mul]

/-- The factor in front of the product with a scalar: one, except when `irrep_normalization = "none"`. -/
noncomputable def gateFactor (n : IrNorm) (l : ℕ) : ℝ := if n = .none then 1 / Real.sqrt (2 * l + 1) else 1

/-- The product of a scalar block and a block: the parities multiply, every component is multiplied by the scalar. -/
noncomputable def scaled (n : IrNorm) (s v : Irrep × List (Col ι)) : Irrep × List (Col ι) :=
  (⟨v.1.l, s.1.p.mul v.1.p⟩, v.2.map fun w i => gateFactor n v.1.l * (s.2.getD 0 0 i * w i))

theorem contract_scalar {n : IrNorm} (hn : n ≠ .other) (p q : Parity) (l : ℕ) (a b : List (Col ι)) (ha : a.length = 1) (hb : b.length = 2 * l + 1) :
    contract (Irrep.dim ⟨l, p.mul q⟩) (normC (realCtx (Col ι)) n ⟨0, p⟩ ⟨l, q⟩ ⟨l, p.mul q⟩) a b =
      b.map fun w i => gateFactor n l * (a.getD 0 0 i * w i) := by
  rw [normC_contract (realCtx_shape _) n _ _ _ _ _ (by simpa [Irrep.dim] using ha) (by simpa [Irrep.dim] using hb)]
  obtain ⟨x, rfl⟩ := exists_ofFn (n := 2 * 0 + 1) (by simpa using ha)
  obtain ⟨y, rfl⟩ := exists_ofFn hb
  have hc : bilinear (tpCoef (realCtx (Col ι)) n ⟨0, p⟩ ⟨l, q⟩ ⟨l, p.mul q⟩) ((realCtx (Col ι)).cg 0 l l) 0 l l (List.ofFn x) (List.ofFn y) =
      (bilinear 1 ((realCtx (Col ι)).cg 0 l l) 0 l l (List.ofFn x) (List.ofFn y)).map
        fun w => tpCoef (realCtx (Col ι)) n ⟨0, p⟩ ⟨l, q⟩ ⟨l, p.mul q⟩ * w := by
    unfold bilinear
    rw [List.map_map]
    apply List.map_congr_left
    intro k _
    simp only [Function.comp, ← List.sum_map_mul_left]
    refine congrArg List.sum (List.map_congr_left fun i _ => ?_)
    refine congrArg List.sum (List.map_congr_left fun j _ => ?_)
    ring
  simp only
  rw [hc, bilinear_ofFn, List.map_ofFn, List.map_ofFn]
  congr 1
  funext c
  have h0 : (univ : Finset (Fin (2 * 0 + 1))) = {0} := rfl
  rw [Function.comp, h0, Finset.sum_singleton]
  simp only [SU2.cg_zero_left, List.getD_eq_getElem?_getD, Function.comp]
  rw [Finset.sum_eq_single c (fun b _ hb => by rw [if_neg hb, zero_smul]) (fun h => absurd (Finset.mem_univ _) h), if_pos rfl]
  funext i
  have e0 : ((List.ofFn x)[0]?.getD 0 : Col ι) = x 0 := by simp
  rw [e0]
  have hs : Real.sqrt (2 * (l : ℝ) + 1) ≠ 0 := by positivity
  cases n
  · simp [tpCoef, realCtx, gateFactor]
    field_simp
  · simp [tpCoef, realCtx, gateFactor]
    field_simp
  · simp [tpCoef, realCtx, gateFactor]
  · exact absurd rfl hn

theorem mem_expand_of_pos {ms : Irreps} {m : MulIrrep} (h : m ∈ ms) (hp : 0 < m.mul) : m.ir ∈ expand ms := by
  unfold expand
  exact List.mem_flatMap.mpr ⟨m, h, List.mem_replicate.mpr ⟨by omega, rfl⟩⟩

theorem expand_scalar {ms : Irreps} (h : ∀ m ∈ ms, m.ir.l = 0) : ∀ ir ∈ expand ms, ir.l = 0 := by
  intro ir hir
  obtain ⟨m, hm, h1⟩ := List.mem_flatMap.mp hir
  rw [(List.mem_replicate.mp h1).2]; exact h m hm

theorem zipWith_zip {β γ δ : Type} (f : β → γ → δ) (a : List β) (b : List γ) : List.zipWith f a b = (a.zip b).map fun q => f q.1 q.2 := by
  rw [List.zip, List.map_zipWith]

/-- `x * y` when every irrep of `x` is a scalar: block by block, in order. -/
theorem mulArrays_scalars {n : IrNorm} (hn : n ≠ .other) {x y : IArr (Col ι)} (hx : x.Coherent) (hy : y.Coherent)
    (z1 : ∀ m ∈ x.irreps, 0 < m.mul) (z2 : ∀ m ∈ y.irreps, 0 < m.mul) (hl : ∀ m ∈ x.irreps, m.ir.l = 0)
    (he : x.blocks.length = y.blocks.length) :
    ∃ z, mulArrays n x y = .ok z ∧ z.Coherent ∧ z.blocks = List.zipWith (scaled n) x.blocks y.blocks := by
  have hlen : ∀ w : IArr (Col ι), w.irreps.numIrreps = w.blocks.length := by
    intro w
    rw [Irreps.numIrreps_eq_length_expand, ← blocks_irs, List.length_map]
  have hnum : x.irreps.numIrreps = y.irreps.numIrreps := by rw [hlen, hlen, he]
  obtain ⟨r, hr⟩ := alignTwo_ok z1 z2 hnum
  have hr1 := (alignTwo_spec hr).1
  obtain ⟨u, v, a1, a2, a3, a4, a5, a6, a7, a8, a9⟩ := alignArrays_spec hx.inv hy.inv hr
  obtain ⟨u', v', z, b1, b2, b3, b4, b5, b6, b7, b8, b9, b10, -⟩ := elementwise_spec (realCtx_shape (Col ι)).ok hn none hx.inv hy.inv hnum hr
  rw [a1] at b1
  injection b1 with b1
  obtain ⟨rfl, rfl⟩ := Prod.mk.inj b1
  have hm := pairs_muls a4 a5 (by rw [a6, a7, (alignTwo_spec hr).2.2])
  have hz : z.blocks = List.zipWith (scaled n) x.blocks y.blocks := by
    rw [b9.blocks_pairs, b10, ← a8, ← a9, a4.blocks_pairs, a5.blocks_pairs, zipWith_zip, ← zip_blk hm]
    unfold elEntries
    rw [List.flatMap_map, List.flatMap_assoc, List.map_flatMap]
    apply List.flatMap_congr
    intro pq hpq
    rw [List.flatMap_map]
    have s1 := a4.pairs.1 _ (List.of_mem_zip hpq).1
    have s2 := a5.pairs.1 _ (List.of_mem_zip hpq).2
    have hmu := zip_muls hm _ hpq
    simp only [blk_zip (normC_shape (realCtx_shape (Col ι)).ok n _ _ _) s1 s2 hmu]
    by_cases h0 : pq.1.1.mul = 0
    · have : blk pq.1 = [] := List.length_eq_zero_iff.mp (by rw [blk_length, h0])
      simp [this]
    · have hl0 : pq.1.1.ir.l = 0 := by
        refine expand_scalar hl _ ?_
        rw [← hr1, ← a6]
        refine mem_expand_of_pos ?_ (by omega)
        have := (List.of_mem_zip hpq).1
        exact (List.of_mem_zip (a := pq.1.1) (b := pq.1.2) this).1
      obtain ⟨⟨⟨mul1, ⟨l1, p1⟩⟩, c1⟩, ⟨⟨mul2, ⟨l2, p2⟩⟩, c2⟩⟩ := pq
      simp only at hl0
      subst hl0
      simp only [irsOut_scalar, List.flatMap_cons, List.flatMap_nil, List.append_nil]
      apply List.map_congr_left
      rintro ⟨⟨i1, d1⟩, ⟨i2, d2⟩⟩ hb
      have f1 := blk_fst _ _ (List.of_mem_zip hb).1
      have f2 := blk_fst _ _ (List.of_mem_zip hb).2
      simp only at f1 f2
      subst f1 f2
      have g1 := block_length a4.coherent (b := (⟨0, p1⟩, d1)) (by rw [a4.blocks_pairs]; exact List.mem_flatMap.mpr ⟨_, (List.of_mem_zip hpq).1, (List.of_mem_zip hb).1⟩)
      have g2 := block_length a5.coherent (b := (⟨l2, p2⟩, d2)) (by rw [a5.blocks_pairs]; exact List.mem_flatMap.mpr ⟨_, (List.of_mem_zip hpq).2, (List.of_mem_zip hb).2⟩)
      rw [contract_scalar hn p1 p2 l2 d1 d2 (by simpa [Irrep.dim] using g1) (by simpa [Irrep.dim] using g2)]
      rfl
  refine ⟨z, ?_, b9.coherent, hz⟩
  unfold mulArrays
  rw [if_neg (by simpa using hnum), b8]
  simp only [bind, Except.bind]
  rw [if_neg]
  · rfl
  · rw [hlen, hlen, hz, List.length_zipWith]; omega

/-! ### the activations of scalars -/

/-- What the activation of scalars does to a block: even scalars go through `e`, odd scalars through `o` and get its parity. -/
noncomputable def actBlock (F : ℕ → ℝ → ℝ) (e o : ℕ) (b : Irrep × List (Col ι)) : Irrep × List (Col ι) :=
  if b.1.p = .e then (⟨0, .e⟩, b.2.map fun v i => F e (v i))
  else (⟨0, if parityFunction (F o) = -1 then .o else .e⟩, b.2.map fun v i => F o (v i))

theorem scalar_cases {ir : Irrep} (h : ir.l = 0) : ir = ⟨0, .e⟩ ∨ ir = ⟨0, .o⟩ := by
  obtain ⟨l, p⟩ := ir
  simp only at h; subst h
  cases p <;> simp

/-- The condition on the functions of the odd scalars. -/
def OddOk (F : ℕ → ℝ → ℝ) (o : ℕ) : Prop := parityFunction (F o) = 1 ∨ parityFunction (F o) = -1

theorem act_scalars (env : ℕ → ℝ → ℝ) (pts : List ℝ) (e o : ℕ) (nrm : Bool) {z : IArr (Col ι)} (hz : z.Coherent)
    (hl : ∀ m ∈ z.irreps, m.ir.l = 0) (hf : ∀ b ∈ z.zeroFlags, b = false)
    (ho : (∃ m ∈ z.irreps, m.ir.p = .o) → OddOk (effective env pts nrm) o) :
    ∃ y, scalarActivation env pts none e o nrm z = .ok y ∧ y.Coherent ∧ y.irreps.map MulIrrep.mul = z.irreps.map MulIrrep.mul ∧
      (∀ m ∈ y.irreps, m.ir.l = 0) ∧ y.blocks = z.blocks.map (actBlock (effective env pts nrm) e o) := by
  set F := effective env pts nrm with hF
  set g : MulIrrep → Option ℕ := fun m => if m.ir = ⟨0, .e⟩ then some e else if m.ir = ⟨0, .o⟩ then some o else none with hg
  obtain ⟨y, y1, y2, y3, y4⟩ := C44_scalar_activation env pts (z.irreps.map g) e o nrm z hz (by simp)
    (by
      intro i m a h1 h2 f hfa
      have hm := hl m (List.mem_of_getElem? h1)
      refine ⟨hm, fun hp => ?_⟩
      rw [List.getElem?_map, h1] at h2
      simp only [Option.map_some, Option.some.injEq] at h2
      have hne : m.ir ≠ ⟨0, .e⟩ := by intro h; rw [h] at hp; cases hp
      have : m.ir = ⟨0, .o⟩ := (scalar_cases hm).resolve_left hne
      rw [hg] at h2
      simp only [if_neg hne, if_pos this] at h2
      rw [hfa] at h2
      injection h2 with h2
      rw [← h2]
      exact ho ⟨m, List.mem_of_getElem? h1, hp⟩)
    (by
      intro i f h1 _
      have := hf _ (List.mem_of_getElem? h1)
      cases this)
  rw [← terms_fst z, List.map_map, ← hF] at y4
  have hzw : ∀ (T : List (MulIrrep × List (Col ι))), List.zipWith (activated F) T (T.map (g ∘ Prod.fst)) = T.map fun t => activated F t (g t.1) := by
    intro T
    induction T with
    | nil => rfl
    | cons t T ih => simp only [List.map_cons, List.zipWith_cons_cons, ih, Function.comp]
  rw [hzw] at y4
  have hmem : ∀ t ∈ z.terms, t.1 ∈ z.irreps := by
    intro t ht; rw [← terms_fst z]; exact List.mem_map_of_mem ht
  have hact : ∀ t ∈ z.terms, activated F t (g t.1) = (⟨t.1.mul, (actBlock F e o (t.1.ir, t.2)).1⟩, (actBlock F e o (t.1.ir, t.2)).2) := by
    intro t ht
    rcases scalar_cases (hl _ (hmem t ht)) with h | h <;> simp [hg, h, activated, actBlock]
  have hir : y.irreps = z.terms.map fun t => ⟨t.1.mul, (actBlock F e o (t.1.ir, t.2)).1⟩ := by
    rw [← terms_fst y, y4, List.map_map]
    exact List.map_congr_left fun t ht => by simp only [Function.comp, hact t ht]
  refine ⟨y, ?_, y2, ?_, ?_, ?_⟩
  · rw [C44_default]; exact y1
  · rw [hir, ← terms_fst z, List.map_map, List.map_map]; rfl
  · rw [hir]
    intro m hm
    obtain ⟨t, -, rfl⟩ := List.mem_map.mp hm
    simp only [actBlock]; split <;> rfl
  · rw [blocks_eq, blocks_eq, y4, List.flatMap_map, List.map_flatMap]
    apply List.flatMap_congr
    intro t ht
    rw [hact t ht]
    simp only [blocksOf_replicate, List.map_map]
    have hd : t.1.ir.dim = 1 := by simp [Irrep.dim, hl _ (hmem t ht)]
    have hd' : (actBlock F e o (t.1.ir, t.2)).1.dim = 1 := by simp only [actBlock]; split <;> rfl
    rw [hd, hd']
    unfold actBlock
    by_cases hp : t.1.ir.p = .e
    · simp only [if_pos hp, rows_map, List.map_map]
      exact List.map_congr_left fun r _ => by simp only [Function.comp, if_pos hp]
    · simp only [if_neg hp, rows_map, List.map_map]
      exact List.map_congr_left fun r _ => by simp only [Function.comp, if_neg hp]

theorem filter_blocks {x y : IArr (Col ι)} (hx : Inv x) (hy : Inv y) {P : Irrep → Bool}
    (h : y.irreps.zip y.chunks = (x.irreps.zip x.chunks).filter fun q => P q.1.ir) : y.blocks = x.blocks.filter fun b => P b.1 := by
  rw [hy.blocks_pairs, hx.blocks_pairs, h]
  generalize x.irreps.zip x.chunks = ps
  induction ps with
  | nil => rfl
  | cons p ps ih =>
    rw [List.flatMap_cons, List.filter_append, ← ih, List.filter_cons]
    by_cases hP : P p.1.ir = true
    · have : (blk p).filter (fun b => P b.1) = blk p := List.filter_eq_self.mpr fun b hb => by rw [blk_fst p b hb]; exact hP
      rw [if_pos hP, this, List.flatMap_cons]
    · have : (blk p).filter (fun b => P b.1) = [] := List.filter_eq_nil_iff.mpr fun b hb => by rw [blk_fst p b hb]; exact hP
      rw [if_neg hP, this, List.nil_append]

theorem scalar_list (ir : Irrep) : ir ∈ [(⟨0, .e⟩ : Irrep), ⟨0, .o⟩] ↔ ir.l = 0 := by
  obtain ⟨l, p⟩ := ir
  cases p <;> simp

theorem length_zero_iff {y : IArr (Col ι)} (hy : Inv y) : y.array.length = 0 ↔ y.blocks = [] := by
  rw [← hy.array_eq_blocks]
  constructor
  · intro h
    cases hb : y.blocks with
    | nil => rfl
    | cons b B =>
      exfalso
      have := block_length hy.coherent (b := b) (by rw [hb]; exact List.mem_cons_self)
      rw [hb] at h
      simp only [List.map_cons, List.flatten_cons, List.length_append, this, Irrep.dim] at h
      omega
  · intro h; rw [h]; rfl

theorem Plain.noflags {x : IArr (Col ι)} (hx : Inv x) (h : Plain x) : (∀ m ∈ x.irreps, 0 < m.mul) ∧ ∀ z ∈ x.zeroFlags, z = false := by
  obtain ⟨p1, p2, p3, p4, p5, p6⟩ := hx.pairs
  constructor
  · intro m hm
    rw [← p2] at hm
    obtain ⟨q, hq, rfl⟩ := List.mem_map.mp hm
    exact (h q hq).1
  · intro z hz
    rw [← p5] at hz
    obtain ⟨q, hq, rfl⟩ := List.mem_map.mp hz
    have := (h q hq).2
    revert this
    cases q.2 <;> simp

theorem dim_scalar {z : IArr (Col ι)} (hl : ∀ m ∈ z.irreps, m.ir.l = 0) : z.irreps.dim = z.irreps.numIrreps := by
  generalize z.irreps = ms at *
  induction ms with
  | nil => rfl
  | cons m ms ih =>
    have h := ih fun m hm => hl m (List.mem_cons_of_mem _ hm)
    have h0 := hl m List.mem_cons_self
    simp only [Irreps.dim, Irreps.numIrreps, List.map_cons, List.sum_cons, MulIrrep.dim, Irrep.dim, h0] at *
    omega

theorem numIrreps_blocks (w : IArr (Col ι)) : w.irreps.numIrreps = w.blocks.length := by
  rw [Irreps.numIrreps_eq_length_expand, ← blocks_irs, List.length_map]

/-- **C45 (values).** Let `S` be the scalar blocks of the input and `V` the others, every multiplicity positive and no scalar term zero-flagged.
Without `V`, all scalars are activated. With fewer scalars than non-scalars, `ValueError`. Otherwise the last `|V|` scalars are the
gates: the result is the other scalars, activated, followed by the non-scalars in order, each multiplied by its activated gate. -/
theorem C45_gate (env : ℕ → ℝ → ℝ) (pts : List ℝ) {n : IrNorm} (hn : n ≠ .other) (evenAct oddAct evenGate oddGate : ℕ) (nrm : Bool)
    (x : IArr (Col ι)) (hx : x.Coherent) (hpos : ∀ m ∈ x.irreps, 0 < m.mul)
    (hflag : ∀ (i : ℕ) (m : MulIrrep), x.irreps[i]? = some m → m.ir.l = 0 → x.zeroFlags[i]? = some false)
    (hodd : (∃ m ∈ x.irreps, m.ir = ⟨0, .o⟩) → OddOk (effective env pts nrm) oddAct ∧ OddOk (effective env pts nrm) oddGate) :
    let F := effective env pts nrm
    let S := x.blocks.filter fun b => b.1.l = 0
    let V := x.blocks.filter fun b => b.1.l ≠ 0
    (V = [] → ∃ y, gate env pts n evenAct oddAct evenGate oddGate nrm x = .ok y ∧ y.Coherent ∧ y.blocks = S.map (actBlock F evenAct oddAct)) ∧
    (S.length < V.length → gate env pts n evenAct oddAct evenGate oddGate nrm x = .error .valueError) ∧
    (V ≠ [] → V.length ≤ S.length → ∃ y, gate env pts n evenAct oddAct evenGate oddGate nrm x = .ok y ∧ y.Coherent ∧
      y.blocks = (S.take (S.length - V.length)).map (actBlock F evenAct oddAct) ++
        List.zipWith (scaled n) ((S.drop (S.length - V.length)).map (actBlock F evenGate oddGate)) V) := by
  intro F S V
  obtain ⟨s, s1, s2, s3⟩ := filterBy_pairs hx (.keep [⟨0, .e⟩, ⟨0, .o⟩])
  obtain ⟨v, v1, v2, v3⟩ := filterBy_pairs hx (.drop [⟨0, .e⟩, ⟨0, .o⟩])
  simp only [IrCrit.sat, scalar_list] at s3 v3
  have hS : s.blocks = S := filter_blocks hx.inv s2 (P := fun ir => decide (ir.l = 0)) s3
  have hV : v.blocks = V := filter_blocks hx.inv v2 (P := fun ir => decide (¬ ir.l = 0)) v3
  have hsl : ∀ m ∈ s.irreps, m.ir.l = 0 := by
    intro m hm
    rw [← s2.pairs.2.1, s3] at hm
    obtain ⟨q, hq, rfl⟩ := List.mem_map.mp hm
    simpa using (List.mem_filter.mp hq).2
  have hvpos : ∀ m ∈ v.irreps, 0 < m.mul := by
    intro m hm
    rw [← v2.pairs.2.1, v3] at hm
    obtain ⟨q, hq, rfl⟩ := List.mem_map.mp hm
    have := (List.mem_filter.mp hq).1
    exact hpos _ (List.of_mem_zip (a := q.1) (b := q.2) this).1
  have hsp : Plain s := by
    intro q hq
    rw [s3] at hq
    obtain ⟨h1, h2⟩ := List.mem_filter.mp hq
    refine ⟨hpos _ (List.of_mem_zip (a := q.1) (b := q.2) h1).1, fun h => ?_⟩
    obtain ⟨k, hk⟩ := List.mem_iff_getElem?.mp h1
    obtain ⟨m, c⟩ := q
    simp only at h; subst h
    have := (zip_spec_flag hx.inv k m).mp hk
    rw [hflag k m this.1 (by simpa using h2)] at this
    cases this.2
  have hso : ∀ w : IArr (Col ι), (∀ ir ∈ expand w.irreps, ir ∈ expand s.irreps) → (∀ m ∈ w.irreps, 0 < m.mul) → (∃ m ∈ w.irreps, m.ir.p = .o) →
      ∃ m ∈ x.irreps, m.ir = ⟨0, .o⟩ := by
    rintro w hw hwp ⟨m, hm, hp⟩
    have h1 := hw _ (mem_expand_of_pos hm (hwp m hm))
    obtain ⟨m', hm', h2⟩ := List.mem_flatMap.mp h1
    have h2 := (List.mem_replicate.mp h2).2
    rw [← s2.pairs.2.1, s3] at hm'
    obtain ⟨q, hq, rfl⟩ := List.mem_map.mp hm'
    obtain ⟨h3, h4⟩ := List.mem_filter.mp hq
    refine ⟨q.1, (List.of_mem_zip (a := q.1) (b := q.2) h3).1, ?_⟩
    rcases scalar_cases (ir := q.1.ir) (by simpa using h4) with h | h
    · rw [h2, h] at hp; cases hp
    · exact h
  obtain ⟨hsn1, hsn2⟩ := hsp.noflags s2
  have hgate : gate env pts n evenAct oddAct evenGate oddGate nrm x = (if v.array.length = 0 then scalarActivation env pts none evenAct oddAct nrm s
      else if s.irreps.dim < v.irreps.numIrreps then .error .valueError
      else do
        let k : ℤ := (s.irreps.dim : ℤ) - v.irreps.numIrreps
        let extra ← s.sliceByMul ⟨none, some k, none⟩
        let gates ← s.sliceByMul ⟨some k, none, none⟩
        let extra ← scalarActivation env pts none evenAct oddAct nrm extra
        let gates ← scalarActivation env pts none evenGate oddGate nrm gates
        let gated ← mulArrays n gates v
        IArr.concatenate [extra, gated]) := by
    unfold gate
    rw [show x.filter (some (.irs [⟨0, .e⟩, ⟨0, .o⟩])) none none = .ok s from s1,
      show x.filter none (some (.irs [⟨0, .e⟩, ⟨0, .o⟩])) none = .ok v from v1]
    rfl
  have hv0 : v.array.length = 0 ↔ V = [] := by rw [length_zero_iff v2, hV]
  rw [hgate, dim_scalar hsl, numIrreps_blocks, numIrreps_blocks, hS, hV]
  refine ⟨?_, ?_, ?_⟩
  · intro h
    rw [if_pos (hv0.mpr h)]
    obtain ⟨y, y1, y2, -, -, y5⟩ := act_scalars env pts evenAct oddAct nrm s2.coherent hsl hsn2 fun h => (hodd (hso s (fun _ h => h) hsn1 h)).1
    exact ⟨y, y1, y2, by rw [y5, hS]⟩
  · intro h
    rw [if_neg (by intro h'; rw [hv0.mp h'] at h; simp at h), if_pos h]
  · intro hne hle
    rw [if_neg (fun h => hne (hv0.mp h)), if_neg (by omega)]
    set k := S.length - V.length with hk
    have hk' : ((S.length : ℤ) - V.length) = (k : ℤ) := by omega
    have hVpos : 0 < V.length := List.length_pos_iff.mpr hne
    have hlen : (expand s.irreps).length = S.length := by rw [← blocks_irs, List.length_map, hS]
    have hnum : s.irreps.numIrreps = S.length := by rw [numIrreps_blocks, hS]
    have b1 : (⟨none, some (k : ℤ), none⟩ : PySlice).bounds S.length = (0, k) := by
      simp only [PySlice.bounds, Option.map_none, Option.getD_none, Option.map_some, Option.getD_some, adjustIndex, Prod.mk.injEq, true_and]
      rw [if_neg (by omega)]; omega
    have b2 : (⟨some (k : ℤ), none, none⟩ : PySlice).bounds S.length = (k, S.length) := by
      simp only [PySlice.bounds, Option.map_none, Option.getD_none, Option.map_some, Option.getD_some, adjustIndex, Prod.mk.injEq, and_true]
      rw [if_neg (by omega)]; omega
    have hnc : ∀ a b, ¬ CutsZeroTerm s a b := by
      rintro a b ⟨i, m, h1, h2, -⟩
      have := hsn2 _ (List.mem_of_getElem? h2)
      cases this
    obtain ⟨ex, e1, e2, e3⟩ := (C20_slice_by_mul s s2.coherent ⟨none, some (k : ℤ), none⟩ (.inl rfl) 0 k (by rw [hlen]; exact b1) (by omega)).1 (hnc _ _)
    obtain ⟨ga, g1, g2, g3⟩ := (C20_slice_by_mul s s2.coherent ⟨some (k : ℤ), none, none⟩ (.inl rfl) k S.length (by rw [hlen]; exact b2) (by omega)).1 (hnc _ _)
    obtain ⟨ep, ef⟩ := sliceByMul_plain (by rw [hnum, b1]; exact .inr rfl) hsp e1
    obtain ⟨gp, gf⟩ := sliceByMul_plain (by rw [hnum, b2]; left; simp only; omega) hsp g1
    have esub : ∀ ir ∈ expand ex.irreps, ir ∈ expand s.irreps := by
      intro ir h
      rw [← blocks_irs, e3] at h
      rw [← blocks_irs]
      obtain ⟨b, hb, rfl⟩ := List.mem_map.mp h
      exact List.mem_map_of_mem (List.mem_of_mem_take (List.mem_of_mem_drop hb))
    have gsub : ∀ ir ∈ expand ga.irreps, ir ∈ expand s.irreps := by
      intro ir h
      rw [← blocks_irs, g3] at h
      rw [← blocks_irs]
      obtain ⟨b, hb, rfl⟩ := List.mem_map.mp h
      exact List.mem_map_of_mem (List.mem_of_mem_take (List.mem_of_mem_drop hb))
    have el : ∀ m ∈ ex.irreps, m.ir.l = 0 := fun m hm => expand_scalar hsl _ (esub _ (mem_expand_of_pos hm (ep m hm)))
    have gl : ∀ m ∈ ga.irreps, m.ir.l = 0 := fun m hm => expand_scalar hsl _ (gsub _ (mem_expand_of_pos hm (gp m hm)))
    obtain ⟨ey, p1, p2, -, -, p5⟩ := act_scalars env pts evenAct oddAct nrm e2 el ef fun h => (hodd (hso ex esub ep h)).1
    obtain ⟨gy, q1, q2, q3, q4, q5⟩ := act_scalars env pts evenGate oddGate nrm g2 gl gf fun h => (hodd (hso ga gsub gp h)).2
    have gyp : ∀ m ∈ gy.irreps, 0 < m.mul := by
      intro m hm
      have : m.mul ∈ gy.irreps.map MulIrrep.mul := List.mem_map_of_mem hm
      rw [q3] at this
      obtain ⟨m', h1, h2⟩ := List.mem_map.mp this
      rw [← h2]; exact gp m' h1
    have gb : ga.blocks = S.drop k := by rw [g3, hS, pySlice, List.take_length]
    obtain ⟨z, z1, z2, z3⟩ := mulArrays_scalars hn q2 v2.coherent gyp hvpos q4 (by
      rw [q5, List.length_map, gb, hV, List.length_drop]; omega)
    obtain ⟨y, y1, y2, y3, y4, y5⟩ := (C23_concatenate [ey, z] (by simp [p2, z2])).1 (by simp)
    refine ⟨y, ?_, y2, ?_⟩
    · simp only [hk', e1, g1, bind, Except.bind, p1, q1, z1]
      exact y1
    · rw [y5]
      simp only [List.map_cons, List.map_nil, List.flatten_cons, List.flatten_nil, List.append_nil]
      rw [p5, e3, hS, z3, q5, gb, hV, pySlice, List.drop_zero]

/-! ### equivariance -/

theorem DR_eq (R : Matrix (Fin 3) (Fin 3) ℝ) :
    (DR (ι := ι) R) = fun ir => matVec (α := Col ι) ((matRows (Wig.dMatrix ir R)).map fun r => r.map (algebraMap ℝ (Col ι))) := by
  funext ir x
  rw [matVec_algebraMap]

theorem tr_mulArrays {n : IrNorm} (hn : n ≠ .other) {R : Matrix (Fin 3) (Fin 3) ℝ} (hR : IsOrth R) {x1 x1' x2 x2' y : IArr (Col ι)}
    (t1 : Tr (DR R) x1 x1') (t2 : Tr (DR R) x2 x2') (hy : mulArrays n x1 x2 = .ok y) : ∃ y', mulArrays n x1' x2' = .ok y' ∧ Tr (DR R) y y' := by
  unfold mulArrays at hy ⊢
  by_cases h1 : x1.irreps.numIrreps ≠ x2.irreps.numIrreps
  · rw [if_pos h1] at hy; cases hy
  rw [if_neg h1] at hy
  rw [if_neg (by rw [t1.irreps, t2.irreps]; exact h1)]
  cases hz : TP.elementwise (realCtx (Col ι)) n none x1 x2 with
  | error e => rw [hz] at hy; cases hy
  | ok z =>
    rw [hz] at hy
    simp only [bind, Except.bind] at hy
    rw [DR_eq] at t1 t2
    obtain ⟨z', a1, a2⟩ := tr_elementwise (realCtx_shape (Col ι)).ok (linAct_ring (map_family fun ir => Wig.dMatrix ir R))
      ((realCtx_intertwines hR).inter (realCtx_shape _) (map_family fun ir => Wig.dMatrix ir R)) hn none t1 t2 hz
    rw [a1]
    simp only [bind, Except.bind]
    by_cases h2 : z.irreps.numIrreps ≠ x1.irreps.numIrreps
    · rw [if_pos h2] at hy; cases hy
    rw [if_neg h2] at hy
    rw [if_neg (by rw [a2.irreps, t1.irreps]; exact h2)]
    injection hy with hy
    subst hy
    rw [← DR_eq] at a2
    exact ⟨z', rfl, a2⟩

theorem tr_act_scalars (env : ℕ → ℝ → ℝ) (pts : List ℝ) (e o : ℕ) (nrm : Bool) {R : Matrix (Fin 3) (Fin 3) ℝ} (hR : IsOrth R) {z z' : IArr (Col ι)}
    (h : Tr (DR R) z z') (hl : ∀ m ∈ z.irreps, m.ir.l = 0) (hf : ∀ b ∈ z.zeroFlags, b = false)
    (ho : (∃ m ∈ z.irreps, m.ir.p = .o) → OddOk (effective env pts nrm) o)
    (hP : (∃ m ∈ z.irreps, m.ir.p = .o) → ∀ t, effective env pts nrm o (-t) = parityFunction (effective env pts nrm o) * effective env pts nrm o t) :
    ∃ y y', scalarActivation env pts none e o nrm z = .ok y ∧ scalarActivation env pts none e o nrm z' = .ok y' ∧ Tr (DR R) y y' := by
  have hq : ∀ q ∈ z.irreps.zip (defaultActs e o z.irreps), q.1 ∈ z.irreps ∧ (q.1.ir.p = .o → q.2 = some o) := by
    intro q hq
    refine ⟨(List.of_mem_zip (a := q.1) (b := q.2) hq).1, fun hp => ?_⟩
    unfold defaultActs at hq
    obtain ⟨i, h⟩ := List.mem_iff_getElem?.mp hq
    rw [List.getElem?_zip_eq_some, List.getElem?_map] at h
    obtain ⟨h1, h2⟩ := h
    rw [h1] at h2
    simp only [Option.map_some, Option.some.injEq] at h2
    have h0 := hl q.1 (List.mem_of_getElem? h1)
    rw [← h2]
    simp [h0, hp]
  refine tr_scalarActivation env pts _ e o nrm hR h none rfl (by simp [defaultActs]) ?_ ?_ ?_
  · intro q hm
    obtain ⟨h1, h2⟩ := hq q hm
    rw [← allowed_iff]
    intro f hf
    refine ⟨hl _ h1, fun hp => ?_⟩
    have := h2 hp
    rw [hf] at this
    injection this with this
    rw [this]; exact ho ⟨_, h1, hp⟩
  · intro q hm hn
    exfalso
    have h1 := (List.of_mem_zip (a := q.1) (b := q.2) hm).1
    have : true ∈ z.zeroFlags := by
      rw [← h.inv.pairs.2.2.2.2.1]
      exact List.mem_map.mpr ⟨q.1, h1, by rw [hn]; rfl⟩
    have := hf _ this
    cases this
  · intro q hm b hb hp
    obtain ⟨h1, h2⟩ := hq q hm
    have := h2 hp
    rw [hb] at this
    injection this with this
    rw [this]; exact hP ⟨_, h1, hp⟩

/-- **C45 (equivariance).** If the functions applied to odd scalars really have the detected parity, `gate` commutes with O(3). -/
theorem C45_equivariant (env : ℕ → ℝ → ℝ) (pts : List ℝ) {n : IrNorm} (hn : n ≠ .other) (evenAct oddAct evenGate oddGate : ℕ) (nrm : Bool)
    (x : IArr (Col ι)) (hx : x.Coherent) (hpos : ∀ m ∈ x.irreps, 0 < m.mul)
    (hflag : ∀ (i : ℕ) (m : MulIrrep), x.irreps[i]? = some m → m.ir.l = 0 → x.zeroFlags[i]? = some false)
    (hodd : (∃ m ∈ x.irreps, m.ir = ⟨0, .o⟩) → OddOk (effective env pts nrm) oddAct ∧ OddOk (effective env pts nrm) oddGate)
    (hpar : (∃ m ∈ x.irreps, m.ir = ⟨0, .o⟩) → ∀ f, f = oddAct ∨ f = oddGate →
      ∀ t, effective env pts nrm f (-t) = parityFunction (effective env pts nrm f) * effective env pts nrm f t)
    {R : Matrix (Fin 3) (Fin 3) ℝ} (hR : IsOrth R) (y : IArr (Col ι)) (hy : gate env pts n evenAct oddAct evenGate oddGate nrm x = .ok y) :
    ∃ x' y' y'', x.transformByMatrix R = .ok x' ∧
      gate env pts n evenAct oddAct evenGate oddGate nrm x' = .ok y' ∧ y.transformByMatrix R = .ok y'' ∧ y'.Equal y'' := by
  have hD := act_DR (ι := ι) R
  obtain ⟨x', t1, t2⟩ := transformBy_spec hD hx.inv
  suffices h : ∃ y', gate env pts n evenAct oddAct evenGate oddGate nrm x' = .ok y' ∧ Tr (DR R) y y' by
    obtain ⟨y', h1, h2⟩ := h
    obtain ⟨y'', u1, u2⟩ := transformBy_spec hD h2.inv
    exact ⟨x', y', y'', t1, h1, u1, h2.unique u2⟩
  obtain ⟨s, s1, s2, s3⟩ := filterBy_pairs hx (.keep [⟨0, .e⟩, ⟨0, .o⟩])
  obtain ⟨v, v1, v2, v3⟩ := filterBy_pairs hx (.drop [⟨0, .e⟩, ⟨0, .o⟩])
  simp only [IrCrit.sat, scalar_list] at s3 v3
  have hsl : ∀ m ∈ s.irreps, m.ir.l = 0 := by
    intro m hm
    rw [← s2.pairs.2.1, s3] at hm
    obtain ⟨q, hq, rfl⟩ := List.mem_map.mp hm
    simpa using (List.mem_filter.mp hq).2
  have hsp : Plain s := by
    intro q hq
    rw [s3] at hq
    obtain ⟨h1, h2⟩ := List.mem_filter.mp hq
    refine ⟨hpos _ (List.of_mem_zip (a := q.1) (b := q.2) h1).1, fun h => ?_⟩
    obtain ⟨k, hk⟩ := List.mem_iff_getElem?.mp h1
    obtain ⟨m, c⟩ := q
    simp only at h; subst h
    have := (zip_spec_flag hx.inv k m).mp hk
    rw [hflag k m this.1 (by simpa using h2)] at this
    cases this.2
  have hso : ∀ w : IArr (Col ι), (∀ ir ∈ expand w.irreps, ir ∈ expand s.irreps) → (∀ m ∈ w.irreps, 0 < m.mul) → (∃ m ∈ w.irreps, m.ir.p = .o) →
      ∃ m ∈ x.irreps, m.ir = ⟨0, .o⟩ := by
    rintro w hw hwp ⟨m, hm, hp⟩
    have h1 := hw _ (mem_expand_of_pos hm (hwp m hm))
    obtain ⟨m', hm', h2⟩ := List.mem_flatMap.mp h1
    have h2 := (List.mem_replicate.mp h2).2
    rw [← s2.pairs.2.1, s3] at hm'
    obtain ⟨q, hq, rfl⟩ := List.mem_map.mp hm'
    obtain ⟨h3, h4⟩ := List.mem_filter.mp hq
    refine ⟨q.1, (List.of_mem_zip (a := q.1) (b := q.2) h3).1, ?_⟩
    rcases scalar_cases (ir := q.1.ir) (by simpa using h4) with h | h
    · rw [h2, h] at hp; cases hp
    · exact h
  obtain ⟨hsn1, hsn2⟩ := hsp.noflags s2
  obtain ⟨s', s1', ts⟩ := tr_filter hD t2 (show x.filter (some (.irs [⟨0, .e⟩, ⟨0, .o⟩])) none none = .ok s from s1)
  obtain ⟨v', v1', tv⟩ := tr_filter hD t2 (show x.filter none (some (.irs [⟨0, .e⟩, ⟨0, .o⟩])) none = .ok v from v1)
  unfold gate at hy ⊢
  rw [show x.filter (some (.irs [⟨0, .e⟩, ⟨0, .o⟩])) none none = .ok s from s1,
      show x.filter none (some (.irs [⟨0, .e⟩, ⟨0, .o⟩])) none = .ok v from v1] at hy
  rw [s1', v1']
  simp only [bind, Except.bind] at hy ⊢
  have hlenv : v'.array.length = v.array.length := by
    rw [tv.inv.coherent.array_length, tv.inv'.coherent.array_length, tv.irreps]
  by_cases h1 : v.array.length = 0
  · rw [if_pos h1] at hy
    rw [if_pos (by rw [hlenv]; exact h1)]
    obtain ⟨u, u', k1, k2, k3⟩ := tr_act_scalars env pts evenAct oddAct nrm hR ts hsl hsn2
      (fun h => (hodd (hso s (fun _ h => h) hsn1 h)).1) (fun h => hpar (hso s (fun _ h => h) hsn1 h) _ (.inl rfl))
    rw [k1] at hy; injection hy with hy; subst hy
    exact ⟨u', k2, k3⟩
  rw [if_neg h1] at hy
  rw [if_neg (by rw [hlenv]; exact h1), ts.irreps, tv.irreps]
  by_cases h2 : s.irreps.dim < v.irreps.numIrreps
  · rw [if_pos h2] at hy; cases hy
  rw [if_neg h2] at hy ⊢
  set k : ℤ := (s.irreps.dim : ℤ) - v.irreps.numIrreps with hk
  have hnum : s.irreps.numIrreps = s.irreps.dim := (dim_scalar hsl).symm
  have hv : 0 < v.irreps.numIrreps := by
    rw [numIrreps_blocks]
    rcases Nat.eq_zero_or_pos v.blocks.length with h | h
    · exact absurd ((length_zero_iff v2).mpr (List.length_eq_zero_iff.mp h)) h1
    · exact h
  have b1 : ((⟨none, some k, none⟩ : PySlice).bounds s.irreps.numIrreps).1 = 0 := rfl
  have b2 : ((⟨some k, none, none⟩ : PySlice).bounds s.irreps.numIrreps).1 < ((⟨some k, none, none⟩ : PySlice).bounds s.irreps.numIrreps).2 := by
    simp only [PySlice.bounds, Option.map_none, Option.getD_none, Option.map_some, Option.getD_some, adjustIndex]
    rw [if_neg (by omega)]; omega
  have hsub : ∀ (sl : PySlice) (w : IArr (Col ι)), sl.step = none → (sl.bounds s.irreps.numIrreps).1 ≤ (sl.bounds s.irreps.numIrreps).2 →
      s.sliceByMul sl = .ok w → ∀ ir ∈ expand w.irreps, ir ∈ expand s.irreps := by
    intro sl w hst hle hw ir hir
    obtain ⟨w', w1, w2, w3⟩ := (C20_slice_by_mul s s2.coherent sl (.inl hst) _ _ (by rw [← Irreps.numIrreps_eq_length_expand]) hle).1 (by
      rintro ⟨i, m, h1, h2, -⟩
      have := hsn2 _ (List.mem_of_getElem? h2)
      cases this)
    rw [hw] at w1; injection w1 with w1; subst w1
    rw [← blocks_irs, w3] at hir
    rw [← blocks_irs]
    obtain ⟨b, hb, rfl⟩ := List.mem_map.mp hir
    exact List.mem_map_of_mem (List.mem_of_mem_take (List.mem_of_mem_drop hb))
  cases he : s.sliceByMul ⟨none, some k, none⟩ with
  | error e => rw [he] at hy; cases hy
  | ok ex =>
  cases hg : s.sliceByMul ⟨some k, none, none⟩ with
  | error e => rw [he, hg] at hy; cases hy
  | ok ga =>
  rw [he, hg] at hy
  simp only at hy
  obtain ⟨ex', e1, te⟩ := tr_sliceByMul hD ts he
  obtain ⟨ga', g1, tg⟩ := tr_sliceByMul hD ts hg
  rw [e1, g1]
  simp only
  obtain ⟨ep, ef⟩ := sliceByMul_plain (.inr b1) hsp he
  obtain ⟨gp, gf⟩ := sliceByMul_plain (.inl b2) hsp hg
  have esub := hsub _ ex rfl (by rw [b1]; omega) he
  have gsub := hsub _ ga rfl (by omega) hg
  have el : ∀ m ∈ ex.irreps, m.ir.l = 0 := fun m hm => expand_scalar hsl _ (esub _ (mem_expand_of_pos hm (ep m hm)))
  have gl : ∀ m ∈ ga.irreps, m.ir.l = 0 := fun m hm => expand_scalar hsl _ (gsub _ (mem_expand_of_pos hm (gp m hm)))
  obtain ⟨ey, ey', p1, p2, p3⟩ := tr_act_scalars env pts evenAct oddAct nrm hR te el ef (fun h => (hodd (hso ex esub ep h)).1)
    (fun h => hpar (hso ex esub ep h) _ (.inl rfl))
  obtain ⟨gy, gy', q1, q2, q3⟩ := tr_act_scalars env pts evenGate oddGate nrm hR tg gl gf (fun h => (hodd (hso ga gsub gp h)).2)
    (fun h => hpar (hso ga gsub gp h) _ (.inr rfl))
  rw [p1, q1] at hy
  rw [p2, q2]
  simp only at hy ⊢
  cases hm : mulArrays n gy v with
  | error e => rw [hm] at hy; cases hy
  | ok z =>
  rw [hm] at hy
  obtain ⟨z', z1, z2⟩ := tr_mulArrays hn hR q3 tv hm
  rw [z1]
  simp only at hy ⊢
  exact tr_concatenate (.cons p3 (.cons z2 .nil)) hy

end

/-! ### a concrete case -/

/-- `1x0e + 2x0o + 1x1e` with the identity everywhere: the even scalar and the first odd scalar are activated, the second odd scalar multiplies
the vector and changes its parity. -/
example : let x : IArr (Col Unit) := ⟨[⟨1, ⟨0, .e⟩⟩, ⟨2, ⟨0, .o⟩⟩, ⟨1, ⟨1, .e⟩⟩], [fun _ => 5, fun _ => 7, fun _ => 2, fun _ => 1, fun _ => 10, fun _ => 100], some [false, false, false], none⟩
    x.Coherent ∧ (x.blocks.filter fun b => b.1.l ≠ 0).length = 1 ∧ (x.blocks.filter fun b => b.1.l = 0).length = 3 ∧
      (∀ m ∈ x.irreps, 0 < m.mul) ∧ (∀ (i : ℕ) (m : MulIrrep), x.irreps[i]? = some m → m.ir.l = 0 → x.zeroFlags[i]? = some false) ∧
      OddOk (effective (fun _ t => t) [] false) 0 := by
  intro x
  refine ⟨?_, rfl, rfl, by simp [x], ?_, ?_⟩
  · refine Inv.coherent (inv_nocache ?_)
    simp [FlagsOk, MulIrrep.dim, Irrep.dim]
  · intro i m h1 _
    have : i < 3 := by simpa [x] using (List.getElem?_eq_some_iff.mp h1).1
    have : x.zeroFlags = [false, false, false] := rfl
    rw [this]
    interval_cases i <;> rfl
  · right
    exact (C44_parity_function (fun t : ℝ => t)).2.1 (fun t => rfl) ⟨255, by norm_num, by norm_num⟩

end E3nn
