import Verif.Props.C44
import Verif.Props.C28_C32
import Verif.Props.C33_C35

/-!
# C46: a zero-flagged chunk and a chunk of explicit zeros give the same values

Two coherent arrays with the same irreps and the same components can differ in their zero flags.
`FlagBlind op`: on such arrays `op` returns results with the same irreps and the same components.
-/

namespace E3nn
open IArr TP Activ

/-- Same irreps and components; the zero flags may differ. -/
def SameData {α : Type} [Zero α] (x u : IArr α) : Prop :=
  x.Coherent ∧ u.Coherent ∧ x.irreps = u.irreps ∧ x.array = u.array

def FlagBlind {α β : Type} [Zero α] [Zero β] (op : IArr α → Except PyErr (IArr β)) : Prop :=
  ∀ x u, SameData x u → ∀ y, op x = .ok y → ∃ v, op u = .ok v ∧ SameData y v

section
variable {α : Type} [Zero α]

theorem SameData.symm {x u : IArr α} (h : SameData x u) : SameData u x := ⟨h.2.1, h.1, h.2.2.1.symm, h.2.2.2.symm⟩

theorem SameData.blocks {x u : IArr α} (h : SameData x u) : x.blocks = u.blocks := by
  unfold IArr.blocks; rw [h.2.2.1, h.2.2.2]

theorem SameData.terms {x u : IArr α} (h : SameData x u) : x.terms = u.terms := by
  unfold IArr.terms; rw [h.2.2.1, h.2.2.2]

theorem SameData.of_blocks {x u : IArr α} (hx : x.Coherent) (hu : u.Coherent) (h1 : x.irreps = u.irreps) (h2 : x.blocks = u.blocks) : SameData x u :=
  ⟨hx, hu, h1, by rw [← hx.inv.array_eq_blocks, h2, hu.inv.array_eq_blocks]⟩

theorem SameData.of_terms {x u : IArr α} (hx : x.Coherent) (hu : u.Coherent) (h : x.terms = u.terms) : SameData x u := by
  have hi : x.irreps = u.irreps := by
    have := congrArg (List.map Prod.fst) h
    have e : ∀ (ms : Irreps) (a : List α), (termsOf ms a).map Prod.fst = ms := by
      intro ms
      induction ms with
      | nil => intro a; rfl
      | cons m ms ih => intro a; simp [termsOf, ih]
    simpa only [IArr.terms, e] using this
  refine SameData.of_blocks hx hu hi ?_
  rw [blocks_eq, blocks_eq, h]

/-- Lists of blocks with the same irreps and, for every irrep, the same blocks in the same order. -/
theorem ext_filters {β : Type} {L M : List (Irrep × β)} (h1 : L.map Prod.fst = M.map Prod.fst)
    (h2 : ∀ ir, L.filter (fun b => decide (b.1 = ir)) = M.filter fun b => decide (b.1 = ir)) : L = M := by
  induction L generalizing M with
  | nil =>
    cases M with
    | nil => rfl
    | cons b M => simp at h1
  | cons a L ih =>
    cases M with
    | nil => simp at h1
    | cons b M =>
      simp only [List.map_cons, List.cons.injEq] at h1
      have ha := h2 a.1
      rw [List.filter_cons_of_pos (by simp), List.filter_cons_of_pos (by simp [h1.1])] at ha
      injection ha with ha hb
      subst ha
      refine congrArg (a :: ·) (ih h1.2 fun ir => ?_)
      have := h2 ir
      by_cases hi : a.1 = ir
      · rw [List.filter_cons_of_pos (by simp [hi]), List.filter_cons_of_pos (by simp [hi])] at this
        injection this
      · rwa [List.filter_cons_of_neg (by simp [hi]), List.filter_cons_of_neg (by simp [hi])] at this

theorem C46_rechunk (new : Irreps) : FlagBlind fun x : IArr α => x.rechunk new := by
  intro x u h y hy; beta_reduce at hy ⊢
  by_cases he : expand x.irreps = expand new
  · obtain ⟨y', a1, a2, a3, a4, -⟩ := (C13_rechunk x h.1 new).1 he
    obtain ⟨v, b1, b2, b3, b4, -⟩ := (C13_rechunk u h.2.1 new).1 (by rw [← h.2.2.1]; exact he)
    rw [hy] at a1; cases a1
    exact ⟨v, b1, a2, b2, by rw [a3, b3], by rw [a4, b4, h.2.2.2]⟩
  · rw [(C13_rechunk x h.1 new).2 he] at hy; cases hy

theorem C46_simplify_unify : FlagBlind (fun x : IArr α => x.simplify) ∧ FlagBlind (fun x : IArr α => x.unify) := by
  constructor
  · intro x u h y hy; beta_reduce at hy ⊢
    obtain ⟨v, v1, v2⟩ := C46_rechunk (α := α) x.irreps.simplify x u h y hy
    exact ⟨v, by show u.rechunk u.irreps.simplify = _; rw [← h.2.2.1]; exact v1, v2⟩
  · intro x u h y hy; beta_reduce at hy ⊢
    obtain ⟨v, v1, v2⟩ := C46_rechunk (α := α) x.irreps.unify x u h y hy
    exact ⟨v, by show u.rechunk u.irreps.unify = _; rw [← h.2.2.1]; exact v1, v2⟩

theorem C46_sort_regroup : FlagBlind (fun x : IArr α => x.sort) ∧ FlagBlind (fun x : IArr α => x.regroup) := by
  constructor
  · intro x u h y hy; beta_reduce at hy ⊢
    obtain ⟨y', a1, a2, -, -, a5, r, a6, a7⟩ := C17_sort x h.1
    obtain ⟨v, b1, b2, -, -, b5, r', b6, b7⟩ := C17_sort u h.2.1
    rw [hy] at a1; cases a1
    rw [h.2.2.1, b6] at a6; cases a6
    refine ⟨v, b1, SameData.of_blocks a2 b2 (by rw [a7, b7]) (ext_filters ?_ fun ir => ?_)⟩
    · rw [blocks_irs, blocks_irs, a7, b7]
    · rw [a5, b5, h.blocks]
  · intro x u h y hy; beta_reduce at hy ⊢
    obtain ⟨y', a1, a2, -, -, a5, a6⟩ := C17_regroup x h.1
    obtain ⟨v, b1, b2, -, -, b5, b6⟩ := C17_regroup u h.2.1
    rw [hy] at a1; cases a1
    rw [h.2.2.1, b6] at a6
    injection a6 with a6
    refine ⟨v, b1, SameData.of_blocks a2 b2 a6.symm (ext_filters ?_ fun ir => ?_)⟩
    · rw [blocks_irs, blocks_irs, a6]
    · rw [a5, b5, h.blocks]

theorem C46_filter (k : IrCrit) : FlagBlind fun x : IArr α => filterBy x k := by
  intro x u h y hy; beta_reduce at hy ⊢
  obtain ⟨y', a1, a2, a3, -⟩ := C18_filter x h.1 k
  obtain ⟨v, b1, b2, b3, -⟩ := C18_filter u h.2.1 k
  rw [hy] at a1; cases a1
  exact ⟨v, b1, SameData.of_terms a2 b2 (by rw [a3, b3, h.terms])⟩

theorem C46_slice_by_chunk (s : PySlice) : FlagBlind fun x : IArr α => x.sliceByChunk s := by
  intro x u h y hy; beta_reduce at hy ⊢
  obtain ⟨y', a1, a2, a3⟩ := C20_slice_by_chunk x h.1 s
  obtain ⟨v, b1, b2, b3⟩ := C20_slice_by_chunk u h.2.1 s
  rw [hy] at a1; cases a1
  exact ⟨v, b1, SameData.of_terms a2 b2 (by rw [a3, b3, h.terms, h.2.2.1])⟩

theorem C46_index_irreps (pat : Irreps) (hp : pat ≠ []) : FlagBlind fun x : IArr α => x.getIrreps pat := by
  intro x u h y hy; beta_reduce at hy ⊢
  by_cases he : ∃ i, OccursAt x.irreps pat i ∧ ∀ j, OccursAt x.irreps pat j → j = i
  · obtain ⟨i, e1, e2⟩ := he
    obtain ⟨y', a1, a2, -, a3⟩ := (C15_index_irreps x h.1 pat hp).1 i e1 e2
    obtain ⟨v, b1, b2, -, b3⟩ := (C15_index_irreps u h.2.1 pat hp).1 i (by rw [← h.2.2.1]; exact e1) (by rw [← h.2.2.1]; exact e2)
    rw [hy] at a1; cases a1
    exact ⟨v, b1, SameData.of_terms a2 b2 (by rw [a3, b3, h.terms])⟩
  · rw [(C15_index_irreps x h.1 pat hp).2 he] at hy; cases hy

theorem C46_concatenate {x1 x2 u1 u2 : IArr α} (h1 : SameData x1 u1) (h2 : SameData x2 u2) :
    ∃ y v, concatenate [x1, x2] = .ok y ∧ concatenate [u1, u2] = .ok v ∧ SameData y v := by
  obtain ⟨y, a1, a2, a3, a4, -⟩ := (C23_concatenate [x1, x2] (by simp [h1.1, h2.1])).1 (by simp)
  obtain ⟨v, b1, b2, b3, b4, -⟩ := (C23_concatenate [u1, u2] (by simp [h1.2.1, h2.2.1])).1 (by simp)
  refine ⟨y, v, a1, b1, a2, b2, ?_, ?_⟩
  · rw [a3, b3]; simp [h1.2.2.1, h2.2.2.1]
  · rw [a4, b4]; simp [h1.2.2.2, h2.2.2.2]

/-- `slice_by_mul`: the same blocks whenever both return. (On flagged terms that are cut it raises, `C20_zero_cut_witness`.) -/
theorem C46_slice_by_mul {x u : IArr α} (h : SameData x u) (s : PySlice) (hstep : s.step = none ∨ s.step = some 1)
    (hle : (s.bounds (expand x.irreps).length).1 ≤ (s.bounds (expand x.irreps).length).2) {y v : IArr α}
    (hy : x.sliceByMul s = .ok y) (hv : u.sliceByMul s = .ok v) : y.blocks = v.blocks := by
  have hx := C20_slice_by_mul x h.1 s hstep _ _ rfl hle
  have hu := C20_slice_by_mul u h.2.1 s hstep _ _ rfl (by rw [← h.2.2.1]; exact hle)
  by_cases c1 : CutsZeroTerm x (s.bounds (expand x.irreps).length).1 (s.bounds (expand x.irreps).length).2
  · rw [hx.2 c1] at hy; cases hy
  by_cases c2 : CutsZeroTerm u (s.bounds (expand u.irreps).length).1 (s.bounds (expand u.irreps).length).2
  · rw [hu.2 c2] at hv; cases hv
  obtain ⟨y', a1, -, a2⟩ := hx.1 c1
  obtain ⟨v', b1, -, b2⟩ := hu.1 c2
  rw [hy] at a1; cases a1
  rw [hv] at b1; cases b1
  rw [a2, b2, h.blocks, h.2.2.1]

end

section
variable {R α : Type} [Semiring R] [AddCommMonoid α] [Module R α]

theorem C46_transform (M : Irrep → List (List R)) (hM : MatFamily M) : FlagBlind fun x : IArr α => x.transform M := by
  intro x u h y hy; beta_reduce at hy ⊢
  obtain ⟨y', a1, a2, a3, -, a5⟩ := C22_transform M hM x h.1
  obtain ⟨v, b1, b2, b3, -, b5⟩ := C22_transform M hM u h.2.1
  rw [hy] at a1; cases a1
  exact ⟨v, b1, SameData.of_blocks a2 b2 (by rw [a3, b3, h.2.2.1]) (by rw [a5, b5, h.blocks])⟩

end

/-! ### Linear -/

theorem index_split (ms : Irreps) (j : ℕ) (hj : j < Irreps.dim ms) :
    ∃ o mo v k, ms[o]? = some mo ∧ v < mo.mul ∧ k < 2 * mo.ir.l + 1 ∧ j = Irreps.dim (ms.take o) + (v * (2 * mo.ir.l + 1) + k) := by
  induction ms generalizing j with
  | nil => simp [Irreps.dim] at hj
  | cons m ms ih =>
    have e : Irreps.dim (m :: ms) = m.mul * (2 * m.ir.l + 1) + Irreps.dim ms := by simp [Irreps.dim, MulIrrep.dim, Irrep.dim]
    rw [e] at hj
    by_cases h : j < m.mul * (2 * m.ir.l + 1)
    · refine ⟨0, m, j / (2 * m.ir.l + 1), j % (2 * m.ir.l + 1), rfl, ?_, Nat.mod_lt _ (by omega), ?_⟩
      · exact Nat.div_lt_of_lt_mul (by rw [mul_comm]; exact h)
      · simp only [List.take_zero, Irreps.dim, List.map_nil, List.sum_nil, Nat.zero_add]
        rw [mul_comm]; exact (Nat.div_add_mod j _).symm
    · obtain ⟨o, mo, v, k, h1, h2, h3, h4⟩ := ih (j - m.mul * (2 * m.ir.l + 1)) (by omega)
      refine ⟨o + 1, mo, v, k, by simpa using h1, h2, h3, ?_⟩
      rw [List.take_succ_cons]
      have e' : Irreps.dim (m :: ms.take o) = m.mul * (2 * m.ir.l + 1) + Irreps.dim (ms.take o) := by simp [Irreps.dim, MulIrrep.dim, Irrep.dim]
      rw [e']; omega

theorem C46_linear {irrepsIn irrepsOut : Irreps} {b : FLin.BiasArg} {a g : ℝ} {f : FLin ℝ}
    (hf : FLin.init irrepsIn irrepsOut none b a g = .ok f) (ws : List (List ℝ)) (hw : WeightShapes f ws) : FlagBlind (f.call ws) := by
  intro x u h y hy; beta_reduce at hy ⊢
  have hirr : f.irrepsIn = irrepsIn := by
    obtain ⟨sh, -, -, -, rfl⟩ := FLin.init_ok hf; rfl
  have hi : expand x.irreps = expand irrepsIn := by
    unfold FLin.call at hy
    cases h' : x.rechunk f.irrepsIn with
    | error e => rw [h'] at hy; cases hy
    | ok xr => rw [(FLin.rechunk_irreps h.1.inv h').2.2.2, hirr]
  obtain ⟨y', a1, a2, a3⟩ := C28_call_returns hf ws hw x h.1 hi
  obtain ⟨v, b1, b2, b3⟩ := C28_call_returns hf ws hw u h.2.1 (by rw [← h.2.2.1]; exact hi)
  rw [hy] at a1; cases a1
  refine ⟨v, b1, a2, b2, by rw [a3, b3], ?_⟩
  have ly : y.array.length = irrepsOut.dim := by rw [a2.inv.length_array, a3]
  have lv : v.array.length = irrepsOut.dim := by rw [b2.inv.length_array, b3]
  apply List.ext_getElem (by rw [ly, lv])
  intro j j1 j2
  obtain ⟨o, mo, w, k, k1, k2, k3, k4⟩ := index_split irrepsOut j (by rw [← ly]; exact j1)
  have e1 := C28_formula hf ws hw x h.1 y hy o mo k1 w k k2 k3
  have e2 := C28_formula hf ws hw u h.2.1 v b1 o mo k1 w k k2 k3
  rw [← k4] at e1 e2
  rw [h.2.2.2, ← e2] at e1
  simpa [List.getD, j1, j2] using e1

/-! ### tensor products -/

section
variable {K : Type} [CommRing K]

/-- What matters of a (term, chunk) pair. -/
def sig {α : Type} [Zero α] (p : MulIrrep × Chunk α) : MulIrrep × List (Irrep × List α) := (p.1, blk p)

theorem SameData.sig {α : Type} [Zero α] {x u : IArr α} (h : SameData x u) :
    (x.irreps.zip x.chunks).map E3nn.sig = (u.irreps.zip u.chunks).map E3nn.sig := by
  have e : ∀ z : IArr α, z.Coherent → (z.irreps.zip z.chunks).map E3nn.sig =
      z.terms.map fun t => (t.1, blocksOf (List.replicate t.1.mul t.1.ir) t.2) := by
    intro z hz
    rw [← hz.inv.pairs.2.2.2.1, List.map_map]; rfl
  rw [e x h.1, e u h.2.1, h.terms]

theorem tpEntries_sig {ctx : TPCtx K} (hc : CgOk ctx) (n : IrNorm) (filter : Option (List Irrep)) {P1 P2 Q1 Q2 : List (MulIrrep × Chunk K)}
    (s1 : Shaped P1) (s2 : Shaped P2) (r1 : Shaped Q1) (r2 : Shaped Q2) (h1 : P1.map sig = Q1.map sig) (h2 : P2.map sig = Q2.map sig) :
    (tpEntries ctx n filter P1 P2).map Prod.fst = (tpEntries ctx n filter Q1 Q2).map Prod.fst ∧
    (tpEntries ctx n filter P1 P2).flatMap blk = (tpEntries ctx n filter Q1 Q2).flatMap blk := by
  constructor
  · have e : ∀ P1 P2 : List (MulIrrep × Chunk K), (tpEntries ctx n filter P1 P2).map Prod.fst =
        (P1.map sig).flatMap fun q1 => (P2.map sig).flatMap fun q2 => (irsOut filter q1.1.ir q2.1.ir).map fun ir => ⟨q1.1.mul * q2.1.mul, ir⟩ := by
      intro P1 P2
      unfold tpEntries triples
      simp only [List.map_map, List.map_flatMap, List.flatMap_map]
      rfl
    rw [e, e, h1, h2]
  · have e : ∀ P1 P2 : List (MulIrrep × Chunk K), (P1.flatMap fun p1 => P2.flatMap fun p2 =>
      (irsOut filter p1.1.ir p2.1.ir).flatMap fun ir => (blk p1).flatMap fun b1 => (blk p2).map fun b2 =>
        (ir, contract ir.dim (normC ctx n p1.1.ir p2.1.ir ir) b1.2 b2.2)) =
        (P1.map sig).flatMap fun q1 => (P2.map sig).flatMap fun q2 =>
      (irsOut filter q1.1.ir q2.1.ir).flatMap fun ir => q1.2.flatMap fun b1 => q2.2.map fun b2 =>
        (ir, contract ir.dim (normC ctx n q1.1.ir q2.1.ir ir) b1.2 b2.2) := by
      intro P1 P2
      simp only [List.flatMap_map]
      rfl
    rw [tpEntries_blk hc n filter s1 s2, tpEntries_blk hc n filter r1 r2, e, e, h1, h2]

theorem finish_same (rg : Bool) {ps qs : List (MulIrrep × Chunk K)} (s1 : Shaped ps) (s2 : Shaped qs) (h1 : ps.map Prod.fst = qs.map Prod.fst)
    (h2 : ps.flatMap blk = qs.flatMap blk) {y v : IArr K} (hy : finish rg ps = .ok y) (hv : finish rg qs = .ok v) : SameData y v := by
  obtain ⟨y', a1, a2, a3, a4, a5, a6⟩ := finish_spec rg s1
  obtain ⟨v', b1, b2, b3, b4, b5, b6⟩ := finish_spec rg s2
  rw [hy] at a1; cases a1
  rw [hv] at b1; cases b1
  have hi : y.irreps = v.irreps := by
    cases rg with
    | false =>
      rw [if_neg (by simp)] at a6 b6
      rw [a6, b6, h1]
    | true =>
      rw [if_pos rfl] at a6 b6
      rw [h1, b6] at a6
      injection a6 with a6
      exact a6.symm
  refine SameData.of_blocks a2.coherent b2.coherent hi (ext_filters ?_ fun ir => ?_)
  · rw [blocks_irs, blocks_irs, hi]
  · rw [a5, b5, h2]

theorem prepare_same (rg : Bool) {x u z w : IArr K} (h : SameData x u) (hz : prepare rg x = .ok z) (hw : prepare rg u = .ok w) : SameData z w := by
  cases rg with
  | false =>
    unfold prepare at hz hw
    rw [if_neg (by simp)] at hz hw
    cases hz; cases hw; exact h
  | true =>
    unfold prepare at hz hw
    rw [if_pos rfl] at hz hw
    obtain ⟨w', w1, w2⟩ := C46_sort_regroup.2 x u h z hz
    beta_reduce at w1
    rw [hw] at w1; cases w1
    exact w2

theorem C46_tensor_product {ctx : TPCtx K} (hc : CgShape ctx) {n : IrNorm} (hn : n ≠ .other) (filter : Option (List Irrep)) (rg : Bool)
    {x1 x2 u1 u2 : IArr K} (h1 : SameData x1 u1) (h2 : SameData x2 u2) :
    ∃ y v, tensorProduct ctx n filter rg x1 x2 = .ok y ∧ tensorProduct ctx n filter rg u1 u2 = .ok v ∧ SameData y v := by
  obtain ⟨z1, z2, y, a1, a2, a3, a4, a5, a6, a7, -⟩ := tensorProduct_spec hc.ok hn filter rg h1.1.inv h2.1.inv
  obtain ⟨w1, w2, v, b1, b2, b3, b4, b5, b6, b7, -⟩ := tensorProduct_spec hc.ok hn filter rg h1.2.1.inv h2.2.1.inv
  refine ⟨y, v, a6, b6, ?_⟩
  have e := tpEntries_sig hc.ok n filter a3.pairs.1 a4.pairs.1 b3.pairs.1 b4.pairs.1 (prepare_same rg h1 a1 b1).sig (prepare_same rg h2 a2 b2).sig
  exact finish_same rg (tpEntries_shaped hc.ok n filter a3.pairs.1 a4.pairs.1) (tpEntries_shaped hc.ok n filter b3.pairs.1 b4.pairs.1) e.1 e.2 a5 b5

theorem elEntries_sig {ctx : TPCtx K} (hc : CgOk ctx) (n : IrNorm) (filter : Option (List Irrep)) {P1 P2 : List (MulIrrep × Chunk K)}
    (s1 : Shaped P1) (s2 : Shaped P2) (h : P1.map (fun p => p.1.mul) = P2.map fun p => p.1.mul) :
    (elEntries ctx n filter P1 P2).map sig = ((P1.map sig).zip (P2.map sig)).flatMap fun q => (irsOut filter q.1.1.ir q.2.1.ir).map fun ir =>
      (⟨q.1.1.mul, ir⟩, (q.1.2.zip q.2.2).map fun b => (ir, contract ir.dim (normC ctx n q.1.1.ir q.2.1.ir ir) b.1.2 b.2.2)) := by
  unfold elEntries
  rw [List.zip_map, List.flatMap_map, List.map_map, List.map_flatMap]
  apply List.flatMap_congr
  intro pq hpq
  rw [List.map_map]
  apply List.map_congr_left
  intro ir _
  simp only [Function.comp, sig, Prod.map, Prod.mk.injEq]
  refine ⟨rfl, ?_⟩
  exact blk_zip (normC_shape hc n _ _ _) (s1 _ (List.of_mem_zip hpq).1) (s2 _ (List.of_mem_zip hpq).2) (zip_muls h _ hpq)

theorem C46_elementwise {ctx : TPCtx K} (hc : CgShape ctx) {n : IrNorm} (hn : n ≠ .other) (filter : Option (List Irrep))
    {x1 x2 u1 u2 : IArr K} (h1 : SameData x1 u1) (h2 : SameData x2 u2) (z1 : ∀ m ∈ x1.irreps, 0 < m.mul) (z2 : ∀ m ∈ x2.irreps, 0 < m.mul)
    (he : (expand x1.irreps).length = (expand x2.irreps).length) :
    ∃ y v, elementwise ctx n filter x1 x2 = .ok y ∧ elementwise ctx n filter u1 u2 = .ok v ∧ SameData y v := by
  rw [← Irreps.numIrreps_eq_length_expand, ← Irreps.numIrreps_eq_length_expand] at he
  obtain ⟨r, hr⟩ := alignTwo_ok z1 z2 he
  obtain ⟨p, q, y, a1, a2, a3, a4, a5, a6, a7, a8, a9, a10, -⟩ := elementwise_spec hc.ok hn filter h1.1.inv h2.1.inv he hr
  obtain ⟨p', q', v, b1, b2, b3, b4, b5, b6, b7, b8, b9, b10, -⟩ := elementwise_spec (r := r) hc.ok hn filter h1.2.1.inv h2.2.1.inv
    (by rw [← h1.2.2.1, ← h2.2.2.1]; exact he) (by rw [← h1.2.2.1, ← h2.2.2.1]; exact hr)
  refine ⟨y, v, a8, b8, ?_⟩
  obtain ⟨w1, c1, c2⟩ := C46_rechunk r.1 x1 u1 h1 p a6
  obtain ⟨w2, d1, d2⟩ := C46_rechunk r.2 x2 u2 h2 q a7
  beta_reduce at c1 d1
  rw [b6] at c1; cases c1
  rw [b7] at d1; cases d1
  have hm := (alignTwo_spec hr).2.2
  have m1 := pairs_muls a2 a3 (by rw [a4, a5, hm])
  have m2 := pairs_muls b2 b3 (by rw [b4, b5, hm])
  have key : (y.irreps.zip y.chunks).map sig = (v.irreps.zip v.chunks).map sig := by
    rw [a10, b10, elEntries_sig hc.ok n filter a2.pairs.1 a3.pairs.1 m1, elEntries_sig hc.ok n filter b2.pairs.1 b3.pairs.1 m2, c2.sig, d2.sig]
  have k1 := congrArg (List.map Prod.fst) key
  rw [List.map_map, List.map_map] at k1
  have k2 := congrArg (List.flatMap Prod.snd) key
  rw [List.flatMap_map, List.flatMap_map] at k2
  refine SameData.of_blocks a9.coherent b9.coherent ?_ ?_
  · rw [← a9.pairs.2.1, ← b9.pairs.2.1]; exact k1
  · rw [a9.blocks_pairs, b9.blocks_pairs]; exact k2

end

/-! ### activations -/

section
variable {ι : Type}

theorem C46_norm_activation (env : ℕ → ℝ → ℝ) (acts : List (Option ℕ)) (component : Bool) :
    FlagBlind fun x : IArr (Col ι) => normActivation env acts component x := by
  intro x u h y hy; beta_reduce at hy ⊢
  by_cases hl : acts.length = x.irreps.length
  · obtain ⟨y', a1, a2, a3, -, a5⟩ := (C44_norm_activation env acts component x h.1).2 hl
    obtain ⟨v, b1, b2, b3, -, b5⟩ := (C44_norm_activation env acts component u h.2.1).2 (by rw [← h.2.2.1]; exact hl)
    rw [hy] at a1; cases a1
    exact ⟨v, b1, SameData.of_blocks a2 b2 (by rw [a3, b3, h.2.2.1]) (by rw [a5, b5, h.blocks, h.2.2.1])⟩
  · rw [(C44_norm_activation env acts component x h.1).1 hl] at hy; cases hy

/-- `scalar_activation` does not look at the flags if the functions on flagged chunks vanish at zero. -/
theorem C46_scalar_activation (env : ℕ → ℝ → ℝ) (pts : List ℝ) (acts : List (Option ℕ)) (even odd : ℕ) (nrm : Bool) {x u : IArr (Col ι)}
    (h : SameData x u) (hl : acts.length = x.irreps.length)
    (hA : ∀ (i : ℕ) (m : MulIrrep) (a : Option ℕ), x.irreps[i]? = some m → acts[i]? = some a → ActAllowed (effective env pts nrm) m a)
    (hZ : ∀ (i : ℕ) (f : ℕ), x.zeroFlags[i]? = some true ∨ u.zeroFlags[i]? = some true → acts[i]? = some (some f) → effective env pts nrm f 0 = 0) :
    ∃ y v, scalarActivation env pts (some acts) even odd nrm x = .ok y ∧ scalarActivation env pts (some acts) even odd nrm u = .ok v ∧ SameData y v := by
  obtain ⟨y, a1, a2, -, a3⟩ := C44_scalar_activation env pts acts even odd nrm x h.1 hl hA fun i f hz => hZ i f (.inl hz)
  obtain ⟨v, b1, b2, -, b3⟩ := C44_scalar_activation env pts acts even odd nrm u h.2.1 (by rw [← h.2.2.1]; exact hl) (by rw [← h.2.2.1]; exact hA)
    fun i f hz => hZ i f (.inr hz)
  exact ⟨y, v, a1, b1, SameData.of_terms a2 b2 (by rw [a3, b3, h.terms])⟩

/-- The condition is needed, and the property is false of the code: on `1x0e + 1x0e` with components `(0, 0)`, the first flagged zero, and
the functions `t + 1` and `t`, `scalar_activation` returns `(2, 0)`, the value of the first function at one; without the flag it returns `(1, 0)`. -/
theorem C46_activation_witness :
    let env : ℕ → ℝ → ℝ := fun a t => if a = 0 then t + 1 else t
    let x : IArr (Col Unit) := ⟨[⟨1, ⟨0, .e⟩⟩, ⟨1, ⟨0, .e⟩⟩], [0, 0], some [true, false], none⟩
    let u : IArr (Col Unit) := ⟨[⟨1, ⟨0, .e⟩⟩, ⟨1, ⟨0, .e⟩⟩], [0, 0], some [false, false], none⟩
    SameData x u ∧
    (∃ y, scalarActivation env [] (some [some 0, some 1]) 0 0 false x = .ok y ∧ y.array = [fun _ => 2, fun _ => 0]) ∧
    (∃ v, scalarActivation env [] (some [some 0, some 1]) 0 0 false u = .ok v ∧ v.array = [fun _ => 1, fun _ => 0]) := by
  intro env x u
  have hx : Inv x := inv_nocache (by simp [FlagsOk, MulIrrep.dim, Irrep.dim])
  have hu : Inv u := inv_nocache (by simp [FlagsOk, MulIrrep.dim, Irrep.dim])
  refine ⟨⟨hx.coherent, hu.coherent, rfl, rfl⟩, ?_, ?_⟩
  · refine ⟨⟨x.irreps, [fun _ => 2, fun _ => 0], some [false, false], some [some [[fun _ => 2]], some [[fun _ => 0]]]⟩, ?_, rfl⟩
    have e : (lift (effective env [] false 0) fun _ => 1 : Col Unit) = fun _ => 2 := by
      funext i; simp [lift, effective, env]; norm_num
    have e1 : (lift (effective env [] false 1) 0 : Col Unit) = fun _ => 0 := by
      funext i; simp [lift, effective, env]
    have e2 : ¬ IsZeroInZero (effective env [] false 0) := by
      unfold IsZeroInZero AllClose; simp [effective, env]; norm_num
    have s1 : step (effective env [] false) (⟨1, ⟨0, .e⟩⟩, (none : Chunk (Col Unit))) (some 0) = .ok (⟨1, ⟨0, .e⟩⟩, some [[fun _ => 2]]) := by
      simp only [step, ne_eq, not_true_eq_false, if_false, reduceCtorEq, Parity.toInt, one_ne_zero, e2, e, ofSign]
      rfl
    have s2 : step (effective env [] false) (⟨1, ⟨0, .e⟩⟩, some [[(0 : Col Unit)]]) (some 1) = .ok (⟨1, ⟨0, .e⟩⟩, some [[fun _ => 0]]) := by
      simp only [step, ne_eq, not_true_eq_false, if_false, reduceCtorEq, Parity.toInt, one_ne_zero, List.map_cons, List.map_nil, e1, ofSign]
    unfold scalarActivation
    simp only [Option.getD_some]
    rw [if_neg (by decide)]
    have hz : (x.irreps.zip x.chunks).zip [some 0, some 1] = [((⟨1, ⟨0, .e⟩⟩, none), some 0), ((⟨1, ⟨0, .e⟩⟩, some [[(0 : Col Unit)]]), some 1)] := rfl
    rw [hz]
    simp only [List.mapM_cons, List.mapM_nil, s1, s2, bind, Except.bind, pure, Except.pure]
    rfl
  · refine ⟨⟨x.irreps, [fun _ => 1, fun _ => 0], some [false, false], some [some [[fun _ => 1]], some [[fun _ => 0]]]⟩, ?_, rfl⟩
    have e : (lift (effective env [] false 0) 0 : Col Unit) = fun _ => 1 := by
      funext i; simp [lift, effective, env]
    have e1 : (lift (effective env [] false 1) 0 : Col Unit) = fun _ => 0 := by
      funext i; simp [lift, effective, env]
    have s1 : step (effective env [] false) (⟨1, ⟨0, .e⟩⟩, some [[(0 : Col Unit)]]) (some 0) = .ok (⟨1, ⟨0, .e⟩⟩, some [[fun _ => 1]]) := by
      simp only [step, ne_eq, not_true_eq_false, if_false, reduceCtorEq, Parity.toInt, one_ne_zero, List.map_cons, List.map_nil, e, ofSign]
    have s2 : step (effective env [] false) (⟨1, ⟨0, .e⟩⟩, some [[(0 : Col Unit)]]) (some 1) = .ok (⟨1, ⟨0, .e⟩⟩, some [[fun _ => 0]]) := by
      simp only [step, ne_eq, not_true_eq_false, if_false, reduceCtorEq, Parity.toInt, one_ne_zero, List.map_cons, List.map_nil, e1, ofSign]
    unfold scalarActivation
    simp only [Option.getD_some]
    rw [if_neg (by decide)]
    have hz : (u.irreps.zip u.chunks).zip [some 0, some 1] = [((⟨1, ⟨0, .e⟩⟩, some [[(0 : Col Unit)]]), some 0), ((⟨1, ⟨0, .e⟩⟩, some [[(0 : Col Unit)]]), some 1)] := rfl
    rw [hz]
    simp only [List.mapM_cons, List.mapM_nil, s1, s2, bind, Except.bind, pure, Except.pure]
    rfl

end

end E3nn
