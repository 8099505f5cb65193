import Verif.Lemmas.IrrepsOnly2

/-!
# C108: calling a decorated function on irreps tells the irreps of the result

`tensor_product`, `elementwise_tensor_product`, `tensor_square`, `gate` and `scalar_activation` accept irreps in place of
arrays and then return irreps. The answer is the irreps of what the function returns on any arrays with those irreps.
-/

namespace E3nn

open IArr TP Activ

variable {K : Type} [CommRing K] {ι : Type}

theorem irrepsOnly_run {K : Type} [Zero K] {f : IArr K → Except PyErr (IArr K)} {irreps out : Irreps}
    (h : ∀ u : IArr K, Inv u → u.irreps = irreps → AllSome (u.irreps.zip u.chunks) → ∃ v, f u = .ok v ∧ v.irreps = out) :
    irrepsOnly f irreps = .ok out := by
  obtain ⟨z, w, z1, w1, w2, w3, w4⟩ := zeros_tree (K := K) irreps
  obtain ⟨v, v1, v2⟩ := h w w2 w3 fun q hq => w4 _ (List.of_mem_zip (a := q.1) (b := q.2) hq).2
  unfold irrepsOnly
  simp only [z1, w1, v1, bind, Except.bind, v2]
  rfl

theorem irrepsOnly2_run {K : Type} [Zero K] {f : IArr K → IArr K → Except PyErr (IArr K)} {irreps1 irreps2 out : Irreps}
    (h : ∀ u1 u2 : IArr K, Inv u1 → Inv u2 → u1.irreps = irreps1 → u2.irreps = irreps2 → ∃ v, f u1 u2 = .ok v ∧ v.irreps = out) :
    irrepsOnly2 f irreps1 irreps2 = .ok out := by
  obtain ⟨z, w, z1, w1, w2, w3, w4⟩ := zeros_tree (K := K) irreps1
  obtain ⟨z', w', z1', w1', w2', w3', w4'⟩ := zeros_tree (K := K) irreps2
  obtain ⟨v, v1, v2⟩ := h w w' w2 w2' w3 w3'
  unfold irrepsOnly2
  simp only [z1, w1, z1', w1', v1, bind, Except.bind, v2]
  rfl

/-- **C108 (tensor product).** On any two arrays the product is defined, and on their irreps it returns the irreps of that product. -/
theorem C108_tensor_product {n : IrNorm} (hn : n ≠ .other) (filter : Option (List Irrep)) (regroup : Bool) (x1 x2 : IArr (Col ι))
    (h1 : x1.Coherent) (h2 : x2.Coherent) :
    ∃ y, tensorProduct (realCtx (Col ι)) n filter regroup x1 x2 = .ok y ∧
      irrepsOnly2 (tensorProduct (realCtx (Col Unit)) n filter regroup) x1.irreps x2.irreps = .ok y.irreps := by
  obtain ⟨y, -, y1, -⟩ := tp_blind (realCtx_shape (Col ι)).ok (realCtx_shape (Col ι)).ok hn filter regroup h1.inv h2.inv h1.inv h2.inv rfl rfl
  refine ⟨y, y1, irrepsOnly2_run fun u1 u2 k1 k2 e1 e2 => ?_⟩
  obtain ⟨y', v, y1', v1, -, -, hv⟩ := tp_blind (realCtx_shape (Col ι)).ok (realCtx_shape (Col Unit)).ok hn filter regroup h1.inv h2.inv k1 k2 e1.symm e2.symm
  rw [y1] at y1'
  cases Except.ok.inj y1'
  exact ⟨v, v1, hv.symm⟩

/-- **C108 (tensor square).** -/
theorem C108_tensor_square {n : IrNorm} (hn : n ≠ .other) (normalizedInput regroup : Bool) (x : IArr (Col ι)) (hx : x.Coherent) :
    ∃ y, tensorSquare (realCtx (Col ι)) n normalizedInput regroup x = .ok y ∧
      irrepsOnly (tensorSquare (realCtx (Col Unit)) n normalizedInput regroup) x.irreps = .ok y.irreps := by
  obtain ⟨y, -, y1, -⟩ := square_blind (realCtx_shape (Col ι)).ok (realCtx_shape (Col ι)).ok hn normalizedInput regroup hx.inv hx.inv rfl
  refine ⟨y, y1, irrepsOnly_run fun u k e _ => ?_⟩
  obtain ⟨y', v, y1', v1, -, -, hv⟩ := square_blind (realCtx_shape (Col ι)).ok (realCtx_shape (Col Unit)).ok hn normalizedInput regroup hx.inv k e.symm
  rw [y1] at y1'
  cases Except.ok.inj y1'
  exact ⟨v, v1, hv.symm⟩

/-- **C108 (elementwise product).** Whenever the elementwise product of two arrays is defined. -/
theorem C108_elementwise {n : IrNorm} (hn : n ≠ .other) (filter : Option (List Irrep)) (x1 x2 y : IArr (Col ι))
    (h1 : x1.Coherent) (h2 : x2.Coherent) (hy : elementwise (realCtx (Col ι)) n filter x1 x2 = .ok y) :
    irrepsOnly2 (elementwise (realCtx (Col Unit)) n filter) x1.irreps x2.irreps = .ok y.irreps := by
  refine irrepsOnly2_run fun u1 u2 k1 k2 e1 e2 => ?_
  obtain ⟨v, v1, -, -, hv⟩ := el_blind (realCtx_shape (Col ι)).ok (realCtx_shape (Col Unit)).ok hn filter h1.inv h2.inv k1 k2 e1.symm e2.symm hy
  exact ⟨v, v1, hv.symm⟩

/-- **C108 (activation).** Whenever the activation of an array is defined, whatever its zero flags. -/
theorem C108_scalar_activation (env : ℕ → ℝ → ℝ) (pts : List ℝ) (acts : Option (List (Option ℕ))) (even odd : ℕ) (normalizeAct : Bool)
    (x y : IArr (Col ι)) (hx : x.Coherent) (hy : scalarActivation env pts acts even odd normalizeAct x = .ok y) :
    irrepsOnly (scalarActivation (ι := Unit) env pts acts even odd normalizeAct) x.irreps = .ok y.irreps := by
  refine irrepsOnly_run fun u k e f => ?_
  obtain ⟨v, v1, -, hv⟩ := act_blind env pts acts even odd normalizeAct hx.inv k e.symm f hy
  exact ⟨v, v1, hv.symm⟩

theorem filter_blind {x : IArr (Col ι)} {u : IArr (Col Unit)} (hx : x.Coherent) (hu : u.Coherent) (he : x.irreps = u.irreps) (k : IrCrit) :
    ∃ y v, filterBy x k = .ok y ∧ filterBy u k = .ok v ∧ Inv y ∧ Inv v ∧ y.irreps = v.irreps ∧
      y.irreps = x.irreps.filter (fun m => decide (k.sat m.ir)) ∧
      y.irreps.zip y.chunks = (x.irreps.zip x.chunks).filter (fun q => decide (k.sat q.1.ir)) ∧
      v.irreps.zip v.chunks = (u.irreps.zip u.chunks).filter (fun q => decide (k.sat q.1.ir)) := by
  obtain ⟨y, y1, y2, y3⟩ := filterBy_pairs hx k
  obtain ⟨v, v1, v2, v3⟩ := filterBy_pairs hu k
  obtain ⟨y', a1, -, -, a2⟩ := C18_filter x hx k
  obtain ⟨v', b1, -, -, b2⟩ := C18_filter u hu k
  rw [y1] at a1; rw [v1] at b1
  cases Except.ok.inj a1; cases Except.ok.inj b1
  exact ⟨y, v, y1, v1, y2, v2, by rw [a2, b2, he], a2, y3, v3⟩

theorem gate_blind (env : ℕ → ℝ → ℝ) (pts : List ℝ) {n : IrNorm} (hn : n ≠ .other) (evenAct oddAct evenGate oddGate : ℕ) (nrm : Bool)
    {x y : IArr (Col ι)} {u : IArr (Col Unit)} (hx : x.Coherent) (hu : u.Coherent) (he : x.irreps = u.irreps)
    (fx : ∀ q ∈ x.irreps.zip x.chunks, q.1.ir.l = 0 → q.2 ≠ none) (fu : AllSome (u.irreps.zip u.chunks))
    (hy : gate env pts n evenAct oddAct evenGate oddGate nrm x = .ok y) :
    ∃ v, gate env pts n evenAct oddAct evenGate oddGate nrm u = .ok v ∧ v.irreps = y.irreps := by
  obtain ⟨s, s', s1, s1', s2, s2', s3, s4, s5, s5'⟩ := filter_blind hx hu he (.keep [⟨0, .e⟩, ⟨0, .o⟩])
  obtain ⟨w, w', w1, w1', w2, w2', w3, -, -, -⟩ := filter_blind hx hu he (.drop [⟨0, .e⟩, ⟨0, .o⟩])
  simp only [IrCrit.sat, scalar_list] at s4 s5 s5'
  have fs : AllSome (s.irreps.zip s.chunks) := by
    rw [s5]; intro q hq
    obtain ⟨h1, h2⟩ := List.mem_filter.mp hq
    exact fx q h1 (by simpa using h2)
  have fs' : AllSome (s'.irreps.zip s'.chunks) := by
    rw [s5']; intro q hq
    exact fu q (List.mem_filter.mp hq).1
  have hsl : ∀ m ∈ s.irreps, m.ir.l = 0 := by
    intro m hm
    rw [s4] at hm
    simpa using (List.mem_filter.mp hm).2
  unfold gate at hy ⊢
  rw [show x.filter (some (.irs [⟨0, .e⟩, ⟨0, .o⟩])) none none = .ok s from s1,
    show x.filter none (some (.irs [⟨0, .e⟩, ⟨0, .o⟩])) none = .ok w from w1] at hy
  rw [show u.filter (some (.irs [⟨0, .e⟩, ⟨0, .o⟩])) none none = .ok s' from s1',
    show u.filter none (some (.irs [⟨0, .e⟩, ⟨0, .o⟩])) none = .ok w' from w1']
  have hlen : w'.array.length = w.array.length := by rw [w2'.length_array, w2.length_array, w3]
  simp only [bind, Except.bind] at hy ⊢
  rw [hlen, ← s3, ← w3]
  split at hy
  · rename_i h0
    rw [if_pos h0]
    obtain ⟨v, v1, -, v2⟩ := act_blind env pts none evenAct oddAct nrm s2 s2' s3 fs' hy
    exact ⟨v, v1, v2.symm⟩
  rename_i h0
  rw [if_neg h0]
  split at hy
  · cases hy
  rename_i hd
  rw [if_neg hd]
  have hdim := dim_scalar hsl
  generalize hk : (s.irreps.dim : ℤ) - w.irreps.numIrreps = k at hy ⊢
  have hk0 : 0 ≤ k := by omega
  have hkn : k ≤ s.irreps.numIrreps := by omega
  cases hA : s.sliceByMul ⟨none, some k, none⟩ with
  | error e => rw [hA] at hy; cases hy
  | ok ex =>
  obtain ⟨ex', a1, a2, a3, a4, a5, a6⟩ := slice_blind s2 s2' s3 fs fs' ⟨none, some k, none⟩ rfl (by simp [PySlice.bounds]) hA
  rw [hA] at hy
  rw [a1]
  simp only at hy ⊢
  cases hB : s.sliceByMul ⟨some k, none, none⟩ with
  | error e => rw [hB] at hy; cases hy
  | ok ga =>
  obtain ⟨ga', b1, b2, b3, b4, b5, b6⟩ := slice_blind s2 s2' s3 fs fs' ⟨some k, none, none⟩ rfl
    (by simp only [PySlice.bounds, Option.map_none, Option.getD_none, Option.map_some, Option.getD_some, adjustIndex]; split <;> omega) hB
  rw [hB] at hy
  rw [b1]
  simp only at hy ⊢
  cases hC : scalarActivation env pts none evenAct oddAct nrm ex with
  | error e => rw [hC] at hy; cases hy
  | ok c =>
  obtain ⟨c', c1, c2, c3⟩ := act_blind env pts none evenAct oddAct nrm a2 a3 a4 a6 hC
  rw [hC] at hy
  rw [c1]
  simp only at hy ⊢
  cases hD : scalarActivation env pts none evenGate oddGate nrm ga with
  | error e => rw [hD] at hy; cases hy
  | ok d =>
  obtain ⟨d', d1, d2, d3⟩ := act_blind env pts none evenGate oddGate nrm b2 b3 b4 b6 hD
  rw [hD] at hy
  rw [d1]
  simp only at hy ⊢
  cases hE : mulArrays n d w with
  | error e => rw [hE] at hy; cases hy
  | ok g =>
  obtain ⟨g', g1, g2, g3, g4⟩ := mul_blind hn (act_inv env pts none evenGate oddGate nrm b2 b5 hD) w2 d2 w2' d3 w3 hE
  rw [hE] at hy
  rw [g1]
  simp only at hy ⊢
  obtain ⟨o, o1, -, o2, -⟩ := concatenate_spec (xs := [c, g]) (by simp)
    (by simp only [List.mem_cons, List.not_mem_nil, or_false]; rintro z (rfl | rfl)
        · exact act_inv env pts none evenAct oddAct nrm a2 a5 hC
        · exact g2)
  obtain ⟨o', o1', -, o2', -⟩ := concatenate_spec (xs := [c', g']) (by simp)
    (by simp only [List.mem_cons, List.not_mem_nil, or_false]; rintro z (rfl | rfl)
        · exact c2
        · exact g3)
  rw [o1] at hy
  cases Except.ok.inj hy
  exact ⟨o', o1', by rw [o2, o2']; simp [c3, g4]⟩

/-- **C108 (gate).** Whenever the gate of an array, none of whose scalars is zero-flagged, is defined. -/
theorem C108_gate (env : ℕ → ℝ → ℝ) (pts : List ℝ) {n : IrNorm} (hn : n ≠ .other) (evenAct oddAct evenGate oddGate : ℕ) (normalizeAct : Bool)
    (x y : IArr (Col ι)) (hx : x.Coherent)
    (hflag : ∀ (i : ℕ) (m : MulIrrep), x.irreps[i]? = some m → m.ir.l = 0 → x.zeroFlags[i]? = some false)
    (hy : gate env pts n evenAct oddAct evenGate oddGate normalizeAct x = .ok y) :
    irrepsOnly (gate (ι := Unit) env pts n evenAct oddAct evenGate oddGate normalizeAct) x.irreps = .ok y.irreps := by
  refine irrepsOnly_run fun u k e f => ?_
  refine gate_blind env pts hn evenAct oddAct evenGate oddGate normalizeAct hx k.coherent e.symm ?_ f hy
  rintro ⟨m, c⟩ hq hl h
  obtain ⟨j, hj⟩ := List.mem_iff_getElem?.mp hq
  simp only at h hl; subst h
  have := (zip_spec_flag hx.inv j m).mp hj
  rw [hflag j m this.1 hl] at this
  cases this.2

/-- The converse, and the case of an ill-formed call: if the call on irreps succeeds then so does the call on any two arrays of those
irreps, with the announced irreps. -/
theorem C108_elementwise_announced {n : IrNorm} (hn : n ≠ .other) (filter : Option (List Irrep)) (x1 x2 : IArr (Col ι))
    (h1 : x1.Coherent) (h2 : x2.Coherent) {out : Irreps}
    (h : irrepsOnly2 (elementwise (realCtx (Col Unit)) n filter) x1.irreps x2.irreps = .ok out) :
    ∃ y, elementwise (realCtx (Col ι)) n filter x1 x2 = .ok y ∧ y.Coherent ∧ y.irreps = out := by
  obtain ⟨z, w, z1, w1, w2, w3, w4⟩ := zeros_tree (K := Col Unit) x1.irreps
  obtain ⟨z', w', z1', w1', w2', w3', w4'⟩ := zeros_tree (K := Col Unit) x2.irreps
  unfold irrepsOnly2 at h
  simp only [z1, w1, z1', w1', bind, Except.bind] at h
  cases hv : elementwise (realCtx (Col Unit)) n filter w w' with
  | error e => rw [hv] at h; cases h
  | ok v =>
    rw [hv] at h
    cases Except.ok.inj h
    obtain ⟨y, y1, -, y2, y3⟩ := el_blind (realCtx_shape (Col Unit)).ok (realCtx_shape (Col ι)).ok hn filter w2 w2' h1.inv h2.inv w3 w3' hv
    exact ⟨y, y1, y2.coherent, y3.symm⟩

/-- **C108 (activation, announced).** If the call on irreps succeeds then the activation of every array of those irreps without zero
flags succeeds with the announced irreps. -/
theorem C108_activation_announced (env : ℕ → ℝ → ℝ) (pts : List ℝ) (acts : Option (List (Option ℕ))) (even odd : ℕ) (normalizeAct : Bool)
    (x : IArr (Col ι)) (hx : x.Coherent) (hf : ∀ c ∈ x.chunks, c ≠ none) {out : Irreps}
    (h : irrepsOnly (scalarActivation (ι := Unit) env pts acts even odd normalizeAct) x.irreps = .ok out) :
    ∃ y, scalarActivation env pts acts even odd normalizeAct x = .ok y ∧ y.Coherent ∧ y.irreps = out := by
  obtain ⟨z, w, z1, w1, w2, w3, w4⟩ := zeros_tree (K := Col Unit) x.irreps
  unfold irrepsOnly at h
  simp only [z1, w1, bind, Except.bind] at h
  cases hv : scalarActivation (ι := Unit) env pts acts even odd normalizeAct w with
  | error e => rw [hv] at h; cases h
  | ok v =>
    rw [hv] at h
    cases Except.ok.inj h
    obtain ⟨y, y1, y2, y3⟩ := act_blind env pts acts even odd normalizeAct w2 hx.inv w3
      (fun q hq => hf _ (List.of_mem_zip (a := q.1) (b := q.2) hq).2) hv
    exact ⟨y, y1, y2.coherent, y3.symm⟩

/-- The hypotheses are met: `1o ⊗ 1o` announces `0e + 1e + 2e`. -/
example : ∃ x : IArr (Col Unit), x.Coherent ∧ x.irreps = [⟨1, ⟨1, .o⟩⟩] ∧
    irrepsOnly2 (tensorProduct (realCtx (Col Unit)) .component none true) [⟨1, ⟨1, .o⟩⟩] [⟨1, ⟨1, .o⟩⟩] =
      .ok [⟨1, ⟨0, .e⟩⟩, ⟨1, ⟨1, .e⟩⟩, ⟨1, ⟨2, .e⟩⟩] := by
  obtain ⟨x, x1, x2, x3, -⟩ := (C12_zeros_ones (α := Col Unit) [⟨1, ⟨1, .o⟩⟩]).1
  refine ⟨x, x2, x3, ?_⟩
  obtain ⟨y, y1, y2⟩ := C108_tensor_product (n := .component) (by simp) none true x x x2 x2
  rw [x3] at y2
  rw [y2]
  obtain ⟨z1, z2, y', a1, a2, a3, a4, a5, a6, a7, -⟩ := tensorProduct_spec (realCtx_shape (Col Unit)).ok (n := .component) (by simp) none true x2.inv x2.inv
  rw [y1] at a6
  cases Except.ok.inj a6
  obtain ⟨b, b1, -, -, -, -, b2⟩ := finish_spec true (tpEntries_shaped (realCtx_shape (Col Unit)).ok .component none a3.pairs.1 a4.pairs.1)
  rw [a5] at b1
  cases Except.ok.inj b1
  rw [tpEntries_fst, zip_fst a3, zip_fst a4] at b2
  have key : ∀ z : IArr (Col Unit), prepare true x = .ok z → z.irreps = [⟨1, ⟨1, .o⟩⟩] := by
    intro z hz
    obtain ⟨t, t1, -, -, -, -, t2⟩ := C17_regroup x x2
    simp only [prepare, if_true] at hz
    rw [t1] at hz
    cases Except.ok.inj hz
    rw [x3] at t2
    have : (Irreps.regroup [⟨1, ⟨1, .o⟩⟩]) = .ok [⟨1, ⟨1, .o⟩⟩] := by rfl
    rw [this] at t2
    exact (Except.ok.inj t2).symm
  rw [key z1 a1, key z2 a2] at b2
  simp only [if_true] at b2
  have : (Irreps.sortIrreps ([(⟨1, ⟨1, .o⟩⟩ : MulIrrep)].flatMap fun m1 => [(⟨1, ⟨1, .o⟩⟩ : MulIrrep)].flatMap fun m2 =>
      (irsOut none m1.ir m2.ir).map fun ir => (⟨m1.mul * m2.mul, ir⟩ : MulIrrep))).regroup = .ok [⟨1, ⟨0, .e⟩⟩, ⟨1, ⟨1, .e⟩⟩, ⟨1, ⟨2, .e⟩⟩] := by rfl
  rw [this] at b2
  rw [← Except.ok.inj b2]

end E3nn
