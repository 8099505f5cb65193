import Verif.Model.Vmap
import Verif.Props.C92
import Verif.Props.C46

/-!
# C109: `vmap` over a leading axis

Mapping a function over the rows of an array gives what the function gives on the whole array, zero flags included;
`jax.vmap` gives the same data but forgets the flags.
-/

namespace E3nn.Vmap
open E3nn.IArr E3nn.MPC

variable {ν : Type}

theorem row_gather (x : IArr (ν → ℝ)) (i : ν) : row x i = gather (fun _ : Unit => i) x := rfl

theorem stack_of {y : IArr (ν → ℝ)} (hy : Inv y) (outs : ν → IArr (Unit → ℝ)) (h : ∀ i, Mp (pull (fun _ : Unit => i)) y (outs i)) (i₀ : ν) :
    ∃ z, stack outs i₀ = .ok z ∧ z.Equal y ∧ z.Coherent := by
  have ha : ((outs i₀).array.mapIdx fun k _ => fun i => (outs i).array.getD k 0 ()) = y.array := by
    apply List.ext_getElem
    · simp [(h i₀).array]
    · intro k h1 h2
      rw [List.getElem_mapIdx]
      funext i
      rw [(h i).array, List.getD_eq_getElem _ _ (by simpa using h2), List.getElem_map]
      rfl
  have hc : stackChunks outs (outs i₀).chunks = y.chunks := by
    unfold stackChunks
    apply List.ext_getElem
    · simp [(h i₀).chunks]
    · intro j h1 h2
      have e : ∀ i, (outs i).chunks.getD j none = mapChunk (pull fun _ : Unit => i) y.chunks[j] := by
        intro i
        rw [(h i).chunks, List.getD_eq_getElem _ _ (by simpa using h2), List.getElem_map]
      rw [List.getElem_mapIdx]
      have e0 : (outs i₀).chunks[j]'(by simpa using h1) = mapChunk (pull fun _ : Unit => i₀) y.chunks[j] := by
        rw [← e i₀, List.getD_eq_getElem _ _ (by simpa using h1)]
      rw [e0]
      simp only [e]
      cases y.chunks[j] with
      | none => rfl
      | some rows =>
        simp only [mapChunk, Option.map_some, Option.getD_some, Option.some.injEq]
        apply List.ext_getElem
        · simp
        · intro r r1 r2
          rw [List.getElem_mapIdx]
          apply List.ext_getElem
          · simp
          · intro k k1 k2
            rw [List.getElem_mapIdx]
            funext i
            have r3 : ∀ i, (rows.map fun r => r.map (pull fun _ : Unit => i)).getD r [] = rows[r].map (pull fun _ : Unit => i) := by
              intro i
              rw [List.getD_eq_getElem _ _ (by simpa using r2), List.getElem_map]
            rw [r3, List.getD_eq_getElem _ _ (by simpa using k2), List.getElem_map]
            rfl
  have hI : ∀ cs?, (cs? = none ∨ cs? = some y.chunks) → Inv (⟨y.irreps, y.array, some y.zeroFlags, cs?⟩ : IArr (ν → ℝ)) := by
    intro cs? hcs
    refine ⟨hy.flags, ?_⟩
    rintro cs h
    rcases hcs with rfl | rfl
    · cases h
    · cases h; exact hy.chunks_eq
  obtain ⟨c?, hc?, hc1⟩ : ∃ c?, (outs i₀).chunks?.map (stackChunks outs) = c? ∧ (c? = none ∨ c? = some y.chunks) := by
    refine ⟨_, rfl, ?_⟩
    cases hq : (outs i₀).chunks? with
    | none => exact .inl rfl
    | some cs =>
      right
      have : cs = (outs i₀).chunks := by rw [(h i₀).inv'.cache cs hq, ← (h i₀).inv'.chunks_eq]
      rw [Option.map_some, this, hc]
  have hmk : stack outs i₀ = make y.irreps y.array (some y.zeroFlags) c? := by
    unfold stack
    rw [ha, hc?, (h i₀).irreps, (h i₀).flags]
  have hI' := hI c? hc1
  have hz : make y.irreps y.array (some y.zeroFlags) c? = .ok ⟨y.irreps, y.array, some y.zeroFlags, c?⟩ := by
    rcases hc1 with rfl | rfl
    · exact make_nocache hy.flags
    · rw [hy.chunks_eq]; exact make_cache hy.flags
  refine ⟨_, hmk.trans hz, ⟨rfl, rfl, rfl, ?_⟩, hI'.coherent⟩
  rw [hI'.chunks_eq, hy.chunks_eq]
  rfl

theorem inv_of_equal {α : Type} [Zero α] {x y : IArr α} (h : x.Equal y) (hy : Inv y) : Inv x := by
  obtain ⟨h1, h2, h3, h4⟩ := h
  refine ⟨by rw [h1, h2, h3]; exact hy.flags, fun cs hcs => ?_⟩
  have : x.chunks = cs := by unfold IArr.chunks; rw [hcs]
  rw [← this, h4, hy.chunks_eq, h1, h2, h3]

theorem mp_of_gather {y : IArr (ν → ℝ)} {i : ν} {y' z : IArr (Unit → ℝ)} (hy : Inv y) (hz : gather (fun _ : Unit => i) y = .ok z) (h : y'.Equal z) :
    Mp (pull fun _ : Unit => i) y y' := by
  obtain ⟨w, w1, w2⟩ := gather_mp (fun _ : Unit => i) hy
  rw [hz] at w1
  cases Except.ok.inj w1
  exact ⟨hy, inv_of_equal h w2.inv', by rw [h.1, w2.irreps], by rw [h.2.2.1, w2.flags], by rw [h.2.1, w2.array]⟩

/-- On every row, `f` returns the row of `y`. -/
def Rows (f : IArr (Unit → ℝ) → Except PyErr (IArr (Unit → ℝ))) (x y : IArr (ν → ℝ)) : Prop :=
  ∀ i : ν, ∃ x' y' z, gather (fun _ : Unit => i) x = .ok x' ∧ f x' = .ok y' ∧ gather (fun _ : Unit => i) y = .ok z ∧ y'.Equal z

theorem vmap_rows [Nonempty ν] {f : IArr (Unit → ℝ) → Except PyErr (IArr (Unit → ℝ))} {x y : IArr (ν → ℝ)} (hy : y.Coherent) (h : Rows f x y) :
    ∃ z, vmap f x = .ok z ∧ z.Equal y ∧ z.Coherent := by
  have hone : ∀ i, ∃ out, (row x i).bind f = .ok out ∧ Mp (pull fun _ : Unit => i) y out := by
    intro i
    obtain ⟨x', y', z, h1, h2, h3, h4⟩ := h i
    refine ⟨y', ?_, mp_of_gather hy.inv h3 h4⟩
    rw [row_gather, h1]
    exact h2
  have hx : ∀ i, ∃ out, (row x i).bind f = .ok out := fun i => ⟨_, (hone i).choose_spec.1⟩
  unfold vmap
  simp only
  rw [dif_pos hx]
  apply stack_of hy.inv
  intro i
  obtain ⟨out, o1, o2⟩ := hone i
  have := (hx i).choose_spec
  rw [← Except.ok.inj (o1.symm.trans this)]
  exact o2

/-- **C109 (one array).** For a function that acts row by row (C92), `vmap` of the function returns what the function returns on
the whole array: same irreps, data, zero flags and chunks. -/
theorem C109_vmap [Nonempty ν] (op : ∀ κ : Type, IArr (κ → ℝ) → Except PyErr (IArr (κ → ℝ))) (hop : RowWise op) (x y : IArr (ν → ℝ))
    (hx : x.Coherent) (hy : y.Coherent) (h : op ν x = .ok y) : ∃ z, vmap (op Unit) x = .ok z ∧ z.Equal y ∧ z.Coherent :=
  vmap_rows hy fun i => hop ν Unit (fun _ => i) x y hx h

/-- **C109 (two arrays).** -/
theorem C109_vmap2 [Nonempty ν] (op : ∀ κ : Type, IArr (κ → ℝ) → IArr (κ → ℝ) → Except PyErr (IArr (κ → ℝ))) (hop : RowWise2 op) (a b y : IArr (ν → ℝ))
    (ha : a.Coherent) (hb : b.Coherent) (hy : y.Coherent) (h : op ν a b = .ok y) : ∃ z, vmap2 (op Unit) a b = .ok z ∧ z.Equal y ∧ z.Coherent := by
  have hone : ∀ i, ∃ out, ((row a i).bind fun u => (row b i).bind fun v => op Unit u v) = .ok out ∧ Mp (pull fun _ : Unit => i) y out := by
    intro i
    obtain ⟨a', b', y', z, h1, h2, h3, h4, h5⟩ := hop ν Unit (fun _ => i) a b y ha hb h
    refine ⟨y', ?_, mp_of_gather hy.inv h4 h5⟩
    rw [row_gather, row_gather, h1, h2]
    exact h3
  have hx : ∀ i, ∃ out, ((row a i).bind fun u => (row b i).bind fun v => op Unit u v) = .ok out := fun i => ⟨_, (hone i).choose_spec.1⟩
  unfold vmap2
  simp only
  rw [dif_pos hx]
  apply stack_of hy.inv
  intro i
  obtain ⟨out, o1, o2⟩ := hone i
  have := (hx i).choose_spec
  rw [← Except.ok.inj (o1.symm.trans this)]
  exact o2

theorem equal_of_unit {b b' : IArr (Unit → ℝ)} {i : ν} {w : IArr (ν → ℝ)} (hb : Inv b) (hw : gather (fun _ : ν => ()) b = .ok w)
    (h : gather (fun _ : Unit => i) w = .ok b') : b'.Equal b := by
  obtain ⟨w', w1, w2⟩ := gather_mp (fun _ : ν => ()) hb
  rw [hw] at w1
  cases Except.ok.inj w1
  obtain ⟨v, v1, v2⟩ := gather_mp (fun _ : Unit => i) w2.inv'
  rw [h] at v1
  cases Except.ok.inj v1
  have ha : b'.array = b.array := by
    rw [v2.array, w2.array, List.map_map]
    conv_rhs => rw [← List.map_id b.array]
    apply List.map_congr_left
    intro c _
    funext u
    cases u
    rfl
  have h1 : b'.irreps = b.irreps := by rw [v2.irreps, w2.irreps]
  have h3 : b'.zeroFlags = b.zeroFlags := by rw [v2.flags, w2.flags]
  exact ⟨h1, ha, h3, by rw [v2.inv'.chunks_eq, hb.chunks_eq, h1, ha, h3]⟩

/-- **C109 (`in_axes=(0, None)`).** A second argument that is not mapped acts as its copies along the mapped axis. The function
gives equal results on equal arguments. -/
theorem C109_shared [Nonempty ν] (op : ∀ κ : Type, IArr (κ → ℝ) → IArr (κ → ℝ) → Except PyErr (IArr (κ → ℝ))) (hop : RowWise2 op)
    (hcongr : ∀ (a b b' r : IArr (Unit → ℝ)), a.Coherent → b.Coherent → b'.Coherent → b'.Equal b → op Unit a b' = .ok r → ∃ r', op Unit a b = .ok r' ∧ r'.Equal r)
    (a : IArr (ν → ℝ)) (b : IArr (Unit → ℝ)) (w y : IArr (ν → ℝ))
    (ha : a.Coherent) (hb : b.Coherent) (hy : y.Coherent) (hw : gather (fun _ : ν => ()) b = .ok w) (h : op ν a w = .ok y) :
    ∃ z, vmapShared (op Unit) a b = .ok z ∧ z.Equal y ∧ z.Coherent := by
  obtain ⟨w', w1, w2⟩ := gather_mp (fun _ : ν => ()) hb.inv
  rw [hw] at w1
  cases Except.ok.inj w1
  have hone : ∀ i, ∃ out, ((row a i).bind fun u => op Unit u b) = .ok out ∧ Mp (pull fun _ : Unit => i) y out := by
    intro i
    obtain ⟨a', b', y', z, h1, h2, h3, h4, h5⟩ := hop ν Unit (fun _ => i) a w y ha w2.inv'.coherent h
    obtain ⟨a'', q1, q2⟩ := gather_mp (fun _ : Unit => i) ha.inv
    rw [h1] at q1
    cases Except.ok.inj q1
    have e := equal_of_unit hb.inv hw h2
    obtain ⟨r', r1, r2⟩ := hcongr a' b b' y' q2.inv'.coherent hb (inv_of_equal e hb.inv).coherent e h3
    refine ⟨r', ?_, mp_of_gather hy.inv h4 ⟨r2.1.trans h5.1, r2.2.1.trans h5.2.1, r2.2.2.1.trans h5.2.2.1, r2.2.2.2.trans h5.2.2.2⟩⟩
    rw [row_gather, h1]
    exact r1
  have hx : ∀ i, ∃ out, ((row a i).bind fun u => op Unit u b) = .ok out := fun i => ⟨_, (hone i).choose_spec.1⟩
  unfold vmapShared
  simp only
  rw [dif_pos hx]
  apply stack_of hy.inv
  intro i
  obtain ⟨out, o1, o2⟩ := hone i
  have := (hx i).choose_spec
  rw [← Except.ok.inj (o1.symm.trans this)]
  exact o2

/-- **C109 (tensor products).** -/
theorem C109_tensor_product [Nonempty ν] {n : IrNorm} (hn : n ≠ .other) (filter : Option (List Irrep)) (regroup : Bool) (a b : IArr (ν → ℝ))
    (ha : a.Coherent) (hb : b.Coherent) :
    ∃ y z, TP.tensorProduct (realCtx (ν → ℝ)) n filter regroup a b = .ok y ∧
      vmap2 (TP.tensorProduct (realCtx (Unit → ℝ)) n filter regroup) a b = .ok z ∧ z.Equal y ∧ z.Coherent := by
  obtain ⟨-, -, y, -, -, -, -, -, y1, y2, -⟩ := TP.tensorProduct_spec (realCtx_shape (ν → ℝ)).ok hn filter regroup ha.inv hb.inv
  obtain ⟨z, z1, z2⟩ := C109_vmap2 (fun κ => TP.tensorProduct (realCtx (κ → ℝ)) n filter regroup) (C92_products hn filter regroup).1 a b y ha hb y2.coherent y1
  exact ⟨y, z, y1, z1, z2⟩

theorem mp_id {α : Type} [Zero α] {b b' : IArr α} {f : α → α} (hf : ∀ a, f a = a) (hb : Inv b) (hb' : Inv b') (h : b.Equal b') : Mp f b' b := by
  refine ⟨hb', hb, h.1, h.2.2.1, ?_⟩
  rw [h.2.1, List.map_congr_left (g := id) (fun a _ => hf a), List.map_id]

theorem equal_of_mp_id {α : Type} [Zero α] {b b' : IArr α} {f : α → α} (hf : ∀ a, f a = a) (h : Mp f b' b) : b.Equal b' := by
  have ha : b.array = b'.array := by rw [h.array, List.map_congr_left (g := id) (fun a _ => hf a), List.map_id]
  exact ⟨h.irreps, ha, h.flags, by rw [h.inv'.chunks_eq, h.inv.chunks_eq, h.irreps, ha, h.flags]⟩

/-- **C109 (tensor product with a shared argument).** -/
theorem C109_shared_tensor_product [Nonempty ν] {n : IrNorm} (hn : n ≠ .other) (filter : Option (List Irrep)) (regroup : Bool) (a : IArr (ν → ℝ)) (b : IArr (Unit → ℝ))
    (ha : a.Coherent) (hb : b.Coherent) :
    ∃ w y z, gather (fun _ : ν => ()) b = .ok w ∧ TP.tensorProduct (realCtx (ν → ℝ)) n filter regroup a w = .ok y ∧
      vmapShared (TP.tensorProduct (realCtx (Unit → ℝ)) n filter regroup) a b = .ok z ∧ z.Equal y ∧ z.Coherent := by
  obtain ⟨w, w1, w2⟩ := gather_mp (fun _ : ν => ()) hb.inv
  obtain ⟨-, -, y, -, -, -, -, -, y1, y2, -⟩ := TP.tensorProduct_spec (realCtx_shape (ν → ℝ)).ok hn filter regroup ha.inv w2.inv'
  obtain ⟨z, z1, z2⟩ := C109_shared (fun κ => TP.tensorProduct (realCtx (κ → ℝ)) n filter regroup) (C92_products hn filter regroup).1 (by
    intro a b b' r ha hb hb' e hr
    have hf : ∀ c, (pull (id : Unit → Unit)) c = c := fun c => rfl
    obtain ⟨r', r1, r2⟩ := TP.mp_tensorProduct (φ := (pull (id : Unit → Unit)).toRingHom) (realCtx_shape _).ok (realCtx_shape _).ok (realCtx_map (pull id)) hn filter regroup
      (mp_id hf ha.inv ha.inv ⟨rfl, rfl, rfl, rfl⟩) (mp_id hf hb.inv hb'.inv ⟨e.1.symm, e.2.1.symm, e.2.2.1.symm, e.2.2.2.symm⟩) hr
    exact ⟨r', r1, equal_of_mp_id hf r2⟩) a b w y ha hb y2.coherent w1 y1
  exact ⟨w, y, z, w1, y1, z1, z2⟩

/-- **C109 (`scalar_activation`).** The example of the documentation: the zero flags are kept. -/
theorem C109_scalar_activation [Nonempty ν] (env : ℕ → ℝ → ℝ) (pts : List ℝ) (acts : Option (List (Option ℕ))) (even odd : ℕ) (nrm : Bool) (x y : IArr (ν → ℝ))
    (hx : x.Coherent) (hy : y.Coherent) (hz : (∀ b ∈ x.zeroFlags, b = false) ∨ ∀ a, Activ.effective env pts nrm a 0 = 0)
    (h : Activ.scalarActivation env pts acts even odd nrm x = .ok y) :
    ∃ z, vmap (Activ.scalarActivation env pts acts even odd nrm) x = .ok z ∧ z.Equal y ∧ z.Coherent :=
  vmap_rows hy fun i => C92_scalar_activation env pts acts even odd nrm (fun _ : Unit => i) hx hz h

/-- **C109 (`jax.vmap`).** Mapping a function that acts row by row and whose data do not depend on the zero flags (C46) with plain
`jax.vmap` gives the irreps and the data of the function on the whole array, and no flag. -/
theorem C109_jax_vmap [Nonempty ν] (op : ∀ κ : Type, IArr (κ → ℝ) → Except PyErr (IArr (κ → ℝ))) (hop : RowWise op) (hflag : FlagBlind (op Unit))
    (x y : IArr (ν → ℝ)) (hx : x.Coherent) (hy : y.Coherent) (h : op ν x = .ok y) :
    ∃ z, jaxVmap (op Unit) x = .ok z ∧ z.irreps = y.irreps ∧ z.array = y.array ∧ z.Coherent ∧ ∀ b ∈ z.zeroFlags, b = false := by
  have hone : ∀ i, ∃ out, (rowJax x i).bind (op Unit) = .ok out ∧ out.irreps = y.irreps ∧ out.array = y.array.map (pull fun _ : Unit => i) := by
    intro i
    obtain ⟨x', y', z, h1, h2, h3, h4⟩ := hop ν Unit (fun _ => i) x y hx h
    obtain ⟨x'', q1, q2⟩ := gather_mp (fun _ : Unit => i) hx.inv
    rw [h1] at q1
    cases Except.ok.inj q1
    have hm := mp_of_gather hy.inv h3 h4
    obtain ⟨u, u1, u2, u3, u4, -⟩ := (C12_from_array x'.irreps x'.array).1 q2.inv'.coherent.array_length
    obtain ⟨v, v1, v2⟩ := hflag x' u ⟨q2.inv'.coherent, u2, u3.symm, u4.symm⟩ y' h2
    refine ⟨v, ?_, by rw [← v2.2.2.1, hm.irreps], by rw [← v2.2.2.2, hm.array]⟩
    have : rowJax x i = .ok u := by
      unfold rowJax
      rw [← u1, q2.irreps, q2.array]
      rfl
    rw [this]
    exact v1
  have hx' : ∀ i, ∃ out, (rowJax x i).bind (op Unit) = .ok out := fun i => ⟨_, (hone i).choose_spec.1⟩
  have ho : ∀ i, ((hx' i).choose).irreps = y.irreps ∧ ((hx' i).choose).array = y.array.map (pull fun _ : Unit => i) := by
    intro i
    obtain ⟨out, o1, o2⟩ := hone i
    have := (hx' i).choose_spec
    rw [← Except.ok.inj (o1.symm.trans this)]
    exact o2
  unfold jaxVmap
  simp only
  rw [dif_pos hx']
  generalize hg : (fun i => (hx' i).choose) = outs
  have ho : ∀ i, (outs i).irreps = y.irreps ∧ (outs i).array = y.array.map (pull fun _ : Unit => i) := by rw [← hg]; exact ho
  have hsame : ∀ i, (hx' i).choose = outs i := fun i => congrFun hg i
  simp only [hsame]
  generalize Classical.arbitrary ν = i₀
  have ha : ((outs i₀).array.mapIdx fun k _ => fun i => (outs i).array.getD k 0 ()) = y.array := by
    apply List.ext_getElem
    · simp [(ho i₀).2]
    · intro k h1 h2
      rw [List.getElem_mapIdx]
      funext i
      rw [(ho i).2, List.getD_eq_getElem _ _ (by simpa using h2), List.getElem_map]
      rfl
  rw [ha, (ho i₀).1]
  obtain ⟨z, z1, z2, z3, z4, -⟩ := (C12_from_array y.irreps y.array).1 hy.array_length
  refine ⟨z, z1, z3, z4, z2, ?_⟩
  have : z = ⟨y.irreps, y.array, none, none⟩ := (make_ok_eq z1).1
  rw [this]
  intro b hb
  exact (List.mem_replicate.mp hb).2

/-- The hypotheses are met: the rows of a regrouped array. -/
example (x : IArr (Fin 3 → ℝ)) (hx : x.Coherent) : ∃ y z, x.regroup = .ok y ∧ vmap (fun u : IArr (Unit → ℝ) => u.regroup) x = .ok z ∧ z.Equal y := by
  obtain ⟨y, y1, y2, -⟩ := C17_regroup x hx
  obtain ⟨z, z1, z2, -⟩ := C109_vmap (fun _ u => u.regroup) (C92_rearrange [] none none none ⟨none, none, none⟩).2.2.1 x y hx y2 y1
  exact ⟨y, z, y1, z1, z2⟩

/-- And with plain `jax.vmap`. -/
example (x : IArr (Fin 3 → ℝ)) (hx : x.Coherent) : ∃ y z, x.regroup = .ok y ∧ jaxVmap (fun u : IArr (Unit → ℝ) => u.regroup) x = .ok z ∧ z.array = y.array := by
  obtain ⟨y, y1, y2, -⟩ := C17_regroup x hx
  obtain ⟨z, z1, -, z2, -⟩ := C109_jax_vmap (fun _ u => u.regroup) (C92_rearrange [] none none none ⟨none, none, none⟩).2.2.1 C46_sort_regroup.2 x y hx y2 y1
  exact ⟨y, z, y1, z1, z2⟩

end E3nn.Vmap
