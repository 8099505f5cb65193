import Verif.Lemmas.LinearComplete

/-!
# C84: a linear layer without bias parametrises *all* the equivariant linear maps, once each

A linear map from arrays of type `irrepsIn` to arrays of type `irrepsOut` commutes with the
rotations and reflections exactly when it is `f(ws, ·)` for some weights `ws` of the shapes that the
default layer `f` asks for; the weights are unique.
-/

namespace E3nn
open IArr E3nn.Wig

/-- A linear map of the flat arrays that commutes with every orthogonal matrix: transforming the
array and then applying the map is applying the map and then transforming the result. -/
def CommutesO3 (irrepsIn irrepsOut : Irreps) (Φ : (Fin irrepsIn.dim → ℝ) →ₗ[ℝ] (Fin irrepsOut.dim → ℝ)) : Prop :=
  ∀ R : Matrix (Fin 3) (Fin 3) ℝ, IsOrth R → ∀ v, ∃ x x' y y',
    ofArray irrepsIn (List.ofFn v) = .ok x ∧ x.transformByMatrix R = .ok x' ∧
    ofArray irrepsOut (List.ofFn (Φ v)) = .ok y ∧ y.transformByMatrix R = .ok y' ∧
    List.ofFn (Φ fun k => x'.array.getD k 0) = y'.array

/-- `f(ws, ·)` is the map `Φ`. -/
def Realises (f : FLin ℝ) (ws : List (List ℝ)) (irrepsIn irrepsOut : Irreps)
    (Φ : (Fin irrepsIn.dim → ℝ) →ₗ[ℝ] (Fin irrepsOut.dim → ℝ)) : Prop :=
  ∀ v, ∃ x y, ofArray irrepsIn (List.ofFn v) = .ok x ∧ f.call ws x = .ok y ∧ y.irreps = irrepsOut ∧ y.array = List.ofFn (Φ v)

theorem ofArray_ofFn (ms : Irreps) (v : Fin ms.dim → ℝ) :
    ∃ x, ofArray ms (List.ofFn v) = .ok x ∧ x.Coherent ∧ x.irreps = ms ∧ x.array = List.ofFn v := by
  obtain ⟨x, h1, h2, h3, h4, -⟩ := (C12_from_array ms (List.ofFn v)).1 (by simp [Irreps.dim_eq_dimOf_expand])
  exact ⟨x, h1, h2, h3, h4⟩

/-- The entry of a flat array. -/
theorem getD_fn {n : ℕ} (v : Fin n → ℝ) {j : ℕ} (h : j < n) : (List.ofFn v).getD j 0 = v ⟨j, h⟩ := getD_ofFn v 0 ⟨j, h⟩

section blocks
variable {irrepsIn irrepsOut : Irreps} {Φ : (Fin irrepsIn.dim → ℝ) →ₗ[ℝ] (Fin irrepsOut.dim → ℝ)}

/-- The entry of the matrix of `Φ`. -/
noncomputable def ent (Φ : (Fin irrepsIn.dim → ℝ) →ₗ[ℝ] (Fin irrepsOut.dim → ℝ)) (r c : ℕ) : ℝ :=
  if h : c < irrepsIn.dim then (List.ofFn (Φ (Pi.single ⟨c, h⟩ 1))).getD r 0 else 0

theorem map_entries (Φ : (Fin irrepsIn.dim → ℝ) →ₗ[ℝ] (Fin irrepsOut.dim → ℝ)) (v : Fin irrepsIn.dim → ℝ) {r : ℕ} (hr : r < irrepsOut.dim) :
    Φ v ⟨r, hr⟩ = ∑ c ∈ Finset.range irrepsIn.dim, (List.ofFn v).getD c 0 * ent Φ r c := by
  rw [LinearMap.pi_apply_eq_sum_univ Φ v, Finset.sum_apply, ← Fin.sum_univ_eq_sum_range (fun c => (List.ofFn v).getD c 0 * ent Φ r c)]
  refine Finset.sum_congr rfl fun c _ => ?_
  rw [getD_fn v c.isLt, Pi.smul_apply, smul_eq_mul, ent, dif_pos c.isLt, getD_fn _ hr]
  have : (fun j => if c = j then (1 : ℝ) else 0) = Pi.single ⟨c, c.isLt⟩ 1 := by
    funext j
    simp [Pi.single_apply, eq_comm]
  rw [this]

/-- The blocks intertwine. -/
theorem block_comm (hΦ : CommutesO3 irrepsIn irrepsOut Φ) {R : Matrix (Fin 3) (Fin 3) ℝ} (hR : IsOrth R)
    {i o : ℕ} {mi mo : MulIrrep} (hi : irrepsIn[i]? = some mi) (ho : irrepsOut[o]? = some mo) {u v : ℕ} (hu : u < mi.mul) (hv : v < mo.mul) :
    (Matrix.of fun (c : Fin (2 * mo.ir.l + 1)) (a : Fin (2 * mi.ir.l + 1)) => ent Φ (pos irrepsOut o mo.ir.l v c) (pos irrepsIn i mi.ir.l u a)) *
        Wig.dMatrix mi.ir R =
      Wig.dMatrix mo.ir R *
        Matrix.of fun (c : Fin (2 * mo.ir.l + 1)) (a : Fin (2 * mi.ir.l + 1)) => ent Φ (pos irrepsOut o mo.ir.l v c) (pos irrepsIn i mi.ir.l u a) := by
  ext c a
  rw [Matrix.mul_apply, Matrix.mul_apply]
  simp only [Matrix.of_apply]
  have ha := pos_lt hi hu a.isLt
  have hc := pos_lt ho hv c.isLt
  obtain ⟨x, x', y, y', e1, e2, e3, e4, e5⟩ := hΦ R hR (Pi.single ⟨_, ha⟩ 1)
  obtain ⟨x1, f1, f2, f3, f4⟩ := ofArray_ofFn irrepsIn (Pi.single ⟨_, ha⟩ 1)
  rw [e1] at f1
  cases f1
  obtain ⟨y1, g1, g2, g3, g4⟩ := ofArray_ofFn irrepsOut (Φ (Pi.single ⟨_, ha⟩ 1))
  rw [e3] at g1
  cases g1
  have key := congrArg (fun l => l.getD (pos irrepsOut o mo.ir.l v c) 0) e5
  simp only [getD_fn _ hc] at key
  rw [map_entries] at key
  have r1 := tr_coord g2 e4 (by rw [g3]; exact ho) hv c
  rw [g3] at r1
  rw [r1, g4] at key
  have r2 : ∀ b : Fin (2 * mo.ir.l + 1), (List.ofFn (Φ (Pi.single ⟨_, ha⟩ 1))).getD (pos irrepsOut o mo.ir.l v b) 0 =
      ent Φ (pos irrepsOut o mo.ir.l v b) (pos irrepsIn i mi.ir.l u a) := by
    intro b
    rw [ent, dif_pos ha]
  simp only [r2] at key
  rw [← key, sum_pos]
  have hx' : ∀ (i' : Fin irrepsIn.length) (u' : ℕ) (_ : u' < (irrepsIn.get i').mul) (b : Fin (2 * (irrepsIn.get i').ir.l + 1)),
      (List.ofFn fun k : Fin irrepsIn.dim => x'.array.getD k 0).getD (pos irrepsIn i' (irrepsIn.get i').ir.l u' b) 0 =
        ∑ b', Wig.dMatrix (irrepsIn.get i').ir R b b' * if (i' : ℕ) = i ∧ u' = u ∧ (b' : ℕ) = a then 1 else 0 := by
    intro i' u' hu' b
    have hi' : irrepsIn[(i' : ℕ)]? = some (irrepsIn.get i') := List.getElem?_eq_getElem i'.isLt
    rw [getD_fn _ (pos_lt hi' hu' b.isLt)]
    have := tr_coord f2 e2 (by rw [f3]; exact hi') hu' b
    rw [f3] at this
    refine this.trans (Finset.sum_congr rfl fun b' _ => ?_)
    rw [f4, getD_fn _ (pos_lt hi' hu' b'.isLt)]
    congr 1
    rw [Pi.single_apply]
    refine if_congr ?_ rfl rfl
    rw [Fin.ext_iff]
    constructor
    · intro h
      exact pos_inj hi' hi hu' b'.isLt hu a.isLt h
    · rintro ⟨h1, h2, h3⟩
      have : irrepsIn.get i' = mi := by
        rw [h1] at hi'
        rw [hi'] at hi
        exact Option.some.inj hi
      simp only [h1, h2, h3, this]
  obtain ⟨hil, rfl⟩ := List.getElem?_eq_some_iff.mp hi
  rw [Finset.sum_eq_single (⟨i, hil⟩ : Fin irrepsIn.length)]
  · rw [Finset.sum_eq_single u]
    · rw [Finset.sum_range]
      refine Finset.sum_congr rfl fun b _ => ?_
      rw [mul_comm, hx' ⟨i, hil⟩ u hu b]
      congr 1
      symm
      refine (Finset.sum_eq_single a ?_ ?_).trans ?_
      · intro b' _ hb'
        rw [if_neg, mul_zero]
        rintro ⟨-, -, h⟩
        exact hb' (Fin.ext h)
      · simp
      · simp
    · intro u' hu' hne
      refine Finset.sum_eq_zero fun b hb => ?_
      rw [hx' ⟨i, hil⟩ u' (Finset.mem_range.mp hu') ⟨b, Finset.mem_range.mp hb⟩]
      simp [hne]
    · intro h
      exact absurd (Finset.mem_range.mpr hu) h
  · intro i' _ hne
    refine Finset.sum_eq_zero fun u' hu' => Finset.sum_eq_zero fun b hb => ?_
    have : ¬ (i' : ℕ) = i := fun h => hne (Fin.ext h)
    rw [hx' i' u' (Finset.mem_range.mp hu') ⟨b, Finset.mem_range.mp hb⟩]
    simp [this]
  · simp

/-- The blocks of an equivariant map: a multiple of the identity between equal irreps, zero otherwise. -/
theorem block_schur (hΦ : CommutesO3 irrepsIn irrepsOut Φ)
    {i o : ℕ} {mi mo : MulIrrep} (hi : irrepsIn[i]? = some mi) (ho : irrepsOut[o]? = some mo) {u v : ℕ} (hu : u < mi.mul) (hv : v < mo.mul)
    {c a : ℕ} (hc : c < 2 * mo.ir.l + 1) (ha : a < 2 * mi.ir.l + 1) :
    ent Φ (pos irrepsOut o mo.ir.l v c) (pos irrepsIn i mi.ir.l u a) =
      if mi.ir = mo.ir ∧ c = a then ent Φ (pos irrepsOut o mo.ir.l v 0) (pos irrepsIn i mi.ir.l u 0) else 0 := by
  have hcomm := fun R (hR : IsOrth R) => block_comm hΦ hR hi ho hu hv
  by_cases he : mi.ir = mo.ir
  · obtain ⟨mul, ir⟩ := mi
    obtain ⟨mul', ir'⟩ := mo
    simp only at he
    subst he
    simp only at *
    obtain ⟨t, ht⟩ := C39_irreducible ir _ fun R hR => hcomm R hR.1
    have h0 := congrFun (congrFun ht ⟨c, hc⟩) ⟨a, ha⟩
    have h1 := congrFun (congrFun ht ⟨0, by omega⟩) ⟨0, by omega⟩
    simp only [Matrix.of_apply, Matrix.smul_apply, Matrix.one_apply, Fin.mk.injEq, smul_eq_mul, if_true, mul_one, true_and] at h0 h1 ⊢
    rw [h0, h1]
    split <;> simp
  · rw [if_neg (fun h => he h.1)]
    have := C39_inequivalent mi.ir mo.ir he _ hcomm
    exact congrFun (congrFun this ⟨c, hc⟩) ⟨a, ha⟩

/-- An equivariant map in coordinates. -/
theorem comm_formula (hΦ : CommutesO3 irrepsIn irrepsOut Φ) {o : ℕ} {mo : MulIrrep} (ho : irrepsOut[o]? = some mo) {v : ℕ} (hv : v < mo.mul)
    {k : ℕ} (hk : k < 2 * mo.ir.l + 1) (w : Fin irrepsIn.dim → ℝ) :
    (List.ofFn (Φ w)).getD (pos irrepsOut o mo.ir.l v k) 0 =
      ∑ i : Fin irrepsIn.length, if (irrepsIn.get i).ir = mo.ir then
        ∑ u ∈ Finset.range (irrepsIn.get i).mul, ent Φ (pos irrepsOut o mo.ir.l v 0) (pos irrepsIn i (irrepsIn.get i).ir.l u 0) *
          (List.ofFn w).getD (pos irrepsIn i (irrepsIn.get i).ir.l u k) 0 else 0 := by
  rw [getD_fn _ (pos_lt ho hv hk), map_entries, sum_pos]
  refine Finset.sum_congr rfl fun i _ => ?_
  have hi : irrepsIn[(i : ℕ)]? = some (irrepsIn.get i) := List.getElem?_eq_getElem i.isLt
  have e : ∀ u ∈ Finset.range (irrepsIn.get i).mul, ∀ a ∈ Finset.range (2 * (irrepsIn.get i).ir.l + 1),
      (List.ofFn w).getD (pos irrepsIn i (irrepsIn.get i).ir.l u a) 0 * ent Φ (pos irrepsOut o mo.ir.l v k) (pos irrepsIn i (irrepsIn.get i).ir.l u a) =
      if (irrepsIn.get i).ir = mo.ir ∧ k = a then ent Φ (pos irrepsOut o mo.ir.l v 0) (pos irrepsIn i (irrepsIn.get i).ir.l u 0) *
          (List.ofFn w).getD (pos irrepsIn i (irrepsIn.get i).ir.l u k) 0 else 0 := by
    intro u hu a ha
    rw [block_schur hΦ hi ho (Finset.mem_range.mp hu) hv hk (Finset.mem_range.mp ha)]
    split
    · rename_i h; rw [h.2, mul_comm]
    · rw [mul_zero]
  rw [Finset.sum_congr rfl fun u hu => Finset.sum_congr rfl fun a ha => e u hu a ha]
  by_cases he : (irrepsIn.get i).ir = mo.ir
  · simp only [he, true_and, if_true]
    refine Finset.sum_congr rfl fun u _ => ?_
    rw [Finset.sum_ite_eq, if_pos (Finset.mem_range.mpr hk)]
  · simp only [he, false_and, if_false, Finset.sum_const_zero]

end blocks

theorem eq_of_getD {n : ℕ} {l l' : List ℝ} (h : l.length = n) (h' : l'.length = n) (e : ∀ j < n, l.getD j 0 = l'.getD j 0) : l = l' := by
  refine List.ext_getElem (by rw [h, h']) fun j h1 h2 => ?_
  have := e j (by omega)
  simpa [List.getD, h1, h2] using this

theorem zip_ofFn_sum {n : ℕ} {β : Type} (v : Fin n → ℝ) (B : Fin n → β) (F : ℝ → β → ℝ) :
    (List.zipWith F (List.ofFn v) (List.ofFn B)).sum = ∑ c, F (v c) (B c) := by
  induction n with
  | zero => simp
  | succ n ih => rw [List.ofFn_succ, List.ofFn_succ, List.zipWith_cons_cons, List.sum_cons, ih, Fin.sum_univ_succ]

section main
variable {irrepsIn irrepsOut : Irreps} {a g : ℝ} {f : FLin ℝ}

/-- The call of the layer, on an array of the right type. -/
theorem call_entry (hf : FLin.init irrepsIn irrepsOut none .none a g = .ok f) {ws : List (List ℝ)} (hw : WeightShapes f ws)
    (w : Fin irrepsIn.dim → ℝ) :
    ∃ x y, ofArray irrepsIn (List.ofFn w) = .ok x ∧ x.Coherent ∧ f.call ws x = .ok y ∧ y.Coherent ∧ y.irreps = irrepsOut ∧ y.array.length = irrepsOut.dim ∧
      ∀ o mo, irrepsOut[o]? = some mo → ∀ v < mo.mul, ∀ k < 2 * mo.ir.l + 1,
        y.array.getD (pos irrepsOut o mo.ir.l v k) 0 = (((f.instructions.zip ws).filter fun iw => iw.1.iOut == o).map fun iw =>
        linearTerm f (List.ofFn w) iw.1 iw.2 ((iw.1.iIn.bind fun i => irrepsIn[i]?).getD ⟨0, ⟨0, .e⟩⟩) mo v k).sum := by
  obtain ⟨x, x1, x2, x3, x4⟩ := ofArray_ofFn irrepsIn w
  have hg := FLin.init_good hf (by simp)
  obtain ⟨i1, i2, -⟩ := linear_ins hf
  obtain ⟨-, y, -, -, -, -, h1, h2, h3, -⟩ := FLin.call_spec hg x2.inv (by rw [x3, i1]) hw
  refine ⟨x, y, x1, x2, h1, h2.coherent, by rw [h3, i2], ?_, ?_⟩
  · have := h2.coherent.1
    rw [h3, i2] at this
    first | exact this | (rw [Irreps.dim_eq_dimOf_expand]; exact this)
  · intro o mo ho v hv k hk
    have := C28_formula hf ws hw x x2 y h1 o mo ho v k hv hk
    rw [x4] at this
    exact this

/-- The weights of an equivariant map. -/
noncomputable def theWeights (Φ : (Fin irrepsIn.dim → ℝ) →ₗ[ℝ] (Fin irrepsOut.dim → ℝ)) (ins : LinIns ℝ) : List ℝ :=
  let i := ins.iIn.getD 0
  let mi := irrepsIn.getD i ⟨0, ⟨0, .e⟩⟩
  let mo := irrepsOut.getD ins.iOut ⟨0, ⟨0, .e⟩⟩
  (List.range (mi.mul * mo.mul)).map fun j =>
    ent Φ (pos irrepsOut ins.iOut mo.ir.l (j % mo.mul) 0) (pos irrepsIn i mi.ir.l (j / mo.mul) 0) / ins.pathWeight

theorem theWeights_shapes (hf : FLin.init irrepsIn irrepsOut none .none a g = .ok f)
    (Φ : (Fin irrepsIn.dim → ℝ) →ₗ[ℝ] (Fin irrepsOut.dim → ℝ)) : WeightShapes f (f.instructions.map (theWeights Φ)) := by
  obtain ⟨-, -, -, h⟩ := linear_ins hf
  unfold WeightShapes
  rw [List.map_map]
  refine List.map_congr_left fun ins hi => ?_
  obtain ⟨i, mi, mo, h1, h2, h3, h4, h5, h6⟩ := h ins hi
  simp [theWeights, h1, h5, List.getD, h2, h3]

/-- The response of the layer to a unit input reads off one weight. -/
theorem call_unit (hf : FLin.init irrepsIn irrepsOut none .none a g = .ok f) {ws : List (List ℝ)} (hw : WeightShapes f ws)
    {n i : ℕ} {ins : LinIns ℝ} {mi mo : MulIrrep} (hn : f.instructions[n]? = some ins) (h1 : ins.iIn = some i) (h2 : irrepsIn[i]? = some mi)
    (h3 : irrepsOut[ins.iOut]? = some mo) {u v : ℕ} (hu : u < mi.mul) (hv : v < mo.mul) :
    ∃ x y, ofArray irrepsIn (List.ofFn (Pi.single ⟨_, pos_lt h2 hu (Nat.succ_pos _)⟩ 1)) = .ok x ∧ f.call ws x = .ok y ∧
      y.array.getD (pos irrepsOut ins.iOut mo.ir.l v 0) 0 = ins.pathWeight * (ws.getD n []).getD (u * mo.mul + v) 0 := by
  obtain ⟨i1, i2, hpairs, hins⟩ := linear_ins hf
  obtain ⟨x, y, x1, x2, y1, y2, y3, y4, y5⟩ := call_entry hf hw (Pi.single ⟨_, pos_lt h2 hu (Nat.succ_pos _)⟩ 1)
  refine ⟨x, y, x1, y1, ?_⟩
  rw [y5 _ mo h3 v hv 0 (Nat.succ_pos _)]
  have hlen : ws.length = f.instructions.length := by simpa using congrArg List.length hw
  rw [sum_zip_filter f.instructions ws hlen (fun ins' => ins'.iOut == ins.iOut) _ ⟨none, 0, [], 0, 0⟩ []]
  obtain ⟨hnl, hng⟩ := List.getElem?_eq_some_iff.mp hn
  have hunit : ∀ (i' : ℕ) (mi' : MulIrrep), irrepsIn[i']? = some mi' → ∀ u' < mi'.mul,
      (List.ofFn (Pi.single (M := fun _ => ℝ) (⟨_, pos_lt h2 hu (Nat.succ_pos _)⟩ : Fin irrepsIn.dim) 1)).getD (Irreps.dim (f.irrepsIn.take i') + (u' * (2 * mi'.ir.l + 1) + 0)) 0 =
        if i' = i ∧ u' = u then 1 else 0 := by
    intro i' mi' hi' u' hu'
    rw [i1]
    have hl := pos_lt hi' hu' (Nat.succ_pos (2 * mi'.ir.l))
    refine (getD_fn _ hl).trans ?_
    rw [Pi.single_apply]
    refine if_congr ?_ rfl rfl
    rw [Fin.ext_iff]
    constructor
    · intro h
      obtain ⟨a1, a2, -⟩ := pos_inj hi' h2 hu' (Nat.succ_pos _) hu (Nat.succ_pos _) h
      exact ⟨a1, a2⟩
    · rintro ⟨rfl, rfl⟩
      rw [h2] at hi'
      cases hi'
      rfl
  rw [Finset.sum_eq_single n]
  · have e : f.instructions.getD n ⟨none, 0, [], 0, 0⟩ = ins := by simp [List.getD, hn]
    simp only [e, beq_self_eq_true, if_true, linearTerm, h1, Option.bind_some, h2, Option.getD_some]
    rw [sum_range_fin]
    congr 1
    rw [Finset.sum_eq_single (⟨u, hu⟩ : Fin mi.mul)]
    · rw [hunit i mi h2 u hu]
      simp
    · intro u' _ hne
      rw [hunit i mi h2 u' u'.isLt, if_neg, mul_zero]
      rintro ⟨-, h⟩
      exact hne (Fin.ext h)
    · simp
  · intro n' hn' hne
    rw [Finset.mem_range] at hn'
    have e' : f.instructions.getD n' ⟨none, 0, [], 0, 0⟩ = f.instructions[n'] := by simp [List.getD, hn']
    rw [e']
    split
    · rename_i hout
      have hout : f.instructions[n'].iOut = ins.iOut := by simpa using hout
      obtain ⟨i', mi', mo', k1, k2, k3, -⟩ := hins _ (List.getElem_mem hn')
      have hne' : i' ≠ i := by
        rintro rfl
        have hnd : (f.instructions.map fun ins => (ins.iIn, ins.iOut)).Nodup := by
          rw [hpairs]
          refine (FLin.defaultPairs_nodup irrepsIn irrepsOut).map ?_
          rintro ⟨p, q⟩ ⟨p', q'⟩ h
          simpa using h
        refine hne ((List.Nodup.getElem_inj_iff hnd (hi := by simpa using hn') (hj := by simpa using hnl)).mp ?_)
        rw [List.getElem_map, List.getElem_map, k1, hout, hng, h1]
      simp only [linearTerm, k1, Option.bind_some, k2, Option.getD_some]
      rw [sum_range_fin, Finset.sum_eq_zero, mul_zero]
      intro u' _
      rw [hunit i' mi' k2 u' u'.isLt, if_neg (fun h => hne' h.1), mul_zero]
    · rfl
  · intro h
    exact absurd (Finset.mem_range.mpr hnl) h

/-- The weights are determined by the map. -/
theorem realises_unique (hf : FLin.init irrepsIn irrepsOut none .none a g = .ok f) {ws ws' : List (List ℝ)} (hw : WeightShapes f ws)
    (hw' : WeightShapes f ws') {Φ : (Fin irrepsIn.dim → ℝ) →ₗ[ℝ] (Fin irrepsOut.dim → ℝ)}
    (hr : Realises f ws irrepsIn irrepsOut Φ) (hr' : Realises f ws' irrepsIn irrepsOut Φ) : ws = ws' := by
  obtain ⟨i1, i2, hpairs, hins⟩ := linear_ins hf
  have hlen : ws.length = f.instructions.length := by simpa using congrArg List.length hw
  have hlen' : ws'.length = f.instructions.length := by simpa using congrArg List.length hw'
  refine List.ext_getElem (by omega) fun n hn hn' => ?_
  have hnl : n < f.instructions.length := by omega
  obtain ⟨i, mi, mo, h1, h2, h3, -, h5, h6⟩ := hins _ (List.getElem_mem hnl)
  have size : ∀ {l : List (List ℝ)} (_ : WeightShapes f l) (hl : n < l.length), l[n].length = mi.mul * mo.mul := by
    intro l h hl
    have := congrArg (fun q => q[n]?) h
    simp only [List.getElem?_map, List.getElem?_eq_getElem hl, List.getElem?_eq_getElem hnl, Option.map_some, Option.some.injEq, h5] at this
    simpa using this
  refine eq_of_getD (size hw hn) (size hw' hn') fun j hj => ?_
  have hmo : 0 < mo.mul := Nat.pos_of_ne_zero fun h => by simp [h] at hj
  have hv : j % mo.mul < mo.mul := Nat.mod_lt _ hmo
  have hu : j / mo.mul < mi.mul := Nat.div_lt_of_lt_mul (by rw [mul_comm]; exact hj)
  obtain ⟨x, y, a1, a2, a3⟩ := call_unit hf hw (List.getElem?_eq_getElem hnl) h1 h2 h3 hu hv
  obtain ⟨x', y', b1, b2, b3⟩ := call_unit hf hw' (List.getElem?_eq_getElem hnl) h1 h2 h3 hu hv
  obtain ⟨x2, y2, c1, c2, -, c3⟩ := hr (Pi.single ⟨_, pos_lt h2 hu (Nat.succ_pos _)⟩ 1)
  obtain ⟨x3, y3, d1, d2, -, d3⟩ := hr' (Pi.single ⟨_, pos_lt h2 hu (Nat.succ_pos _)⟩ 1)
  rw [a1] at c1 d1 b1
  cases c1
  cases d1
  cases b1
  rw [a2] at c2
  rw [b2] at d2
  cases c2
  cases d2
  rw [c3, ← d3, b3] at a3
  have := mul_left_cancel₀ h6.ne' a3
  have e : j / mo.mul * mo.mul + j % mo.mul = j := Nat.div_add_mod' j mo.mul
  rw [e] at this
  simpa [List.getD, hn, hn'] using this.symm

/-- **C84 (completeness).** Every linear map that commutes with the rotations and the reflections
is the layer, for one choice of weights only. -/
theorem C84_complete (hf : FLin.init irrepsIn irrepsOut none .none a g = .ok f)
    (Φ : (Fin irrepsIn.dim → ℝ) →ₗ[ℝ] (Fin irrepsOut.dim → ℝ)) (hΦ : CommutesO3 irrepsIn irrepsOut Φ) :
    ∃! ws, WeightShapes f ws ∧ Realises f ws irrepsIn irrepsOut Φ := by
  obtain ⟨i1, i2, hpairs, hins⟩ := linear_ins hf
  suffices hex : ∃ ws, WeightShapes f ws ∧ Realises f ws irrepsIn irrepsOut Φ by
    obtain ⟨ws, hw, hr⟩ := hex
    exact ⟨ws, ⟨hw, hr⟩, fun ws' h => (realises_unique hf hw h.1 hr h.2).symm⟩
  refine ⟨f.instructions.map (theWeights Φ), theWeights_shapes hf Φ, ?_⟩
  · intro w
    obtain ⟨x, y, x1, x2, y1, y2, y3, y4, y5⟩ := call_entry hf (theWeights_shapes hf Φ) w
    refine ⟨x, y, x1, y1, y3, eq_of_getD y4 (by simp) ?_⟩
    intro j hj
    obtain ⟨o, mo, v, k, ho, hv, hk, rfl⟩ := index_split irrepsOut j hj
    change y.array.getD (pos irrepsOut o mo.ir.l v k) 0 = (List.ofFn (Φ w)).getD (pos irrepsOut o mo.ir.l v k) 0
    rw [y5 o mo ho v hv k hk, comm_formula hΦ ho hv hk]
    have ez : f.instructions.zip (f.instructions.map (theWeights Φ)) = f.instructions.map fun ins => (ins, theWeights Φ ins) := by
      rw [← List.map_id f.instructions, List.map_map, List.zip_map']
      simp
    rw [ez, List.filter_map, List.map_map]
    set G : ℕ → ℝ := fun i => ∑ u ∈ Finset.range (irrepsIn.getD i ⟨0, ⟨0, .e⟩⟩).mul,
      ent Φ (pos irrepsOut o mo.ir.l v 0) (pos irrepsIn i (irrepsIn.getD i ⟨0, ⟨0, .e⟩⟩).ir.l u 0) *
          (List.ofFn w).getD (pos irrepsIn i (irrepsIn.getD i ⟨0, ⟨0, .e⟩⟩).ir.l u k) 0 with hG
    have e1 : ∀ ins ∈ f.instructions.filter ((fun iw : LinIns ℝ × List ℝ => iw.1.iOut == o) ∘ fun ins => (ins, theWeights Φ ins)),
        ((fun iw : LinIns ℝ × List ℝ => linearTerm f (List.ofFn w) iw.1 iw.2 ((iw.1.iIn.bind fun i => irrepsIn[i]?).getD ⟨0, ⟨0, .e⟩⟩) mo v k) ∘
          fun ins => (ins, theWeights Φ ins)) ins = G (ins.iIn.getD 0) := by
      intro ins hi
      rw [List.mem_filter] at hi
      obtain ⟨i, mi, mo', h1, h2, h3, h4, h5, h6⟩ := hins ins hi.1
      have ho' : ins.iOut = o := by simpa using hi.2
      rw [ho', ho] at h3
      cases h3
      have hgi : irrepsIn.getD i ⟨0, ⟨0, .e⟩⟩ = mi := by simp [List.getD, h2]
      have hgo : irrepsOut.getD o ⟨0, ⟨0, .e⟩⟩ = mo := by simp [List.getD, ho]
      simp only [Function.comp, linearTerm, h1, Option.bind_some, h2, Option.getD_some, hG, hgi]
      rw [sum_range_fin, Finset.sum_range, Finset.mul_sum]
      refine Finset.sum_congr rfl fun u _ => ?_
      have hdiv : ((u : ℕ) * mo.mul + v) / mo.mul = u := by
        rw [mul_comm, Nat.mul_add_div (by omega), Nat.div_eq_of_lt hv, add_zero]
      have hmod : ((u : ℕ) * mo.mul + v) % mo.mul = v := by
        rw [mul_comm, Nat.mul_add_mod, Nat.mod_eq_of_lt hv]
      have hW : (theWeights Φ ins).getD ((u : ℕ) * mo.mul + v) 0 =
          ent Φ (pos irrepsOut o mo.ir.l v 0) (pos irrepsIn i mi.ir.l u 0) / ins.pathWeight := by
        unfold theWeights
        simp only [h1, Option.getD_some, ho', hgi, hgo]
        simp only [List.getD, List.getElem?_map, List.getElem?_range (row_lt u.isLt hv), Option.map_some, Option.getD_some, hdiv, hmod]
      rw [hW]
      rw [← mul_assoc, mul_div_cancel₀ _ h6.ne', i1]
      rfl
    rw [List.map_congr_left e1]
    have e2 : (f.instructions.filter ((fun iw : LinIns ℝ × List ℝ => iw.1.iOut == o) ∘ fun ins => (ins, theWeights Φ ins))).map (fun ins => G (ins.iIn.getD 0)) =
        ((FLin.defaultPairs irrepsIn irrepsOut).filter fun p => p.2 == o).map fun p => G p.1 := by
      have h1 := congrArg (fun l : List (Option ℕ × ℕ) => (l.filter fun q => q.2 == o).map fun q => G (q.1.getD 0)) hpairs
      simp only [List.filter_map, List.map_map] at h1
      exact h1
    rw [e2, sum_pairs irrepsIn irrepsOut ho]
    refine Finset.sum_congr rfl fun i _ => ?_
    have hgi : irrepsIn.getD i ⟨0, ⟨0, .e⟩⟩ = irrepsIn.get i := by simp [List.getD]
    simp only [hG, hgi]
/-- **C84 (soundness).** Conversely the layer is, for all weights of the right shapes, a linear map
that commutes with the rotations and the reflections. -/
theorem C84_sound (hf : FLin.init irrepsIn irrepsOut none .none a g = .ok f) (ws : List (List ℝ)) (hw : WeightShapes f ws) :
    ∃! Φ : (Fin irrepsIn.dim → ℝ) →ₗ[ℝ] (Fin irrepsOut.dim → ℝ), CommutesO3 irrepsIn irrepsOut Φ ∧ Realises f ws irrepsIn irrepsOut Φ := by
  obtain ⟨A, hA⟩ : ∃ A : List (List ℝ), f.matrix ws = .ok A := by
    obtain ⟨x, -, x2, x3, -⟩ := ofArray_ofFn irrepsIn 0
    obtain ⟨A, -, h, -⟩ := C29_matrix hf ws hw x x2 (by rw [x3])
    exact ⟨A, h⟩
  obtain ⟨Φ, hΦ⟩ : ∃ Φ : (Fin irrepsIn.dim → ℝ) →ₗ[ℝ] (Fin irrepsOut.dim → ℝ),
      ∀ v, Φ v = fun j : Fin irrepsOut.dim => ∑ c : Fin irrepsIn.dim, v c * (A.getD c []).getD j 0 := by
    refine ⟨⟨⟨fun v (j : Fin irrepsOut.dim) => ∑ c : Fin irrepsIn.dim, v c * (A.getD c []).getD j 0, ?_⟩, ?_⟩, fun v => rfl⟩
    · intro v w
      funext j
      simp [add_mul, Finset.sum_add_distrib]
    · intro r v
      funext j
      simp [mul_assoc, Finset.mul_sum]
  have hcall : ∀ x : IArr ℝ, x.Coherent → x.irreps = irrepsIn → ∀ v, x.array = List.ofFn v →
      ∃ y, f.call ws x = .ok y ∧ y.Coherent ∧ y.irreps = irrepsOut ∧ y.array = List.ofFn (Φ v) := by
    intro x hx hi v hv
    obtain ⟨A', y, h1, h2, h3, h4, h5⟩ := C29_matrix hf ws hw x hx (by rw [hi])
    rw [hA] at h1
    cases h1
    obtain ⟨i1, i2, -⟩ := linear_ins hf
    obtain ⟨-, y', -, -, -, -, g1, g2, g3, -⟩ := FLin.call_spec (FLin.init_good hf (by simp)) hx.inv (by rw [hi, i1]) hw
    rw [h2] at g1
    cases g1
    refine ⟨y, h2, g2.coherent, by rw [g3, i2], ?_⟩
    rw [h5, hΦ]
    refine eq_of_getD (n := irrepsOut.dim) (by simp) (by simp) fun j hj => ?_
    rw [getD_fn _ hj]
    simp only [List.getD, List.getElem?_map, List.getElem?_range hj, Option.map_some, Option.getD_some]
    rw [hv]
    have e : A = List.ofFn fun c : Fin irrepsIn.dim => A.getD c [] := by
      refine List.ext_getElem (by simp [h3]) fun c _ _ => ?_
      simp [List.getD, *]
    conv_lhs => rw [e]
    exact zip_ofFn_sum v _ fun (a : ℝ) (row : List ℝ) => a * row.getD j 0
  have hreal : Realises f ws irrepsIn irrepsOut Φ := by
    intro v
    obtain ⟨x, x1, x2, x3, x4⟩ := ofArray_ofFn irrepsIn v
    obtain ⟨y, y1, -, y2, y3⟩ := hcall x x2 x3 v x4
    exact ⟨x, y, x1, y1, y2, y3⟩
  refine ⟨Φ, ⟨?_, hreal⟩, ?_⟩
  · intro R hR v
    obtain ⟨x, x1, x2, x3, x4⟩ := ofArray_ofFn irrepsIn v
    obtain ⟨y, y1, y2, y3, y4⟩ := hcall x x2 x3 v x4
    obtain ⟨x', y', y'', h1, h2, h3, h4⟩ := C59_linear hf ws hw hR x x2 y y1
    obtain ⟨xt, t1, t2, t3, -, -⟩ := C59_transform R x x2
    rw [h1] at t1
    cases t1
    have t4 : x'.array = List.ofFn fun k : Fin irrepsIn.dim => x'.array.getD k 0 := by
      refine eq_of_getD (n := irrepsIn.dim) ?_ (by simp) fun j hj => (getD_fn (fun k : Fin irrepsIn.dim => x'.array.getD k 0) hj).symm
      have := t2.1
      rw [t3, x3] at this
      first | exact this | (rw [Irreps.dim_eq_dimOf_expand]; exact this)
    obtain ⟨y1', a1, -, -, a2⟩ := hcall x' t2 (by rw [t3, x3]) _ t4
    rw [h2] at a1
    cases a1
    obtain ⟨z, z1, z2, z3, z4⟩ := ofArray_ofFn irrepsOut (Φ v)
    obtain ⟨zt, s1, s2, s3, -, -⟩ := C59_transform R z z2
    obtain ⟨yt, r1, r2, r3, -, -⟩ := C59_transform R y y2
    rw [h3] at r1
    cases r1
    refine ⟨x, x', z, zt, x1, h1, z1, s1, ?_⟩
    rw [← a2, h4.2.1]
    refine eq_of_getD (n := irrepsOut.dim) ?_ ?_ fun j hj => ?_
    · have := r2.1
      rw [r3, y3] at this
      first | exact this | (rw [Irreps.dim_eq_dimOf_expand]; exact this)
    · have := s2.1
      rw [s3, z3] at this
      first | exact this | (rw [Irreps.dim_eq_dimOf_expand]; exact this)
    · obtain ⟨o, mo, v, k, ho, hv, hk, rfl⟩ := index_split irrepsOut j hj
      have b1 := tr_coord y2 h3 (by rw [y3]; exact ho) hv ⟨k, hk⟩
      have b2 := tr_coord z2 s1 (by rw [z3]; exact ho) hv ⟨k, hk⟩
      rw [y3, y4] at b1
      rw [z3, z4] at b2
      exact b1.trans b2.symm
  · rintro Ψ ⟨-, hΨ⟩
    refine LinearMap.ext fun v => ?_
    obtain ⟨x, y, h1, h2, -, h3⟩ := hreal v
    obtain ⟨x', y', h1', h2', -, h3'⟩ := hΨ v
    rw [h1] at h1'
    cases h1'
    rw [h2] at h2'
    cases h2'
    exact List.ofFn_injective (h3'.symm.trans h3)

theorem flatten_inj : ∀ {l l' : List (List ℝ)}, l.map List.length = l'.map List.length → l.flatten = l'.flatten → l = l'
  | [], [], _, _ => rfl
  | [], _ :: _, h, _ => by simp at h
  | _ :: _, [], h, _ => by simp at h
  | a :: l, b :: l', h, e => by
    simp only [List.map_cons, List.cons.injEq] at h
    rw [List.flatten_cons, List.flatten_cons] at e
    obtain ⟨e1, e2⟩ := List.append_inj e h.1
    rw [e1, flatten_inj h.2 e2]

/-- **C84 (flat weights).** The same for a flat array of `num_weights` weights. -/
theorem C84_complete_flat (hf : FLin.init irrepsIn irrepsOut none .none a g = .ok f)
    (Φ : (Fin irrepsIn.dim → ℝ) →ₗ[ℝ] (Fin irrepsOut.dim → ℝ)) (hΦ : CommutesO3 irrepsIn irrepsOut Φ) :
    ∃! w : Fin f.numWeights → ℝ, ∀ v, ∃ x y, ofArray irrepsIn (List.ofFn v) = .ok x ∧ f.callFlat (List.ofFn w) x = .ok y ∧
      y.irreps = irrepsOut ∧ y.array = List.ofFn (Φ v) := by
  obtain ⟨ws, ⟨hw, hr⟩, hu⟩ := C84_complete hf Φ hΦ
  have hlen : ws.flatten.length = f.numWeights := by
    rw [List.length_flatten, hw]; rfl
  have hflat : ∀ (l : List ℝ) (_ : l.length = f.numWeights) (x : IArr ℝ) (_ : x.Coherent) (_ : x.irreps = irrepsIn),
      ∃ ws' y, ws'.flatten = l ∧ WeightShapes f ws' ∧ f.call ws' x = .ok y ∧ f.callFlat l x = .ok y := by
    intro l hl x hx hi
    obtain ⟨ws', y, h1, h2, h3, h4⟩ := C32_call_flat hf l hl.ge x hx (by rw [hi])
    exact ⟨ws', y, by rw [h1, ← hl, List.take_length], h2, h3, h4⟩
  obtain ⟨w, hwf⟩ := exists_ofFn hlen
  refine ⟨w, ?_, ?_⟩
  · intro v
    obtain ⟨x, y, h1, h2, h3, h4⟩ := hr v
    obtain ⟨x', x1, x2, x3, x4⟩ := ofArray_ofFn irrepsIn v
    rw [h1] at x1
    cases x1
    obtain ⟨ws', y', f1, f2, f3, f4⟩ := hflat ws.flatten hlen x x2 x3
    obtain rfl := flatten_inj (f2.trans hw.symm) f1
    rw [h2] at f3
    cases f3
    exact ⟨x, y, h1, by rw [← hwf]; exact f4, h3, h4⟩
  · intro w' h'
    have hl' : (List.ofFn w').length = f.numWeights := by simp
    obtain ⟨ws', -, k1, k2, -⟩ := hflat (List.ofFn w') hl' _ (ofArray_ofFn irrepsIn 0).choose_spec.2.1 (ofArray_ofFn irrepsIn 0).choose_spec.2.2.1
    have hr' : Realises f ws' irrepsIn irrepsOut Φ := by
      intro v
      obtain ⟨x, y, h1, h2, h3, h4⟩ := h' v
      obtain ⟨x', x1, x2, x3, x4⟩ := ofArray_ofFn irrepsIn v
      rw [h1] at x1
      cases x1
      obtain ⟨ws'', y', f1, f2, f3, f4⟩ := hflat (List.ofFn w') hl' x x2 x3
      obtain rfl := flatten_inj (f2.trans k2.symm) (f1.trans k1.symm)
      rw [h2] at f4
      cases f4
      exact ⟨x, y, h1, f3, h3, h4⟩
    have := hu ws' ⟨k2, hr'⟩
    rw [this, hwf] at k1
    exact (List.ofFn_injective k1).symm

/-- **C84 (number of weights).** There are `Σ mul_in * mul_out` weights, over the pairs of an input
term and an output term with the same irrep. -/
theorem C84_num_weights (hf : FLin.init irrepsIn irrepsOut none .none a g = .ok f) :
    f.numWeights = (irrepsIn.map fun mi => (irrepsOut.map fun mo => if mi.ir = mo.ir then mi.mul * mo.mul else 0).sum).sum := by
  obtain ⟨i1, i2, hpairs, hins⟩ := linear_ins hf
  set d : MulIrrep := ⟨0, ⟨0, .e⟩⟩
  have e1 : f.numWeights = ((FLin.defaultPairs irrepsIn irrepsOut).map fun p => (irrepsIn.getD p.1 d).mul * (irrepsOut.getD p.2 d).mul).sum := by
    have h1 := congrArg (fun l : List (Option ℕ × ℕ) => (l.map fun q => (irrepsIn.getD (q.1.getD 0) d).mul * (irrepsOut.getD q.2 d).mul).sum) hpairs
    simp only [List.map_map] at h1
    refine Eq.trans ?_ h1
    unfold FLin.numWeights
    congr 1
    refine List.map_congr_left fun ins hi => ?_
    obtain ⟨i, mi, mo, k1, k2, k3, k4, k5, -⟩ := hins ins hi
    simp [FLin.size, k5, k1, List.getD, k2, k3]
  rw [e1]
  unfold FLin.defaultPairs
  rw [List.map_flatMap, List.flatMap, List.sum_flatten, List.map_map]
  have e2 : ∀ (l : List MulIrrep) (F : MulIrrep → ℕ), (l.map F).sum = (l.zipIdx.map fun q => F q.1).sum := by
    intro l F
    conv_lhs => rw [← List.zipIdx_map_fst 0 l, List.map_map]
    rfl
  rw [e2 irrepsIn]
  congr 1
  refine List.map_congr_left ?_
  rintro ⟨mi, i⟩ hi
  have hgi : irrepsIn.getD i d = mi := by simp [List.getD, FLin.mem_zipIdx_pair.mp hi]
  rw [e2 irrepsOut]
  simp only [Function.comp]
  have e3 : ∀ (l : List (MulIrrep × ℕ)), (∀ q ∈ l, irrepsOut.getD q.2 d = q.1) →
      ((l.filterMap fun mo => if mi.ir = mo.1.ir then some (i, mo.2) else none).map fun p => (irrepsIn.getD p.1 d).mul * (irrepsOut.getD p.2 d).mul).sum =
      (l.map fun q => if mi.ir = q.1.ir then mi.mul * q.1.mul else 0).sum := by
    intro l hl
    induction l with
    | nil => rfl
    | cons q l ih =>
      have hq := hl q (by simp)
      have := ih fun q hq => hl q (by simp [hq])
      by_cases h : mi.ir = q.1.ir
      · simp only [List.filterMap_cons, h, if_true, List.map_cons, List.sum_cons, hgi, hq]
        simp only [h] at this
        rw [this]
      · simp only [List.filterMap_cons, h, if_false, List.map_cons, List.sum_cons, zero_add]
        exact this
  refine e3 _ ?_
  rintro ⟨mo, o⟩ ho
  simp [List.getD, FLin.mem_zipIdx_pair.mp ho]

end main

/-- The hypotheses are met: the map of the layer `2x0e + 1x1o -> 1x0e + 3x1o` with the weights
2, 3 (scalars) and 5, 7, 11 (vectors). -/
theorem C84_concrete : ∃ (f : FLin ℝ) (Φ : (Fin (Irreps.dim [⟨2, ⟨0, .e⟩⟩, ⟨1, ⟨1, .o⟩⟩]) → ℝ) →ₗ[ℝ] (Fin (Irreps.dim [⟨1, ⟨0, .e⟩⟩, ⟨3, ⟨1, .o⟩⟩]) → ℝ)),
    FLin.init [⟨2, ⟨0, .e⟩⟩, ⟨1, ⟨1, .o⟩⟩] [⟨1, ⟨0, .e⟩⟩, ⟨3, ⟨1, .o⟩⟩] none .none 0 0 = .ok f ∧ f.numWeights = 5 ∧
    CommutesO3 _ _ Φ ∧ Realises f [[2, 3], [5, 7, 11]] _ _ Φ := by
  obtain ⟨f, hf, hw, hn⟩ : ∃ f, FLin.init [⟨2, ⟨0, .e⟩⟩, ⟨1, ⟨1, .o⟩⟩] [⟨1, ⟨0, .e⟩⟩, ⟨3, ⟨1, .o⟩⟩] none .none 0 0 = .ok f ∧
      WeightShapes f [[2, 3], [5, 7, 11]] ∧ f.numWeights = 5 := ⟨_, rfl, rfl, rfl⟩
  obtain ⟨Φ, hΦ, -⟩ := C84_sound hf _ hw
  exact ⟨f, Φ, hf, hn, hΦ.1, hΦ.2⟩

end E3nn
