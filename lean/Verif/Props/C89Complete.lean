import Verif.Props.C89
import Verif.Props.C88

/-!
# C89, continued: completeness of the `Linear` module
-/

namespace E3nn.LinM
open E3nn.IArr E3nn.Wig

/-- The irreps after `regroup`. -/
def regroupedIrreps (ms : Irreps) : Irreps := (Irreps.sortIrreps ms).simplify

theorem dim_perm {ms ms' : Irreps} (h : ms.Perm ms') : ms.dim = ms'.dim := by
  unfold Irreps.dim
  exact (h.map _).sum_nat

theorem regroupedIrreps_dim (ms : Irreps) : (regroupedIrreps ms).dim = ms.dim := by
  unfold regroupedIrreps
  rw [FCTP.simplify_dim, dim_perm (Irreps.sortIrreps_perm ms)]

/-- One coordinate of a sorted array. -/
theorem sort_coord {x : IArr ℝ} (hx : x.Coherent) {y : IArr ℝ} (hy : x.sort = .ok y) {o : ℕ} {m : MulIrrep} {i : ℕ}
    (ho : (Irreps.sortIrreps x.irreps)[o]? = some m) (hi : (Irreps.sortInv x.irreps)[o]? = some i) {u k : ℕ} (hu : u < m.mul) (hk : k < 2 * m.ir.l + 1) :
    x.irreps[i]? = some m ∧ y.array.getD (pos (Irreps.sortIrreps x.irreps) o m.ir.l u k) 0 = x.array.getD (pos x.irreps i m.ir.l u k) 0 := by
  obtain ⟨s1, s2⟩ := sort_pairs hx.inv
  obtain ⟨z, z1, z2, z3, z4, z5, z6, z7, -⟩ := fromChunks_pairs _ s1
  rw [← s2, hy] at z1
  cases z1
  unfold Irreps.sortIrreps at ho
  unfold Irreps.sortInv at hi
  rw [List.getElem?_map] at ho hi
  cases ht : x.irreps.sortedTriples[o]? with
  | none => rw [ht] at ho; cases ho
  | some t =>
    rw [ht] at ho hi
    simp only [Option.map_some, Option.some.injEq] at ho hi
    have hm := Irreps.triples_get ((Irreps.sortedTriples_perm x.irreps).mem_iff.mp (List.mem_of_getElem? ht))
    rw [ho, hi] at hm
    refine ⟨hm, ?_⟩
    have hyi : y.irreps = Irreps.sortIrreps x.irreps := by
      rw [z3, List.map_map]
      rfl
    have hyo : y.irreps[o]? = some m := by
      rw [hyi]
      unfold Irreps.sortIrreps
      rw [List.getElem?_map, ht]
      simp [ho]
    obtain ⟨c, c1, -, c2⟩ := array_pos z2 hyo hu hk
    obtain ⟨d, d1, -, d2⟩ := array_pos hx.inv hm hu hk
    rw [hyi] at c2
    rw [c2, d2]
    have e : c = d := by
      have h1 := (List.getElem?_zip_eq_some.mp c1).2
      have h2 := (List.getElem?_zip_eq_some.mp d1).2
      rw [z7, List.getElem?_map, List.getElem?_map, ht] at h1
      simp only [Option.map_some, Option.some.injEq, chunkAt, hi, h2, Option.getD_some] at h1
      exact h1.symm
    rw [e]

/-- The permutation of the coordinates that `regroup` makes. -/
theorem exists_perm (ms : Irreps) : ∃ σ : Fin (regroupedIrreps ms).dim ≃ Fin ms.dim, ∀ x : IArr ℝ, x.Coherent → x.irreps = ms →
    ∃ z, x.regroup = .ok z ∧ z.Coherent ∧ z.irreps = regroupedIrreps ms ∧ ∀ j : Fin (regroupedIrreps ms).dim, z.array.getD j 0 = x.array.getD (σ j) 0 := by
  have hdim : (Irreps.sortIrreps ms).dim = ms.dim := dim_perm (Irreps.sortIrreps_perm ms)
  have hex : ∀ j : Fin (regroupedIrreps ms).dim, ∃ o i m u k, (Irreps.sortIrreps ms)[o]? = some m ∧ (Irreps.sortInv ms)[o]? = some i ∧ ms[i]? = some m ∧ u < m.mul ∧
      k < 2 * m.ir.l + 1 ∧ (j : ℕ) = pos (Irreps.sortIrreps ms) o m.ir.l u k := by
    intro j
    obtain ⟨o, m, u, k, h1, h2, h3, h4⟩ := exists_pos (ms := Irreps.sortIrreps ms) (j := j) (by have := j.2; have := regroupedIrreps_dim ms; omega)
    have hl : o < ms.length := by
      have := (List.getElem?_eq_some_iff.mp h1).1
      rwa [(Irreps.sortIrreps_perm ms).length_eq] at this
    obtain ⟨i, i1, i2⟩ := Irreps.sortIrreps_get ms o hl
    exact ⟨o, i, m, u, k, h1, i1, by rw [← i2, h1], h2, h3, h4⟩
  choose o i m u k h1 h2 h3 h4 h5 h6 using hex
  let σ : Fin (regroupedIrreps ms).dim → Fin ms.dim := fun j => ⟨pos ms (i j) (m j).ir.l (u j) (k j), pos_lt (h3 j) (h4 j) (h5 j)⟩
  have hinj : Function.Injective σ := by
    intro j j' e
    have e' : pos ms (i j) (m j).ir.l (u j) (k j) = pos ms (i j') (m j').ir.l (u j') (k j') := congrArg Fin.val e
    obtain ⟨e1, e2, e3⟩ := pos_inj (h3 j) (h3 j') (h4 j) (h5 j) (h4 j') (h5 j') e'
    have eo : o j = o j' := by
      have hnd : (Irreps.sortInv ms).Nodup := (Irreps.sortInv_perm ms).nodup_iff.mpr List.nodup_range
      obtain ⟨l1, l2⟩ := List.getElem?_eq_some_iff.mp (h2 j)
      obtain ⟨l1', l2'⟩ := List.getElem?_eq_some_iff.mp (h2 j')
      exact (List.Nodup.getElem_inj_iff hnd).mp (by rw [l2, l2', e1])
    have em : m j = m j' := by
      have := h1 j
      rw [eo, h1 j'] at this
      exact (Option.some.inj this).symm
    apply Fin.ext
    rw [h6 j, h6 j', eo, em, e2, e3]
  have hbij : Function.Bijective σ := (Fintype.bijective_iff_injective_and_card σ).mpr ⟨hinj, by simp [regroupedIrreps_dim]⟩
  refine ⟨Equiv.ofBijective σ hbij, fun x hx hi => ?_⟩
  obtain ⟨y, y1, y2, -⟩ := sort_spec hx.inv
  have hyi : y.irreps = Irreps.sortIrreps ms := by
    obtain ⟨z, z1, -, -, -, -, r, r1, r2⟩ := C17_sort x hx
    rw [y1] at z1
    cases z1
    rw [Irreps.sort_eq] at r1
    cases r1
    rw [r2, hi]
  obtain ⟨z, z1, z2, z3, z4⟩ := rechunk_spec y2 (new := y.irreps.simplify) (Irreps.expand_simplify _).symm
  refine ⟨z, ?_, z2.coherent, by rw [z3, hyi]; rfl, fun j => ?_⟩
  · unfold IArr.regroup
    rw [y1]
    exact z1
  · rw [z4, h6 j]
    subst hi
    exact (sort_coord hx y1 (h1 j) (h2 j) (h4 j) (h5 j)).2

/-- An array without terms marked as zero is prepared by `regroup`. -/
theorem prep_ofArray {c : Cfg} (hc : c.simp = true) {ms : Irreps} {l : List ℝ} (hl : l.length = ms.dim) {x z : IArr ℝ} (h : ofArray ms l = .ok x) (hz : x.regroup = .ok z) :
    ∃ z', prepInput c x = .ok z' ∧ z'.irreps = z.irreps ∧ z'.array = z.array := by
  obtain ⟨h1, h2, h3, h4⟩ := FCTP.live_ofArray h hl
  obtain ⟨v, v1, v2, v3, -⟩ := removeZeroChunks_spec h2.inv
  have v3' : v.terms = x.terms := by
    rw [v3]
    exact h1
  have e1 : v.irreps = x.irreps := by rw [← terms_fst v, v3', terms_fst]
  have e2 : v.array = x.array := by rw [← FCTP.terms_snd v2.coherent, v3', FCTP.terms_snd h2]
  obtain ⟨σ, hσ⟩ := exists_perm ms
  obtain ⟨z1, a1, a2, a3, a4⟩ := hσ x h2 h3
  obtain ⟨z2, b1, b2, b3, b4⟩ := hσ v v2.coherent (by rw [e1, h3])
  rw [hz] at a1
  cases a1
  refine ⟨z2, by simp [prepInput, hc, v1, b1, bind, Except.bind], by rw [b3, a3], ?_⟩
  refine eq_of_getD (n := (regroupedIrreps ms).dim) (by rw [b2.array_length, b3, ← Irreps.dim_eq_dimOf_expand]) (by rw [a2.array_length, a3, ← Irreps.dim_eq_dimOf_expand]) fun j hj => ?_
  have := a4 ⟨j, hj⟩
  have h' := b4 ⟨j, hj⟩
  simp only at this h'
  rw [this, h', e2]

/-- The same linear map on the regrouped arrays. -/
noncomputable def transported {irrepsIn irrepsOut : Irreps} (σ : Fin (regroupedIrreps irrepsIn).dim ≃ Fin irrepsIn.dim)
    (Φ : (Fin irrepsIn.dim → ℝ) →ₗ[ℝ] (Fin irrepsOut.dim → ℝ)) : (Fin (regroupedIrreps irrepsIn).dim → ℝ) →ₗ[ℝ] (Fin irrepsOut.simplify.dim → ℝ) :=
  (LinearMap.funLeft ℝ ℝ (Fin.cast (FCTP.simplify_dim irrepsOut))).comp (Φ.comp (LinearMap.funLeft ℝ ℝ σ.symm))

theorem transported_apply {irrepsIn irrepsOut : Irreps} (σ : Fin (regroupedIrreps irrepsIn).dim ≃ Fin irrepsIn.dim)
    (Φ : (Fin irrepsIn.dim → ℝ) →ₗ[ℝ] (Fin irrepsOut.dim → ℝ)) (v) :
    List.ofFn (transported σ Φ v) = List.ofFn (Φ fun k => v (σ.symm k)) :=
  FCTP.ofFn_cast (FCTP.simplify_dim irrepsOut).symm _

theorem transported_commutes {irrepsIn irrepsOut : Irreps} {σ : Fin (regroupedIrreps irrepsIn).dim ≃ Fin irrepsIn.dim}
    (hσ : ∀ x : IArr ℝ, x.Coherent → x.irreps = irrepsIn →
      ∃ z, x.regroup = .ok z ∧ z.Coherent ∧ z.irreps = regroupedIrreps irrepsIn ∧ ∀ j : Fin (regroupedIrreps irrepsIn).dim, z.array.getD j 0 = x.array.getD (σ j) 0)
    {Φ : (Fin irrepsIn.dim → ℝ) →ₗ[ℝ] (Fin irrepsOut.dim → ℝ)} (hΦ : CommutesO3 irrepsIn irrepsOut Φ) :
    CommutesO3 (regroupedIrreps irrepsIn) irrepsOut.simplify (transported σ Φ) := by
  intro R hR v
  obtain ⟨x, x', y, y', x1, x2, y1, y2, h⟩ := hΦ R hR (fun k => v (σ.symm k))
  obtain ⟨-, xc, xi, xa⟩ := FCTP.live_ofArray x1 (by simp)
  obtain ⟨-, yc, yi, ya⟩ := FCTP.live_ofArray y1 (by simp)
  obtain ⟨X, X1, X2, X3, X4⟩ := ofArray_ofFn (regroupedIrreps irrepsIn) v
  obtain ⟨Y, Y1, Y2, Y3, Y4⟩ := ofArray_ofFn irrepsOut.simplify (transported σ Φ v)
  obtain ⟨X', X5, X6, X7, -⟩ := C59_transform R X X2
  obtain ⟨Y', Y5, -⟩ := C59_transform R Y Y2
  refine ⟨X, X', Y, Y', X1, X5, Y1, Y5, ?_⟩
  obtain ⟨z, z1, z2, z3, z4⟩ := hσ x xc xi
  have hM := matRows_family fun ir => dMatrix ir R
  have hD : Act (fun ir => matVec (α := ℝ) (matRows (dMatrix ir R))) := matVec_act fun ir => (hM ir).1
  obtain ⟨t, t1, t2⟩ := transformBy_spec hD xc.inv
  have ht : t = x' := by
    have := t1.symm.trans x2
    injection this
  subst ht
  obtain ⟨z', w1, w2⟩ := tr_regroup hD t2 z1
  obtain ⟨z'', w3, w4, w5, w6⟩ := hσ t t2.inv'.coherent (by rw [t2.irreps, xi])
  rw [w1] at w3
  cases w3
  obtain ⟨q, q1, q2⟩ := transformBy_spec hD z2.inv
  have eq : q.array = z'.array := (q2.unique w2).2.1
  have hzX : z.array = X.array := by
    rw [X4]
    refine eq_of_getD (n := (regroupedIrreps irrepsIn).dim) (by rw [z2.array_length, z3, ← Irreps.dim_eq_dimOf_expand]) (by simp) fun j hj => ?_
    have := z4 ⟨j, hj⟩
    rw [xa] at this
    rw [show z.array.getD j 0 = _ from this, getD_fn _ hj, getD_fn _ (σ ⟨j, hj⟩).2]
    simp
  have eX : X'.array = q.array := (LTP.tr_array_congr X2 z2 (by rw [X3, z3]) hzX.symm X5 (by rw [transformByMatrix_eq]; exact q1)).1
  have ey : Y'.array = y'.array := (LTP.tr_array_congr Y2 yc (by rw [Y3, yi, Irreps.expand_simplify]) (by rw [Y4, ya, transported_apply]) Y5 y2).1
  rw [transported_apply, ey, ← h]
  congr 2
  funext k
  have := w6 (σ.symm k)
  rw [Equiv.apply_symm_apply] at this
  rw [← this, ← eq, ← eX]

open Classical in
/-- Parameters that give the weights `W`. -/
noncomputable def paramsOf (f : FLin ℝ) (W : List (List ℝ)) : Params := fun q =>
  match (f.instructions.zip W).find? fun p => nameOf f.irrepsIn f.irrepsOut p.1 = q with
  | some p => p.2
  | none => List.replicate (entries q) 0

theorem paramsOf_spec {irrepsIn irrepsOut : Irreps} {a g : ℝ} {f : FLin ℝ} (hf : FLin.init irrepsIn irrepsOut none .none a g = .ok f) {W : List (List ℝ)}
    (hW : WeightShapes f W) : Shaped .vanilla (paramsOf f W) ∧ (f.instructions.map fun ins => paramsOf f W (nameOf irrepsIn irrepsOut ins)) = W := by
  classical
  obtain ⟨f1, f2, f3⟩ := name_mem hf
  obtain ⟨-, -, hp, hins⟩ := linear_ins hf
  have hl : W.length = f.instructions.length := by simpa using congrArg List.length hW
  have hlen : ∀ p ∈ f.instructions.zip W, p.2.length = entries (nameOf irrepsIn irrepsOut p.1) := by
    intro p hp
    obtain ⟨k, hk, e⟩ := List.mem_iff_getElem.mp hp
    have hk1 : k < f.instructions.length := by simp at hk; omega
    have hk2 : k < W.length := by omega
    have := congrArg (fun l => l[k]?) hW
    simp only [List.getElem?_map, List.getElem?_eq_getElem hk1, List.getElem?_eq_getElem hk2, Option.map_some, Option.some.injEq] at this
    rw [List.getElem_zip] at e
    subst e
    rw [← f3 _ (List.getElem_mem hk1)]
    exact this
  have hnd : (f.instructions.map (nameOf irrepsIn irrepsOut)).Nodup := by
    have h1 : (f.instructions.map fun ins => (ins.iIn, ins.iOut)).Nodup := by
      rw [hp]
      refine (FLin.defaultPairs_nodup _ _).map ?_
      rintro ⟨i, o⟩ ⟨i', o'⟩ e
      simpa using e
    have h2 : (f.instructions.map fun ins => (ins.iIn, ins.iOut)) = (f.instructions.map (nameOf irrepsIn irrepsOut)).map fun q => (q.iIn, q.iOut) := by
      rw [List.map_map]
      rfl
    rw [h2] at h1
    exact List.Nodup.of_map _ h1
  constructor
  · intro q
    simp only [paramsOf, f1, f2]
    cases h : (f.instructions.zip W).find? fun p => decide (nameOf irrepsIn irrepsOut p.1 = q) with
    | none => simp
    | some p =>
      have h1 := List.mem_of_find?_eq_some h
      have h2 := List.find?_some h
      simp only [decide_eq_true_eq] at h2
      rw [← h2]
      exact hlen p h1
  · have key : ∀ p ∈ f.instructions.zip W, paramsOf f W (nameOf irrepsIn irrepsOut p.1) = p.2 := by
      intro p hp
      simp only [paramsOf, f1, f2]
      cases h : (f.instructions.zip W).find? fun r => decide (nameOf irrepsIn irrepsOut r.1 = nameOf irrepsIn irrepsOut p.1) with
      | none =>
        exfalso
        have := List.find?_eq_none.mp h p hp
        simp at this
      | some r =>
        have h1 := List.mem_of_find?_eq_some h
        have h2 := List.find?_some h
        simp only [decide_eq_true_eq] at h2
        obtain ⟨k, hk, e⟩ := List.mem_iff_getElem.mp hp
        obtain ⟨k', hk', e'⟩ := List.mem_iff_getElem.mp h1
        have a1 : k < f.instructions.length := by simp at hk; omega
        have a2 : k' < f.instructions.length := by simp at hk'; omega
        rw [List.getElem_zip] at e e'
        subst e
        subst e'
        simp only at h2
        have : k' = k := by
          have := (List.Nodup.getElem_inj_iff hnd (i := k') (j := k) (hi := by simpa using a2) (hj := by simpa using a1)).mp (by simpa using h2)
          exact this
        subst this
        rfl
    have : (f.instructions.map fun ins => paramsOf f W (nameOf irrepsIn irrepsOut ins)) = (f.instructions.zip W).map fun p => paramsOf f W (nameOf irrepsIn irrepsOut p.1) := by
      conv_lhs => rw [← List.map_fst_zip (l₁ := f.instructions) (l₂ := W) hl.ge]
      rw [List.map_map]
      rfl
    rw [this, List.map_congr_left key]
    exact List.map_snd_zip hl.le

theorem init_all_false (irrepsIn irrepsOut : Irreps) (a g : ℝ) : FLin.init irrepsIn irrepsOut none (.all false) a g = FLin.init irrepsIn irrepsOut none .none a g := by
  unfold FLin.init
  have : FLin.resolveBiases irrepsOut (.all false) = FLin.resolveBiases irrepsOut .none := by simp [FLin.resolveBiases, List.map_const']
  rw [this]

/-- **C89 (completeness).** On arrays without terms marked as zero, every linear map that commutes with the rotations and the
reflections is the module (without bias, with the output irreps forced) for suitable parameters. -/
theorem C89_complete (irrepsIn irrepsOut : Irreps) (a g : ℝ) (Φ : (Fin irrepsIn.dim → ℝ) →ₗ[ℝ] (Fin irrepsOut.dim → ℝ)) (hΦ : CommutesO3 irrepsIn irrepsOut Φ) :
    ∃ P, Shaped .vanilla P ∧ ∀ v, ∃ x y, ofArray irrepsIn (List.ofFn v) = .ok x ∧
      call ⟨irrepsOut, none, false, none, none, true, true, a, g⟩ P .none x = .ok y ∧ y.irreps = irrepsOut ∧ y.array = List.ofFn (Φ v) := by
  obtain ⟨σ, hσ⟩ := exists_perm irrepsIn
  obtain ⟨f, hf, f1, f2⟩ := C28_init_returns (regroupedIrreps irrepsIn) irrepsOut.simplify none a g
  simp only [Option.elim] at hf
  obtain ⟨W, ⟨hW, hr⟩, -⟩ := C84_complete hf (transported σ Φ) (transported_commutes hσ hΦ)
  obtain ⟨p1, p2⟩ := paramsOf_spec hf hW
  refine ⟨paramsOf f W, p1, fun v => ?_⟩
  obtain ⟨x, x1, x2, x3, x4⟩ := ofArray_ofFn irrepsIn v
  obtain ⟨z, z1, z2, z3, z4⟩ := hσ x x2 x3
  set c : Cfg := ⟨irrepsOut, none, false, none, none, true, true, a, g⟩ with hc
  obtain ⟨z', w1, w2, w3⟩ := prep_ofArray (c := c) rfl (by simp) x1 z1
  obtain ⟨z'', u1, u2⟩ := prepInput_spec c x2
  rw [w1] at u1
  cases u1
  have hlo : layerOut c z'.irreps = irrepsOut.simplify := rfl
  obtain ⟨f', y0, hf', hw', h1, h2, h3, h4⟩ := core_spec c false irrepsOut.simplify p1 (s := .vanilla) trivial rfl u2.1 rfl
  rw [w2, z3] at hf' h1
  simp only [hc] at hf'
  rw [init_all_false, hf] at hf'
  cases hf'
  rw [effective_vanilla _ p1, p2] at h1
  obtain ⟨y, y1, y2, y3, y4⟩ := finish_spec (c := c) (irreps := z'.irreps) h2 (by rw [h3, hlo])
  refine ⟨x, y, x1, ?_, by rw [y3]; rfl, ?_⟩
  · show callFrom c (paramsOf f W) (.ok .vanilla) x = _
    simp only [callFrom, w1, outIrreps_eq, hlo, h4, bind, Except.bind]
    exact y1
  · obtain ⟨X, Y, X1, Y1, Y2, Y3⟩ := hr (fun j => v (σ j))
    obtain ⟨-, Xc, Xi, Xa⟩ := FCTP.live_ofArray X1 (by simp)
    have hXz : X.array = z'.array := by
      rw [w3, Xa]
      refine eq_of_getD (n := (regroupedIrreps irrepsIn).dim) (by simp) (by rw [z2.array_length, z3, ← Irreps.dim_eq_dimOf_expand]) fun j hj => ?_
      have := z4 ⟨j, hj⟩
      rw [x4] at this
      rw [show z.array.getD j 0 = _ from this, getD_fn _ hj, getD_fn _ (σ ⟨j, hj⟩).2]
    have hYy : Y.array = y0.array := by
      have hd : Irreps.dim f.irrepsOut = Irreps.dim irrepsOut.simplify := by rw [f2]
      refine eq_of_getD (n := irrepsOut.simplify.dim) (by rw [Y3]; simp) (by rw [h2.array_length, h3, ← Irreps.dim_eq_dimOf_expand]) fun j hj => ?_
      obtain ⟨o, mo, u, k, ho, hu, hk, rfl⟩ := index_split irrepsOut.simplify j hj
      rw [C28_formula hf W hW X Xc Y Y1 o mo ho u k hu hk, C28_formula hf W hW z' u2.1 y0 h1 o mo ho u k hu hk, hXz]
    rw [y4, ← hYy, Y3, transported_apply]
    simp

end E3nn.LinM
