import Verif.Lemmas.Offsets
import Verif.Props.C28_C32
import Verif.Lemmas.TransformO3
import Mathlib.LinearAlgebra.Matrix.ToLin

/-! # Equivariant linear maps in coordinates (for C84) -/

namespace E3nn
open IArr

/-- The transformed array, entry by entry. -/
theorem tr_coord {R : Matrix (Fin 3) (Fin 3) ℝ} {x y : IArr ℝ} (hx : x.Coherent) (h : x.transformByMatrix R = .ok y)
    {i : ℕ} {m : MulIrrep} (hm : x.irreps[i]? = some m) {u : ℕ} (hu : u < m.mul) (k : Fin (2 * m.ir.l + 1)) :
    y.array.getD (pos x.irreps i m.ir.l u k) 0 = ∑ b, Wig.dMatrix m.ir R k b * x.array.getD (pos x.irreps i m.ir.l u b) 0 := by
  obtain ⟨y', e1, ht⟩ := transformBy_spec (Act_matRows (α := ℝ) fun ir => Wig.dMatrix ir R) hx.inv
  have e2 : y' = y := by
    have : x.transformByMatrix R = .ok y' := e1
    rw [h] at this
    exact (Except.ok.inj this).symm
  subst e2
  have hm' : y'.irreps[i]? = some m := by rw [ht.irreps]; exact hm
  obtain ⟨c', hc', -, f1⟩ := array_pos ht.inv' hm' hu k.isLt
  obtain ⟨c, hc, hs, -⟩ := array_pos ht.inv hm hu k.isLt
  have f2 : ∀ b : Fin (2 * m.ir.l + 1), x.array.getD (pos x.irreps i m.ir.l u b) 0 = (flatChunk m c).getD (u * (2 * m.ir.l + 1) + b) 0 := by
    intro b
    obtain ⟨c'', hc'', -, f2⟩ := array_pos ht.inv hm hu b.isLt
    rw [hc] at hc''
    cases hc''
    exact f2
  rw [ht.irreps] at f1
  rw [f1]
  simp only [f2]
  rw [ht.pairs, List.getElem?_map, hc] at hc'
  simp only [Option.map_some, Option.some.injEq, T, Prod.mk.injEq, true_and] at hc'
  subst hc'
  cases c with
  | none =>
    simp only [actRows, Option.map_none, flatChunk]
    have h0 : ∀ j, (List.replicate m.dim (0 : ℝ)).getD j 0 = 0 := by
      intro j
      simp only [List.getD, List.getElem?_replicate]
      split <;> rfl
    simp only [h0, mul_zero, Finset.sum_const_zero]
  | some rows =>
    simp only [shapeOk, Bool.and_eq_true, List.all_eq_true, beq_iff_eq, decide_eq_true_eq] at hs
    simp only [actRows, Option.map_some, flatChunk]
    have hr : u < rows.length := by omega
    have hrow : rows.getD u [] = rows[u] := by simp [List.getD, hr]
    obtain ⟨w, hw⟩ := exists_ofFn (show rows[u].length = 2 * m.ir.l + 1 from hs.2 _ (List.getElem_mem hr))
    have key : ∀ b : Fin (2 * m.ir.l + 1), rows.flatten.getD (u * (2 * m.ir.l + 1) + b) 0 = w b := by
      intro b
      rw [FLin.flatten_getD rows (2 * m.ir.l + 1) hs.2 u b b.isLt, hrow, hw]
      exact getD_ofFn _ _ _
    simp only [key]
    rw [FLin.flatten_getD (rows.map _) (2 * m.ir.l + 1) ?_ u k k.isLt]
    · have : (rows.map (matVec (matRows (Wig.dMatrix m.ir R)))).getD u [] = matVec (matRows (Wig.dMatrix m.ir R)) rows[u] := by
        simp [List.getD, hr]
      rw [this, hw, matVec_ofFn]
      exact getD_ofFn _ _ _
    · intro r hr
      obtain ⟨r', hr', rfl⟩ := List.mem_map.mp hr
      simp [matVec, matRows]

/-- The connections of a default `Linear`. -/
theorem linear_ins {irrepsIn irrepsOut : Irreps} {a g : ℝ} {f : FLin ℝ}
    (hf : FLin.init irrepsIn irrepsOut none .none a g = .ok f) :
    f.irrepsIn = irrepsIn ∧ f.irrepsOut = irrepsOut ∧
    f.instructions.map (fun ins => (ins.iIn, ins.iOut)) = (FLin.defaultPairs irrepsIn irrepsOut).map (fun p => (some p.1, p.2)) ∧
    ∀ ins ∈ f.instructions, ∃ i mi mo, ins.iIn = some i ∧ irrepsIn[i]? = some mi ∧ irrepsOut[ins.iOut]? = some mo ∧
      mi.ir = mo.ir ∧ ins.pathShape = [mi.mul, mo.mul] ∧ 0 < ins.pathWeight := by
  obtain ⟨sh, h1, -, -, rfl⟩ := FLin.init_ok hf
  obtain ⟨s1, s2⟩ := FLin.shapedPairs_ok h1
  have hb : FLin.biasIns (K := ℝ) irrepsOut (FLin.resolveBiases irrepsOut .none) = [] := by
    rw [List.eq_nil_iff_forall_not_mem]
    intro ins hi
    obtain ⟨-, mo, -, -, h4, h5⟩ := FLin.biasIns_mem hi
    simp [FLin.resolveBiases, List.getElem?_replicate] at h5
  simp only [hb, List.append_nil]
  refine ⟨trivial, trivial, ?_, ?_⟩
  · simp only [Option.getD_none] at s1
    rw [← s1, FLin.weighted, List.map_map, List.map_map]
    rfl
  · intro ins hi
    obtain ⟨t, ht, rfl⟩ := List.mem_map.mp hi
    obtain ⟨mi, mo, k1, k2, k3⟩ := s2 t ht
    have hp : (t.1, t.2.1) ∈ FLin.defaultPairs irrepsIn irrepsOut := by
      simp only [Option.getD_none] at s1
      rw [← s1]
      exact List.mem_map.mpr ⟨t, ht, rfl⟩
    obtain ⟨mi', mo', j1, j2, j3⟩ := (FLin.mem_defaultPairs _ _ _ _).mp hp
    rw [k1] at j1
    rw [k2] at j2
    cases j1
    cases j2
    refine ⟨t.1, mi, mo, rfl, k1, k2, j3, by simp [k3], ?_⟩
    refine Real.rpow_pos_of_pos (Real.sqrt_pos.mpr ?_) _
    unfold FLin.alpha
    simp only
    split
    · rename_i h; exact one_div_pos.mpr h
    · exact one_pos

/-- The sum over the default connections that end in `o`. -/
theorem sum_pairs {M : Type} [AddCommMonoid M] (a b : Irreps) {o : ℕ} {mo : MulIrrep} (ho : b[o]? = some mo) (G : ℕ → M) :
    (((FLin.defaultPairs a b).filter fun p => p.2 == o).map fun p => G p.1).sum =
      ∑ i : Fin a.length, if (a.get i).ir = mo.ir then G i else 0 := by
  have hn : ((FLin.defaultPairs a b).filter fun p => p.2 == o).Nodup := (FLin.defaultPairs_nodup a b).filter _
  rw [← List.sum_toFinset _ hn, ← Finset.sum_filter]
  symm
  refine Finset.sum_bij (fun (i : Fin a.length) _ => ((i : ℕ), o)) ?_ ?_ ?_ ?_
  · intro i hi
    simp only [Finset.mem_filter, Finset.mem_univ, true_and] at hi
    simp only [List.mem_toFinset, List.mem_filter, beq_self_eq_true, and_true]
    exact (FLin.mem_defaultPairs _ _ _ _).mpr ⟨_, mo, List.getElem?_eq_getElem i.isLt, ho, hi⟩
  · intro i _ j _ h
    simpa [Fin.ext_iff] using h
  · rintro ⟨i, o'⟩ h
    simp only [List.mem_toFinset, List.mem_filter, beq_iff_eq] at h
    obtain ⟨h, rfl⟩ := h
    obtain ⟨mi, mo', h1, h2, h3⟩ := (FLin.mem_defaultPairs _ _ _ _).mp h
    rw [ho] at h2
    cases h2
    obtain ⟨hl, h4⟩ := List.getElem?_eq_some_iff.mp h1
    refine ⟨⟨i, hl⟩, ?_, rfl⟩
    simp only [Finset.mem_filter, Finset.mem_univ, true_and]
    rw [← h3, ← h4]
    rfl
  · intro i _; rfl

theorem sum_zip_filter {β γ : Type} (l : List β) (l' : List γ) (h : l'.length = l.length) (p : β → Bool) (g : β × γ → ℝ) (d : β) (d' : γ) :
    (((l.zip l').filter fun q => p q.1).map g).sum =
      ∑ n ∈ Finset.range l.length, if p (l.getD n d) then g (l.getD n d, l'.getD n d') else 0 := by
  induction l generalizing l' with
  | nil => simp
  | cons b l ih =>
    cases l' with
    | nil => simp at h
    | cons c l' =>
      rw [List.length_cons, Finset.sum_range_succ']
      have := ih l' (by simpa using h)
      simp only [List.zip_cons_cons, List.getD_cons_succ, List.getD_cons_zero, ← this, List.filter_cons]
      by_cases hp : p b = true
      · simp [hp, add_comm]
      · simp [hp]

end E3nn
