import Verif.Lemmas.RTPEquiv

/-!
# C94: the changes of basis of `reduced_tensor_product_basis` are equivariant
-/

namespace E3nn.RTP

open E3nn.IArr E3nn.LinAlg E3nn.PermRepr E3nn.Wig

/-- The columns of the basis transform as its irreps say: rotating the basis with `transform_by_matrix` and then all tensor axes with
the matrices of their irreps gives the basis back. -/
def Equivariant (irr : List Irreps) (B : IArr Ten) : Prop :=
  B.Coherent ∧ ∀ R : Matrix (Fin 3) (Fin 3) ℝ, IsOrth R → ∃ y, B.transformByMatrix R = .ok y ∧ y.array.map (rotate irr R) = B.array

/-- All blocks are good. -/
def Good (irr : List Irreps) (f : List ℕ) (b : IArr Ten) : Prop := Inv b ∧ ∀ p ∈ b.blocks, BGood irr f p

theorem Good.of_perm {irr : List Irreps} {f : List ℕ} {b b' : IArr Ten} (h : Good irr f b) (hi : Inv b') (hp : b'.blocks.Perm b.blocks) : Good irr f b' :=
  ⟨hi, fun p hp' => h.2 p (hp.mem_iff.mp hp')⟩

theorem Good.regroup {irr : List Irreps} {f : List ℕ} {b y : IArr Ten} (h : Good irr f b) (hy : b.regroup = .ok y) : Good irr f y := by
  obtain ⟨z, z1, z2, z3, -⟩ := C17_regroup b h.1.coherent
  rw [hy] at z1; cases z1
  exact h.of_perm z2.inv z3

theorem Good.equivariant {irr : List Irreps} {b : IArr Ten} (h : Good irr (List.range irr.length) b) : Equivariant irr b := by
  refine ⟨h.1.coherent, fun R hR => ?_⟩
  obtain ⟨y, y1, y2, y3, y4, y5⟩ := C59_transform R b h.1.coherent
  refine ⟨y, y1, ?_⟩
  rw [← y2.inv.array_eq_blocks, ← h.1.array_eq_blocks, y5, List.map_flatten, List.map_map, List.map_map]
  congr 1
  apply List.map_congr_left
  intro p hp
  have hg := h.2 p hp
  simp only [Function.comp_apply]
  obtain ⟨v, hv, -, v3⟩ := hg.exists
  have e : ∀ t, rotate irr R t = onAxes (axisDim irr) (mats irr R) (List.range irr.length) t := fun _ => rfl
  rw [hv, matVec_ofFn, List.map_ofFn]
  congr 1
  funext c
  simp only [Function.comp_apply]
  rw [e, onAxes_sum]
  simp only [onAxes_smul, v3 R hR, Finset.smul_sum, smul_smul]
  rw [Finset.sum_comm]
  have ho := (C39_orthogonal p.1 hR).1
  rw [← (C39_orthogonal p.1 hR).2] at ho
  have e2 : ∀ c', ∑ x, (Wig.dMatrix p.1 R c x * Wig.dMatrix p.1 R.transpose x c') • v c' = (if c = c' then (1 : ℝ) else 0) • v c' := by
    intro c'
    rw [← Finset.sum_smul, ← Matrix.mul_apply, ho, Matrix.one_apply]
  simp only [e2]
  simp

/-- `Q` is what is known about the irreps and the symmetries in all calls. -/
theorem basis_good {eigh : Eigh} {eps : ℝ} {opt : Optimized} {flag : Bool} (Q : List Irreps → Finset SPerm → Prop)
    (hQ : ∀ irr G f, Q irr G → f.Pairwise (· < ·) → (∀ i ∈ f, i < irr.length) → Q (f.map fun k => irr.getD k []) (subrepr f G))
    (hopt : ∀ irr G keep y, Q irr G → useOptimized flag irr G = true → opt (irr.headD []) irr.length keep = .ok y → Good irr (List.range irr.length) y)
    {fuel : ℕ} {irr : List Irreps} {G : Finset SPerm} {keep : Option (List Irrep)} {y : IArr Ten} (hq : Q irr G)
    (h : basis eigh eps opt flag fuel irr G keep = some (.ok y)) : Good irr (List.range irr.length) y := by
  refine basis_ind (fun irr G _ y => Q irr G → Good irr (List.range irr.length) y) (fun irr G _ f b => Q irr G → Good irr f b)
    (fun i irreps => by obtain ⟨b, h, -⟩ := identityBasis_spec i irreps; exact ⟨b, h⟩) (fun irr G keep y hu hy hq => hopt irr G keep y hq hu hy)
    (fun irr G keep i b _ hb _ => identity_good irr hb) ?_ ?_ ?_ fuel irr G keep y h hq
  · intro irr G keep b y hn hb hy hq
    replace hb := hb hq
    rw [hn]
    unfold finishOne at hy
    rw [if_neg (by simp)] at hy
    cases keep with
    | none => simp only [bind, Except.bind] at hy; exact hb.regroup hy
    | some l =>
      obtain ⟨z, z1, z2, z3⟩ := filter_blocks hb.1 l
      simp only [bind, Except.bind, z1] at hy
      refine Good.regroup ⟨z2, fun p hp => hb.2 p ?_⟩ hy
      rw [z3] at hp
      exact (List.mem_filter.mp hp).1
  · intro irr G keep a b y ha hb na nb hp ga gb hy hq
    replace ga := ga hq
    replace gb := gb hq
    have hnd : (a.1 ++ b.1).Nodup := hp.nodup_iff.mpr List.nodup_range
    have hdis : ∀ i ∈ a.1, i ∉ b.1 := fun i hi hj => (List.nodup_append.mp hnd).2.2 i hi i hj rfl
    obtain ⟨ab, ab1, ab2, ab3⟩ := reduceBasisProduct_spec keep ga.1 gb.1
    have gab : Good irr (List.range irr.length) ab :=
      ⟨ab2, fun p hq => (products_good hdis keep ga.2 gb.2 p (ab3.mem_iff.mp hq)).perm hp⟩
    unfold finishTwo at hy
    simp only [bind, Except.bind, ab1] at hy
    split at hy
    · exact gab.regroup hy
    · split at hy
      · cases hy
      · split at hy
        · cases hy
        · rename_i p hp'
          obtain ⟨z, z1, z2, z3⟩ := constrain_spec eigh eps (irr.map Irreps.dim) (x := ab) p
          rw [z1] at hy
          refine Good.regroup ⟨z2, fun q hq => ?_⟩ hy
          rw [z3] at hq
          obtain ⟨ir, -, hq⟩ := List.mem_flatMap.mp hq
          obtain ⟨r, hr, rfl⟩ := List.mem_map.mp hq
          refine mix_good ?_ (by simp [firstComponents]) _ r hr
          intro r' hr'
          rw [rotBasis_blocks ab2] at hr'
          obtain ⟨q', hq', rfl⟩ := List.mem_map.mp hr'
          obtain ⟨m1, m2⟩ := List.mem_filter.mp hq'
          have := gab.2 q' m1
          rw [decide_eq_true_iff] at m2
          rw [← m2]; exact this
  · intro irr G keep f ab ab' hf hlt h2 hab hm hq
    replace hab := hab (hQ irr G f hq hf hlt)
    obtain ⟨z, z1, z2, z3, z4⟩ := mapCols_blocks (φ := place f) rfl hab.1
    rw [hm] at z1; cases z1
    refine ⟨z2, fun p hp => ?_⟩
    rw [z4] at hp
    obtain ⟨q, hq, rfl⟩ := List.mem_map.mp hp
    have := hab.2 q hq
    rw [List.length_map] at this
    exact place_good (hf.imp Nat.ne_of_lt) this

/-- **C94 (equivariance).** Whatever the irreps of the axes, the symmetries `G`, `keep_ir`, the tolerance and the eigenvectors that
`np.linalg.eigh` returns: the result of the general algorithm transforms as its irreps say. -/
theorem C94_equivariant (eigh : Eigh) (eps : ℝ) (opt : Optimized) (fuel : ℕ) (irr : List Irreps) (G : Finset SPerm) (keep : Option (List Irrep)) (B : IArr Ten)
    (h : basis eigh eps opt false fuel irr G keep = some (.ok B)) : Equivariant irr B := by
  refine (basis_good (fun _ _ => True) (fun _ _ _ _ _ _ => trivial) ?_ trivial h).equivariant
  intro irr G keep y _ hu
  simp [useOptimized] at hu

end E3nn.RTP
