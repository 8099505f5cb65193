import Verif.Props.C99b

/-!
# C99: the outputs of `shtp` span all the equivariant maps
-/

namespace E3nn.LSH

open E3nn.IArr E3nn.Rot E3nn.Wig E3nn.SU2 E3nn.SH E3nn.TPSH Matrix

/-- The matrices of the copies made by `shtp`. -/
noncomputable def copies (p : Parity) (irx irz : Irrep) : List (Matrix (Fin (2 * irz.l + 1)) (Fin (2 * irx.l + 1)) ℝ) :=
  (if condS p irx irz then (List.range (min irx.l irz.l + 1)).map fun k => MS irx.l irz.l fun n => if n = k then 1 else 0 else []) ++
  (if condA p irx irz then (List.range (min irx.l irz.l)).map fun k => MA irx.l irz.l fun n => if n = k + 1 then -1 else 0 else [])

theorem copies_length (p : Parity) (irx irz : Irrep) : (copies p irx irz).length = couplings p irx irz := by
  rw [couplings_eq]
  unfold copies
  rw [List.length_append]
  congr 1 <;> split <;> simp

theorem MS_sum (lx lz : ℕ) (w : ℕ → ℝ) : MS lx lz w = ∑ n ∈ Finset.range (min lx lz + 1), w n • MS lx lz (fun m => if m = n then 1 else 0) := by
  ext k i
  have hk := k.isLt
  have hi := i.isLt
  rw [Matrix.sum_apply]
  simp only [Matrix.smul_apply, smul_eq_mul]
  unfold MS ab
  by_cases h : k.val + lx = i.val + lz
  · simp only [if_pos h]
    rw [Finset.sum_eq_single (k.val - lz + (lz - k.val))]
    · rw [if_pos rfl, mul_one]
    · intro n _ hn; rw [if_neg (fun e => hn e.symm), mul_zero]
    · intro hn; exfalso; apply hn; rw [Finset.mem_range]; omega
  · simp only [if_neg h, mul_zero, Finset.sum_const_zero]

theorem MA_sum (lx lz : ℕ) (w : ℕ → ℝ) : MA lx lz w = ∑ n ∈ Finset.range (min lx lz), (-w (n + 1)) • MA lx lz (fun m => if m = n + 1 then -1 else 0) := by
  ext k i
  have hk := k.isLt
  have hi := i.isLt
  rw [Matrix.sum_apply]
  simp only [Matrix.smul_apply, smul_eq_mul]
  unfold MA ab
  by_cases h : k.val + i.val = lx + lz
  · simp only [if_pos h]
    by_cases h0 : k.val = lz
    · simp only [h0, lt_irrefl, if_false, if_true, mul_zero, Finset.sum_const_zero]
    · rw [Finset.sum_eq_single (k.val - lz + (lz - k.val) - 1)]
      · have e : k.val - lz + (lz - k.val) - 1 + 1 = k.val - lz + (lz - k.val) := by omega
        rw [e, if_neg h0, if_pos rfl, if_neg h0]
        split <;> ring
      · intro n _ hn
        rw [if_neg (show ¬ k.val - lz + (lz - k.val) = n + 1 by omega)]
        simp [h0]
      · intro hn; exfalso; apply hn; rw [Finset.mem_range]; omega
  · simp only [if_neg h, mul_zero, Finset.sum_const_zero]

/-- The coefficients of a matrix that commutes with the transformations that keep the pole. -/
noncomputable def coeffs (p : Parity) (irx irz : Irrep) (M : Matrix (Fin (2 * irz.l + 1)) (Fin (2 * irx.l + 1)) ℝ) : List ℝ :=
  (if condS p irx irz then (List.range (min irx.l irz.l + 1)).map fun n => at' M (irz.l + n) (irx.l + n) else []) ++
  (if condA p irx irz then (List.range (min irx.l irz.l)).map fun n => -at' M (irz.l + (n + 1)) (irx.l - (n + 1)) else [])

theorem pole_coeffs {p : Parity} {irx irz : Irrep} {M : Matrix (Fin (2 * irz.l + 1)) (Fin (2 * irx.l + 1)) ℝ} (h : PoleMap p irx irz M) :
    M = (List.zipWith (fun (c : ℝ) (C : Matrix (Fin (2 * irz.l + 1)) (Fin (2 * irx.l + 1)) ℝ) => c • C) (coeffs p irx irz M) (copies p irx irz)).sum := by
  have hc := pole_class (M := M) (fun t => by rw [← dMatrix_Y irz, ← dMatrix_Y irx]; exact h _ (matY_stab p t))
  have rs : ∀ (n : ℕ) (f : ℕ → Matrix (Fin (2 * irz.l + 1)) (Fin (2 * irx.l + 1)) ℝ), ((List.range n).map f).sum = ∑ i ∈ Finset.range n, f i := by
    intro n f
    induction n with
    | zero => rfl
    | succ n ih => rw [List.range_succ, List.map_append, List.sum_append, ih, Finset.sum_range_succ]; simp
  have hS : MS irx.l irz.l (fun n => at' M (irz.l + n) (irx.l + n)) =
      (List.zipWith (fun (c : ℝ) (C : Matrix (Fin (2 * irz.l + 1)) (Fin (2 * irx.l + 1)) ℝ) => c • C)
        (if condS p irx irz then (List.range (min irx.l irz.l + 1)).map fun n => at' M (irz.l + n) (irx.l + n) else [])
        (if condS p irx irz then (List.range (min irx.l irz.l + 1)).map fun k => MS irx.l irz.l fun n => if n = k then 1 else 0 else [])).sum := by
    by_cases hs : condS p irx irz
    · rw [if_pos hs, if_pos hs, List.zipWith_map, List.zipWith_self, rs]
      exact MS_sum _ _ _
    · rw [if_neg hs, if_neg hs]
      simp only [pole_condS h hs]
      ext k i
      simp [MS]
  have hA : MA irx.l irz.l (fun n => at' M (irz.l + n) (irx.l - n)) =
      (List.zipWith (fun (c : ℝ) (C : Matrix (Fin (2 * irz.l + 1)) (Fin (2 * irx.l + 1)) ℝ) => c • C)
        (if condA p irx irz then (List.range (min irx.l irz.l)).map fun n => -at' M (irz.l + (n + 1)) (irx.l - (n + 1)) else [])
        (if condA p irx irz then (List.range (min irx.l irz.l)).map fun k => MA irx.l irz.l fun n => if n = k + 1 then -1 else 0 else [])).sum := by
    by_cases hs : condA p irx irz
    · rw [if_pos hs, if_pos hs, List.zipWith_map, List.zipWith_self, rs]
      exact MA_sum _ _ _
    · rw [if_neg hs, if_neg hs]
      ext k i
      have hk := k.isLt
      have hi := i.isLt
      unfold MA ab
      simp only [List.zipWith_nil_left, List.sum_nil, Matrix.zero_apply]
      by_cases h1 : k.val + i.val = irx.l + irz.l
      · rw [if_pos h1]
        rcases Nat.lt_trichotomy k.val irz.l with h2 | h2 | h2
        · rw [if_pos h2, pole_condA h hs (by omega) (by omega), neg_zero]
        · rw [if_neg (by omega), if_pos h2]
        · rw [if_neg (by omega), if_neg (by omega), pole_condA h hs (by omega) (by omega)]
      · rw [if_neg h1]
  unfold coeffs copies
  rw [List.zipWith_append (by split <;> simp), List.sum_append, ← hS, ← hA]
  exact hc

/-- The output of `shtp` for one irrep in the input and one in the filter. -/
theorem shtp_copies {p : Parity} {irx irz : Irrep} {d x : IArr Col} (hd : d.Coherent) (hdi : d.irreps = [⟨1, ⟨1, p⟩⟩]) (hx : x.Coherent) (hxi : x.irreps = [⟨1, irx⟩]) :
    ∃ Q, IsRotation Q ∧ Q *ᵥ ![0, 1, 0] = usedDirection (vec d) ∧ ∃ y, shtp x d [irz] = .ok y ∧ y.Coherent ∧
      y.array = ((copies p irx irz).map fun C => matVec (matRows (Wig.dMatrix irz Q * C * Wig.dMatrix irx Qᵀ)) x.array).flatten := by
  obtain ⟨Q, hQ, hQd, hQs⟩ := frame_spec (good_shtp [irz]) hd hdi
  obtain ⟨P, hP1, hP2, hP3, hP4, -, ho⟩ := hQs x hx
  refine ⟨Q, hQ, hQd, ?_⟩
  have hxl : x.array.length = 2 * irx.l + 1 := by
    rw [hx.inv.flags.lengths.1, hxi]; simp [Irreps.dim, MulIrrep.dim, Irrep.dim]
  have hxb : x.blocks = [(irx, x.array)] := by
    unfold IArr.blocks
    rw [hxi]
    simp [expand, blocksOf, Irrep.dim, List.take_of_length_le, hxl]
  rw [hxi] at hP3
  obtain ⟨q, rfl⟩ : ∃ q, P = [q] := by
    cases P with
    | nil => simp at hP3
    | cons q P => cases P with
      | nil => exact ⟨q, rfl⟩
      | cons a b => simp at hP3
  obtain ⟨m, c⟩ := q
  simp only [List.map_cons, List.map_nil, List.cons.injEq, and_true] at hP3
  subst hP3
  cases c with
  | none => exact absurd rfl (hP2 _ List.mem_cons_self)
  | some rows =>
    have hsh := hP1 _ List.mem_cons_self
    rw [List.flatMap_cons, List.flatMap_nil, List.append_nil, blk_some hsh, hxb] at hP4
    simp only [act, List.map_cons, List.map_nil] at hP4
    obtain ⟨r, rfl⟩ : ∃ r, rows = [r] := by
      cases rows with
      | nil => simp at hP4
      | cons r rows => cases rows with
        | nil => exact ⟨r, rfl⟩
        | cons a b => simp at hP4
    simp only [List.map_cons, List.map_nil, List.cons.injEq, and_true, Prod.mk.injEq, true_and] at hP4
    have hrl : r.length = 2 * irx.l + 1 := by rw [hP4, matVec_length]; simp [matRows]
    have hf : filterOf [irz] = [irz] := by rfl
    have hloop : (if filterOf [irz] = [] ∨ [((⟨1, irx⟩ : MulIrrep), (some [r] : Chunk Col))] = [] then (.error .nameError : Except PyErr _) else
        .ok (shtpEntries (filterOf [irz]) p [((⟨1, irx⟩ : MulIrrep), (some [r] : Chunk Col))])) = .ok (shtpEntries [irz] p [((⟨1, irx⟩ : MulIrrep), (some [r] : Chunk Col))]) := by
      rw [hf, if_neg (by simp)]
    obtain ⟨u, rg, y, -, hu, hui, hub, hrr, hrc, hy, hyc, hyi, hyb⟩ := ho _ hloop
    refine ⟨y, hy, hyc, ?_⟩
    obtain ⟨r', hr', -, hperm, -, hfil, -⟩ := C17_regroup u hu
    have : rg = r' := by rw [hrr] at hr'; exact Except.ok.inj hr'
    subst this
    have hes : shtpEntries [irz] p [((⟨1, irx⟩ : MulIrrep), (some [r] : Chunk Col))] = shtpOne irz p ⟨1, irx⟩ (some [r]) := by
      rw [shtpEntries_one]; simp
    have hshaped := shtpEntries_shaped [irz] p hP1
    rw [hes] at hub hshaped
    have hub' : u.blocks = (copies p irx irz).map fun C => (irz, matVec (matRows C) r) := by
      rw [shtpOne_some irz p ⟨1, irx⟩ (by intro r' hr'; simp at hr'; rw [hr']; exact hrl)] at hub hshaped
      rw [hub]
      unfold copies
      rw [List.flatMap_append, List.map_append]
      simp only [List.flatMap_cons, List.flatMap_nil, List.append_nil] at hshaped ⊢
      congr 1
      · by_cases hs : condS p irx irz
        · rw [if_pos hs, if_pos hs] at *
          rw [List.flatMap_cons, List.flatMap_nil, List.append_nil, blk_some (hshaped _ (List.mem_append_left _ List.mem_cons_self)), List.map_map, List.map_map]
          rfl
        · rw [if_neg hs, if_neg hs]; rfl
      · by_cases hs : condA p irx irz
        · rw [if_pos hs, if_pos hs] at *
          rw [List.flatMap_cons, List.flatMap_nil, List.append_nil, blk_some (hshaped _ (List.mem_append_right _ List.mem_cons_self)), List.map_map, List.map_map]
          rfl
        · rw [if_neg hs, if_neg hs]; rfl
    have hall : ∀ b ∈ u.blocks, b.1 = irz := by
      rw [hub']
      intro b hb
      obtain ⟨C, -, rfl⟩ := List.mem_map.mp hb
      rfl
    have hrb : rg.blocks = u.blocks := by
      have := hfil irz
      rw [List.filter_eq_self.mpr (fun b hb => by simpa using hall b (hperm.mem_iff.mp hb)), List.filter_eq_self.mpr (fun b hb => by simpa using hall b hb)] at this
      exact this
    rw [← hyc.inv.array_eq_blocks, hyb, hrb, hub']
    unfold act
    rw [List.map_map, List.map_map]
    congr 1
    apply List.map_congr_left
    intro C _
    simp only [Function.comp_apply]
    rw [hP4, matVec_mul _ _ hxl, matVec_mul _ _ (by rw [matVec_length]; simp [matRows])]

/-- **C99 (completeness).** Let `T(v)` be any family of linear maps from `irx` to `irz`, one for each unit vector `v` of the irrep `1o` (or `1e`), equivariant under the rotations, the reflections
and the inversion.  Then there are fixed numbers `c` such that, for every direction `d` and every input `x`, `T(d) x` is the combination with the coefficients `c` of the copies of `irz` that
`shtp` returns.  In particular this holds for the product of `x` with the spherical harmonics of `d` of any degree. -/
theorem C99_complete (p : Parity) (irx irz : Irrep) (T : (Fin 3 → ℝ) → Matrix (Fin (2 * irz.l + 1)) (Fin (2 * irx.l + 1)) ℝ)
    (hT : ∀ R : Matrix (Fin 3) (Fin 3) ℝ, R * Rᵀ = 1 → ∀ v : Fin 3 → ℝ, v ⬝ᵥ v = 1 → T (Wig.dMatrix ⟨1, p⟩ R *ᵥ v) * Wig.dMatrix irx R = Wig.dMatrix irz R * T v) :
    ∃ c : ℕ → ℝ, ∀ d x y : IArr Col, d.Coherent → d.irreps = [⟨1, ⟨1, p⟩⟩] → ∑ k : Fin 3, d.array.getD k 0 () ^ 2 = 1 → x.Coherent → x.irreps = [⟨1, irx⟩] →
      shtp x d [irz] = .ok y → ∀ k : Fin (2 * irz.l + 1),
        ∑ i : Fin (2 * irx.l + 1), T (fun j => d.array.getD j 0 ()) k i * x.array.getD i 0 () =
          ∑ n ∈ Finset.range (couplings p irx irz), c n * y.array.getD (n * (2 * irz.l + 1) + k) 0 () := by
  have hpole : PoleMap p irx irz (T ![0, 1, 0]) := by
    intro S hS
    have := hT S hS.1 ![0, 1, 0] (by simp [dotProduct, Fin.sum_univ_three])
    rw [hS.2] at this
    exact this.symm
  have hpc := pole_coeffs hpole
  refine ⟨fun n => (coeffs p irx irz (T ![0, 1, 0])).getD n 0, ?_⟩
  intro d x y hd hdi h1 hx hxi hy k
  obtain ⟨Q, hQ, hQd, y', hy', hyc, hya⟩ := shtp_copies (irz := irz) hd hdi hx hxi
  rw [hy] at hy'; cases hy'
  have hxl : x.array.length = 2 * irx.l + 1 := by
    rw [hx.inv.flags.lengths.1, hxi]; simp [Irreps.dim, MulIrrep.dim, Irrep.dim]
  have hud : usedDirection (vec d) = vec d := by
    have hn : vec d ≠ 0 := by
      intro e
      have e' : ∀ k : Fin 3, d.array.getD k 0 () = 0 := fun k => congrFun e k
      simp [e'] at h1
    unfold usedDirection
    rw [if_neg hn]
    have hs : vec d 0 ^ 2 + vec d 1 ^ 2 + vec d 2 ^ 2 = 1 := by
      rw [Fin.sum_univ_three] at h1; exact h1
    have hvn : vnormSq (vec d) = 1 := by simp only [vnormSq]; rw [← hs]
    funext k
    simp [direction, hvn]
  rw [hud] at hQd
  have hTd : T (vec d) = Wig.dMatrix irz Q * T ![0, 1, 0] * Wig.dMatrix irx Qᵀ := by
    have := hT Q hQ.1 ![0, 1, 0] (by simp [dotProduct, Fin.sum_univ_three])
    rw [dMatrix_one p hQ, hQd] at this
    rw [← this, Matrix.mul_assoc, ← C39_homomorphism irx hQ.1 (transpose_orth hQ.1), hQ.1, C39_identity, Matrix.mul_one]
  obtain ⟨f, hf⟩ := exists_ofFn hxl
  have hfx : ∀ i : Fin (2 * irx.l + 1), x.array.getD i 0 () = f i () := by intro i; rw [hf, getD_ofFn]
  have hrow : ∀ n < couplings p irx irz, y.array.getD (n * (2 * irz.l + 1) + k) 0 () =
      ((Wig.dMatrix irz Q * (copies p irx irz).getD n 0 * Wig.dMatrix irx Qᵀ) *ᵥ fun i => f i ()) k := by
    intro n hn
    have hfl := FLin.flatten_getD (K := Col) ((copies p irx irz).map fun C => matVec (matRows (Wig.dMatrix irz Q * C * Wig.dMatrix irx Qᵀ)) x.array) (2 * irz.l + 1)
      (by intro r hr; obtain ⟨C, -, rfl⟩ := List.mem_map.mp hr; rw [matVec_length]; simp [matRows]) n k k.isLt
    rw [hya]
    rw [hfl]
    rw [← copies_length] at hn
    rw [List.getD_eq_getElem (List.map _ _) [] (by simpa using hn), List.getElem_map, List.getD_eq_getElem _ _ hn, hf, matVec_ofFn, getD_ofFn]
    simp [Matrix.mulVec, dotProduct]
  rw [show (∑ n ∈ Finset.range (couplings p irx irz), (coeffs p irx irz (T ![0, 1, 0])).getD n 0 * y.array.getD (n * (2 * irz.l + 1) + k) 0 ()) = _ from
    Finset.sum_congr rfl fun n hn => by rw [hrow n (Finset.mem_range.mp hn)]]
  have hL : ∑ i : Fin (2 * irx.l + 1), T (fun j => d.array.getD j 0 ()) k i * x.array.getD i 0 () = (T (vec d) *ᵥ fun i => f i ()) k := by
    simp only [hfx]; rfl
  rw [hL, hTd]
  conv_lhs => rw [hpc]
  -- both sides are linear in the list
  have key : ∀ (cs : List ℝ) (Cs : List (Matrix (Fin (2 * irz.l + 1)) (Fin (2 * irx.l + 1)) ℝ)), cs.length = Cs.length →
      ((Wig.dMatrix irz Q * (List.zipWith (fun (c : ℝ) (C : Matrix (Fin (2 * irz.l + 1)) (Fin (2 * irx.l + 1)) ℝ) => c • C) cs Cs).sum * Wig.dMatrix irx Qᵀ) *ᵥ fun i => f i ()) k =
      ∑ n ∈ Finset.range Cs.length, cs.getD n 0 * ((Wig.dMatrix irz Q * Cs.getD n 0 * Wig.dMatrix irx Qᵀ) *ᵥ fun i => f i ()) k := by
    intro cs
    induction cs with
    | nil => intro Cs h; cases Cs with
      | nil => simp
      | cons a b => simp at h
    | cons c cs ih =>
      intro Cs h
      cases Cs with
      | nil => simp at h
      | cons C Cs =>
        rw [List.zipWith_cons_cons, List.sum_cons, Matrix.mul_add, Matrix.add_mul, Matrix.add_mulVec, Pi.add_apply, ih Cs (by simpa using h), List.length_cons, Finset.sum_range_succ', add_comm]
        congr 1
        simp [Matrix.smul_mulVec]
  rw [key _ _ (by unfold coeffs copies; rw [List.length_append, List.length_append]; congr 1 <;> split <;> simp), copies_length]

end E3nn.LSH
