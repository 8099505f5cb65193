import Verif.Model.LinearSHTP
import Verif.Lemmas.Reflect

/-!
# Lemmas about `LinearSHTP` and `shtp`: the matrices of the paths
-/

namespace E3nn.LSH

open E3nn.IArr E3nn.Rot E3nn.Wig E3nn.SU2 E3nn.SH E3nn.TPSH Matrix

/-- The distance to the middle. -/
def ab (k l : ℕ) : ℕ := (k - l) + (l - k)

/-- The matrix of a symmetric path: the component of order `m` is multiplied by `w |m|`. -/
def MS (lx lz : ℕ) (w : ℕ → ℝ) : Matrix (Fin (2 * lz + 1)) (Fin (2 * lx + 1)) ℝ := fun k i =>
  if k.val + lx = i.val + lz then w (ab k lz) else 0

/-- The matrix of an antisymmetric path: the components of order `m` and `-m` are exchanged. -/
def MA (lx lz : ℕ) (w : ℕ → ℝ) : Matrix (Fin (2 * lz + 1)) (Fin (2 * lx + 1)) ℝ := fun k i =>
  if k.val + i.val = lx + lz then (if k.val < lz then -w (ab k lz) else if k.val = lz then 0 else w (ab k lz)) else 0

theorem rotY_row (l : ℕ) (t : ℝ) (a : Fin (2 * l + 1)) (f : Fin (2 * l + 1) → ℝ) :
    ∑ b, rotY l t a b * f b = Real.cos (((l : ℝ) - a) * t) * f a + Real.sin (((l : ℝ) - a) * t) * f a.rev := by
  have hr : a.rev.val = 2 * l - a.val := by rw [Fin.val_rev]; omega
  have e : ∀ b, rotY l t a b * f b = (if b = a then Real.cos (((l : ℝ) - a) * t) * f b else 0) + (if b = a.rev then Real.sin (((l : ℝ) - a) * t) * f b else 0) := by
    intro b
    unfold rotY
    by_cases h1 : a = b
    · subst h1
      rw [if_pos rfl, if_pos rfl]
      by_cases h2 : a = a.rev
      · have : a.val = l := by have := congrArg Fin.val h2; omega
        have h3 : (l : ℝ) - (a.val : ℝ) = 0 := by rw [this]; ring
        rw [h3]; simp
      · rw [if_neg h2, add_zero]
    · have h1' : b ≠ a := fun e => h1 e.symm
      rw [if_neg h1, if_neg h1', zero_add]
      by_cases h2 : b = a.rev
      · rw [if_pos h2, if_pos (by rw [h2]; exact hr)]
      · rw [if_neg h2, if_neg (fun e => h2 (Fin.ext (by rw [e, hr]))), zero_mul]
  simp only [e, Finset.sum_add_distrib, Finset.sum_ite_eq', Finset.mem_univ, if_true]

theorem rotY_transpose (l : ℕ) (t : ℝ) (a b : Fin (2 * l + 1)) : rotY l t a b = rotY l (-t) b a := by
  unfold rotY
  have ha := a.isLt
  have hb := b.isLt
  by_cases h1 : a = b
  · subst h1
    rw [if_pos rfl, if_pos rfl, show ((l : ℝ) - a) * -t = -(((l : ℝ) - a) * t) by ring, Real.cos_neg]
  · have h1' : ¬ b = a := fun e => h1 e.symm
    rw [if_neg h1, if_neg h1']
    by_cases h2 : b.val = 2 * l - a.val
    · rw [if_pos h2, if_pos (by omega)]
      congr 1
      have : (b.val : ℝ) = 2 * l - a.val := by rw [h2, Nat.cast_sub (by omega)]; push_cast; ring
      rw [this]; ring
    · rw [if_neg h2, if_neg (by omega)]

theorem rotY_col (l : ℕ) (t : ℝ) (a : Fin (2 * l + 1)) (f : Fin (2 * l + 1) → ℝ) :
    ∑ b, f b * rotY l t b a = Real.cos (((l : ℝ) - a) * t) * f a - Real.sin (((l : ℝ) - a) * t) * f a.rev := by
  have h := rotY_row l (-t) a f
  rw [show ((l : ℝ) - a) * -t = -(((l : ℝ) - a) * t) by ring, Real.cos_neg, Real.sin_neg] at h
  have e : ∑ b, f b * rotY l t b a = ∑ b, rotY l (-t) a b * f b :=
    Finset.sum_congr rfl fun b _ => by rw [rotY_transpose l t b a, mul_comm]
  rw [e, h]
  ring

theorem rev_val {l : ℕ} (a : Fin (2 * l + 1)) : a.rev.val = 2 * l - a.val := by rw [Fin.val_rev]; omega

theorem ab_rev {l : ℕ} (a : Fin (2 * l + 1)) : ab a.rev l = ab a l := by
  have := rev_val a
  have := a.isLt
  unfold ab
  omega

theorem rotY_MS (lx lz : ℕ) (w : ℕ → ℝ) (t : ℝ) : rotY lz t * MS lx lz w = MS lx lz w * rotY lx t := by
  ext k i
  rw [Matrix.mul_apply, Matrix.mul_apply, rotY_row, rotY_col]
  have hk := k.isLt
  have hi := i.isLt
  have hkr := rev_val k
  have hir := rev_val i
  unfold MS
  rw [ab_rev]
  congr 1
  · by_cases h : k.val + lx = i.val + lz
    · have e : (lz : ℝ) - k.val = lx - i.val := by
        have : (k.val : ℝ) + lx = i.val + lz := by exact_mod_cast h
        linarith
      rw [if_pos h, e]
    · rw [if_neg h]; simp
  · by_cases h : k.rev.val + lx = i.val + lz
    · have h' : k.val + lx = i.rev.val + lz := by omega
      have e : (lz : ℝ) - k.val = -(lx - i.val) := by
        have : lz + lx = i.val + k.val := by omega
        have : (lz : ℝ) + lx = i.val + k.val := by exact_mod_cast this
        linarith
      rw [if_pos h, if_pos h', e, neg_mul, Real.sin_neg]; ring
    · have h' : ¬ k.val + lx = i.rev.val + lz := by omega
      rw [if_neg h, if_neg h']; ring

theorem rotY_MA (lx lz : ℕ) (w : ℕ → ℝ) (t : ℝ) : rotY lz t * MA lx lz w = MA lx lz w * rotY lx t := by
  ext k i
  rw [Matrix.mul_apply, Matrix.mul_apply, rotY_row, rotY_col]
  have hk := k.isLt
  have hi := i.isLt
  have hkr := rev_val k
  have hir := rev_val i
  unfold MA
  rw [ab_rev]
  by_cases h : k.val + i.val = lx + lz
  · have e : (lz : ℝ) - k.val = -(lx - i.val) := by
      have : (k.val : ℝ) + i.val = lx + lz := by exact_mod_cast h
      linarith
    by_cases h2 : k.val = lz
    · have h3 : i.val = lx := by omega
      have h4 : k.rev.val = lz := by omega
      have h5 : i.rev.val = lx := by omega
      simp [h2, h3, h4, h5]
    · rw [if_pos h, if_neg (show ¬ k.rev.val + i.val = lx + lz by omega), if_neg (show ¬ k.val + i.rev.val = lx + lz by omega), e, neg_mul, Real.cos_neg]
      ring
  · by_cases h' : k.rev.val + i.val = lx + lz
    · have e : (lz : ℝ) - k.val = (lx - i.val) := by
        have : k.val + lx = i.val + lz := by omega
        have : (k.val : ℝ) + lx = i.val + lz := by exact_mod_cast this
        linarith
      rw [if_neg h, if_pos h', if_pos (show k.val + i.rev.val = lx + lz by omega), e]
      split_ifs <;> first | omega | ring1
    · rw [if_neg h, if_neg h', if_neg (show ¬ k.val + i.rev.val = lx + lz by omega)]; ring

theorem sg_MS (lx lz : ℕ) (w : ℕ → ℝ) : sgM lz * MS lx lz w = MS lx lz w * sgM lx := by
  ext k i
  unfold sgM
  rw [Matrix.mul_diagonal, Matrix.diagonal_mul]
  unfold sg MS
  split_ifs <;> first | omega | ring1

theorem sg_MA (lx lz : ℕ) (w : ℕ → ℝ) : sgM lz * MA lx lz w = -(MA lx lz w * sgM lx) := by
  ext k i
  unfold sgM
  rw [Matrix.neg_apply, Matrix.mul_diagonal, Matrix.diagonal_mul]
  unfold sg MA
  split_ifs <;> first | omega | ring1

/-! ### the stabiliser of the pole -/

/-- The transformations that keep a direction of parity `p` along the `y` axis. -/
def Stab (p : Parity) (S : Mat) : Prop := IsOrth S ∧ Wig.dMatrix ⟨1, p⟩ S *ᵥ ![0, 1, 0] = ![0, 1, 0]

theorem stab_cases {p : Parity} {S : Mat} (h : Stab p S) : ∃ t, S = matrixY t ∨ (p = .o ∧ S = flipX * matrixY t) ∨ (p = .e ∧ S = -1 * matrixY t) := by
  obtain ⟨h1, h2⟩ := h
  rcases h1.det_cases with hd | hd
  · refine ⟨_, Or.inl (fix_ey ⟨h1, hd⟩ ?_)⟩
    rwa [dMatrix_one p ⟨h1, hd⟩] at h2
  · cases p with
    | o =>
      rw [(C39_defining h1).1] at h2
      have hr : IsRotation (flipX * S) := ⟨IsOrth.mul flipX_orth h1, by rw [Matrix.det_mul, flipX_det, hd]; norm_num⟩
      have hf : (flipX * S) *ᵥ ![0, 1, 0] = ![0, 1, 0] := by
        rw [← Matrix.mulVec_mulVec, h2]
        funext i
        fin_cases i <;> simp [flipX, Matrix.mulVec, dotProduct, Fin.sum_univ_three, Matrix.diagonal]
      have hm := fix_ey hr hf
      exact ⟨Rot.arctan2 ((flipX * S) 0 2) ((flipX * S) 0 0), Or.inr (Or.inl ⟨rfl, by rw [← hm, ← Matrix.mul_assoc, flipX_sq, Matrix.one_mul]⟩)⟩
    | e =>
      rw [(C39_defining h1).2.1, hd] at h2
      have hr : IsRotation (-S) := ⟨by unfold IsOrth at *; simpa using h1, by rw [Matrix.det_neg, hd]; norm_num⟩
      have hf : (-S) *ᵥ ![0, 1, 0] = ![0, 1, 0] := by simpa using h2
      have hm := fix_ey hr hf
      exact ⟨Rot.arctan2 ((-S) 0 2) ((-S) 0 0), Or.inr (Or.inr ⟨rfl, by rw [← hm]; simp⟩)⟩

/-- A matrix that commutes with the transformations that keep the pole. -/
def PoleMap (p : Parity) (irx irz : Irrep) (M : Matrix (Fin (2 * irz.l + 1)) (Fin (2 * irx.l + 1)) ℝ) : Prop :=
  ∀ S, Stab p S → Wig.dMatrix irz S * M = M * Wig.dMatrix irx S

theorem neg_one_orth : IsOrth (-1 : Mat) := by unfold IsOrth; simp

theorem parity_sign (a : Parity) : (a.toInt : ℝ) = 1 ∨ (a.toInt : ℝ) = -1 := by cases a <;> simp [Parity.toInt]

theorem pow_mod_e (n : ℕ) : Parity.pow .e n = .e := rfl

theorem pow_o (n : ℕ) : ((Parity.pow .o (n % 2)).toInt : ℝ) = (-1) ^ n := by
  unfold Parity.pow Parity.ofPow
  rcases Nat.even_or_odd n with h | h
  · rw [h.neg_one_pow]; simp [Nat.even_iff.mp h, Parity.toInt]
  · rw [h.neg_one_pow]; simp [Nat.odd_iff.mp h, Parity.toInt]

theorem mul_toInt (a b : Parity) : ((a.mul b).toInt : ℝ) = a.toInt * b.toInt := by cases a <;> cases b <;> simp [Parity.mul, Parity.toInt]

theorem poleMap_of {p : Parity} {irx irz : Irrep} {M : Matrix (Fin (2 * irz.l + 1)) (Fin (2 * irx.l + 1)) ℝ} {ε : ℝ}
    (h1 : ∀ t, rotY irz.l t * M = M * rotY irx.l t) (h2 : sgM irz.l * M = ε • (M * sgM irx.l))
    (ho : p = .o → ((irz.p.toInt : ℝ) * (-1) ^ irz.l) * ε = (irx.p.toInt : ℝ) * (-1) ^ irx.l) (he : p = .e → irx.p = irz.p) : PoleMap p irx irz M := by
  intro S hS
  obtain ⟨t, e | ⟨hp, e⟩ | ⟨hp, e⟩⟩ := stab_cases hS
  · rw [e, dMatrix_Y, dMatrix_Y, h1]
  · rw [e, C39_homomorphism irz flipX_orth (matrixY_rot t).1, C39_homomorphism irx flipX_orth (matrixY_rot t).1, dMatrix_Y, dMatrix_Y, dMatrix_flip, dMatrix_flip,
      Matrix.mul_assoc, h1, ← Matrix.mul_assoc, Matrix.smul_mul, h2, smul_smul, ho hp]
    simp only [Matrix.smul_mul, Matrix.mul_smul, Matrix.mul_assoc]
  · rw [e, C39_homomorphism irz neg_one_orth (matrixY_rot t).1, C39_homomorphism irx neg_one_orth (matrixY_rot t).1, dMatrix_Y, dMatrix_Y, C39_inversion, C39_inversion, he hp]
    simp only [Matrix.smul_mul, Matrix.mul_smul, Matrix.one_mul, h1]

theorem poleMap_MS {p : Parity} {irx irz : Irrep} (h : condS p irx irz) (w : ℕ → ℝ) : PoleMap p irx irz (MS irx.l irz.l w) := by
  refine poleMap_of (ε := 1) (rotY_MS _ _ w) (by rw [sg_MS, one_smul]) ?_ ?_
  · rintro rfl
    have h' := congrArg (fun q : Parity => (q.toInt : ℝ)) h
    simp only [pow_o, mul_toInt] at h'
    rw [mul_one]
    rw [pow_add] at h'
    rcases parity_sign irx.p with a | a <;> rcases parity_sign irz.p with b | b <;> rw [a, b] at h' ⊢ <;>
      rcases neg_one_pow_eq_or ℝ irx.l with c | c <;> rcases neg_one_pow_eq_or ℝ irz.l with d | d <;> rw [c, d] at h' ⊢ <;> linarith
  · rintro rfl
    unfold condS at h
    rw [pow_mod_e] at h
    cases hx : irx.p <;> cases hz : irz.p <;> rw [hx, hz] at h <;> simp_all [Parity.mul]

theorem poleMap_MA {p : Parity} {irx irz : Irrep} (h : condA p irx irz) (w : ℕ → ℝ) : PoleMap p irx irz (MA irx.l irz.l w) := by
  refine poleMap_of (ε := -1) (rotY_MA _ _ w) (by rw [sg_MA, neg_one_smul]) ?_ ?_
  · rintro rfl
    have h' := congrArg (fun q : Parity => (q.toInt : ℝ)) h.1
    simp only [pow_o, mul_toInt] at h'
    rw [pow_add, pow_add, pow_one] at h'
    rcases parity_sign irx.p with a | a <;> rcases parity_sign irz.p with b | b <;> rw [a, b] at h' ⊢ <;>
      rcases neg_one_pow_eq_or ℝ irx.l with c | c <;> rcases neg_one_pow_eq_or ℝ irz.l with d | d <;> rw [c, d] at h' ⊢ <;> linarith
  · rintro rfl
    have h := h.1
    rw [pow_mod_e] at h
    cases hx : irx.p <;> cases hz : irz.p <;> rw [hx, hz] at h <;> simp_all [Parity.mul]

/-! ### the rows of the code -/

theorem weightS_eq (l : ℕ) (w : ℕ → ℝ) : weightS l w = List.ofFn fun k : Fin (2 * l + 1) => w (ab k l) := by
  apply List.ext_getElem
  · simp [weightS]; omega
  · intro k h1 h2
    have hk : k < 2 * l + 1 := by simpa using h2
    simp only [weightS, List.getElem_ofFn]
    by_cases h : k < l + 1
    · rw [List.getElem_append_left (by simpa using h), List.getElem_reverse]
      simp only [List.getElem_map, List.getElem_range, List.length_map, List.length_range]
      congr 1
      unfold ab; omega
    · rw [List.getElem_append_right (by simp; omega)]
      simp only [List.getElem_drop, List.getElem_map, List.getElem_range, List.length_map, List.length_range, List.length_reverse]
      congr 1
      unfold ab; omega

theorem weightA_eq (l : ℕ) (w : ℕ → ℝ) : weightA l w = List.ofFn fun k : Fin (2 * l + 1) =>
    if k.val < l then -w (ab k l - 1) else if k.val = l then 0 else w (ab k l - 1) := by
  apply List.ext_getElem
  · simp [weightA]; omega
  · intro k h1 h2
    have hk : k < 2 * l + 1 := by simpa using h2
    simp only [weightA, List.getElem_ofFn, List.append_assoc]
    by_cases h : k < l
    · rw [List.getElem_append_left (by simpa using h), if_pos h]
      simp only [List.getElem_map, List.getElem_reverse, List.getElem_range, List.length_map, List.length_range]
      congr 2
      unfold ab; omega
    · rw [List.getElem_append_right (by simp; omega), if_neg h]
      simp only [List.length_map, List.length_range, List.length_reverse]
      by_cases h' : k = l
      · subst h'; simp
      · rw [if_neg h', List.getElem_append_right (by simp; omega)]
        simp only [List.getElem_map, List.getElem_range, List.length_cons, List.length_nil]
        congr 1
        unfold ab; omega

theorem padRow_outRow (lx lz : ℕ) (flip : Bool) (c : List ℝ) (r : List Col) :
    outRow lx lz flip c r = padRow lz (min lx lz) (mulRow (if flip then (slRow lx (min lx lz) r).reverse else slRow lx (min lx lz) r) c) := rfl

theorem rowS_eq (lx lz : ℕ) (w : ℕ → ℝ) {r : List Col} (hr : r.length = 2 * lx + 1) :
    padRow lz (min lx lz) (mulRow (slRow lx (min lx lz) r) (weightS (min lx lz) w)) = matVec (matRows (MS lx lz w)) r := by
  obtain ⟨f, rfl⟩ := exists_ofFn hr
  have h := padRow_outRow lx lz false (weightS (min lx lz) w) (List.ofFn f)
  simp only [Bool.false_eq_true, if_false] at h
  rw [← h, weightS_eq, outRow_eq, matVec_ofFn]
  congr 1
  funext k
  have hk := k.isLt
  by_cases hc : lz - min lx lz ≤ k.val ∧ k.val < lz + min lx lz + 1
  · rw [dif_pos hc, Finset.sum_eq_single (⟨k.val + lx - lz, by omega⟩ : Fin (2 * lx + 1))]
    · unfold MS
      simp only [Bool.false_eq_true, if_false]
      rw [if_pos (show k.val + lx = (k.val + lx - lz) + lz by omega)]
      funext u
      simp only [Pi.smul_apply, smul_eq_mul]
      rw [mul_comm]
      congr 2
      · unfold ab; omega
      · congr 1; omega
    · intro i _ hi
      unfold MS
      rw [if_neg (fun e => hi (Fin.ext (by simp only; omega))), zero_smul]
    · simp
  · rw [dif_neg hc]
    symm
    apply Finset.sum_eq_zero
    intro i _
    have hi := i.isLt
    unfold MS
    rw [if_neg (by omega), zero_smul]

theorem rowA_eq (lx lz : ℕ) (w : ℕ → ℝ) {r : List Col} (hr : r.length = 2 * lx + 1) :
    padRow lz (min lx lz) (mulRow (slRow lx (min lx lz) r).reverse (weightA (min lx lz) w)) = matVec (matRows (MA lx lz fun n => w (n - 1))) r := by
  obtain ⟨f, rfl⟩ := exists_ofFn hr
  have h := padRow_outRow lx lz true (weightA (min lx lz) w) (List.ofFn f)
  simp only [if_true] at h
  rw [← h, weightA_eq, outRow_eq, matVec_ofFn]
  congr 1
  funext k
  have hk := k.isLt
  by_cases hc : lz - min lx lz ≤ k.val ∧ k.val < lz + min lx lz + 1
  · rw [dif_pos hc, Finset.sum_eq_single (⟨lx + lz - k.val, by omega⟩ : Fin (2 * lx + 1))]
    · unfold MA
      simp only [if_true]
      rw [if_pos (show k.val + (lx + lz - k.val) = lx + lz by omega)]
      funext u
      simp only [Pi.smul_apply, smul_eq_mul]
      rw [mul_comm]
      have e : ab (k.val - (lz - min lx lz)) (min lx lz) = ab k lz := by unfold ab; omega
      rw [e]
      congr 1
      · apply if_congr (by omega) rfl
        apply if_congr (by omega) rfl rfl
      · congr 2; omega
    · intro i _ hi
      unfold MA
      rw [if_neg (fun e => hi (Fin.ext (by simp only; omega))), zero_smul]
    · simp
  · rw [dif_neg hc]
    symm
    apply Finset.sum_eq_zero
    intro i _
    have hi := i.isLt
    unfold MA
    rw [if_neg (by omega), zero_smul]

/-! ### `shtp` -/

/-- An entry of a list of rows. -/
def ent (z : List (List Col)) (i j : ℕ) : Col := (z.getD i []).getD j 0

/-- `N` rows of length `W`. -/
def Shape (N W : ℕ) (z : List (List Col)) : Prop := z.length = N ∧ ∀ r ∈ z, r.length = W

theorem ext_ent {N W : ℕ} {z z' : List (List Col)} (h : Shape N W z) (h' : Shape N W z') (e : ∀ i < N, ∀ j < W, ent z i j = ent z' i j) : z = z' := by
  apply List.ext_getElem (by rw [h.1, h'.1])
  intro i h1 h2
  apply List.ext_getElem (by rw [h.2 _ (List.getElem_mem h1), h'.2 _ (List.getElem_mem h2)])
  intro j j1 j2
  have := e i (by rw [← h.1]; exact h1) j (by rw [← h.2 _ (List.getElem_mem h1)]; exact j1)
  unfold ent at this
  rw [List.getD_eq_getElem z [] h1, List.getD_eq_getElem z' [] h2, List.getD_eq_getElem _ 0 j1, List.getD_eq_getElem _ 0 j2] at this
  exact this

/-- One assignment. -/
def set1 (z : List (List Col)) (t : ℕ × ℕ × Col) : List (List Col) := z.set t.1 ((z.getD t.1 []).set t.2.1 t.2.2)

theorem set1_shape {N W : ℕ} {z : List (List Col)} (h : Shape N W z) (t : ℕ × ℕ × Col) (ht : t.1 < N) : Shape N W (set1 z t) := by
  unfold set1
  refine ⟨by rw [List.length_set, h.1], ?_⟩
  intro r hr
  rcases List.mem_or_eq_of_mem_set hr with hr | hr
  · exact h.2 r hr
  · rw [hr, List.length_set, List.getD_eq_getElem z [] (by rw [h.1]; exact ht)]
    exact h.2 _ (List.getElem_mem _)

theorem set1_ent {N W : ℕ} {z : List (List Col)} (h : Shape N W z) (t : ℕ × ℕ × Col) (ht : t.1 < N) (ht' : t.2.1 < W) (i j : ℕ) :
    ent (set1 z t) i j = if t.1 = i ∧ t.2.1 = j then t.2.2 else ent z i j := by
  have hl : (z.getD t.1 []).length = W := by
    rw [List.getD_eq_getElem z [] (by rw [h.1]; exact ht)]
    exact h.2 _ (List.getElem_mem _)
  unfold ent set1
  simp only [List.getD_eq_getElem?_getD, List.getElem?_set]
  by_cases h1 : t.1 = i
  · subst h1
    rw [if_pos rfl, if_pos (by rw [h.1]; exact ht)]
    simp only [Option.getD_some, List.getElem?_set]
    by_cases h2 : t.2.1 = j
    · subst h2
      rw [if_pos rfl, if_pos (by rw [← List.getD_eq_getElem?_getD, hl]; exact ht'), if_pos (by simp)]
      rfl
    · rw [if_neg h2, if_neg (fun e => h2 e.2)]
  · rw [if_neg h1, if_neg (fun e => h1 e.1)]

theorem fold_set {N W : ℕ} (n : ℕ) (g h : ℕ → ℕ) (v : ℕ → Col) (hg : ∀ a < n, g a < N) (hh : ∀ a < n, h a < W) (hinj : ∀ a < n, ∀ b < n, g a = g b → a = b)
    {z : List (List Col)} (hz : Shape N W z) :
    Shape N W (((List.range n).map fun a => (g a, h a, v a)).foldl set1 z) ∧
    (∀ a < n, ent (((List.range n).map fun a => (g a, h a, v a)).foldl set1 z) (g a) (h a) = v a) ∧
    (∀ i j, (∀ a < n, ¬ (g a = i ∧ h a = j)) → ent (((List.range n).map fun a => (g a, h a, v a)).foldl set1 z) i j = ent z i j) := by
  induction n with
  | zero => exact ⟨hz, by simp, by simp⟩
  | succ n ih =>
    obtain ⟨i1, i2, i3⟩ := ih (fun a ha => hg a (by omega)) (fun a ha => hh a (by omega)) (fun a ha b hb => hinj a (by omega) b (by omega))
    rw [List.range_succ, List.map_append, List.foldl_append]
    simp only [List.map_cons, List.map_nil, List.foldl_cons, List.foldl_nil]
    have hn := hg n (by omega)
    have hn' := hh n (by omega)
    refine ⟨set1_shape i1 _ hn, ?_, ?_⟩
    · intro a ha
      rw [set1_ent i1 _ hn hn']
      by_cases e : a = n
      · subst e; simp
      · rw [if_neg, i2 a (by omega)]
        rintro ⟨e1, -⟩
        exact e (hinj a ha n (by omega) e1.symm)
    · intro i j hij
      rw [set1_ent i1 _ hn hn', if_neg (hij n (by omega)), i3 i j fun a ha => hij a (by omega)]

theorem zip_range {n : ℕ} {is js : List ℕ} {vs : List Col} (g h : ℕ → ℕ) (v : ℕ → Col) (h1 : is = (List.range n).map g) (h2 : js = (List.range n).map h)
    (h3 : vs = (List.range n).map v) : List.zip is (List.zip js vs) = (List.range n).map fun a => (g a, h a, v a) := by
  rw [h1, h2, h3, List.zip_map', List.zip_map']

theorem range'_map (s n : ℕ) : List.range' s n = (List.range n).map fun a => s + a := by
  rw [List.range'_eq_map_range]

theorem range'_rev (s n : ℕ) : (List.range' s n).reverse = (List.range n).map fun a => s + n - 1 - a := by
  apply List.ext_getElem (by simp)
  intro k h1 h2
  simp at h1
  simp only [List.getElem_reverse, List.getElem_range', List.length_range', List.getElem_map, List.getElem_range, Nat.one_mul]
  omega

theorem list_range {n : ℕ} {x : List Col} (h : x.length = n) : x = (List.range n).map fun a => x.getD a 0 := by
  apply List.ext_getElem (by simp [h])
  intro k h1 h2
  simp only [List.getElem_map, List.getElem_range]
  rw [List.getD_eq_getElem _ 0 h1]

theorem zeros_shape (N W : ℕ) : Shape N W (List.replicate N (List.replicate W (0 : Col))) := by
  refine ⟨by simp, fun r hr => ?_⟩
  rw [List.eq_of_mem_replicate hr]; simp

theorem zeros_ent (N W i j : ℕ) : ent (List.replicate N (List.replicate W (0 : Col))) i j = 0 := by
  unfold ent
  simp only [List.getD_eq_getElem?_getD, List.getElem?_replicate]
  split
  · simp only [Option.getD_some, List.getElem?_replicate]; split <;> rfl
  · rfl

theorem shtpS_ent {lz l : ℕ} (hl : l ≤ lz) {x : List Col} (hx : x.length = 2 * l + 1) :
    Shape (l + 1) (2 * lz + 1) (shtpS lz l x) ∧ ∀ k ≤ l, ∀ j, ent (shtpS lz l x) k j = if ab j lz = k then x.getD (j + l - lz) 0 else 0 := by
  have f1 := fold_set (N := l + 1) (W := 2 * lz + 1) (l + 1) id (fun a => lz + a) (fun a => x.getD (l + a) 0) (fun a ha => ha) (fun a ha => by omega) (fun a _ b _ e => e)
    (zeros_shape (l + 1) (2 * lz + 1))
  have e1 : atSet (List.replicate (l + 1) (List.replicate (2 * lz + 1) (0 : Col))) (List.range (l + 1)) (List.range' lz (l + 1)) (x.drop l) =
      ((List.range (l + 1)).map fun a => (id a, lz + a, x.getD (l + a) 0)).foldl set1 (List.replicate (l + 1) (List.replicate (2 * lz + 1) (0 : Col))) := by
    unfold atSet
    rw [zip_range (n := l + 1) id (fun a => lz + a) (fun a => x.getD (l + a) 0) (by simp) (range'_map _ _)]
    · rfl
    · rw [list_range (n := l + 1) (x := x.drop l) (by simp; omega)]
      apply List.map_congr_left
      intro a _
      simp [List.getD_eq_getElem?_getD, List.getElem?_drop]
  rw [← e1] at f1
  obtain ⟨a1, a2, a3⟩ := f1
  have f2 := fold_set (N := l + 1) (W := 2 * lz + 1) l (fun a => 1 + l - 1 - a) (fun a => lz - l + a) (fun a => x.getD a 0) (fun a ha => by omega) (fun a ha => by omega)
    (fun a ha b hb e => by omega) a1
  have e2 : shtpS lz l x = ((List.range l).map fun a => (1 + l - 1 - a, lz - l + a, x.getD a 0)).foldl set1
      (atSet (List.replicate (l + 1) (List.replicate (2 * lz + 1) (0 : Col))) (List.range (l + 1)) (List.range' lz (l + 1)) (x.drop l)) := by
    unfold shtpS
    simp only
    conv_lhs => unfold atSet
    rw [zip_range (n := l) (fun a => 1 + l - 1 - a) (fun a => lz - l + a) (fun a => x.getD a 0) (range'_rev _ _) (range'_map _ _)]
    · rfl
    · rw [list_range (n := l) (x := x.take l) (by simp; omega)]
      apply List.map_congr_left
      intro a ha
      have : a < l := by simpa using ha
      simp [List.getD_eq_getElem?_getD, List.getElem?_take, this]
  rw [← e2] at f2
  obtain ⟨b1, b2, b3⟩ := f2
  refine ⟨b1, ?_⟩
  intro k hk j
  by_cases h1 : j < lz ∧ ab j lz = k
  · have := b2 (l - k) (by unfold ab at h1; omega)
    rw [show 1 + l - 1 - (l - k) = k by omega, show lz - l + (l - k) = j by unfold ab at h1; omega] at this
    rw [this, if_pos h1.2]
    congr 1
    unfold ab at h1; omega
  · rw [b3 k j (fun a ha e => h1 (by unfold ab; omega))]
    by_cases h2 : ab j lz = k
    · have := a2 k (by omega)
      simp only [id] at this
      rw [show lz + k = j by unfold ab at h1 h2; omega] at this
      rw [this, if_pos h2]
      congr 1
      unfold ab at h1 h2; omega
    · rw [a3 k j (fun a ha e => h2 (by simp only [id] at e; unfold ab; omega)), zeros_ent, if_neg h2]

theorem shtpA_ent {lz l : ℕ} (hl : l ≤ lz) {x : List Col} (hx : x.length = 2 * l + 1) :
    Shape l (2 * lz + 1) (shtpA lz l x) ∧ ∀ k < l, ∀ j, ent (shtpA lz l x) k j =
      if ab j lz = k + 1 then (if j < lz then x.getD (l + lz - j) 0 else -x.getD (l + lz - j) 0) else 0 := by
  have f1 := fold_set (N := l) (W := 2 * lz + 1) l id (fun a => lz - l + l - 1 - a) (fun a => x.getD (l + 1 + a) 0) (fun a ha => ha) (fun a ha => by omega) (fun a _ b _ e => e)
    (zeros_shape l (2 * lz + 1))
  have e1 : atSet (List.replicate l (List.replicate (2 * lz + 1) (0 : Col))) (List.range l) (List.range' (lz - l) l).reverse (x.drop (l + 1)) =
      ((List.range l).map fun a => (id a, lz - l + l - 1 - a, x.getD (l + 1 + a) 0)).foldl set1 (List.replicate l (List.replicate (2 * lz + 1) (0 : Col))) := by
    unfold atSet
    rw [zip_range (n := l) id (fun a => lz - l + l - 1 - a) (fun a => x.getD (l + 1 + a) 0) (by simp) (range'_rev _ _)]
    · rfl
    · rw [list_range (n := l) (x := x.drop (l + 1)) (by simp; omega)]
      apply List.map_congr_left
      intro a _
      simp [List.getD_eq_getElem?_getD, List.getElem?_drop]
  rw [← e1] at f1
  obtain ⟨a1, a2, a3⟩ := f1
  have f2 := fold_set (N := l) (W := 2 * lz + 1) l id (fun a => lz + 1 + a) (fun a => -x.getD (l - 1 - a) 0) (fun a ha => ha) (fun a ha => by omega)
    (fun a ha b hb e => e) a1
  have e2 : shtpA lz l x = ((List.range l).map fun a => (id a, lz + 1 + a, -x.getD (l - 1 - a) 0)).foldl set1
      (atSet (List.replicate l (List.replicate (2 * lz + 1) (0 : Col))) (List.range l) (List.range' (lz - l) l).reverse (x.drop (l + 1))) := by
    unfold shtpA
    simp only
    conv_lhs => unfold atSet
    rw [zip_range (n := l) id (fun a => lz + 1 + a) (fun a => -x.getD (l - 1 - a) 0) (by simp) (range'_map _ _)]
    · rfl
    · apply List.ext_getElem (by simp; omega)
      intro a ha1 ha2
      have ha : a < l := by simpa using ha2
      simp only [List.getElem_map, List.getElem_reverse, List.getElem_take, List.getElem_range]
      rw [List.getD_eq_getElem _ 0 (by omega)]
      congr 2
      simp; omega
  rw [← e2] at f2
  obtain ⟨b1, b2, b3⟩ := f2
  refine ⟨b1, ?_⟩
  intro k hk j
  by_cases h1 : lz < j ∧ ab j lz = k + 1
  · have := b2 k (by unfold ab at h1; omega)
    simp only [id] at this
    rw [show lz + 1 + k = j by unfold ab at h1; omega] at this
    rw [this, if_pos h1.2, if_neg (by omega)]
    congr 2
    unfold ab at h1; omega
  · rw [b3 k j (fun a ha e => h1 (by simp only [id] at e; unfold ab; omega))]
    by_cases h2 : ab j lz = k + 1
    · have := a2 k (by omega)
      simp only [id] at this
      rw [show lz - l + l - 1 - k = j by unfold ab at h1 h2; omega] at this
      rw [this, if_pos h2, if_pos (by unfold ab at h1 h2; omega)]
      congr 1
      unfold ab at h1 h2; omega
    · rw [a3 k j (fun a ha e => h2 (by simp only [id] at e; unfold ab; omega)), zeros_ent, if_neg h2]

theorem slRow_getD {lx l : ℕ} (hl : l ≤ lx) {r : List Col} (hr : r.length = 2 * lx + 1) : (slRow lx l r).length = 2 * l + 1 ∧
    ∀ a < 2 * l + 1, (slRow lx l r).getD a 0 = r.getD (lx - l + a) 0 := by
  unfold slRow
  refine ⟨by simp; omega, ?_⟩
  intro a ha
  simp [List.getD_eq_getElem?_getD, List.getElem?_take, List.getElem?_drop, ha]

theorem mapMat_shape {m n N : ℕ} (M : ℕ → Matrix (Fin m) (Fin n) ℝ) (r : List Col) : Shape N m ((List.range N).map fun k => matVec (matRows (M k)) r) := by
  refine ⟨by simp, fun r' hr' => ?_⟩
  obtain ⟨k, -, rfl⟩ := List.mem_map.mp hr'
  rw [matVec_length]; simp [matRows]

theorem mapMat_ent {m n N : ℕ} (M : ℕ → Matrix (Fin m) (Fin n) ℝ) {r : List Col} (hr : r.length = n) {k : ℕ} (hk : k < N) (j : Fin m) :
    ent ((List.range N).map fun k => matVec (matRows (M k)) r) k j = ∑ i, M k j i • r.getD i 0 := by
  unfold ent
  obtain ⟨f, rfl⟩ := exists_ofFn hr
  rw [List.getD_eq_getElem _ [] (by simpa using hk)]
  simp only [List.getElem_map, List.getElem_range]
  rw [matVec_ofFn, getD_ofFn]
  apply Finset.sum_congr rfl
  intro i _
  rw [getD_ofFn]

theorem shtpS_eq (lx lz : ℕ) {r : List Col} (hr : r.length = 2 * lx + 1) :
    shtpS lz (min lx lz) (slRow lx (min lx lz) r) =
      (List.range (min lx lz + 1)).map fun k => matVec (matRows (MS lx lz fun n => if n = k then 1 else 0)) r := by
  obtain ⟨s1, s2⟩ := slRow_getD (l := min lx lz) (by omega) hr
  obtain ⟨h1, h2⟩ := shtpS_ent (lz := lz) (l := min lx lz) (by omega) s1
  apply ext_ent h1 (mapMat_shape _ _)
  intro k hk j hj
  rw [h2 k (by omega)]
  rw [show j = (⟨j, hj⟩ : Fin (2 * lz + 1)).val from rfl, mapMat_ent (fun k => MS lx lz fun n => if n = k then 1 else 0) hr hk ⟨j, hj⟩]
  simp only
  by_cases hc : ab j lz = k
  · rw [if_pos hc, s2 _ (by unfold ab at hc; omega), Finset.sum_eq_single (⟨j + lx - lz, by unfold ab at hc; omega⟩ : Fin (2 * lx + 1))]
    · unfold MS
      rw [if_pos (show j + lx = (j + lx - lz) + lz by unfold ab at hc; omega)]
      simp only
      rw [if_pos hc, one_smul]
      congr 1
      unfold ab at hc; omega
    · intro i _ hi
      unfold MS
      rw [if_neg (fun e => hi (Fin.ext (by simp only at e ⊢; omega))), zero_smul]
    · simp
  · rw [if_neg hc]
    symm
    apply Finset.sum_eq_zero
    intro i _
    unfold MS
    simp only [if_neg hc, ite_self, zero_smul]

theorem shtpA_eq (lx lz : ℕ) {r : List Col} (hr : r.length = 2 * lx + 1) :
    shtpA lz (min lx lz) (slRow lx (min lx lz) r) =
      (List.range (min lx lz)).map fun k => matVec (matRows (MA lx lz fun n => if n = k + 1 then -1 else 0)) r := by
  obtain ⟨s1, s2⟩ := slRow_getD (l := min lx lz) (by omega) hr
  obtain ⟨h1, h2⟩ := shtpA_ent (lz := lz) (l := min lx lz) (by omega) s1
  apply ext_ent h1 (mapMat_shape _ _)
  intro k hk j hj
  rw [h2 k (by omega)]
  rw [show j = (⟨j, hj⟩ : Fin (2 * lz + 1)).val from rfl, mapMat_ent (fun k => MA lx lz fun n => if n = k + 1 then -1 else 0) hr hk ⟨j, hj⟩]
  simp only
  by_cases hc : ab j lz = k + 1
  · have hj2 : j ≠ lz := by rintro rfl; unfold ab at hc; omega
    rw [if_pos hc, s2 _ (by unfold ab at hc; omega), Finset.sum_eq_single (⟨lx + lz - j, by unfold ab at hc; omega⟩ : Fin (2 * lx + 1))]
    · unfold MA
      rw [if_pos (show j + (lx + lz - j) = lx + lz by unfold ab at hc; omega)]
      simp only
      rw [if_pos hc, if_neg hj2, neg_neg, show lx - min lx lz + (min lx lz + lz - j) = lx + lz - j by unfold ab at hc; omega]
      by_cases hlt : j < lz
      · rw [if_pos hlt, if_pos hlt, one_smul]
      · rw [if_neg hlt, if_neg hlt, neg_one_smul]
    · intro i _ hi
      unfold MA
      rw [if_neg (fun e => hi (Fin.ext (by simp only at e ⊢; omega))), zero_smul]
    · simp
  · rw [if_neg hc]
    symm
    apply Finset.sum_eq_zero
    intro i _
    unfold MA
    simp only [if_neg hc, neg_zero, ite_self, zero_smul]

end E3nn.LSH
