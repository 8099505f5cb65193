import Verif.Model.TPSH
import Verif.Lemmas.CGSelect
import Verif.Props.C69
import Verif.Props.C46
import Verif.Props.C48
import Mathlib.Tactic.FinCases
import Mathlib.Tactic.Linarith

/-! # Lemmas on `tensor_product_with_spherical_harmonics` -/

namespace E3nn.TPSH

open E3nn.IArr E3nn.Rot E3nn.Wig E3nn.SH E3nn.SU2 E3nn.TP

theorem mid_val (l : ℕ) : l < 2 * l + 1 := by omega

/-- With the middle component, only components of opposite or equal order are coupled. -/
theorem cg_mid_abs {lx ly lz : ℕ} {a : Fin (2 * lx + 1)} {c : Fin (2 * lz + 1)}
    (h : clebschGordan lx ly lz a ⟨ly, mid_val ly⟩ c ≠ 0) : ord c = ord a ∨ ord c = -ord a := by
  have := cg_order h
  have e : ord (⟨ly, mid_val ly⟩ : Fin (2 * ly + 1)) = 0 := by simp [ord]
  rw [e] at this
  omega

theorem cg_mid_sign {lx ly lz : ℕ} {a : Fin (2 * lx + 1)} {c : Fin (2 * lz + 1)}
    (h : clebschGordan lx ly lz a ⟨ly, mid_val ly⟩ c ≠ 0) : sgn a * sgn c = (-1) ^ (lx + ly + lz) := by
  have := cg_sign h
  have e : sgn (⟨ly, mid_val ly⟩ : Fin (2 * ly + 1)) = 1 := by simp [sgn]
  rw [e] at this
  linarith

/-- The matrix is diagonal, or it is after reversing the rows. -/
theorem subCg_cases (lx ly lz : ℕ) :
    (∀ i k, i ≠ k → subCg lx ly lz i k = 0) ∨ (∀ i k, i ≠ k → subCg lx ly lz i.rev k = 0) := by
  have key : ∀ i k, subCg lx ly lz i k ≠ 0 →
      ((k.val = i.val) ∨ (k.val + i.val = 2 * min lx lz)) ∧
      ((if i.val < min lx lz then (-1 : ℤ) else 1) * (if k.val < min lx lz then -1 else 1) = (-1) ^ (lx + ly + lz)) := by
    intro i k h
    have h' : clebschGordan lx ly lz ⟨lx - min lx lz + i.val, by omega⟩ ⟨ly, by omega⟩ ⟨lz - min lx lz + k.val, by omega⟩ ≠ 0 := by
      intro e; apply h; unfold subCg; rw [e, mul_zero]
    have h1 := cg_mid_abs h'
    have h2 := cg_mid_sign h'
    refine ⟨?_, ?_⟩
    · simp only [ord] at h1
      omega
    · rw [← h2]
      simp only [sgn]
      congr 1
      · apply if_congr _ rfl rfl; omega
      · apply if_congr _ rfl rfl; omega
  rcases Nat.even_or_odd (lx + ly + lz) with e | e
  · left
    intro i k hik
    by_contra h
    obtain ⟨h1, h2⟩ := key i k h
    rw [e.neg_one_pow] at h2
    rcases h1 with h1 | h1
    · exact hik (Fin.ext h1.symm)
    · have : i.val ≠ k.val := fun e => hik (Fin.ext e)
      split_ifs at h2 <;> first | omega | simp at h2
  · right
    intro i k hik
    by_contra h
    obtain ⟨h1, h2⟩ := key i.rev k h
    rw [e.neg_one_pow] at h2
    have hr : i.rev.val = 2 * min lx lz - i.val := by rw [Fin.val_rev]; omega
    have hi := i.isLt
    rw [hr] at h1 h2
    have hne : i.val ≠ k.val := fun e => hik (Fin.ext e)
    rcases h1 with h1 | h1
    · split_ifs at h2 <;> first | omega | simp at h2
    · omega

theorem isDiag_iff {n : ℕ} (M : Matrix (Fin n) (Fin n) ℝ) : IsDiag M ↔ ∀ i k, i ≠ k → M i k = 0 := by
  constructor
  · intro h i k hik
    rw [← h, Matrix.diagonal_apply_ne _ hik]
  · intro h
    ext i k
    by_cases e : i = k
    · subst e; simp
    · rw [Matrix.diagonal_apply_ne _ e, h i k e]

/-- The row of the code, entry by entry. -/
theorem outRow_eq (lx lz : ℕ) (flip : Bool) (c : Fin (2 * min lx lz + 1) → ℝ) (f : Fin (2 * lx + 1) → Col) :
    outRow lx lz flip (List.ofFn c) (List.ofFn f) = List.ofFn fun k : Fin (2 * lz + 1) =>
      if h : lz - min lx lz ≤ k.val ∧ k.val < lz + min lx lz + 1 then
        fun u => f ⟨if flip then lx + min lx lz - (k.val - (lz - min lx lz)) else lx - min lx lz + (k.val - (lz - min lx lz)), by split <;> omega⟩ u *
          c ⟨k.val - (lz - min lx lz), by omega⟩
      else 0 := by
  have hlen : (slRow lx (min lx lz) (List.ofFn f)).length = 2 * min lx lz + 1 := by
    simp [slRow]; omega
  have hget : ∀ j (hj : j < 2 * min lx lz + 1), (slRow lx (min lx lz) (List.ofFn f))[j]'(by rw [hlen]; exact hj) = f ⟨lx - min lx lz + j, by omega⟩ := by
    intro j hj
    simp only [slRow, List.getElem_take, List.getElem_drop, List.getElem_ofFn]
  have hz : List.zipWith (fun (a : Col) (b : ℝ) => (fun u => a u * b : Col))
      (if flip then (slRow lx (min lx lz) (List.ofFn f)).reverse else slRow lx (min lx lz) (List.ofFn f)) (List.ofFn c) =
      List.ofFn fun j : Fin (2 * min lx lz + 1) => (fun u => f ⟨if flip then lx + min lx lz - j.val else lx - min lx lz + j.val, by split <;> omega⟩ u * c j : Col) := by
    apply List.ext_getElem
    · cases flip <;> simp [hlen, -List.ofFn_succ]
    · intro j h1 h2
      have hj : j < 2 * min lx lz + 1 := by simpa using h2
      cases flip
      · simp only [List.getElem_zipWith, List.getElem_ofFn, hget j hj, Bool.false_eq_true, if_false]
      · simp only [List.getElem_zipWith, List.getElem_ofFn, if_true, List.getElem_reverse, hlen]
        rw [hget _ (by omega)]
        funext u
        congr 2
        congr 1
        congr 1
        omega
  unfold outRow
  simp only
  rw [hz]
  split
  · rename_i hl
    apply List.ext_getElem
    · simp; omega
    · intro k h1 h2
      have hk : k < 2 * lz + 1 := by simpa using h2
      simp only [List.getElem_ofFn, List.getElem_append, List.length_append, List.length_replicate, List.length_ofFn, List.getElem_replicate]
      split
      · split
        · rw [dif_neg (by omega)]
        · rw [dif_pos (by omega)]
      · rw [dif_neg (by omega)]
  · rename_i hl
    have hm : min lx lz = lz := by omega
    apply List.ext_getElem
    · simp; omega
    · intro k h1 h2
      have hk : k < 2 * lz + 1 := by simpa using h2
      simp only [List.getElem_ofFn]
      rw [dif_pos (by omega)]
      funext u
      congr 2
      · congr 1
        congr 1
        · congr 1; omega
        · congr 1; omega
      · congr 1; omega

/-- The row of the spherical harmonics at the pole. -/
noncomputable def poleRow (ly : ℕ) (y : ℝ) : List Col := List.ofFn fun k : Fin (2 * ly + 1) => fun _ => if k.val = ly then y else 0

theorem contract_mid (irx iry irz : Irrep) (y : ℝ) (flip : Bool) (f : Fin (2 * irx.l + 1) → Col)
    (h : ∀ i k, i ≠ k → subCg irx.l iry.l irz.l (if flip then i.rev else i) k = 0) :
    contract irz.dim (normC (realCtx Col) .component irx iry irz) (List.ofFn f) (poleRow iry.l y) =
      outRow irx.l irz.l flip (List.ofFn fun i => y * subCg irx.l iry.l irz.l (if flip then i.rev else i) i) (List.ofFn f) := by
  obtain ⟨lx, px⟩ := irx
  obtain ⟨ly, py⟩ := iry
  obtain ⟨lz, pz⟩ := irz
  rw [outRow_eq]
  unfold normC
  simp only
  rw [contract_scale]
  show ((contract (2 * lz + 1) ((realCtx Col).cg lx ly lz) (List.ofFn f) (poleRow ly y)).map _) = _
  rw [contract_formula (realCtx_shape Col lx ly lz) _ _ _ (by simp) (by simp [poleRow])]
  unfold poleRow
  show bilinear (algebraMap ℝ Col (Real.sqrt ((Irrep.dim ⟨lz, pz⟩ : ℕ) : ℚ))) _ _ _ _ _ _ = _
  rw [bilinear_coefK]
  congr 1
  funext k
  have hd : (((Irrep.dim ⟨lz, pz⟩ : ℕ) : ℚ) : ℝ) = 2 * lz + 1 := by simp [Irrep.dim]
  rw [hd]
  have hs : ∀ a : Fin (2 * lx + 1), (∑ b : Fin (2 * ly + 1), (Real.sqrt (2 * lz + 1) * clebschGordan lx ly lz a b k) •
      (f a * (fun _ => if b.val = ly then y else 0 : Col))) =
      (Real.sqrt (2 * lz + 1) * clebschGordan lx ly lz a ⟨ly, mid_val ly⟩ k) • (f a * (fun _ => y : Col)) := by
    intro a
    rw [Finset.sum_eq_single ⟨ly, mid_val ly⟩]
    · simp
    · intro b _ hb
      have : b.val ≠ ly := fun e => hb (Fin.ext e)
      rw [if_neg this]
      funext u; simp
    · simp
  rw [Finset.sum_congr rfl fun a _ => hs a]
  split
  · rename_i hk
    set j : Fin (2 * min lx lz + 1) := ⟨k.val - (lz - min lx lz), by omega⟩ with hj
    set i : Fin (2 * min lx lz + 1) := if flip then j.rev else j with hi
    have hiv : i.val = if flip then 2 * min lx lz - (k.val - (lz - min lx lz)) else k.val - (lz - min lx lz) := by
      rw [hi]; split
      · rw [Fin.val_rev, hj]; simp only; omega
      · rfl
    rw [Finset.sum_eq_single ⟨lx - min lx lz + i.val, by omega⟩]
    · funext u
      simp only [Pi.smul_apply, Pi.mul_apply, smul_eq_mul]
      have e1 : (⟨lx - min lx lz + i.val, by omega⟩ : Fin (2 * lx + 1)) =
          ⟨if flip then lx + min lx lz - (k.val - (lz - min lx lz)) else lx - min lx lz + (k.val - (lz - min lx lz)), by split <;> omega⟩ := by
        apply Fin.ext
        simp only [hiv]
        split <;> omega
      have e2 : subCg lx ly lz i j = Real.sqrt (2 * lz + 1) * clebschGordan lx ly lz ⟨lx - min lx lz + i.val, by omega⟩ ⟨ly, mid_val ly⟩ k := by
        unfold subCg
        congr 2
        apply Fin.ext
        simp only [hj]
        omega
      rw [e2, ← e1]
      ring
    · intro a _ ha
      by_cases hc : clebschGordan lx ly lz a ⟨ly, mid_val ly⟩ k = 0
      · rw [hc, mul_zero, zero_smul]
      · exfalso
        have ho := cg_mid_abs hc
        simp only [ord] at ho
        have hra : lx - min lx lz ≤ a.val ∧ a.val < lx + min lx lz + 1 := by omega
        set a' : Fin (2 * min lx lz + 1) := ⟨a.val - (lx - min lx lz), by omega⟩ with ha'
        have hne : (if flip then a'.rev else a') ≠ j := by
          intro e
          apply ha
          apply Fin.ext
          simp only [hiv]
          have := congrArg Fin.val e
          split at this
          · rename_i hf
            rw [if_pos hf]
            rw [Fin.val_rev, ha', hj] at this
            simp only at this
            omega
          · rename_i hf
            rw [if_neg hf]
            rw [ha', hj] at this
            simp only at this
            omega
        have h0 := h _ _ hne
        have e3 : (if flip then (if flip then a'.rev else a').rev else (if flip then a'.rev else a')) = a' := by
          cases flip <;> simp
        rw [e3] at h0
        apply hc
        unfold subCg at h0
        have hp : Real.sqrt (2 * lz + 1) ≠ 0 := by positivity
        have h1 := (mul_eq_zero.mp h0).resolve_left hp
        rw [← h1]
        congr 1
        · apply Fin.ext; simp only [ha']; omega
        · apply Fin.ext; simp only [hj]; omega
    · simp
  · rename_i hk
    apply Finset.sum_eq_zero
    intro a _
    by_cases hc : clebschGordan lx ly lz a ⟨ly, mid_val ly⟩ k = 0
    · rw [hc, mul_zero, zero_smul]
    · exfalso
      have ho := cg_mid_abs hc
      simp only [ord] at ho
      omega

/-- One chunk: what the code computes is the chunk of the tensor product. -/
theorem outChunk_eq (y : ℝ) (irx iry irz : Irrep) (rows : List (List Col)) (h : ∀ r ∈ rows, r.length = irx.dim) :
    outChunk y irx iry irz (some rows) =
      .ok (some (rowsOf irz.dim (normC (realCtx Col) .component irx iry irz) (outer rows [poleRow iry.l y]))) := by
  have ho : outer rows [poleRow iry.l y] = rows.map fun r => (r, poleRow iry.l y) := by
    simp [outer, List.flatMap_singleton']
    induction rows with
    | nil => rfl
    | cons r rows ih => simp [List.flatMap_cons, ih fun q hq => h q (List.mem_cons_of_mem _ hq)]
  rw [ho]
  unfold rowsOf outChunk
  rw [List.map_map]
  simp only
  split
  · rename_i hd
    rw [isDiag_iff] at hd
    congr 2
    apply List.map_congr_left
    intro r hr
    obtain ⟨f, rfl⟩ := exists_ofFn (h r hr)
    exact (contract_mid irx iry irz y false f (fun i k hik => hd i k hik)).symm
  · rename_i hd
    have hd' : ∀ i k, i ≠ k → subCg irx.l iry.l irz.l i.rev k = 0 := by
      rcases subCg_cases irx.l iry.l irz.l with h1 | h1
      · exact absurd ((isDiag_iff _).mpr h1) hd
      · exact h1
    rw [if_pos ((isDiag_iff _).mpr hd')]
    congr 2
    apply List.map_congr_left
    intro r hr
    obtain ⟨f, rfl⟩ := exists_ofFn (h r hr)
    exact (contract_mid irx iry irz y true f (fun i k hik => hd' i k hik)).symm

theorem entries_eq {P1 P2 : List (MulIrrep × Chunk Col)} (c : Irrep → ℝ) (s1 : Shaped P1) (h1 : ∀ p ∈ P1, p.2 ≠ none)
    (h2 : ∀ q ∈ P2, q.1.mul = 1 ∧ q.2 = some [poleRow q.1.ir.l (c q.1.ir)]) :
    entries P1 P2 = .ok (tpEntries (realCtx Col) .component none P1 P2) := by
  unfold entries
  have hin : ∀ p ∈ P1, (do
      let ks ← P2.mapM fun q => do
        let y ← center q.1.ir.l q.2
        (p.1.ir.mul q.1.ir).mapM fun irz => do
          let c ← outChunk y p.1.ir q.1.ir irz p.2
          return ((⟨p.1.mul, irz⟩, c) : MulIrrep × Chunk Col)
      return ks.flatten : Except PyErr (List (MulIrrep × Chunk Col))) =
      .ok (P2.flatMap fun q => (p.1.ir.mul q.1.ir).map fun irz =>
        pathVal (normC (realCtx Col) .component p.1.ir q.1.ir irz) outer (p.1.mul * q.1.mul) p q irz) := by
    intro p hp
    obtain ⟨rows, hrows⟩ : ∃ rows, p.2 = some rows := Option.ne_none_iff_exists'.mp (h1 p hp)
    have hs := s1 p hp
    rw [hrows, shapeOk_some] at hs
    have hq : ∀ q ∈ P2, (do
        let y ← center q.1.ir.l q.2
        (p.1.ir.mul q.1.ir).mapM fun irz => do
          let c ← outChunk y p.1.ir q.1.ir irz p.2
          return ((⟨p.1.mul, irz⟩, c) : MulIrrep × Chunk Col) : Except PyErr (List (MulIrrep × Chunk Col))) =
        .ok ((p.1.ir.mul q.1.ir).map fun irz =>
          pathVal (normC (realCtx Col) .component p.1.ir q.1.ir irz) outer (p.1.mul * q.1.mul) p q irz) := by
      intro q hq
      obtain ⟨q1, q2⟩ := h2 q hq
      have hc : center q.1.ir.l q.2 = .ok (c q.1.ir) := by
        rw [q2]
        unfold center
        have hg : ∀ k, (poleRow q.1.ir.l (c q.1.ir)).getD k 0 () = if k = q.1.ir.l then c q.1.ir else 0 := by
          intro k
          unfold poleRow
          by_cases hk : k < 2 * q.1.ir.l + 1
          · rw [getD_ofFn _ _ ⟨k, hk⟩]
          · rw [List.getD_eq_default _ _ (by simpa using hk), if_neg (by omega)]; rfl
        refine (if_pos (fun k hk => by rw [hg, if_neg hk])).trans ?_
        rw [hg, if_pos rfl]
      rw [hc]
      simp only [bind, Except.bind]
      apply FLin.mapM_ok
      intro irz _
      rw [hrows, outChunk_eq _ _ _ _ _ hs.2]
      simp only [pathVal, hrows, q2, q1, Nat.mul_one]
      rfl
    rw [FLin.mapM_ok _ hq]
    rfl
  rw [FLin.mapM_ok _ hin]
  simp only [bind, Except.bind, pure, Except.pure, tpEntries, triples, List.map_flatMap, List.map_map, ← List.flatMap_def]
  congr 1
  apply List.flatMap_congr
  intro p _
  apply List.flatMap_congr
  intro q _
  have : irsOut none p.1.ir q.1.ir = p.1.ir.mul q.1.ir := by unfold irsOut; simp
  rw [this]
  rfl

theorem comp_single {α : Type} [Zero α] (ms : Irreps) (row : MulIrrep → List α) (hm : ∀ m ∈ ms, m.mul = 1 ∧ (row m).length = m.ir.dim) :
    IArr.comp ms (ms.flatMap row) (ms.map fun _ => false) = ms.map fun m => some [row m] := by
  induction ms with
  | nil => rfl
  | cons m ms ih =>
    obtain ⟨h1, h2⟩ := hm m (by simp)
    have hd : m.dim = (row m).length := by rw [h2]; unfold MulIrrep.dim; rw [h1, one_mul]
    simp only [List.flatMap_cons, List.map_cons, IArr.comp, Bool.false_eq_true, if_false]
    rw [hd, List.drop_left, ih fun m' h' => hm m' (List.mem_cons_of_mem _ h'), h1, ← h2]
    simp [rows]

/-! ### the action on blocks -/

/-- `transform_by_matrix` on a list of blocks. -/
noncomputable def act (R : Mat) (bs : List (Irrep × List Col)) : List (Irrep × List Col) :=
  bs.map fun b => (b.1, matVec (matRows (Wig.dMatrix b.1 R)) b.2)

theorem act_transform (R : Mat) {x : IArr Col} (hx : x.Coherent) :
    ∃ y, x.transformByMatrix R = .ok y ∧ y.Coherent ∧ y.irreps = x.irreps ∧ y.zeroFlags = x.zeroFlags ∧ y.blocks = act R x.blocks :=
  C59_transform R x hx

theorem act_mul {R S : Mat} (hR : IsOrth R) (hS : IsOrth S) {bs : List (Irrep × List Col)} (hb : ∀ b ∈ bs, b.2.length = b.1.dim) :
    act (R * S) bs = act R (act S bs) := by
  unfold act
  rw [List.map_map]
  apply List.map_congr_left
  intro b h
  simp only [Function.comp_apply]
  have hl : b.2.length = 2 * b.1.l + 1 := hb b h
  rw [C39_homomorphism b.1 hR hS, matVec_mul _ _ hl]

theorem act_one {bs : List (Irrep × List Col)} (hb : ∀ b ∈ bs, b.2.length = b.1.dim) : act 1 bs = bs := by
  unfold act
  conv_rhs => rw [← List.map_id bs]
  apply List.map_congr_left
  intro b h
  have hl : b.2.length = 2 * b.1.l + 1 := hb b h
  obtain ⟨f, e⟩ := exists_ofFn hl
  rw [C39_identity, e]
  have := matVec_ofFn (α := Col) (1 : Matrix (Fin (2 * b.1.l + 1)) (Fin (2 * b.1.l + 1)) ℝ) f
  simp only [id]
  apply Prod.ext
  · rfl
  · show matVec (matRows (1 : Matrix (Fin (2 * b.1.l + 1)) (Fin (2 * b.1.l + 1)) ℝ)) (List.ofFn f) = b.2
    rw [this, e]
    congr 1
    funext i
    simp [Matrix.one_apply]

theorem transpose_orth {R : Mat} (h : IsOrth R) : IsOrth R.transpose := by
  unfold IsOrth at *
  rw [Matrix.transpose_transpose]
  exact mul_eq_one_comm.mp h

/-- The rotation of `fix_gimbal_lock`. -/
noncomputable def lockMat (lock : Bool) : Mat := if lock then anglesToMatrix 0 (Real.pi / 2) 0 else 1

theorem lockMat_orth (lock : Bool) : IsOrth (lockMat lock) := by
  unfold lockMat
  split
  · exact (anglesToMatrix_rot _ _ _).1
  · unfold IsOrth; simp

theorem angles_zero (a b c : Angle) (inv : Bool) (x : IArr Col) :
    x.transformByAngles a b c 0 inv = x.transformByMatrix (if inv then (anglesToMatrix a.val b.val c.val).transpose else anglesToMatrix a.val b.val c.val) := by
  have h := C59_angles a b c 0 x
  simp only [Nat.cast_zero, pow_zero, one_smul] at h
  cases inv
  · exact h.1
  · exact h.2

theorem zipWith_fst {α β : Type} (l : List α) (k : List β) (h : l.length = k.length) : List.zipWith (fun a _ => a) l k = l := by
  induction l generalizing k with
  | nil => rfl
  | cons a l ih =>
    cases k with
    | nil => simp at h
    | cons b k => simp only [List.zipWith_cons_cons]; rw [ih k (by simpa using h)]

theorem zipWith_snd {α β : Type} (l : List α) (k : List β) (h : l.length = k.length) : List.zipWith (fun _ b => b) l k = k := by
  induction l generalizing k with
  | nil => cases k with
    | nil => rfl
    | cons b k => simp at h
  | cons a l ih =>
    cases k with
    | nil => simp at h
    | cons b k => simp only [List.zipWith_cons_cons]; rw [ih k (by simpa using h)]

theorem fix_spec (lock inv : Bool) {x : IArr Col} (hx : x.Coherent) :
    ∃ y, fixGimbalLock lock inv x = .ok y ∧ y.Coherent ∧ y.irreps = x.irreps ∧
      y.blocks = act (if inv then (lockMat lock).transpose else lockMat lock) x.blocks ∧ ∀ z ∈ y.zeroFlags, z = false := by
  obtain ⟨r, r1, r2, r3, -, r5⟩ := act_transform (if inv then (anglesToMatrix 0 (Real.pi / 2) 0).transpose else anglesToMatrix 0 (Real.pi / 2) 0) hx
  have hl : r.array.length = x.array.length := by rw [r2.array_length, hx.array_length, r3]
  have hlen : (List.zipWith (fun (a b : Col) => if lock then a else b) r.array x.array).length = Irreps.dim x.irreps := by
    rw [List.length_zipWith, hl, min_self, hx.array_length, Irreps.dim_eq_dimOf_expand]
  obtain ⟨m1, m2⟩ := make_noflags (α := Col) hlen
  unfold fixGimbalLock
  rw [angles_zero]
  simp only [Angle.val]
  rw [r1]
  simp only [bind, Except.bind]
  refine ⟨_, m1, m2.coherent, rfl, ?_, ?_⟩
  · have hb : ∀ b ∈ x.blocks, b.2.length = b.1.dim := fun b hb => block_length hx hb
    cases lock
    · simp only [Bool.false_eq_true, if_false, lockMat]
      rw [Matrix.transpose_one, ite_self, act_one hb]
      unfold IArr.blocks
      simp only
      rw [zipWith_snd _ _ hl]
    · simp only [if_true, lockMat]
      rw [← r5]
      unfold IArr.blocks
      simp only
      rw [zipWith_fst _ _ hl, r3]
  · intro z hz
    exact List.eq_of_mem_replicate (a := false) (n := x.irreps.length) hz

end E3nn.TPSH
