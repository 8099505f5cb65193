import Verif.Lemmas.RTPOps
import Verif.Lemmas.RTPLoop
import Verif.Lemmas.RTPAxes

/-! # Equivariance of the changes of basis -/

namespace E3nn.RTP

open E3nn.IArr E3nn.LinAlg E3nn.PermRepr E3nn.Wig E3nn.SU2 Matrix Finset

/-! ### the entries of a block diagonal matrix -/

theorem entry_map_append (B : List (List ℝ)) (k n : ℕ) (hB : ∀ r ∈ B, r.length = n) (a b : ℕ) :
    entry (B.map fun r => r ++ List.replicate k 0) a b = entry B a b := by
  unfold entry
  by_cases ha : a < B.length
  · rw [List.getD_eq_getElem (B.map _) [] (by rw [List.length_map]; exact ha), List.getD_eq_getElem B [] ha, List.getElem_map]
    simp only [List.getD_eq_getElem?_getD, List.getElem?_append]
    split
    · rfl
    · rename_i h
      rw [List.getElem?_eq_none (l := B[a]) (by omega), List.getElem?_replicate]
      split <;> rfl
  · rw [List.getD_eq_default (B.map _) [] (by rw [List.length_map]; omega), List.getD_eq_default B [] (by omega)]

theorem entry_blockDiag (B : List (List ℝ)) (Bs : List (List (List ℝ))) (hB : ∀ r ∈ B, r.length = B.length) (a b : ℕ) :
    entry (Irreps.blockDiag (B :: Bs)) a b = if a < B.length then (if b < B.length then entry B a b else 0)
      else if b < B.length then 0 else entry (Irreps.blockDiag Bs) (a - B.length) (b - B.length) := by
  simp only [Irreps.blockDiag]
  by_cases ha : a < B.length
  · rw [if_pos ha]
    have e : entry (B.map (fun r => r ++ List.replicate (Irreps.blockDiag Bs).length 0) ++
        (Irreps.blockDiag Bs).map fun r => List.replicate B.length 0 ++ r) a b =
        entry (B.map fun r => r ++ List.replicate (Irreps.blockDiag Bs).length 0) a b := by
      unfold entry
      rw [List.getD_append _ _ _ _ (by rw [List.length_map]; exact ha)]
    rw [e, entry_map_append B _ _ hB]
    split
    · rfl
    · rename_i hb
      unfold entry
      rw [List.getD_eq_getElem B [] ha, List.getD_eq_default]
      rw [hB _ (List.getElem_mem ha)]; omega
  · rw [if_neg ha]
    have e : entry (B.map (fun r => r ++ List.replicate (Irreps.blockDiag Bs).length 0) ++
        (Irreps.blockDiag Bs).map fun r => List.replicate B.length 0 ++ r) a b =
        entry ((Irreps.blockDiag Bs).map fun r => List.replicate B.length 0 ++ r) (a - B.length) b := by
      unfold entry
      rw [List.getD_append_right _ _ _ _ (by rw [List.length_map]; omega), List.length_map]
    rw [e]
    unfold entry
    by_cases ha' : a - B.length < (Irreps.blockDiag Bs).length
    · rw [List.getD_eq_getElem ((Irreps.blockDiag Bs).map _) [] (by rw [List.length_map]; exact ha'), List.getD_eq_getElem (Irreps.blockDiag Bs) [] ha', List.getElem_map]
      simp only [List.getD_eq_getElem?_getD, List.getElem?_append, List.length_replicate]
      split
      · rename_i h; rw [List.getElem?_replicate, if_pos h]; rfl
      · rfl
    · rw [List.getD_eq_default ((Irreps.blockDiag Bs).map _) [] (by rw [List.length_map]; omega), List.getD_eq_default (Irreps.blockDiag Bs) [] (by omega)]
      simp

theorem entry_matRows {m n : ℕ} (A : Matrix (Fin m) (Fin n) ℝ) (a : Fin m) (b : Fin n) : entry (matRows A) a b = A a b := by
  unfold entry matRows
  rw [List.getD_eq_getElem (List.ofFn fun i => List.ofFn fun j => A i j) [] (by simp), List.getElem_ofFn, List.getD_eq_getElem _ _ (by simp), List.getElem_ofFn]

/-! ### blocks -/

/-- The matrices acting on the axes. -/
noncomputable def mats (irr : List Irreps) (R : Matrix (Fin 3) (Fin 3) ℝ) (i : ℕ) : ℕ → ℕ → ℝ := entry ((irr.getD i []).dMatrix R)

/-- A block of arrays on the axes `f` that transforms as its irrep. -/
structure BGood (irr : List Irreps) (f : List ℕ) (p : Irrep × List Ten) : Prop where
  len : p.2.length = p.1.dim
  on : ∀ t ∈ p.2, On f t
  eq : ∀ R, IsOrth R → p.2.map (onAxes (axisDim irr) (mats irr R) f) = matVec (matRows (Wig.dMatrix p.1 Rᵀ)) p.2

theorem BGood.ofFn {irr : List Irreps} {f : List ℕ} {ir : Irrep} {v : Fin (2 * ir.l + 1) → Ten} (hon : ∀ c, On f (v c))
    (h : ∀ R, IsOrth R → ∀ c, onAxes (axisDim irr) (mats irr R) f (v c) = ∑ c', Wig.dMatrix ir Rᵀ c c' • v c') : BGood irr f (ir, List.ofFn v) := by
  refine ⟨by simp [Irrep.dim], ?_, ?_⟩
  · intro t ht
    obtain ⟨c, rfl⟩ := (List.mem_ofFn' _ _).mp ht
    exact hon c
  · intro R hR
    rw [matVec_ofFn, List.map_ofFn]
    congr 1
    funext c
    exact h R hR c

theorem BGood.exists {irr : List Irreps} {f : List ℕ} {p : Irrep × List Ten} (h : BGood irr f p) : ∃ v : Fin (2 * p.1.l + 1) → Ten, p.2 = List.ofFn v ∧ (∀ c, On f (v c)) ∧
    ∀ R, IsOrth R → ∀ c, onAxes (axisDim irr) (mats irr R) f (v c) = ∑ c', Wig.dMatrix p.1 Rᵀ c c' • v c' := by
  obtain ⟨v, hv⟩ := exists_ofFn (n := 2 * p.1.l + 1) h.len
  refine ⟨v, hv, fun c => h.on _ (by rw [hv]; exact (List.mem_ofFn' _ _).mpr ⟨c, rfl⟩), fun R hR c => ?_⟩
  have := h.eq R hR
  rw [hv, matVec_ofFn, List.map_ofFn] at this
  exact congrFun (List.ofFn_injective this) c

theorem BGood.perm {irr : List Irreps} {f g : List ℕ} {p : Irrep × List Ten} (h : BGood irr f p) (hfg : f.Perm g) : BGood irr g p := by
  refine ⟨h.len, fun t ht => (h.on t ht).mono fun i hi => hfg.mem_iff.mp hi, fun R hR => ?_⟩
  rw [← h.eq R hR]
  apply List.map_congr_left
  intro t _
  exact (onAxes_perm _ _ hfg t).symm

/-! ### the identity -/

theorem onAxis_coord (n : ℕ) (A : ℕ → ℕ → ℝ) (i j : ℕ) (hj : j < n) (σ : ℕ → ℕ) : onAxis n A i (coord i j) σ = A (σ i) j := by
  unfold onAxis coord
  simp only [Function.update_self]
  rw [sum_eq_single j]
  · simp
  · intro b _ hb; rw [if_neg hb, mul_zero]
  · intro h; exact absurd (mem_range.mpr hj) h

theorem blocksOf_identity {i : ℕ} {R : Matrix (Fin 3) (Fin 3) ℝ} (hR : IsOrth R) (A : ℕ → ℕ → ℝ) : ∀ (L : List Irrep) (o : ℕ),
    (∀ a b, A (o + a) (o + b) = entry (Irreps.blockDiag (L.map fun ir => matRows (Wig.dMatrix ir R))) a b) →
    (∀ a b, a < o → A a (o + b) = 0) →
    ∀ p ∈ blocksOf L ((List.range' o (dimOf L)).map (coord i)), p.2.length = p.1.dim ∧ (∀ t ∈ p.2, ∃ j, o ≤ j ∧ j < o + dimOf L ∧ t = coord i j) ∧
      ∀ n, o + dimOf L ≤ n → p.2.map (onAxis n A i) = matVec (matRows (Wig.dMatrix p.1 Rᵀ)) p.2 := by
  intro L
  induction L with
  | nil => intro o _ _ p hp; simp [blocksOf] at hp
  | cons ir L ih =>
    intro o h1 h2 p hp
    have hd : dimOf (ir :: L) = (2 * ir.l + 1) + dimOf L := dimOf_cons ir L
    have hsplit : List.range' o (dimOf (ir :: L)) = List.range' o (2 * ir.l + 1) ++ List.range' (o + (2 * ir.l + 1)) (dimOf L) := by
      rw [hd, ← List.range'_append_1]
    have hlen : (matRows (Wig.dMatrix ir R)).length = 2 * ir.l + 1 := by simp [matRows]
    have hrow : ∀ r ∈ matRows (Wig.dMatrix ir R), r.length = (matRows (Wig.dMatrix ir R)).length := by
      intro r hr; rw [hlen]; exact (matRows_family (fun ir => Wig.dMatrix ir R) ir).2 r hr
    have hent := fun a b => entry_blockDiag (matRows (Wig.dMatrix ir R)) (L.map fun ir => matRows (Wig.dMatrix ir R)) hrow a b
    rw [hlen] at hent
    simp only [List.map_cons] at h1
    rw [hsplit, List.map_append] at hp
    simp only [blocksOf] at hp
    rw [List.take_left' (by simp), List.drop_left' (by simp)] at hp
    rcases List.mem_cons.mp hp with rfl | hp
    · refine ⟨by simp [Irrep.dim], ?_, ?_⟩
      · intro t ht
        obtain ⟨j, hj, rfl⟩ := List.mem_map.mp ht
        rw [List.mem_range'_1] at hj
        exact ⟨j, hj.1, by omega, rfl⟩
      · intro n hn
        have ev : (List.range' o (2 * ir.l + 1)).map (coord i) = List.ofFn fun c : Fin (2 * ir.l + 1) => coord i (o + c) := by
          refine List.ext_getElem (by rw [List.length_map, List.length_range', List.length_ofFn]) fun k hk1 hk2 => ?_
          rw [List.getElem_map, List.getElem_range', List.getElem_ofFn]
          simp
        simp only [ev]
        rw [matVec_ofFn, List.map_ofFn]
        congr 1
        funext c σ
        simp only [Function.comp_apply]
        have hc := c.2
        rw [onAxis_coord _ _ _ _ (by omega), Finset.sum_apply, (C39_orthogonal ir hR).2]
        simp only [Pi.smul_apply, smul_eq_mul, Matrix.transpose_apply, coord]
        by_cases ha : σ i < o
        · rw [h2 _ _ ha]
          symm
          apply sum_eq_zero
          intro c' _
          rw [if_neg (by omega), mul_zero]
        · obtain ⟨a, ha'⟩ : ∃ a, σ i = o + a := ⟨σ i - o, by omega⟩
          rw [ha', h1, hent]
          by_cases hal : a < 2 * ir.l + 1
          · rw [if_pos hal, if_pos hc]
            have := entry_matRows (Wig.dMatrix ir R) ⟨a, hal⟩ c
            simp only at this
            rw [this, sum_eq_single ⟨a, hal⟩]
            · simp
            · intro b _ hb
              rw [if_neg, mul_zero]
              intro e
              apply hb
              apply Fin.ext
              simp only
              omega
            · simp
          · rw [if_neg hal, if_pos hc]
            symm
            apply sum_eq_zero
            intro c' _
            have := c'.2
            rw [if_neg (by omega), mul_zero]
    · have key := ih (o + (2 * ir.l + 1)) ?_ ?_ p hp
      · refine ⟨key.1, ?_, fun n hn => key.2.2 n (by omega)⟩
        intro t ht
        obtain ⟨j, j1, j2, j3⟩ := key.2.1 t ht
        exact ⟨j, by omega, by omega, j3⟩
      · intro a b
        rw [show o + (2 * ir.l + 1) + a = o + ((2 * ir.l + 1) + a) by ring, show o + (2 * ir.l + 1) + b = o + ((2 * ir.l + 1) + b) by ring, h1, hent,
          if_neg (by omega), if_neg (by omega)]
        congr 1 <;> omega
      · intro a b hab
        rw [show o + (2 * ir.l + 1) + b = o + ((2 * ir.l + 1) + b) by ring]
        by_cases hao : a < o
        · exact h2 _ _ hao
        · obtain ⟨c, rfl⟩ : ∃ c, a = o + c := ⟨a - o, by omega⟩
          rw [h1, hent, if_pos (by omega), if_neg (by omega)]

theorem dMatrix_blockDiag (x : Irreps) (R : Matrix (Fin 3) (Fin 3) ℝ) (a b : ℕ) :
    entry (x.dMatrix R) a b = entry (Irreps.blockDiag ((expand x).map fun ir => matRows (Wig.dMatrix ir R))) a b := by
  have e : x.dMatrix R = Irreps.blockDiagJax ((expand x).map fun ir => matRows (Wig.dMatrix ir R)) := by
    show Irreps.blockDiagJax (Irreps.dBlocks (fun ir => matRows (Wig.dMatrix ir R)) x) = _
    rw [dBlocks_eq]
  rw [e]
  cases expand x with
  | nil =>
    simp only [List.map_nil, Irreps.blockDiagJax, Irreps.blockDiag, entry, List.getD_nil]
    cases a <;> simp
  | cons ir s => rfl

theorem on_coord (i j : ℕ) : On [i] (coord i j) := by
  intro σ τ h
  unfold coord
  rw [h i (by simp)]

theorem identity_good (irr : List Irreps) {i : ℕ} {b : IArr Ten} (hb : identityBasis i (irr.getD i []) = .ok b) :
    Inv b ∧ ∀ p ∈ b.blocks, BGood irr [i] p := by
  obtain ⟨y, y1, y2, y3, y4⟩ := identityBasis_spec i (irr.getD i [])
  rw [hb] at y1; cases y1
  refine ⟨y2, ?_⟩
  intro p hp
  unfold IArr.blocks at hp
  rw [y3, y4, Irreps.dim_eq_dimOf_expand, List.range_eq_range'] at hp
  have h1 := fun R (hR : IsOrth R) => blocksOf_identity hR (mats irr R i) (expand (irr.getD i [])) 0
    (by intro a b'; rw [Nat.zero_add, Nat.zero_add]; exact dMatrix_blockDiag _ _ _ _) (by intro a b' h; omega) p hp
  refine ⟨(h1 1 (by unfold IsOrth; simp)).1, ?_, ?_⟩
  · intro t ht
    obtain ⟨j, -, -, rfl⟩ := (h1 1 (by unfold IsOrth; simp)).2.1 t ht
    exact on_coord i j
  · intro R hR
    exact (h1 R hR).2.2 _ (by rw [Nat.zero_add]; unfold axisDim; rw [Irreps.dim_eq_dimOf_expand])

/-! ### products -/

theorem product_good {irr : List Irreps} {f g : List ℕ} (hd : ∀ i ∈ f, i ∉ g) {p q : Irrep × List Ten} (hp : BGood irr f p) (hq : BGood irr g q) {ir : Irrep} (hir : ir ∈ p.1.mul q.1) (k : ℝ) :
    BGood irr (f ++ g) (ir, bilinear (algebraMap ℝ Ten k) ((realCtx Ten).cg p.1.l q.1.l ir.l) p.1.l q.1.l ir.l p.2 q.2) := by
  obtain ⟨⟨l1, p1⟩, v1⟩ := p
  obtain ⟨⟨l2, p2⟩, v2⟩ := q
  obtain ⟨l3, p3⟩ := ir
  have hpp : p3 = p1.mul p2 := by
    unfold Irrep.mul at hir
    obtain ⟨l, -, e⟩ := List.mem_map.mp hir
    injection e with e1 e2
    exact e2.symm
  subst hpp
  obtain ⟨x, hx, xo, xe⟩ := hp.exists
  obtain ⟨y, hy, yo, ye⟩ := hq.exists
  simp only at x y hx hy xe ye ⊢
  subst hx hy
  rw [bilinear_coefK]
  refine BGood.ofFn (ir := ⟨l3, p1.mul p2⟩) ?_ ?_
  · intro c
    refine On.sum _ fun a _ => On.sum _ fun b _ => On.smul _ (On.mul ((xo a).mono fun i hi => by simp [hi]) ((yo b).mono fun i hi => by simp [hi]))
  · intro R hR c
    have key := fun a' b' => cg_tensor l1 l2 l3 p1 p2 hR.transpose a' b' c
    rw [onAxes_sum]
    simp only [onAxes_sum, onAxes_smul, onAxes_mul _ _ hd (xo _) (yo _), xe R hR, ye R hR]
    have e1 : ∀ a b, (k * clebschGordan l1 l2 l3 a b c) • ((∑ j, Wig.dMatrix ⟨l1, p1⟩ Rᵀ a j • x j) * ∑ j, Wig.dMatrix ⟨l2, p2⟩ Rᵀ b j • y j) =
        ∑ a', ∑ b', (k * (clebschGordan l1 l2 l3 a b c * (Wig.dMatrix ⟨l1, p1⟩ Rᵀ a a' * Wig.dMatrix ⟨l2, p2⟩ Rᵀ b b'))) • (x a' * y b') := by
      intro a b
      rw [Finset.sum_mul_sum, Finset.smul_sum]
      apply Finset.sum_congr rfl
      intro a' _
      rw [Finset.smul_sum]
      apply Finset.sum_congr rfl
      intro b' _
      rw [smul_mul_smul_comm, smul_smul, mul_assoc]
    simp only [e1]
    have e2 : ∑ a, ∑ b, ∑ a', ∑ b', (k * (clebschGordan l1 l2 l3 a b c * (Wig.dMatrix ⟨l1, p1⟩ Rᵀ a a' * Wig.dMatrix ⟨l2, p2⟩ Rᵀ b b'))) • (x a' * y b') =
        ∑ a', ∑ b', (k * ∑ a, ∑ b, clebschGordan l1 l2 l3 a b c * (Wig.dMatrix ⟨l1, p1⟩ Rᵀ a a' * Wig.dMatrix ⟨l2, p2⟩ Rᵀ b b')) • (x a' * y b') := by
      simp only [Finset.mul_sum, Finset.sum_smul]
      calc _ = ∑ a, ∑ a', ∑ b, ∑ b', (k * (clebschGordan l1 l2 l3 a b c * (Wig.dMatrix ⟨l1, p1⟩ Rᵀ a a' * Wig.dMatrix ⟨l2, p2⟩ Rᵀ b b'))) • (x a' * y b') :=
            Finset.sum_congr rfl fun a _ => Finset.sum_comm
        _ = ∑ a', ∑ a, ∑ b, ∑ b', (k * (clebschGordan l1 l2 l3 a b c * (Wig.dMatrix ⟨l1, p1⟩ Rᵀ a a' * Wig.dMatrix ⟨l2, p2⟩ Rᵀ b b'))) • (x a' * y b') := Finset.sum_comm
        _ = ∑ a', ∑ a, ∑ b', ∑ b, (k * (clebschGordan l1 l2 l3 a b c * (Wig.dMatrix ⟨l1, p1⟩ Rᵀ a a' * Wig.dMatrix ⟨l2, p2⟩ Rᵀ b b'))) • (x a' * y b') :=
            Finset.sum_congr rfl fun a' _ => Finset.sum_congr rfl fun a _ => Finset.sum_comm
        _ = _ := Finset.sum_congr rfl fun a' _ => Finset.sum_comm
    rw [e2]
    simp only [key]
    simp only [Finset.smul_sum, smul_smul, Finset.mul_sum, Finset.sum_smul]
    calc _ = ∑ a', ∑ c', ∑ b', (k * (Wig.dMatrix ⟨l3, p1.mul p2⟩ Rᵀ c c' * clebschGordan l1 l2 l3 a' b' c')) • (x a' * y b') :=
          Finset.sum_congr rfl fun a' _ => Finset.sum_comm
      _ = ∑ c', ∑ a', ∑ b', (k * (Wig.dMatrix ⟨l3, p1.mul p2⟩ Rᵀ c c' * clebschGordan l1 l2 l3 a' b' c')) • (x a' * y b') := Finset.sum_comm
      _ = _ := Finset.sum_congr rfl fun c' _ => Finset.sum_congr rfl fun a' _ => Finset.sum_congr rfl fun b' _ => by congr 1; ring

theorem products_good {irr : List Irreps} {f g : List ℕ} (hd : ∀ i ∈ f, i ∉ g) (filter : Option (List Irrep)) {A B : List (Irrep × List Ten)}
    (hA : ∀ p ∈ A, BGood irr f p) (hB : ∀ p ∈ B, BGood irr g p) : ∀ p ∈ products filter A B, BGood irr (f ++ g) p := by
  intro p hp
  unfold products at hp
  simp only [List.mem_flatMap, List.mem_map] at hp
  obtain ⟨b1, h1, b2, h2, ir, h3, rfl⟩ := hp
  exact product_good hd (hA b1 h1) (hB b2 h2) (List.mem_filter.mp h3).1 _

/-! ### combinations, other axes -/

theorem mix_good {irr : List Irreps} {f : List ℕ} {ir : Irrep} {rb : List (List Ten)} (h : ∀ r ∈ rb, BGood irr f (ir, r)) {n : ℕ} (hn : n = rb.length) (P : List (Fin n → ℝ)) :
    ∀ r ∈ mix ir.dim P rb, BGood irr f (ir, r) := by
  subst hn
  intro r hr
  obtain ⟨c, -, rfl⟩ := List.mem_map.mp hr
  have hv : ∀ u : Fin rb.length, ∃ v : Fin (2 * ir.l + 1) → Ten, rb.getD u [] = List.ofFn v ∧ (∀ c, On f (v c)) ∧
      ∀ R, IsOrth R → ∀ c, onAxes (axisDim irr) (mats irr R) f (v c) = ∑ c', Wig.dMatrix ir Rᵀ c c' • v c' := by
    intro u
    have := h (rb.getD u []) (by rw [List.getD_eq_getElem _ _ u.2]; exact List.getElem_mem u.2)
    obtain ⟨v, v1, v2, v3⟩ := this.exists
    exact ⟨v, v1, v2, v3⟩
  choose v v1 v2 v3 using hv
  have e : (List.range ir.dim).map (fun i => ∑ u : Fin rb.length, c u • (rb.getD (u : ℕ) []).getD i 0) =
      List.ofFn fun i : Fin (2 * ir.l + 1) => ∑ u, c u • v u i := by
    apply List.ext_getElem
    · simp [Irrep.dim]
    · intro k hk1 hk2
      simp only [List.getElem_map, List.getElem_range, List.getElem_ofFn]
      apply sum_congr rfl
      intro u _
      rw [v1, List.getD_eq_getElem _ _ (by simpa [Irrep.dim] using hk1), List.getElem_ofFn]
  rw [e]
  refine BGood.ofFn (fun i => On.sum _ fun u _ => On.smul _ (v2 u i)) ?_
  intro R hR i
  rw [onAxes_sum]
  simp only [onAxes_smul, v3 _ R hR, Finset.smul_sum]
  rw [Finset.sum_comm]
  apply sum_congr rfl; intro c' _
  apply sum_congr rfl; intro u _
  rw [smul_comm]

theorem place_good {irr : List Irreps} {f : List ℕ} (hf : f.Nodup) {p : Irrep × List Ten}
    (h : BGood (f.map fun k => irr.getD k []) (List.range f.length) p) : BGood irr f (p.1, p.2.map (place f)) := by
  obtain ⟨v, hv, v2, v3⟩ := h.exists
  rw [hv, List.map_ofFn]
  refine BGood.ofFn (fun c => place_on (v2 c)) ?_
  intro R hR c
  simp only [Function.comp_apply]
  rw [onAxes_place _ _ hf (v2 c)]
  have e : ∀ t : Ten, onAxes (fun k => axisDim irr (f.getD k 0)) (fun k => mats irr R (f.getD k 0)) (List.range f.length) t =
      onAxes (axisDim (f.map fun k => irr.getD k [])) (mats (f.map fun k => irr.getD k []) R) (List.range f.length) t := by
    intro t
    unfold onAxes
    apply List.foldr_ext
    intro k hk s
    rw [List.mem_range] at hk
    have e1 : (f.map fun k => irr.getD k []).getD k [] = irr.getD (f.getD k 0) [] := by
      rw [List.getD_eq_getElem _ _ (by rw [List.length_map]; exact hk), List.getElem_map, List.getD_eq_getElem f 0 hk]
    unfold axisDim mats
    rw [e1]
  rw [e, v3 R hR]
  funext σ
  simp only [place, Finset.sum_apply, Pi.smul_apply]

end E3nn.RTP
