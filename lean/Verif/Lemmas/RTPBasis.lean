import Verif.Lemmas.RTPSum
import Verif.Lemmas.PermRepr5

/-! # Orthonormal bases of arrays with symmetries on some of the axes -/

namespace E3nn.RTP

open Finset E3nn.IArr E3nn.Wig E3nn.PermRepr

/-- The indices are in range. -/
def InR (irr : List Irreps) (σ : ℕ → ℕ) : Prop := ∀ i < irr.length, σ i < axisDim irr i

/-- The permutation of the axes. -/
def hat (q : SPerm) (i : ℕ) : ℕ := q.2.getD i i

/-- The array has the symmetries of `G` that fix the axes outside `f`. -/
def SymOn (irr : List Irreps) (G : Finset SPerm) (f : List ℕ) (t : Ten) : Prop :=
  ∀ q ∈ G, FixesOutside f q.2 → ∀ σ, InR irr σ → t (fun i => σ (hat q i)) = q.1 * t σ

theorem SymOn.mono {irr : List Irreps} {G : Finset SPerm} {f g : List ℕ} {t : Ten} (h : SymOn irr G g t) (hfg : ∀ i ∈ f, i ∈ g) : SymOn irr G f t :=
  fun q hq hf σ hσ => h q hq (fun j hj hn => hf j hj fun hjf => hn (hfg j hjf)) σ hσ

/-- The expansion of `t` in the arrays of `L`, on the axes `f`. -/
noncomputable def expansion (d : ℕ → ℕ) (f : List ℕ) (L : List Ten) (t : Ten) (σ : ℕ → ℕ) : ℝ := (L.map fun x => x σ * axSum d f (x * t) σ).sum

/-- Orthonormal arrays on the axes `f`, complete for the arrays with the symmetries on `f`. -/
structure OBasis (irr : List Irreps) (G : Finset SPerm) (f : List ℕ) (L : List Ten) : Prop where
  pair : L.Pairwise fun x y => axSum (axisDim irr) f (x * y) = 0
  norm : ∀ x ∈ L, axSum (axisDim irr) f (x * x) = 1
  complete : ∀ t, SymOn irr G f t → ∀ σ, InR irr σ → t σ = expansion (axisDim irr) f L t σ

theorem OBasis.perm {irr : List Irreps} {G : Finset SPerm} {f : List ℕ} {L L' : List Ten} (h : OBasis irr G f L) (hp : L'.Perm L) : OBasis irr G f L' := by
  refine ⟨?_, fun x hx => h.norm x (hp.mem_iff.mp hx), fun t ht σ hσ => ?_⟩
  · refine (hp.pairwise_iff fun {x y} e => ?_).mpr h.pair
    rw [mul_comm]; exact e
  · rw [h.complete t ht σ hσ]
    exact ((hp.map _).sum_eq).symm

theorem OBasis.perm_axes {irr : List Irreps} {G : Finset SPerm} {f g : List ℕ} {L : List Ten} (h : OBasis irr G f L) (hp : f.Perm g) : OBasis irr G g L := by
  refine ⟨?_, fun x hx => by rw [← axSum_perm _ hp]; exact h.norm x hx, fun t ht σ hσ => ?_⟩
  · refine h.pair.imp fun {x y} e => ?_
    rw [← axSum_perm _ hp]; exact e
  · rw [h.complete t (ht.mono fun i hi => hp.mem_iff.mp hi) σ hσ]
    unfold expansion
    simp only [axSum_perm _ hp]

/-! ### the identity -/

theorem axSum_one (d : ℕ → ℕ) (i : ℕ) (t : Ten) (σ : ℕ → ℕ) : axSum d [i] t σ = ∑ j ∈ range (d i), t (Function.update σ i j) := axSum_cons d i [] t σ

theorem axSum_coord (d : ℕ → ℕ) {i j : ℕ} (hj : j < d i) (t : Ten) (σ : ℕ → ℕ) : axSum d [i] (coord i j * t) σ = t (Function.update σ i j) := by
  rw [axSum_one]
  simp only [Pi.mul_apply, coord, Function.update_self]
  rw [sum_eq_single j]
  · simp
  · intro b _ hb; rw [if_neg hb, zero_mul]
  · intro h; exact absurd (mem_range.mpr hj) h

theorem identity_obasis (irr : List Irreps) (G : Finset SPerm) {i : ℕ} (hi : i < irr.length) : OBasis irr G [i] ((List.range (axisDim irr i)).map (coord i)) := by
  refine ⟨?_, ?_, ?_⟩
  · rw [List.pairwise_map]
    refine List.pairwise_lt_range.imp_of_mem fun {a b} ha hb hab => ?_
    rw [List.mem_range] at ha
    funext σ
    rw [axSum_coord _ ha]
    simp only [coord, Function.update_self, Pi.zero_apply]
    rw [if_neg (by omega)]
  · intro x hx
    obtain ⟨a, ha, rfl⟩ := List.mem_map.mp hx
    rw [List.mem_range] at ha
    funext σ
    rw [axSum_coord _ ha]
    simp [coord]
  · intro t _ σ hσ
    unfold expansion
    rw [List.map_map]
    have h1 : ∀ a ∈ List.range (axisDim irr i), ((fun x => x σ * axSum (axisDim irr) [i] (x * t) σ) ∘ coord i) a = if a = σ i then t σ else 0 := by
      intro a ha
      rw [List.mem_range] at ha
      simp only [Function.comp_apply]
      rw [axSum_coord _ ha]
      simp only [coord]
      by_cases e : σ i = a
      · subst e; simp
      · rw [if_neg e, if_neg (Ne.symm e), zero_mul]
    rw [List.map_congr_left h1]
    have h2 := hσ i hi
    rw [← List.sum_toFinset _ List.nodup_range, List.toFinset_range]
    rw [Finset.sum_ite_eq' (range (axisDim irr i)) (σ i) fun _ => t σ, if_pos (mem_range.mpr h2)]

/-! ### products -/

theorem hat_fix {n : ℕ} {f : List ℕ} {q : SPerm} (hp : q.2.Perm (List.range n)) (hf : FixesOutside f q.2) {i : ℕ} (hi : i ∉ f) : hat q i = i := by
  unfold hat
  by_cases h : i < q.2.length
  · have := hf i h hi
    rw [List.getD_eq_getElem _ _ h] at this ⊢
    exact this
  · exact List.getD_eq_default _ _ (by omega)

theorem hat_inj {n : ℕ} {q : SPerm} (hp : q.2.Perm (List.range n)) {i j : ℕ} (h : hat q i = hat q j) : i = j := by
  have hl : q.2.length = n := by rw [hp.length_eq, List.length_range]
  have hlt : ∀ i (hi : i < q.2.length), q.2[i] < n := fun i hi => List.mem_range.mp (hp.mem_iff.mp (List.getElem_mem hi))
  unfold hat at h
  by_cases h1 : i < q.2.length <;> by_cases h2 : j < q.2.length
  · rw [List.getD_eq_getElem _ _ h1, List.getD_eq_getElem _ _ h2] at h
    exact (List.Nodup.getElem_inj_iff (hp.nodup_iff.mpr List.nodup_range)).mp h
  · rw [List.getD_eq_getElem _ _ h1, List.getD_eq_default _ _ (by omega)] at h
    have := hlt i h1; omega
  · rw [List.getD_eq_default _ _ (by omega), List.getD_eq_getElem _ _ h2] at h
    have := hlt j h2; omega
  · rwa [List.getD_eq_default _ _ (by omega), List.getD_eq_default _ _ (by omega)] at h

theorem axSum_hat (d : ℕ → ℕ) {f : List ℕ} {h : ℕ → ℕ} (hinj : ∀ i j, h i = h j → i = j) (hf : ∀ i ∈ f, h i = i) (u : Ten) (σ : ℕ → ℕ) :
    axSum d f u (fun i => σ (h i)) = axSum d f (fun τ => u fun i => τ (h i)) σ := by
  induction f generalizing σ with
  | nil => rfl
  | cons i f ih =>
    rw [axSum_cons, axSum_cons]
    refine sum_congr rfl fun j _ => ?_
    rw [← ih (fun k hk => hf k (by simp [hk]))]
    congr 1
    funext k
    have hi := hf i (by simp)
    by_cases e : k = i
    · subst e; simp [hi]
    · rw [Function.update_of_ne e, Function.update_of_ne]
      intro e'
      exact e (hinj _ _ (e'.trans hi.symm))

theorem symOn_axSum {irr : List Irreps} {G : Finset SPerm} (hG : IsSGroup irr.length G) {f g : List ℕ} (hfg : ∀ i ∈ f, i ∉ g) {x t : Ten} (hx : On f x) (ht : SymOn irr G g t) :
    SymOn irr G g (axSum (axisDim irr) f (x * t)) := by
  intro q hq hfix σ hσ
  have hp := hG.perm q hq
  rw [axSum_hat _ (fun i j => hat_inj hp) fun i hi => hat_fix hp hfix (hfg i hi)]
  have e : (q.1 : ℝ) * axSum (axisDim irr) f (x * t) σ = axSum (axisDim irr) f ((q.1 : ℝ) • (x * t)) σ := by rw [axSum_smul]; rfl
  rw [e]
  apply axSum_congr
  intro τ h1 h2
  simp only [Pi.mul_apply, Pi.smul_apply, smul_eq_mul]
  have hx' : x (fun i => τ (hat q i)) = x τ := hx _ _ fun i hi => by rw [hat_fix hp hfix (hfg i hi)]
  rw [hx', ht q hq hfix τ]
  · ring
  · intro i hi
    by_cases hif : i ∈ f
    · exact h1 i hif
    · rw [h2 i hif]; exact hσ i hi

theorem outer_complete {irr : List Irreps} {G : Finset SPerm} (hG : IsSGroup irr.length G) {f g : List ℕ} (hfg : ∀ i ∈ f, i ∉ g) {A B : List Ten}
    (hA : OBasis irr G f A) (hB : OBasis irr G g B) (oA : ∀ x ∈ A, On f x) (oB : ∀ y ∈ B, On g y) {t : Ten} (ht : SymOn irr G (f ++ g) t) {σ : ℕ → ℕ} (hσ : InR irr σ) :
    t σ = (A.map fun x => (B.map fun y => (x * y) σ * axSum (axisDim irr) (f ++ g) (x * y * t) σ).sum).sum := by
  rw [hA.complete t (ht.mono fun i hi => by simp [hi]) σ hσ]
  unfold expansion
  congr 1
  apply List.map_congr_left
  intro x hx
  rw [hB.complete _ (symOn_axSum hG hfg (oA x hx) (ht.mono fun i hi => by simp [hi])) σ hσ]
  unfold expansion
  rw [← List.sum_map_mul_left]
  congr 1
  apply List.map_congr_left
  intro y hy
  have e : axSum (axisDim irr) g (y * axSum (axisDim irr) f (x * t)) = axSum (axisDim irr) (f ++ g) (x * y * t) := by
    rw [mul_comm y, ← axSum_mul_left _ hfg _ (oB y hy), ← axSum_append, axSum_perm _ List.perm_append_comm]
    congr 1
    ring
  rw [e, Pi.mul_apply, mul_assoc (x σ)]

/-- The slices of the Clebsch-Gordan coefficients are orthonormal. -/
theorem cg_rows (l1 l2 k k' : ℕ) (hk : k < 2 * min l1 l2 + 1) (hk' : k' < 2 * min l1 l2 + 1) (c : Fin (2 * (max l1 l2 - min l1 l2 + k) + 1))
    (c' : Fin (2 * (max l1 l2 - min l1 l2 + k') + 1)) :
    ∑ a, ∑ b, (Real.sqrt (2 * ((max l1 l2 - min l1 l2 + k : ℕ) : ℝ) + 1) * SU2.clebschGordan l1 l2 (max l1 l2 - min l1 l2 + k) a b c) *
      (Real.sqrt (2 * ((max l1 l2 - min l1 l2 + k' : ℕ) : ℝ) + 1) * SU2.clebschGordan l1 l2 (max l1 l2 - min l1 l2 + k') a b c') = if k = k' ∧ (c : ℕ) = c' then 1 else 0 := by
  have h := congrFun (congrFun (SU2.cgAll_mul l1 l2) ⟨⟨k, hk⟩, c⟩) ⟨⟨k', hk'⟩, c'⟩
  rw [Matrix.mul_apply, Matrix.one_apply, Fintype.sum_prod_type] at h
  refine Eq.trans h ?_
  by_cases e : k = k'
  · subst e
    by_cases e2 : c = c'
    · subst e2; simp
    · rw [if_neg, if_neg]
      · intro e3; exact e2 (Fin.ext e3.2)
      · intro e3
        simp only [Sigma.mk.injEq, heq_eq_eq, true_and] at e3
        exact e2 e3
  · rw [if_neg, if_neg]
    · intro e3; exact e e3.1
    · intro e3
      simp only [Sigma.mk.injEq, Fin.mk.injEq] at e3
      exact e e3.1

/-- The sum of two products. -/
theorem axSum_pairs (d : ℕ → ℕ) {f g : List ℕ} (hfg : ∀ i ∈ f, i ∉ g) {m n m' n' : ℕ} {x : Fin m → Ten} {y : Fin n → Ten} {x' : Fin m' → Ten} {y' : Fin n' → Ten}
    (hx : ∀ a, On f (x a)) (hy : ∀ b, On g (y b)) (hx' : ∀ a, On f (x' a)) (hy' : ∀ b, On g (y' b)) (c : Fin m → Fin n → ℝ) (c' : Fin m' → Fin n' → ℝ) :
    axSum d (f ++ g) ((∑ a, ∑ b, c a b • (x a * y b)) * ∑ a, ∑ b, c' a b • (x' a * y' b)) =
      ∑ a, ∑ b, ∑ a', ∑ b', (c a b * c' a' b') • (axSum d f (x a * x' a') * axSum d g (y b * y' b')) := by
  simp only [Finset.sum_mul]
  simp only [Finset.mul_sum, axSum_sum]
  refine sum_congr rfl fun a _ => sum_congr rfl fun b _ => sum_congr rfl fun a' _ => sum_congr rfl fun b' _ => ?_
  rw [smul_mul_smul_comm, axSum_smul, mul_mul_mul_comm, axSum_mul d hfg ((hx a).mul (hx' a')) ((hy b).mul (hy' b'))]

/-- All paths of two blocks together: the same expansion as the products of the components. -/
theorem pair_expansion (d : ℕ → ℕ) (f : List ℕ) (t : Ten) (σ : ℕ → ℕ) (i1 i2 : Irrep) (x : Fin (2 * i1.l + 1) → Ten) (y : Fin (2 * i2.l + 1) → Ten) :
    ((i1.mul i2).map fun ir => expansion d f (bilinear (algebraMap ℝ Ten (Real.sqrt (2 * (ir.l : ℝ) + 1))) ((realCtx Ten).cg i1.l i2.l ir.l) i1.l i2.l ir.l
      (List.ofFn x) (List.ofFn y)) t σ).sum = ∑ a, ∑ b, (x a * y b) σ * axSum d f (x a * y b * t) σ := by
  obtain ⟨l1, p1⟩ := i1
  obtain ⟨l2, p2⟩ := i2
  simp only at x y ⊢
  have hl : l1 + l2 + 1 - (max l1 l2 - min l1 l2) = 2 * min l1 l2 + 1 := by omega
  unfold Irrep.mul
  have hE : ∀ n (z : Fin n → Ten), expansion d f (List.ofFn z) t σ = ∑ i, z i σ * axSum d f (z i * t) σ := by
    intro n z
    unfold expansion
    rw [List.map_ofFn, List.sum_ofFn]; rfl
  simp only [hl, List.map_map, Function.comp_def, bilinear_coefK, hE]
  rw [List.range'_eq_map_range, List.map_map]
  have hs := sum_range_fin (2 * min l1 l2 + 1) (fun k => ∑ i : Fin (2 * (max l1 l2 - min l1 l2 + k) + 1),
    (∑ a, ∑ b, (Real.sqrt (2 * ((max l1 l2 - min l1 l2 + k : ℕ) : ℝ) + 1) * SU2.clebschGordan l1 l2 _ a b i) • (x a * y b)) σ *
    axSum d f ((∑ a, ∑ b, (Real.sqrt (2 * ((max l1 l2 - min l1 l2 + k : ℕ) : ℝ) + 1) * SU2.clebschGordan l1 l2 _ a b i) • (x a * y b)) * t) σ)
  refine Eq.trans hs ?_
  have e1 : ∀ q : SU2.CGIdx l1 l2, (∑ a, ∑ b, (Real.sqrt (2 * ((max l1 l2 - min l1 l2 + q.1.val : ℕ) : ℝ) + 1) * SU2.clebschGordan l1 l2 _ a b q.2) • (x a * y b)) =
      ∑ p : Fin (2 * l1 + 1) × Fin (2 * l2 + 1), SU2.cgAll l1 l2 q p • (x p.1 * y p.2) := by
    intro q
    rw [Fintype.sum_prod_type]
    rfl
  have e2 : ∑ q : SU2.CGIdx l1 l2, (∑ p : Fin (2 * l1 + 1) × Fin (2 * l2 + 1), SU2.cgAll l1 l2 q p • (x p.1 * y p.2)) σ *
        axSum d f ((∑ p : Fin (2 * l1 + 1) × Fin (2 * l2 + 1), SU2.cgAll l1 l2 q p • (x p.1 * y p.2)) * t) σ =
      ∑ p : Fin (2 * l1 + 1) × Fin (2 * l2 + 1), (x p.1 * y p.2) σ * axSum d f (x p.1 * y p.2 * t) σ := by
    have hax : ∀ q : SU2.CGIdx l1 l2, axSum d f ((∑ p : Fin (2 * l1 + 1) × Fin (2 * l2 + 1), SU2.cgAll l1 l2 q p • (x p.1 * y p.2)) * t) σ =
        ∑ p : Fin (2 * l1 + 1) × Fin (2 * l2 + 1), SU2.cgAll l1 l2 q p * axSum d f (x p.1 * y p.2 * t) σ := by
      intro q
      rw [Finset.sum_mul, axSum_sum, Finset.sum_apply]
      apply Finset.sum_congr rfl; intro p _
      rw [smul_mul_assoc, axSum_smul]; rfl
    simp only [hax, Finset.sum_apply, Pi.smul_apply, smul_eq_mul, Finset.sum_mul_sum]
    rw [Finset.sum_comm]
    apply Finset.sum_congr rfl; intro p _
    rw [Finset.sum_comm]
    have : ∀ p' : Fin (2 * l1 + 1) × Fin (2 * l2 + 1), ∑ q : SU2.CGIdx l1 l2, SU2.cgAll l1 l2 q p * (x p.1 * y p.2) σ * (SU2.cgAll l1 l2 q p' * axSum d f (x p'.1 * y p'.2 * t) σ) =
        (if p = p' then (1 : ℝ) else 0) * ((x p.1 * y p.2) σ * axSum d f (x p'.1 * y p'.2 * t) σ) := by
      intro p'
      have h := congrFun (congrFun (SU2.cgAll_complete l1 l2) p) p'
      rw [Matrix.mul_apply, Matrix.one_apply] at h
      simp only [Matrix.transpose_apply] at h
      rw [← h, Finset.sum_mul]
      apply Finset.sum_congr rfl; intro q _
      ring
    simp only [this]
    rw [Finset.sum_eq_single p]
    · simp
    · intro p' _ hp; rw [if_neg (Ne.symm hp), zero_mul]
    · simp
  rw [← Fintype.sum_prod_type (f := fun p : Fin (2 * l1 + 1) × Fin (2 * l2 + 1) => (x p.1 * y p.2) σ * axSum d f (x p.1 * y p.2 * t) σ), ← e2, Fintype.sum_sigma]
  apply Finset.sum_congr rfl; intro k _
  apply Finset.sum_congr rfl; intro c _
  have := e1 ⟨k, c⟩
  simp only at this
  rw [this]

theorem gram_ofFn {d : ℕ → ℕ} {f : List ℕ} {n : ℕ} {v : Fin n → Ten} (h1 : (List.ofFn v).Pairwise fun x y => axSum d f (x * y) = 0) (h2 : ∀ x ∈ List.ofFn v, axSum d f (x * x) = 1)
    (a b : Fin n) : axSum d f (v a * v b) = if a = b then 1 else 0 := by
  rw [List.pairwise_ofFn] at h1
  split
  · rename_i e; subst e; exact h2 _ ((List.mem_ofFn' _ _).mpr ⟨a, rfl⟩)
  · rename_i e
    rcases lt_or_gt_of_ne e with h | h
    · exact h1 h
    · rw [mul_comm]; exact h1 h

theorem axSum_same (d : ℕ → ℕ) {f g : List ℕ} (hfg : ∀ i ∈ f, i ∉ g) {l1 l2 : ℕ} {x : Fin (2 * l1 + 1) → Ten} {y : Fin (2 * l2 + 1) → Ten}
    (hx : ∀ a, On f (x a)) (hy : ∀ b, On g (y b)) (gx : ∀ a b, axSum d f (x a * x b) = if a = b then 1 else 0) (gy : ∀ a b, axSum d g (y a * y b) = if a = b then 1 else 0)
    (k k' : ℕ) (hk : k < 2 * min l1 l2 + 1) (hk' : k' < 2 * min l1 l2 + 1) (c : Fin (2 * (max l1 l2 - min l1 l2 + k) + 1)) (c' : Fin (2 * (max l1 l2 - min l1 l2 + k') + 1)) :
    axSum d (f ++ g) ((∑ a, ∑ b, (Real.sqrt (2 * ((max l1 l2 - min l1 l2 + k : ℕ) : ℝ) + 1) * SU2.clebschGordan l1 l2 (max l1 l2 - min l1 l2 + k) a b c) • (x a * y b)) *
      ∑ a, ∑ b, (Real.sqrt (2 * ((max l1 l2 - min l1 l2 + k' : ℕ) : ℝ) + 1) * SU2.clebschGordan l1 l2 (max l1 l2 - min l1 l2 + k') a b c') • (x a * y b)) =
      if k = k' ∧ (c : ℕ) = c' then 1 else 0 := by
  rw [axSum_pairs d hfg hx hy hx hy]
  have h := congrArg (algebraMap ℝ Ten) (cg_rows l1 l2 k k' hk hk' c c')
  have e0 : (algebraMap ℝ Ten) (if k = k' ∧ (c : ℕ) = c' then 1 else 0) = if k = k' ∧ (c : ℕ) = c' then 1 else 0 := by split <;> simp
  rw [e0] at h
  rw [← h, map_sum]
  refine sum_congr rfl fun a _ => ?_
  rw [map_sum]
  refine sum_congr rfl fun b _ => ?_
  rw [Finset.sum_eq_single a, Finset.sum_eq_single b]
  · rw [gx, gy, if_pos rfl, if_pos rfl, mul_one, Algebra.smul_def, mul_one]
  · intro b' _ hb; rw [gy, if_neg (Ne.symm hb), mul_zero, smul_zero]
  · simp
  · intro a' _ ha
    refine sum_eq_zero fun b' _ => ?_
    rw [gx, if_neg (Ne.symm ha), zero_mul, smul_zero]
  · simp

theorem sum_flatMap {α : Type} (l : List α) (F : α → List ℝ) : (l.flatMap F).sum = (l.map fun a => (F a).sum).sum := by
  induction l with
  | nil => rfl
  | cons a l ih => rw [List.flatMap_cons, List.sum_append, ih, List.map_cons, List.sum_cons]

theorem list_sum_comm {α β : Type} (l : List α) (m : List β) (F : α → β → ℝ) :
    (l.map fun a => (m.map fun b => F a b).sum).sum = (m.map fun b => (l.map fun a => F a b).sum).sum := by
  induction l with
  | nil => simp
  | cons a l ih => simp only [List.map_cons, List.sum_cons]; rw [ih, ← List.sum_map_add]

theorem products_obasis {irr : List Irreps} {G : Finset SPerm} (hG : IsSGroup irr.length G) {f g : List ℕ} (hfg : ∀ i ∈ f, i ∉ g) {A B : List (Irrep × List Ten)}
    (gA : ∀ p ∈ A, BGood irr f p) (gB : ∀ p ∈ B, BGood irr g p) (hA : OBasis irr G f (A.flatMap Prod.snd)) (hB : OBasis irr G g (B.flatMap Prod.snd)) :
    OBasis irr G (f ++ g) ((products none A B).flatMap Prod.snd) := by
  have hL : (products none A B).flatMap Prod.snd = A.flatMap fun b1 => B.flatMap fun b2 => (b1.1.mul b2.1).flatMap fun ir =>
      bilinear (algebraMap ℝ Ten (Real.sqrt (2 * (ir.l : ℝ) + 1))) ((realCtx Ten).cg b1.1.l b2.1.l ir.l) b1.1.l b2.1.l ir.l b1.2 b2.2 := by
    unfold products
    simp only [List.flatMap_assoc, List.flatMap_map, TP.irsOut]
    apply List.flatMap_congr
    intro b1 _
    apply List.flatMap_congr
    intro b2 _
    congr 1
    simp
  obtain ⟨pA1, pA2⟩ := List.pairwise_flatMap.mp hA.pair
  obtain ⟨pB1, pB2⟩ := List.pairwise_flatMap.mp hB.pair
  -- the components of a product
  have hmem : ∀ b1 ∈ A, ∀ b2 ∈ B, ∀ z ∈ (b1.1.mul b2.1).flatMap (fun ir =>
      bilinear (algebraMap ℝ Ten (Real.sqrt (2 * (ir.l : ℝ) + 1))) ((realCtx Ten).cg b1.1.l b2.1.l ir.l) b1.1.l b2.1.l ir.l b1.2 b2.2),
      ∃ (m n : ℕ) (x : Fin m → Ten) (y : Fin n → Ten) (c : Fin m → Fin n → ℝ), (∀ a, x a ∈ b1.2) ∧ (∀ b, y b ∈ b2.2) ∧ (∀ a, On f (x a)) ∧ (∀ b, On g (y b)) ∧
        z = ∑ a, ∑ b, c a b • (x a * y b) := by
    intro b1 h1 b2 h2 z hz
    obtain ⟨x, hx, xo, -⟩ := (gA b1 h1).exists
    obtain ⟨y, hy, yo, -⟩ := (gB b2 h2).exists
    obtain ⟨ir, -, hz⟩ := List.mem_flatMap.mp hz
    rw [hx, hy, bilinear_coefK] at hz
    obtain ⟨c, rfl⟩ := (List.mem_ofFn' _ _).mp hz
    exact ⟨_, _, x, y, _, fun a => by rw [hx]; exact (List.mem_ofFn' _ _).mpr ⟨a, rfl⟩, fun b => by rw [hy]; exact (List.mem_ofFn' _ _).mpr ⟨b, rfl⟩, xo, yo, rfl⟩
  -- two components of the products of the same blocks
  have hsame : ∀ b1 ∈ A, ∀ b2 ∈ B, ∃ z : ∀ l : ℕ, Fin (2 * l + 1) → Ten, (∀ ir : Irrep, bilinear (algebraMap ℝ Ten (Real.sqrt (2 * (ir.l : ℝ) + 1))) ((realCtx Ten).cg b1.1.l b2.1.l ir.l) b1.1.l b2.1.l ir.l b1.2 b2.2 =
      List.ofFn (z ir.l)) ∧ ∀ k k', k < 2 * min b1.1.l b2.1.l + 1 → k' < 2 * min b1.1.l b2.1.l + 1 →
        ∀ c c', axSum (axisDim irr) (f ++ g) (z (max b1.1.l b2.1.l - min b1.1.l b2.1.l + k) c * z (max b1.1.l b2.1.l - min b1.1.l b2.1.l + k') c') = if k = k' ∧ (c : ℕ) = c' then 1 else 0 := by
    intro b1 h1 b2 h2
    obtain ⟨x, hx, xo, -⟩ := (gA b1 h1).exists
    obtain ⟨y, hy, yo, -⟩ := (gB b2 h2).exists
    have gx := gram_ofFn (d := axisDim irr) (f := f) (v := x) (by rw [← hx]; exact pA1 b1 h1) (fun t ht => hA.norm t (List.mem_flatMap.mpr ⟨b1, h1, by rw [hx]; exact ht⟩))
    have gy := gram_ofFn (d := axisDim irr) (f := g) (v := y) (by rw [← hy]; exact pB1 b2 h2) (fun t ht => hB.norm t (List.mem_flatMap.mpr ⟨b2, h2, by rw [hy]; exact ht⟩))
    refine ⟨fun l c => ∑ a, ∑ b, (Real.sqrt (2 * (l : ℝ) + 1) * SU2.clebschGordan b1.1.l b2.1.l l a b c) • (x a * y b), ?_, ?_⟩
    · intro ir
      rw [hx, hy, bilinear_coefK]
    · intro k k' hk hk' c c'
      exact axSum_same (axisDim irr) hfg xo yo gx gy k k' hk hk' c c'
  have hmul : ∀ i1 i2 : Irrep, i1.mul i2 = (List.range (2 * min i1.l i2.l + 1)).map fun k => ⟨max i1.l i2.l - min i1.l i2.l + k, i1.p.mul i2.p⟩ := by
    intro i1 i2
    unfold Irrep.mul
    have hl : i1.l + i2.l + 1 - (max i1.l i2.l - min i1.l i2.l) = 2 * min i1.l i2.l + 1 := by omega
    simp only [hl]
    rw [List.range'_eq_map_range, List.map_map]; rfl
  rw [hL]
  refine ⟨?_, ?_, ?_⟩
  · rw [List.pairwise_flatMap]
    refine ⟨fun b1 h1 => ?_, ?_⟩
    · rw [List.pairwise_flatMap]
      refine ⟨fun b2 h2 => ?_, ?_⟩
      · obtain ⟨z, z1, z2⟩ := hsame b1 h1 b2 h2
        simp only [z1]
        rw [hmul, List.flatMap_map, List.pairwise_flatMap]
        refine ⟨fun k hk => ?_, ?_⟩
        · rw [List.mem_range] at hk
          rw [List.pairwise_ofFn]
          intro c c' hc
          rw [z2 k k hk hk c c', if_neg]
          intro e; have := e.2; have : (c : ℕ) < c' := hc; omega
        · refine List.pairwise_lt_range.imp_of_mem fun {k k'} hk hk' hlt => ?_
          rw [List.mem_range] at hk hk'
          intro u hu w hw
          obtain ⟨c, rfl⟩ := (List.mem_ofFn' _ _).mp hu
          obtain ⟨c', rfl⟩ := (List.mem_ofFn' _ _).mp hw
          rw [z2 k k' hk hk' c c', if_neg]
          intro e; omega
      · refine pB2.imp_of_mem fun {b2 b2'} h2 h2' h => ?_
        intro u hu w hw
        obtain ⟨m, n, x, y, c, x1, y1, xo, yo, rfl⟩ := hmem b1 h1 b2 h2 u hu
        obtain ⟨m', n', x', y', c', x1', y1', xo', yo', rfl⟩ := hmem b1 h1 b2' h2' w hw
        rw [axSum_pairs _ hfg xo yo xo' yo']
        simp only [fun b b' => h (y b) (y1 b) (y' b') (y1' b'), mul_zero, smul_zero, Finset.sum_const_zero]
    · refine pA2.imp_of_mem fun {b1 b1'} h1 h1' h => ?_
      intro u hu w hw
      obtain ⟨b2, h2, hu⟩ := List.mem_flatMap.mp hu
      obtain ⟨b2', h2', hw⟩ := List.mem_flatMap.mp hw
      obtain ⟨m, n, x, y, c, x1, y1, xo, yo, rfl⟩ := hmem b1 h1 b2 h2 u hu
      obtain ⟨m', n', x', y', c', x1', y1', xo', yo', rfl⟩ := hmem b1' h1' b2' h2' w hw
      rw [axSum_pairs _ hfg xo yo xo' yo']
      simp only [fun b b' => h (x b) (x1 b) (x' b') (x1' b'), zero_mul, smul_zero, Finset.sum_const_zero]
  · intro u hu
    obtain ⟨b1, h1, hu⟩ := List.mem_flatMap.mp hu
    obtain ⟨b2, h2, hu⟩ := List.mem_flatMap.mp hu
    obtain ⟨z, z1, z2⟩ := hsame b1 h1 b2 h2
    simp only [z1] at hu
    rw [hmul, List.flatMap_map] at hu
    obtain ⟨k, hk, hu⟩ := List.mem_flatMap.mp hu
    rw [List.mem_range] at hk
    obtain ⟨c, rfl⟩ := (List.mem_ofFn' _ _).mp hu
    rw [z2 k k hk hk c c, if_pos ⟨rfl, rfl⟩]
  · intro t ht σ hσ
    have oA : ∀ x ∈ A.flatMap Prod.snd, On f x := by
      intro x hx
      obtain ⟨p, hp, hx⟩ := List.mem_flatMap.mp hx
      exact (gA p hp).on x hx
    have oB : ∀ x ∈ B.flatMap Prod.snd, On g x := by
      intro x hx
      obtain ⟨p, hp, hx⟩ := List.mem_flatMap.mp hx
      exact (gB p hp).on x hx
    rw [outer_complete hG hfg hA hB oA oB ht hσ]
    have hexp : ∀ {α : Type} (l : List α) (F : α → List Ten), expansion (axisDim irr) (f ++ g) (l.flatMap F) t σ = (l.map fun a => expansion (axisDim irr) (f ++ g) (F a) t σ).sum := by
      intro α l F
      unfold expansion
      rw [List.map_flatMap, sum_flatMap]
    have hsumf : ∀ (l : List (Irrep × List Ten)) (F : Ten → ℝ), ((l.flatMap Prod.snd).map F).sum = (l.map fun p => (p.2.map F).sum).sum := by
      intro l F
      rw [List.map_flatMap, sum_flatMap]
    rw [hexp, hsumf]
    congr 1
    apply List.map_congr_left
    intro b1 h1
    rw [hexp]
    obtain ⟨x, hx, xo, -⟩ := (gA b1 h1).exists
    have e1 : (B.map fun b2 => expansion (axisDim irr) (f ++ g) ((b1.1.mul b2.1).flatMap fun ir =>
        bilinear (algebraMap ℝ Ten (Real.sqrt (2 * (ir.l : ℝ) + 1))) ((realCtx Ten).cg b1.1.l b2.1.l ir.l) b1.1.l b2.1.l ir.l b1.2 b2.2) t σ) =
        B.map fun b2 => (b1.2.map fun x => (b2.2.map fun y => (x * y) σ * axSum (axisDim irr) (f ++ g) (x * y * t) σ).sum).sum := by
      apply List.map_congr_left
      intro b2 h2
      obtain ⟨y, hy, yo, -⟩ := (gB b2 h2).exists
      rw [hexp, hx, hy, pair_expansion, List.map_ofFn, List.sum_ofFn]
      refine sum_congr rfl fun a _ => ?_
      simp only [Function.comp_apply]
      rw [List.map_ofFn, List.sum_ofFn]; rfl
    rw [e1]
    simp only [hsumf]
    exact list_sum_comm _ _ _

end E3nn.RTP
