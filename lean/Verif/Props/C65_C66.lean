import Verif.Props.C48

/-!
# C65, C66: derivatives of the spherical harmonics, agreement of the algorithms
-/

namespace E3nn.SH

open E3nn.SU2 E3nn.Wig E3nn.Rot E3nn.IArr Matrix Polynomial

theorem family_eq {nrm : Normalization} {f : (l : ℕ) → (Fin 3 → ℝ) → Fin (2 * l + 1) → ℝ} (hf : ∀ l, IsSphericalHarmonics (sphLength nrm l) l (f l)) : f = Y nrm :=
  funext fun l => C48_unique (hf l) (Y_spec nrm l)

theorem JY_apply (nrm : Normalization) (n : ℕ) (x v : Fin 3 → ℝ) (j : Fin (2 * (n + 1) + 1)) :
    JY nrm n x v j = gradW nrm (n + 1) * ∑ i, ∑ k : Fin 3, clebschGordan n (n + 1) 1 i j k * Y nrm n x i * v k := by
  unfold JY
  simp only [Pi.smul_apply, smul_eq_mul, Matrix.mulVec, dotProduct, Matrix.transpose_apply, cgMat, Matrix.of_apply, Finset.sum_mul]
  rw [Finset.sum_comm]

theorem jvpH_ok (nrm : Normalization) {alg : List String} (h : "dense" ∈ alg ∨ "sparse" ∈ alg) (n : ℕ) (x v : Fin 3 → ℝ) :
    jvpH nrm alg (n + 1) ⟨n + 1 - 1, Y nrm (n + 1 - 1) x⟩ v = .ok (JY nrm n x v) := by
  unfold jvpH
  by_cases hd : "dense" ∈ alg
  · rw [if_pos hd]
    congr 1
    funext j
    rw [JY_apply, Finset.mul_sum]
    refine Finset.sum_congr rfl fun i _ => ?_
    rw [Finset.mul_sum]
    refine Finset.sum_congr rfl fun k _ => ?_
    change (if h : i.val < 2 * n + 1 then Y nrm n x ⟨i.val, h⟩ else 0) * v k * (clebschGordan n (n + 1) 1 i j k * gradW nrm (n + 1)) = _
    rw [dif_pos (show i.val < 2 * n + 1 from i.isLt)]
    change Y nrm n x i * v k * (clebschGordan n (n + 1) 1 i j k * gradW nrm (n + 1)) = _
    ring
  · rw [if_neg hd, if_pos (h.resolve_left hd)]
    congr 1
    funext j
    rw [JY_apply, Finset.mul_sum, Finset.sum_filter, ← Finset.univ_product_univ, Finset.sum_product]
    refine Finset.sum_congr rfl fun i _ => ?_
    rw [Finset.mul_sum]
    refine Finset.sum_congr rfl fun k _ => ?_
    change (if clebschGordan n (n + 1) 1 i j k * gradW nrm (n + 1) ≠ 0 then clebschGordan n (n + 1) 1 i j k * gradW nrm (n + 1) *
      (if h : i.val < 2 * n + 1 then Y nrm n x ⟨i.val, h⟩ else 0) * v k else 0) = _
    rw [dif_pos (show i.val < 2 * n + 1 from i.isLt)]
    change (if clebschGordan n (n + 1) 1 i j k * gradW nrm (n + 1) ≠ 0 then clebschGordan n (n + 1) 1 i j k * gradW nrm (n + 1) * Y nrm n x i * v k else 0) = _
    by_cases hw : clebschGordan n (n + 1) 1 i j k * gradW nrm (n + 1) = 0
    · rw [if_neg (not_not.mpr hw)]
      linear_combination (-(Y nrm n x i * v k)) * hw
    · rw [if_pos hw]; ring

theorem jvp_split (nrm : Normalization) (x : Fin 3 → ℝ) (ls : List ℕ) :
    ((ls ++ ls.map fun l => max 0 (l - 1)).map fun l => (⟨l, Y nrm l x⟩ : Vals)).take ls.length = (ls.map fun l => ⟨l, Y nrm l x⟩) ∧
    ls.zip (((ls ++ ls.map fun l => max 0 (l - 1)).map fun l => (⟨l, Y nrm l x⟩ : Vals)).drop ls.length) =
      ls.map fun l => (l, ⟨l - 1, Y nrm (l - 1) x⟩) := by
  constructor
  · rw [List.map_append, List.take_left' (by simp)]
  · rw [List.map_append, List.drop_left' (by simp)]
    simp only [Nat.zero_max]
    induction ls with
    | nil => rfl
    | cons a ls ih => simp only [List.map_cons, List.zip_cons_cons, ih]

/-- **C65 (derivative rule).** The tangent returned by the rule of `jax.custom_jvp` is the derivative of the returned value in the direction of the
tangent of the input, for every algorithm with `dense` or `sparse`, every normalisation and every point (including the origin). -/
theorem C65_jvp {alg : List String} (halg : AlgOk alg) (hd : "dense" ∈ alg ∨ "sparse" ∈ alg) (nrm : Normalization) (ls : List ℕ) (hls : ls ≠ []) :
    ∃ f : (l : ℕ) → (Fin 3 → ℝ) → Fin (2 * l + 1) → ℝ, ∀ x,
      shCore nrm alg ls x = .ok (ls.map fun l => ⟨l, f l x⟩) ∧
      ∃ f' : (l : ℕ) → (Fin 3 → ℝ) →L[ℝ] (Fin (2 * l + 1) → ℝ), (∀ l, HasFDerivAt (f l) (f' l) x) ∧
        ∀ xdot, shJvp nrm alg ls x xdot = .ok (ls.map fun l => ⟨l, f l x⟩, ls.map fun l => ⟨l, f' l xdot⟩) := by
  have hcore := halg.core nrm
  refine ⟨Y nrm, fun x => ⟨hcore ls hls x, fun l => fderiv ℝ (Y nrm l) x, fun l => (Y_differentiable nrm l x).hasFDerivAt, fun xdot => ?_⟩⟩
  unfold shJvp
  simp only
  rw [hcore _ (by simpa using hls)]
  simp only
  obtain ⟨e1, e2⟩ := jvp_split nrm x ls
  rw [e1, e2]
  have e3 : ((ls.map fun l => (l, (⟨l - 1, Y nrm (l - 1) x⟩ : Vals))).mapM fun q =>
      if q.1 > 0 then (jvpH nrm alg q.1 q.2 xdot).map fun v => (⟨q.1, v⟩ : Vals) else .ok ⟨q.2.1, fun _ => 0⟩) =
      .ok ((ls.map fun l => (l, (⟨l - 1, Y nrm (l - 1) x⟩ : Vals))).map fun q => (⟨q.1, fderiv ℝ (Y nrm q.1) x xdot⟩ : Vals)) := by
    apply mapM_ok
    intro q hq
    obtain ⟨l, -, rfl⟩ := List.mem_map.mp hq
    cases l with
    | zero =>
      simp only [gt_iff_lt, lt_irrefl, if_false]
      congr 2
      have : Y nrm 0 = fun _ _ => cst0 nrm := by funext x; rw [Y_zero]
      rw [this]; simp
      rfl
    | succ n =>
      simp only [gt_iff_lt, Nat.succ_pos, if_true]
      rw [jvpH_ok nrm hd]
      simp only [Except.map]
      congr 2
      exact (DY_eq_JY nrm n x xdot).symm
  rw [e3, List.map_map]
  rfl

theorem mapM_error {α β : Type} (f : α → Except PyErr β) (l : List α) (e : PyErr) (h : ∀ a ∈ l, f a = .error e ∨ ∃ b, f a = .ok b) (hx : ∃ a ∈ l, f a = .error e) :
    l.mapM f = .error e := by
  induction l with
  | nil => obtain ⟨a, ha, -⟩ := hx; cases ha
  | cons a l ih =>
    rw [List.mapM_cons]
    rcases h a (by simp) with h1 | ⟨b, h1⟩
    · rw [h1]; rfl
    · rw [h1]
      have : ∃ a ∈ l, f a = .error e := by
        obtain ⟨c, hc, hf⟩ := hx
        rcases List.mem_cons.mp hc with rfl | hc
        · rw [h1] at hf; cases hf
        · exact ⟨c, hc, hf⟩
      have := ih (fun c hc => h c (by simp [hc])) this
      show (l.mapM f >>= fun bs => pure (b :: bs)) = _
      rw [this]; rfl

/-- **C65 (derivative rule, refusal).** Without `dense` or `sparse` the rule raises as soon as a degree is positive (`legendre` alone has values but no derivative
with `custom_jvp`). -/
theorem C65_jvp_refuse {alg : List String} (halg : AlgOk alg) (h1 : "dense" ∉ alg) (h2 : "sparse" ∉ alg) (nrm : Normalization) (ls : List ℕ) (hl : ∃ l ∈ ls, 0 < l)
    (x xdot : Fin 3 → ℝ) : shJvp nrm alg ls x xdot = .error .valueError := by
  have hne : ls ≠ [] := by rintro rfl; obtain ⟨l, h, -⟩ := hl; cases h
  unfold shJvp
  simp only
  rw [halg.core nrm _ (by simpa using hne)]
  simp only
  rw [(jvp_split nrm x ls).2, mapM_error _ _ .valueError]
  · intro q hq
    by_cases h : q.1 > 0
    · left; rw [if_pos h]; unfold jvpH; rw [if_neg h1, if_neg h2]; rfl
    · right; rw [if_neg h]; exact ⟨_, rfl⟩
  · obtain ⟨l, hl, h0⟩ := hl
    refine ⟨_, List.mem_map.mpr ⟨l, hl, rfl⟩, ?_⟩
    rw [if_pos h0]; unfold jvpH; rw [if_neg h1, if_neg h2]; rfl

/-- **C65 (recursions).** `Y^{l+1}_i(x) = c C_{ijk} Y^l_j(x) x_k` and `∂_k Y^{l+1}_i(x) = c (l+1) C_{ijk} Y^l_j(x)` with the same constant. -/
theorem C65_recursion (nrm : Normalization) {f : (l : ℕ) → (Fin 3 → ℝ) → Fin (2 * l + 1) → ℝ} (hf : ∀ l, IsSphericalHarmonics (sphLength nrm l) l (f l)) (l : ℕ) :
    ∃ c : ℝ, 0 < c ∧ ∀ x i, f (l + 1) x i = c * ∑ j, ∑ k : Fin 3, clebschGordan l (l + 1) 1 j i k * f l x j * x k ∧
      ∀ k : Fin 3, fderiv ℝ (f (l + 1)) x (Pi.single k 1) i = c * (l + 1) * ∑ j, clebschGordan l (l + 1) 1 j i k * f l x j := by
  have hl : ((l : ℝ) + 1) ≠ 0 := by positivity
  refine ⟨gradW nrm (l + 1) / (l + 1), ?_, fun x i => ⟨?_, fun k => ?_⟩⟩
  · apply _root_.div_pos _ (by positivity)
    cases nrm
    · simp only [gradW]; positivity
    · simp only [gradW]; positivity
    · simp only [gradW]
      apply Real.sqrt_pos.mpr
      push_cast
      have : (0 : ℝ) < 2 * (l + 1) - 1 := by have : (0 : ℝ) ≤ l := Nat.cast_nonneg l; linarith
      positivity
  · rw [family_eq hf]
    have h := congrFun (DY_euler nrm (l + 1) x) i
    rw [DY_eq_JY, JY_apply] at h
    simp only [Pi.smul_apply, smul_eq_mul] at h
    push_cast at h
    field_simp
    linarith
  · rw [family_eq hf]
    have h := congrFun (DY_eq_JY nrm l x (Pi.single k 1)) i
    rw [JY_apply] at h
    unfold DY at h
    rw [h, div_mul_cancel₀ _ hl]
    congr 1
    refine Finset.sum_congr rfl fun j _ => ?_
    rw [Finset.sum_eq_single k]
    · simp
    · intro b _ hb; simp [hb]
    · intro h; exact absurd (Finset.mem_univ _) h

/-! ### harmonic -/

theorem cg_inv {l1 l2 : ℕ} {R : Mat} (hR : IsRotation R) (j' : Fin (2 * l1 + 1)) (i : Fin (2 * l2 + 1)) (k' : Fin (2 * 1 + 1)) :
    ∑ k, repD 1 R k k' * ∑ j, clebschGordan l1 l2 1 j i k * repD l1 R j j' = ∑ i', clebschGordan l1 l2 1 j' i' k' * repD l2 R i i' := by
  have h := cgMat_rot l2 1 hR (Pi.single j' (1 : ℝ))
  have h2 : (repD 1 R)ᵀ * cgMat l2 1 (repD l1 R *ᵥ Pi.single j' (1 : ℝ)) = cgMat l2 1 (Pi.single j' (1 : ℝ)) * (repD l2 R)ᵀ := by
    rw [h, ← Matrix.mul_assoc, ← Matrix.mul_assoc, mul_eq_one_comm.mp (repD_orth 1 hR), Matrix.one_mul]
  have h3 := congrFun (congrFun h2 k') i
  simp only [Matrix.mul_apply, Matrix.transpose_apply, cgMat, Matrix.of_apply, Matrix.mulVec_single_one, Matrix.col_apply] at h3
  rw [h3]
  refine Finset.sum_congr rfl fun i' _ => ?_
  congr 1
  rw [Finset.sum_eq_single j']
  · simp
  · intro b _ hb; simp [hb]
  · intro h; exact absurd (Finset.mem_univ _) h

/-- The contraction of two gradients. -/
noncomputable def lapMat (n : ℕ) : Matrix (Fin (2 * (n + 2) + 1)) (Fin (2 * n + 1)) ℝ :=
  Matrix.of fun i j' => ∑ k : Fin (2 * 1 + 1), ∑ j, clebschGordan (n + 1) (n + 2) 1 j i k * clebschGordan n (n + 1) 1 j' j k

theorem cg_fst {l1 l2 : ℕ} {R : Mat} (hR : IsRotation R) (a : Fin (2 * l1 + 1)) (j : Fin (2 * l2 + 1)) (k : Fin (2 * 1 + 1)) :
    ∑ j', clebschGordan l1 l2 1 j' j k * repD l1 R j' a = ∑ k', ∑ j'', clebschGordan l1 l2 1 a j'' k' * repD l2 R j j'' * repD 1 R k k' := by
  have h := cgMat_rot l2 1 hR (Pi.single a (1 : ℝ))
  rw [Matrix.mul_assoc] at h
  have h3 := congrFun (congrFun h k) j
  simp only [Matrix.mul_apply, Matrix.transpose_apply, cgMat, Matrix.of_apply, Matrix.mulVec_single_one, Matrix.col_apply] at h3
  rw [h3]
  refine Finset.sum_congr rfl fun k' _ => ?_
  rw [Finset.mul_sum]
  refine Finset.sum_congr rfl fun j'' _ => ?_
  rw [Finset.sum_eq_single a]
  · simp; ring
  · intro b _ hb; simp [hb]
  · intro h; exact absurd (Finset.mem_univ _) h

theorem lapMat_zero (n : ℕ) : lapMat n = 0 := by
  refine so3_inequivalent (by omega) (lapMat n) ?_
  intro R hR
  ext i a
  simp only [Matrix.mul_apply, lapMat, Matrix.of_apply]
  calc ∑ j', (∑ k : Fin (2 * 1 + 1), ∑ j, clebschGordan (n + 1) (n + 2) 1 j i k * clebschGordan n (n + 1) 1 j' j k) * repD n R j' a
      = ∑ k : Fin (2 * 1 + 1), ∑ j, clebschGordan (n + 1) (n + 2) 1 j i k * ∑ j', clebschGordan n (n + 1) 1 j' j k * repD n R j' a := by
        simp only [Finset.sum_mul, Finset.mul_sum]
        rw [Finset.sum_comm]
        refine Finset.sum_congr rfl fun k _ => ?_
        rw [Finset.sum_comm]
        exact Finset.sum_congr rfl fun j _ => Finset.sum_congr rfl fun j' _ => by ring
    _ = ∑ k' : Fin (2 * 1 + 1), ∑ j'', clebschGordan n (n + 1) 1 a j'' k' * ∑ k : Fin (2 * 1 + 1), repD 1 R k k' * ∑ j, clebschGordan (n + 1) (n + 2) 1 j i k * repD (n + 1) R j j'' := by
        conv_lhs => simp only [cg_fst hR, Finset.mul_sum]
        conv_rhs => simp only [Finset.mul_sum]
        calc _ = ∑ k : Fin (2 * 1 + 1), ∑ k' : Fin (2 * 1 + 1), ∑ j, ∑ j'', clebschGordan (n + 1) (n + 2) 1 j i k * (clebschGordan n (n + 1) 1 a j'' k' * repD (n + 1) R j j'' * repD 1 R k k') :=
              Finset.sum_congr rfl fun k _ => Finset.sum_comm
          _ = ∑ k' : Fin (2 * 1 + 1), ∑ k : Fin (2 * 1 + 1), ∑ j'', ∑ j, clebschGordan (n + 1) (n + 2) 1 j i k * (clebschGordan n (n + 1) 1 a j'' k' * repD (n + 1) R j j'' * repD 1 R k k') := by
              rw [Finset.sum_comm]
              exact Finset.sum_congr rfl fun k' _ => Finset.sum_congr rfl fun k _ => Finset.sum_comm
          _ = _ := by
              refine Finset.sum_congr rfl fun k' _ => ?_
              rw [Finset.sum_comm]
              exact Finset.sum_congr rfl fun j'' _ => Finset.sum_congr rfl fun k _ => Finset.sum_congr rfl fun j _ => by ring
    _ = ∑ k' : Fin (2 * 1 + 1), ∑ j'', clebschGordan n (n + 1) 1 a j'' k' * ∑ i', clebschGordan (n + 1) (n + 2) 1 j'' i' k' * repD (n + 2) R i i' := by
        simp only [cg_inv hR]
    _ = _ := by
        simp only [Finset.mul_sum]
        calc _ = ∑ k' : Fin (2 * 1 + 1), ∑ i', ∑ j'', clebschGordan n (n + 1) 1 a j'' k' * (clebschGordan (n + 1) (n + 2) 1 j'' i' k' * repD (n + 2) R i i') :=
              Finset.sum_congr rfl fun k' _ => Finset.sum_comm
          _ = _ := by
              rw [Finset.sum_comm]
              exact Finset.sum_congr rfl fun i' _ => Finset.sum_congr rfl fun k' _ => Finset.sum_congr rfl fun j'' _ => by ring

/-- **C65 (harmonic).** The Laplacian of the spherical harmonics is zero. -/
theorem C65_harmonic (nrm : Normalization) {f : (l : ℕ) → (Fin 3 → ℝ) → Fin (2 * l + 1) → ℝ} (hf : ∀ l, IsSphericalHarmonics (sphLength nrm l) l (f l)) (l : ℕ)
    (x : Fin 3 → ℝ) (i : Fin (2 * l + 1)) :
    ∑ k : Fin 3, fderiv ℝ (fun y => fderiv ℝ (f l) y (Pi.single k 1) i) x (Pi.single k 1) = 0 := by
  rw [family_eq hf]
  match l, i with
  | 0, i =>
    have : Y nrm 0 = fun _ _ => cst0 nrm := by funext x; rw [Y_zero]
    rw [this]; simp
  | n + 1, i =>
    obtain ⟨c, -, hc⟩ := C65_recursion nrm (fun l => Y_spec nrm l) n
    have h1 : ∀ k : Fin 3, fderiv ℝ (fun y => fderiv ℝ (Y nrm (n + 1)) y (Pi.single k 1) i) x (Pi.single k 1) =
        c * (n + 1) * ∑ j, clebschGordan n (n + 1) 1 j i k * fderiv ℝ (Y nrm n) x (Pi.single k 1) j := by
      intro k
      have e : (fun y => fderiv ℝ (Y nrm (n + 1)) y (Pi.single k 1) i) = fun y => c * (n + 1) * ∑ j, clebschGordan n (n + 1) 1 j i k * Y nrm n y j :=
        funext fun y => (hc y i).2 k
      rw [e]
      have hd : ∀ j, HasFDerivAt (fun y => Y nrm n y j) ((ContinuousLinearMap.proj j).comp (fderiv ℝ (Y nrm n) x)) x := fun j =>
        hasFDerivAt_pi'.mp (Y_differentiable nrm n x).hasFDerivAt j
      have hs : HasFDerivAt (fun y => c * (n + 1) * ∑ j, clebschGordan n (n + 1) 1 j i k * Y nrm n y j)
          ((c * (n + 1)) • ∑ j, clebschGordan n (n + 1) 1 j i k • ((ContinuousLinearMap.proj j).comp (fderiv ℝ (Y nrm n) x))) x :=
        (HasFDerivAt.fun_sum fun j _ => (hd j).const_mul _).const_mul _
      rw [hs.fderiv]
      simp
    simp only [h1]
    match n, i with
    | 0, i =>
      have : Y nrm 0 = fun _ _ => cst0 nrm := by funext x; rw [Y_zero]
      rw [this]; simp
    | m + 1, i =>
      obtain ⟨c', -, hc'⟩ := C65_recursion nrm (fun l => Y_spec nrm l) m
      simp only [(hc' _ _).2]
      have hz : ∀ j', ∑ k : Fin (2 * 1 + 1), ∑ j, clebschGordan (m + 1) (m + 2) 1 j i k * clebschGordan m (m + 1) 1 j' j k = 0 := fun j' =>
        congrFun (congrFun (lapMat_zero m) i) j'
      have : ∑ k : Fin 3, ∑ j, clebschGordan (m + 1) (m + 1 + 1) 1 j i k * (c' * (m + 1) * ∑ j', clebschGordan m (m + 1) 1 j' j k * Y nrm m x j') =
          c' * (m + 1) * ∑ j', (∑ k : Fin (2 * 1 + 1), ∑ j, clebschGordan (m + 1) (m + 2) 1 j i k * clebschGordan m (m + 1) 1 j' j k) * Y nrm m x j' := by
        simp only [Finset.mul_sum, Finset.sum_mul]
        calc _ = ∑ k : Fin 3, ∑ j', ∑ j, clebschGordan (m + 1) (m + 1 + 1) 1 j i k * (c' * (m + 1) * (clebschGordan m (m + 1) 1 j' j k * Y nrm m x j')) :=
              Finset.sum_congr rfl fun k _ => Finset.sum_comm
          _ = _ := by
              rw [Finset.sum_comm]
              exact Finset.sum_congr rfl fun j' _ => Finset.sum_congr rfl fun k _ => Finset.sum_congr rfl fun j _ => by ring
      rw [← Finset.mul_sum, this]
      simp only [hz, zero_mul, Finset.sum_const_zero, mul_zero]

/-- A concrete case for C65: the default algorithm. -/
example : AlgOk ["recursive", "dense", "custom_jvp"] ∧ ("dense" ∈ ["recursive", "dense", "custom_jvp"] ∨ "sparse" ∈ ["recursive", "dense", "custom_jvp"]) ∧ [0, 3] ≠ ([] : List ℕ) := by
  unfold AlgOk; simp

/-! ### C66 -/

/-- **C66 (algorithms).** All algorithms return the same arrays: for every input, `spherical_harmonics` returns (or raises) the same with two accepted values of
`algorithm`. -/
theorem C66_algorithms {ι : Type} (cfg : Option (List String)) {a b : List String} (ha : AlgOk a) (hb : AlgOk b) (nrm : Normalization) (out : IrrepsOut) (input : Input ι)
    (normalize : Bool) :
    sphericalHarmonics cfg out input normalize nrm (some a) = sphericalHarmonics cfg out input normalize nrm (some b) ∧
    sphericalHarmonics cfg out input normalize nrm (some a) = sphericalHarmonics none out input normalize nrm none := by
  have key : ∀ ms : Irreps, ms.numIrreps ≠ 0 → ∀ a b, AlgOk a → AlgOk b → evaluate ms input.cols normalize nrm a = evaluate ms input.cols normalize nrm b := by
    intro ms hms a b ha hb
    have hne : (ms.map fun m => m.ir.l) ≠ [] := by
      intro h; rw [List.map_eq_nil_iff] at h; rw [h] at hms; exact hms rfl
    have hk : ∀ a, AlgOk a → (!(a.all fun k => k ∈ ["legendre", "recursive", "dense", "sparse", "custom_jvp"])) = false := by
      intro a ha
      have h := ha.1
      simp only [Bool.not_eq_false', List.all_eq_true, decide_eq_true_eq]
      intro k hk
      simpa using h k hk
    unfold evaluate
    rw [hk a ha, hk b hb]
    simp only [ha.core nrm _ hne, hb.core nrm _ hne]
  constructor
  · unfold sphericalHarmonics resolveAlgorithm
    split
    · rfl
    · split
      · rfl
      · split
        · rfl
        · split
          · rfl
          · split
            · rfl
            · rename_i h0; exact key _ h0 a b ha hb
  · unfold sphericalHarmonics
    split
    · rfl
    · split
      · rfl
      · split
        · rfl
        · split
          · rfl
          · split
            · rfl
            · rename_i ms _ _ _ _ _ h0
              obtain ⟨alg, e, hok⟩ := chooseAlgorithm_ok (cfg := none) (algorithm := none) (by intro a h; cases h) h0
              rw [e]
              simp only [resolveAlgorithm]
              exact key _ h0 a alg ha hok

/-- **C66 (standard formula).** In spherical coordinates around the `y` axis, the spherical harmonics are the standard real ones: with
`P_l(z) = (d/dz)^l (z^2 - 1)^l / (2^l l!)`, the component `m` is `c_l P_l(cos β)` for `m = 0` and
`c_l sqrt(2 (l-m)!/(l+m)!) sin(β)^m P_l^{(m)}(cos β)` times `cos(m α)` or `sin(m α)` for the indices `l + m` and `l - m`. -/
theorem C66_standard (nrm : Normalization) (l : ℕ) {f : (Fin 3 → ℝ) → Fin (2 * l + 1) → ℝ} (hf : IsSphericalHarmonics (sphLength nrm l) l f) (α β : ℝ) (m : ℕ) (hm : m ≤ l) :
    let x := ![Real.sin β * Real.sin α, Real.cos β, Real.sin β * Real.cos α]
    let P := (derivative^[m] (C ((1 : ℝ) / (2 ^ l * l.factorial)) * derivative^[l] ((X ^ 2 - 1) ^ l))).eval (Real.cos β)
    (m = 0 → f x ⟨l, by omega⟩ = sphLength nrm l * P) ∧
    (0 < m → f x ⟨l + m, by omega⟩ = sphLength nrm l * Real.sqrt (2 * ((l - m).factorial / (l + m).factorial)) * Real.sin β ^ m * P * Real.cos (m * α) ∧
      f x ⟨l - m, by omega⟩ = sphLength nrm l * Real.sqrt (2 * ((l - m).factorial / (l + m).factorial)) * Real.sin β ^ m * P * Real.sin (m * α)) := by
  intro x P
  have hx : x = matrixY α *ᵥ (matrixX β *ᵥ ey) := by
    funext i
    fin_cases i <;> simp [x, matrixX, matrixY, ey, Matrix.mulVec, dotProduct, Fin.sum_univ_three] <;> ring
  have hY : f x = poleVal nrm l • (rotY l α *ᵥ uvec l β) := by
    rw [C48_unique hf (Y_spec nrm l), hx, Y_rot nrm (matrixY_rot _), Y_rot nrm (matrixX_rot _), repD_matrixX, repD_matrixY, Y_pole]
    have : (fun k => if k = mid l then poleVal nrm l else 0) = poleVal nrm l • eMid l := by
      funext k; simp [eMid]
    rw [this, Matrix.mulVec_smul, Matrix.mulVec_smul, rotX_mid]
  have hP : P = PD l m (Real.cos β) := rfl
  rw [hY, ← poleVal_eq]
  simp only [Pi.smul_apply, smul_eq_mul, rotY_uvec]
  refine ⟨fun h0 => ?_, fun h0 => ⟨?_, ?_⟩⟩
  · rw [dif_neg (by simp)]
    unfold uvec pm
    rw [hP, h0]
    simp
  · rw [dif_neg (by simp), hP]
    unfold uvec pm
    simp only
    rw [if_neg (by omega), if_neg (by omega), show 2 * l - (l + m) = l - m by omega, show l + m - l = m by omega, Real.sqrt_mul (by norm_num)]
    have : ((l : ℝ) - ((l + m : ℕ) : ℝ)) * α = -(m * α) := by push_cast; ring
    rw [this, Real.cos_neg]
    ring
  · rw [dif_pos (by omega), hP]
    unfold uvec pm
    simp only
    rw [if_neg (by omega), if_neg (by omega), show 2 * l - (2 * l - (l - m)) = l - m by omega, show 2 * l - (l - m) = l + m by omega,
      show l + m - l = m by omega, Real.sqrt_mul (by norm_num)]
    have : ((l : ℝ) - ((l - m : ℕ) : ℝ)) * α = m * α := by rw [Nat.cast_sub hm]; ring
    rw [this]
    ring

end E3nn.SH
