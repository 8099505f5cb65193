import Verif.Lemmas.Shape
import Verif.Props.C59
import Verif.Props.C04_C11

/-!
# C112: the shape of the leading axes
-/

namespace E3nn.Shp

open E3nn.IArr E3nn.Wig

/-- **C112 (row-major order).** The positions used by `reshape` number the indices of a shape `0, 1, 2, …` in lexicographic order. -/
theorem C112_order (s : List ℕ) :
    (∀ i, IsIdx s i → flat s i < s.prod) ∧ (∀ k < s.prod, ∃ i, IsIdx s i ∧ flat s i = k) ∧
    (∀ i j, IsIdx s i → IsIdx s j → (flat s i < flat s j ↔ i < j)) ∧ (∀ i j, IsIdx s i → IsIdx s j → flat s i = flat s j → i = j) :=
  ⟨fun _ => flat_lt, fun _ hk => ⟨_, unflat_idx hk, flat_unflat hk⟩, fun _ _ => flat_lex, fun i j hi hj h => by
    rw [← unflat_flat hi, h, unflat_flat hj]⟩

/-! ### rows -/

theorem blocksOf_map {α β : Type} (f : α → β) (s : List Irrep) (a : List α) : blocksOf s (a.map f) = (blocksOf s a).map fun b => (b.1, b.2.map f) := by
  induction s generalizing a with
  | nil => rfl
  | cons ir s ih => simp only [blocksOf, ← List.map_take, ← List.map_drop, ih, List.map_cons]

/-- **C112 (a transformation acts on each row).** -/
theorem C112_transform_rows (R : Matrix (Fin 3) (Fin 3) ℝ) (x : NArr ℝ) (hx : x.val.Coherent) :
    ∃ v, x.val.transformByMatrix R = .ok v ∧ v.Coherent ∧ v.irreps = x.val.irreps ∧ v.zeroFlags = x.val.zeroFlags ∧
      ∀ i, IsIdx x.lead i → row ⟨x.lead, v⟩ i = actL R (expand x.val.irreps) (row x i) := by
  obtain ⟨v, v1, v2, v3, v4, v5⟩ := C59_transform R x.val hx
  refine ⟨v, v1, v2, v3, v4, fun i hi => ?_⟩
  have hk := flat_lt hi
  unfold row actL
  rw [← v2.inv.array_eq_blocks, v5, blocksOf_map]
  simp only [List.map_flatten, List.map_map]
  congr 1
  apply List.map_congr_left
  intro b _
  have e : (fun col : Fin x.lead.prod → ℝ => at0 col (flat x.lead i)) = (LinearMap.proj ⟨flat x.lead i, hk⟩ : (Fin x.lead.prod → ℝ) →ₗ[ℝ] ℝ) := by
    funext col; exact at0_lt col hk
  simp only [Function.comp_apply, e]
  exact matVec_map (LinearMap.proj ⟨flat x.lead i, hk⟩ : (Fin x.lead.prod → ℝ) →ₗ[ℝ] ℝ) _ _

variable {α : Type} [Zero α]

theorem row_length {x : NArr α} (hx : x.val.Coherent) (i : List ℕ) : (row x i).length = dimOf (expand x.val.irreps) := by
  unfold row; rw [List.length_map]; exact hx.array_length

/-! ### reshape -/

theorem prod_infer (s : List Int) (q : ℕ) :
    (s.map fun k => if k = -1 then q else k.toNat).prod = ((s.filter fun k => k ≠ -1).map Int.toNat).prod * q ^ s.count (-1) := by
  induction s with
  | nil => simp
  | cons k s ih =>
    by_cases hk : k = -1
    · subst hk
      simp only [List.map_cons, List.prod_cons, ih, if_true, List.count_cons_self, pow_succ]
      simp
      ring
    · simp only [List.map_cons, List.prod_cons, ih, if_neg hk, List.count_cons_of_ne hk]
      simp [hk]
      ring

theorem resolve_ok {s : List Int} {tail n : ℕ} {l : List ℕ} (h : resolve s tail n = .ok l) :
    l.length = s.length ∧ (∀ (k : ℕ) (m : Int), s[k]? = some m → m ≠ -1 → 0 ≤ m ∧ l[k]? = some m.toNat) ∧ l.prod * tail = n * tail := by
  unfold resolve at h
  split at h
  · cases h
  · rename_i hc
    simp only [Bool.or_eq_true, not_or, List.any_eq_true, decide_eq_true_eq, not_exists, not_and, not_lt] at hc
    have hpos : ∀ (k : ℕ) (m : Int), s[k]? = some m → m ≠ -1 → 0 ≤ m := by
      intro k m hk hm
      have := hc.1 m (List.mem_of_getElem? hk)
      omega
    split at h
    · rename_i h0
      split at h
      · rename_i hp
        cases Except.ok.inj h
        exact ⟨by simp, fun k m hk hm => ⟨hpos k m hk hm, by simp [hk]⟩, hp⟩
      · cases h
    · rename_i h0
      dsimp only at h
      split at h
      · cases h
      · rename_i hkn
        split at h
        · cases h
        · rename_i hd
          cases Except.ok.inj h
          refine ⟨by simp, fun k m hk hm => ⟨hpos k m hk hm, by simp [hk, hm]⟩, ?_⟩
          have h1 : s.count (-1) = 1 := by omega
          rw [prod_infer, h1, pow_one]
          push Not at hd
          have := Nat.mul_div_cancel' (Nat.dvd_of_mod_eq_zero hd)
          rw [Nat.mul_right_comm] ; exact this

theorem recol_zero (m n : ℕ) : (fun (col : Fin m → α) (k : Fin n) => at0 col k) 0 = 0 := by
  funext k; dsimp only [at0]; split <;> rfl

/-- **C112 (reshape).** Whatever `reshape` returns has the requested shape, the same irreps and zero flags, and the same rows in row-major order. -/
theorem C112_reshape (x : NArr α) (hx : x.val.Coherent) (shape : List Int) (y : NArr α) (h : reshape x shape = .ok y) :
    y.val.Coherent ∧ y.val.irreps = x.val.irreps ∧ y.val.zeroFlags = x.val.zeroFlags ∧ y.lead.length + 1 = shape.length ∧
    (shape.getLast? = some (dimOf (expand x.val.irreps) : Int) ∨ shape.getLast? = some (-1)) ∧
    (∀ (k : ℕ) (m : Int), shape.dropLast[k]? = some m → m ≠ -1 → 0 ≤ m ∧ y.lead[k]? = some m.toNat) ∧
    y.lead.prod * dimOf (expand x.val.irreps) = x.lead.prod * dimOf (expand x.val.irreps) ∧
    ∀ i j, IsIdx y.lead i → IsIdx x.lead j → flat y.lead i = flat x.lead j → row y i = row x j := by
  unfold reshape at h
  rw [Irreps.dim_eq_dimOf_expand] at h
  cases hs : shape.getLast? with
  | none => rw [hs] at h; cases h
  | some l =>
    rw [hs] at h
    dsimp only at h
    split at h
    · cases h
    · rename_i hl
      cases hr : resolve shape.dropLast (dimOf (expand x.val.irreps)) x.lead.prod with
      | error e => rw [hr] at h; cases h
      | ok lead =>
        rw [hr] at h
        obtain ⟨r1, r2, r3⟩ := resolve_ok hr
        simp only [bind, Except.bind] at h
        cases hc : chunksResolve x shape.dropLast with
        | error e => rw [hc] at h; cases h
        | ok u =>
          rw [hc] at h
          obtain ⟨v, v1, v2⟩ := mp_mapCols (φ := fun (col : Fin x.lead.prod → α) (k : Fin lead.prod) => at0 col k) (recol_zero x.lead.prod lead.prod) hx.inv
          dsimp only at h
          rw [v1] at h
          cases Except.ok.inj h
          have hne : shape ≠ [] := by rintro rfl; simp at hs
          have hlen : 0 < shape.length := List.length_pos_iff.mpr hne
          refine ⟨v2.inv'.coherent, v2.irreps, v2.flags, ?_, ?_, r2, r3, ?_⟩
          · dsimp only; rw [r1, List.length_dropLast]; omega
          · by_cases h1 : l = -1
            · exact Or.inr (by rw [h1])
            · left; congr 1; by_contra h2; exact hl ⟨h2, h1⟩
          · intro i j hi hj hij
            unfold row
            dsimp only at hi hij ⊢
            rw [v2.array, List.map_map]
            apply List.map_congr_left
            intro col _
            simp only [Function.comp_apply]
            rw [at0_lt _ (flat_lt hi)]
            exact congrArg (at0 col) hij

theorem resolve_nat (s : List ℕ) {tail n : ℕ} (h : s.prod * tail = n * tail) : resolve (s.map Int.ofNat) tail n = .ok s := by
  have h1 : ∀ k ∈ s.map Int.ofNat, 0 ≤ k := by
    intro k hk; obtain ⟨m, -, rfl⟩ := List.mem_map.mp hk; exact Int.natCast_nonneg m
  have h2 : (s.map Int.ofNat).count (-1) = 0 := List.count_eq_zero.mpr fun hm => by have := h1 _ hm; omega
  have h3 : (s.map Int.ofNat).map Int.toNat = s := by rw [List.map_map]; simp [Function.comp_def]
  unfold resolve
  rw [if_neg, if_pos h2, h3, if_pos h]
  simp only [Bool.or_eq_true, not_or, List.any_eq_true, decide_eq_true_eq, not_exists, not_and, not_lt, h2]
  exact ⟨fun k hk => by have := h1 k hk; omega, by omega⟩

theorem resolve_hole (s t : List ℕ) {tail n q : ℕ} (h0 : 0 < (s ++ t).prod * tail) (h : (s ++ t).prod * q = n) :
    resolve (s.map Int.ofNat ++ -1 :: t.map Int.ofNat) tail n = .ok (s ++ q :: t) := by
  have h1 : ∀ s : List ℕ, ∀ k ∈ s.map Int.ofNat, 0 ≤ k := by
    intro s k hk; obtain ⟨m, -, rfl⟩ := List.mem_map.mp hk; exact Int.natCast_nonneg m
  have h2 : ∀ s : List ℕ, (s.map Int.ofNat).count (-1) = 0 := fun s => List.count_eq_zero.mpr fun hm => by have := h1 s _ hm; omega
  have h3 : ∀ s : List ℕ, (s.map Int.ofNat).map Int.toNat = s := fun s => by rw [List.map_map]; simp [Function.comp_def]
  have h4 : ∀ s : List ℕ, (s.map Int.ofNat).filter (fun k => k ≠ -1) = s.map Int.ofNat := fun s => List.filter_eq_self.mpr fun k hk => by
    have := h1 s k hk; simp; omega
  have h5 : ∀ s : List ℕ, (s.map Int.ofNat).map (fun k => if k = -1 then q else k.toNat) = s := fun s => by
    rw [List.map_map]; conv_rhs => rw [← List.map_id s]
    apply List.map_congr_left; intro k _; simp
  have hcount : (s.map Int.ofNat ++ -1 :: t.map Int.ofNat).count (-1) = 1 := by
    rw [List.count_append, List.count_cons_self, h2, h2]
  have hfil : (((s.map Int.ofNat ++ -1 :: t.map Int.ofNat).filter fun k => k ≠ -1).map Int.toNat).prod = (s ++ t).prod := by
    rw [List.filter_append, List.filter_cons_of_neg (by simp), h4, h4, List.map_append, h3, h3]
  have hn : n * tail = (s ++ t).prod * tail * q := by rw [← h]; ring
  unfold resolve
  rw [if_neg, if_neg (by rw [hcount]; omega)]
  · dsimp only
    rw [hfil, if_neg (by omega), hn, if_neg (by simp), Nat.mul_div_cancel_left _ h0, List.map_append, List.map_cons, h5, h5]
    simp
  · rw [hcount]
    simp only [Bool.or_eq_true, not_or, List.any_eq_true, decide_eq_true_eq, not_exists, not_and, not_lt]
    refine ⟨fun k hk => ?_, by omega⟩
    rcases List.mem_append.mp hk with hk | hk
    · have := h1 _ k hk; omega
    · rcases List.mem_cons.mp hk with hk | hk
      · omega
      · have := h1 _ k hk; omega

theorem forM_ok {β : Type} (l : List β) (f : β → Except PyErr Unit) (h : ∀ b ∈ l, f b = .ok ()) : l.forM f = .ok () := by
  induction l with
  | nil => rfl
  | cons b l ih =>
    show (do f b; l.forM f) = _
    rw [h b (by simp), ih fun b hb => h b (by simp [hb])]
    rfl

theorem reshape_ok {x : NArr α} (hx : x.val.Coherent) {s : List Int} {l : Int} {lead : List ℕ} (hl : l = dimOf (expand x.val.irreps) ∨ l = -1)
    (h1 : resolve s (dimOf (expand x.val.irreps)) x.lead.prod = .ok lead)
    (h2 : ∀ m ∈ x.val.irreps, ∃ t, resolve s (m.mul * m.ir.dim) x.lead.prod = .ok t) :
    ∃ y, reshape x (s ++ [l]) = .ok y ∧ y.lead = lead := by
  obtain ⟨v, v1, v2⟩ := mp_mapCols (φ := fun (col : Fin x.lead.prod → α) (k : Fin lead.prod) => at0 col k) (recol_zero x.lead.prod lead.prod) hx.inv
  have hc : chunksResolve x s = .ok () := by
    unfold chunksResolve
    split
    · rfl
    · apply forM_ok
      rintro ⟨m, c⟩ hq
      cases c with
      | none => rfl
      | some c =>
        obtain ⟨t, ht⟩ := h2 m (List.of_mem_zip hq).1
        dsimp only
        rw [ht]; rfl
  refine ⟨⟨lead, v⟩, ?_, rfl⟩
  unfold reshape
  rw [List.getLast?_concat, List.dropLast_concat, Irreps.dim_eq_dimOf_expand]
  dsimp only
  rw [if_neg (by rintro ⟨a, b⟩; rcases hl with h | h <;> contradiction), h1, hc]
  simp only [bind, Except.bind]
  rw [v1]

/-- **C112 (reshape succeeds).** A complete shape of the right size is always accepted, and so is one unknown axis when the rest divides. -/
theorem C112_reshape_ok (x : NArr α) (hx : x.val.Coherent) (l : Int) (hl : l = dimOf (expand x.val.irreps) ∨ l = -1) :
    (∀ s : List ℕ, s.prod = x.lead.prod → ∃ y, reshape x (s.map Int.ofNat ++ [l]) = .ok y ∧ y.lead = s) ∧
    (∀ (s t : List ℕ) (n : ℕ), (s ++ t).prod * n = x.lead.prod → 0 < (s ++ t).prod → x.val.irreps ≠ [] → (∀ m ∈ x.val.irreps, 0 < m.mul) →
      ∃ y, reshape x (s.map Int.ofNat ++ -1 :: t.map Int.ofNat ++ [l]) = .ok y ∧ y.lead = s ++ n :: t) := by
  constructor
  · intro s hs
    exact reshape_ok hx hl (resolve_nat s (by rw [hs])) fun m _ => ⟨s, resolve_nat s (by rw [hs])⟩
  · intro s t n h h0 hne hm
    have hd : ∀ m : MulIrrep, m ∈ x.val.irreps → 0 < m.mul * m.ir.dim := fun m h => Nat.mul_pos (hm m h) (by unfold Irrep.dim; omega)
    have hdim : 0 < dimOf (expand x.val.irreps) := by
      rw [← Irreps.dim_eq_dimOf_expand]
      obtain ⟨m, ms, e⟩ := List.exists_cons_of_ne_nil hne
      have := hd m (by rw [e]; simp)
      rw [e, Irreps.dim, List.map_cons, List.sum_cons]
      omega
    exact reshape_ok hx hl (resolve_hole s t (Nat.mul_pos h0 hdim) h) fun m hm => ⟨_, resolve_hole s t (Nat.mul_pos h0 (hd m hm)) h⟩

/-- **C112 (reshape there and back).** -/
theorem C112_reshape_back (x : NArr α) (hx : x.val.Coherent) (shape : List Int) (y : NArr α) (h : reshape x shape = .ok y) (hd : expand x.val.irreps ≠ []) :
    ∃ z, reshape y (x.lead.map Int.ofNat ++ [-1]) = .ok z ∧ z.lead = x.lead ∧ z.val.irreps = x.val.irreps ∧ z.val.zeroFlags = x.val.zeroFlags ∧
      ∀ i, IsIdx x.lead i → row z i = row x i := by
  obtain ⟨y1, y2, y3, y4, y5, y6, y7, y8⟩ := C112_reshape x hx shape y h
  have hd0 : 0 < dimOf (expand x.val.irreps) := by
    obtain ⟨ir, irs, e⟩ := List.exists_cons_of_ne_nil hd
    rw [e, dimOf_cons]
    have : 0 < ir.dim := by unfold Irrep.dim; omega
    omega
  have hp : y.lead.prod = x.lead.prod := Nat.eq_of_mul_eq_mul_right hd0 y7
  obtain ⟨z, z1, z2⟩ := (C112_reshape_ok y y1 (-1) (Or.inr rfl)).1 x.lead hp.symm
  obtain ⟨-, w2, w3, -, -, -, -, w8⟩ := C112_reshape y y1 _ z z1
  refine ⟨z, z1, z2, w2.trans y2, w3.trans y3, fun i hi => ?_⟩
  have hk : flat x.lead i < y.lead.prod := hp ▸ flat_lt hi
  rw [w8 i (unflat y.lead (flat x.lead i)) (by rw [z2]; exact hi) (unflat_idx hk) (by rw [z2, flat_unflat hk])]
  exact y8 _ _ (unflat_idx hk) hi (flat_unflat hk)

/-! ### broadcast_to -/

theorem bcIdx_isIdx {s t i : List ℕ} (h : bcOk s t = true) (hi : IsIdx t i) : IsIdx s (bcIdx s i) := by
  unfold bcOk at h
  simp only [Bool.and_eq_true, decide_eq_true_eq, List.all_eq_true, Bool.or_eq_true, beq_iff_eq] at h
  obtain ⟨h1, h2⟩ := h
  have hlen : i.length = t.length := List.Forall₂.length_eq hi
  unfold bcIdx
  rw [hlen]
  have hi' : List.Forall₂ (· < ·) (i.drop (t.length - s.length)) (t.drop (t.length - s.length)) := List.forall₂_drop _ hi
  have hl : (t.drop (t.length - s.length)).length = s.length := by rw [List.length_drop]; omega
  generalize t.drop (t.length - s.length) = u at *
  generalize i.drop (t.length - s.length) = j at *
  clear hi hlen h1
  induction hi' generalizing s with
  | nil => cases s with
    | nil => exact List.Forall₂.nil
    | cons => simp at hl
  | @cons a n j u g1 g2 ih => cases s with
    | nil => simp at hl
    | cons m s =>
      refine List.Forall₂.cons ?_ (ih (fun q hq => h2 q (by simp [hq])) (by simpa using hl))
      have := h2 (n, m) (by simp)
      dsimp only at this ⊢
      split
      · omega
      · omega

/-- **C112 (broadcast_to).** It succeeds exactly when the last entry is right and the leading axes satisfy the broadcasting rule; each row of the result is the row
of `x` at the index with zeros on the axes of length one. -/
theorem C112_broadcast (x : NArr α) (hx : x.val.Coherent) (s : List ℕ) (l : Int) :
    (l = dimOf (expand x.val.irreps) ∨ l = -1 → bcOk x.lead s = true →
      ∃ y, broadcastTo x (s.map Int.ofNat ++ [l]) = .ok y ∧ y.lead = s ∧ y.val.Coherent ∧ y.val.irreps = x.val.irreps ∧ y.val.zeroFlags = x.val.zeroFlags ∧
        ∀ i, IsIdx s i → IsIdx x.lead (bcIdx x.lead i) ∧ row y i = row x (bcIdx x.lead i)) ∧
    ((¬ (l = dimOf (expand x.val.irreps) ∨ l = -1) ∨ bcOk x.lead s = false) → ∃ e, broadcastTo x (s.map Int.ofNat ++ [l]) = .error e) := by
  have h3 : (s.map Int.ofNat).map Int.toNat = s := by rw [List.map_map]; simp [Function.comp_def]
  have h4 : ((s.map Int.ofNat).any fun k => decide (k < 0)) = false := by
    rw [List.any_eq_false]
    intro k hk
    obtain ⟨m, -, rfl⟩ := List.mem_map.mp hk
    have : ¬ (Int.ofNat m < 0) := by have := Int.natCast_nonneg m; simp
    simpa using this
  constructor
  · intro hl hb
    have h0 : (fun (col : Fin x.lead.prod → α) (k : Fin s.prod) => at0 col (flat x.lead (bcIdx x.lead (unflat s k)))) 0 = 0 := by
      funext k; dsimp only [at0]; split <;> rfl
    obtain ⟨v, v1, v2⟩ : ∃ v, make x.val.irreps (x.val.array.map fun (col : Fin x.lead.prod → α) (k : Fin s.prod) => at0 col (flat x.lead (bcIdx x.lead (unflat s k))))
        (some x.val.zeroFlags) (mapChunks (fun (col : Fin x.lead.prod → α) (k : Fin s.prod) => at0 col (flat x.lead (bcIdx x.lead (unflat s k)))) (some x.val.chunks)) = .ok v ∧
        Mp (fun (col : Fin x.lead.prod → α) (k : Fin s.prod) => at0 col (flat x.lead (bcIdx x.lead (unflat s k)))) x.val v := by
      have h := FlagsOk.map (f := fun (col : Fin x.lead.prod → α) (k : Fin s.prod) => at0 col (flat x.lead (bcIdx x.lead (unflat s k)))) h0 hx.inv.flags
      rw [hx.inv.chunks_eq]
      simp only [mapChunks, Option.map_some]
      rw [← IArr.comp_map]
      exact ⟨_, make_cache h, hx.inv, inv_cache h, rfl, rfl, rfl⟩
    refine ⟨⟨s, v⟩, ?_, rfl, v2.inv'.coherent, v2.irreps, v2.flags, fun i hi => ⟨bcIdx_isIdx hb hi, ?_⟩⟩
    · unfold broadcastTo
      rw [List.getLast?_concat, List.dropLast_concat, Irreps.dim_eq_dimOf_expand]
      dsimp only
      rw [if_neg (by rintro ⟨a, b⟩; rcases hl with h | h <;> contradiction), h4]
      simp only [Bool.false_eq_true, if_false]
      rw [h3, hb]
      simp only [Bool.not_true, Bool.false_eq_true, if_false]
      rw [v1]
    · unfold row
      dsimp only
      rw [v2.array, List.map_map]
      apply List.map_congr_left
      intro col _
      simp only [Function.comp_apply]
      rw [at0_lt _ (flat_lt hi), unflat_flat hi]
  · intro h
    unfold broadcastTo
    rw [List.getLast?_concat, List.dropLast_concat, Irreps.dim_eq_dimOf_expand]
    dsimp only
    split
    · exact ⟨_, rfl⟩
    · rename_i hl
      rw [h4]
      simp only [Bool.false_eq_true, if_false]
      rw [h3]
      rcases h with h | h
      · exact absurd ⟨fun e => h (Or.inl e), fun e => h (Or.inr e)⟩ hl
      · rw [h]; exact ⟨_, rfl⟩

/-! ### axis_to_irreps -/

theorem isIdx_insert {s i : List ℕ} {a r : ℕ} (ha : a < s.length) (hi : IsIdx (s.eraseIdx a) i) (hr : r < s.getD a 0) : IsIdx s (i.insertIdx a r) := by
  induction a generalizing s i with
  | zero =>
    cases s with
    | nil => simp at ha
    | cons n s => simpa [IsIdx] using List.Forall₂.cons hr hi
  | succ a ih =>
    cases s with
    | nil => simp at ha
    | cons n s =>
      rw [List.eraseIdx_cons_succ] at hi
      cases hi with
      | @cons b _ i _ h1 h2 =>
        rw [List.insertIdx_succ_cons]
        exact List.Forall₂.cons h1 (ih (by simpa using ha) h2 (by simpa using hr))

theorem insertIdx_append_left {β : Type} (l t : List β) (a : ℕ) (r : β) (h : a ≤ l.length) : (l ++ t).insertIdx a r = l.insertIdx a r ++ t := by
  induction l generalizing a with
  | nil => simp at h; subst h; rfl
  | cons b l ih =>
    cases a with
    | zero => rfl
    | succ a => simp only [List.cons_append, List.insertIdx_succ_cons, ih a (by simpa using h)]

/-- **C112 (axis_to_irreps).** When removing the axis leaves the same shape as removing the last leading axis (so for `axis=-2`, the default), the irreps are written once for
each index of the axis, and each row of the result is the concatenation of the rows along the axis. -/
theorem C112_axis_to_irreps (x : NArr α) (hx : x.val.Coherent) (axis : Int) (a : ℕ) (ha : a < x.lead.length) (haxis : axis = a ∨ axis = (a : Int) - (x.lead.length + 1))
    (hs : x.lead.eraseIdx a = x.lead.dropLast) :
    ∃ y, axisToIrreps x axis = .ok y ∧ y.val.Coherent ∧ y.lead = x.lead.eraseIdx a ∧ y.val.irreps.simplify = y.val.irreps ∧
      expand y.val.irreps = (List.replicate (x.lead.getD a 0) (expand x.val.irreps)).flatten ∧
      ∀ i, IsIdx y.lead i → row y i = (List.range (x.lead.getD a 0)).flatMap fun r => row x (i.insertIdx a r) := by
  set n := x.lead.getD a 0 with hn
  set d := x.val.irreps.dim with hd
  have hmod : (axis % ((x.lead.length + 1 : ℕ) : Int)).toNat = a := by
    rcases haxis with h | h
    · subst h; rw [Int.emod_eq_of_lt (by omega) (by omega)]; simp
    · subst h
      have : ((a : Int) - (x.lead.length + 1)) = (a : Int) + ((x.lead.length + 1 : ℕ) : Int) * (-1) := by push_cast; ring
      rw [this, Int.add_mul_emod_self_left, Int.emod_eq_of_lt (by omega) (by omega)]; simp
  have hfull : (x.lead ++ [d]).getD a 0 = n := by rw [List.getD_append _ _ _ _ ha]
  have hexp : expand (x.val.irreps.rep n).simplify = (List.replicate n (expand x.val.irreps)).flatten := by
    rw [Irreps.expand_simplify, C11_repeat]
  have hdim : (x.val.irreps.rep n).simplify.dim = n * d := by
    rw [Irreps.dim_eq_dimOf_expand, hexp, hd, Irreps.dim_eq_dimOf_expand]
    clear_value n
    clear hn hfull hexp
    induction n with
    | zero => simp [dimOf]
    | succ n ih => rw [List.replicate_succ, List.flatten_cons, dimOf_append, ih]; ring
  have hprod : x.lead.prod = n * x.lead.dropLast.prod := by
    rw [← hs, ← (List.getElem_cons_eraseIdx_perm ha).prod_eq, List.prod_cons, hn, List.getD_eq_getElem _ _ ha]
  have hmoved : ((x.lead ++ [d]).eraseIdx a).insertIdx (x.lead.length + 1 - 2) n = x.lead.dropLast ++ [n, d] := by
    rw [List.eraseIdx_append_of_lt_length ha, hs]
    have : x.lead.length + 1 - 2 = x.lead.dropLast.length := by rw [List.length_dropLast]; omega
    rw [this]
    clear_value n d
    generalize x.lead.dropLast = u
    induction u with
    | nil => rfl
    | cons b u ih => simpa [List.insertIdx_succ_cons] using ih
  obtain ⟨v, v1, v2, v3, v4, -⟩ := (C12_from_array (x.val.irreps.rep n).simplify
    ((List.range (n * d)).map fun c => fun k : Fin x.lead.dropLast.prod =>
        let i := unflat (x.lead.dropLast ++ [n, d]) (k * (n * d) + c)
        let j := (i.eraseIdx (x.lead.length + 1 - 2)).insertIdx a (i.getD (x.lead.length + 1 - 2) 0)
        at0 (x.val.array.getD (j.getLastD 0) 0) (flat x.lead j.dropLast))).1 (by
          rw [← Irreps.dim_eq_dimOf_expand, hdim]; simp)
  refine ⟨⟨x.lead.dropLast, v⟩, ?_, v2, hs.symm, ?_, ?_, ?_⟩
  · unfold axisToIrreps
    dsimp only
    rw [if_neg (by omega), if_neg (by push_cast; omega), hmod, hfull, hmoved, hdim, if_neg (by
      have : x.lead.dropLast.prod * (n * d) = x.lead.prod * d := by rw [hprod]; ring
      exact fun h => h this), v1]
  · dsimp only; rw [v3]; exact C05_simplify_idempotent _
  · dsimp only; rw [v3, hexp]
  · intro i hi
    dsimp only at hi ⊢
    unfold row
    dsimp only
    rw [v4, List.map_map, range_mul_map]
    have hil : i.length = x.lead.length - 1 := by rw [List.Forall₂.length_eq hi, List.length_dropLast]
    rw [List.flatMap_def, List.flatMap_def]
    congr 1
    apply List.map_congr_left
    intro r hr
    rw [List.mem_range] at hr
    apply List.ext_getElem
    · have := hx.array_length
      rw [← Irreps.dim_eq_dimOf_expand] at this
      simp [this, hd]
    · intro c hc1 hc2
      have hc : c < d := by simpa using hc1
      have hca : c < x.val.array.length := by simpa using hc2
      simp only [List.getElem_map, List.getElem_range, Function.comp_apply]
      rw [at0_lt _ (flat_lt hi)]
      dsimp only
      have hrc : IsIdx [n, d] [r, c] := List.Forall₂.cons hr (List.Forall₂.cons hc List.Forall₂.nil)
      have e : flat x.lead.dropLast i * (n * d) + (r * d + c) = flat (x.lead.dropLast ++ [n, d]) (i ++ [r, c]) := by
        rw [flat_append hi]; simp [flat]
      rw [e, unflat_flat (isIdx_append hi hrc)]
      have e1 : x.lead.length + 1 - 2 = i.length := by omega
      have e2 : (i ++ [r, c]).eraseIdx i.length = i ++ [c] := by
        rw [List.eraseIdx_append_of_length_le (le_refl _)]; simp
      have e3 : (i ++ [r, c]).getD i.length 0 = r := by simp [List.getD]
      rw [e1, e2, e3, insertIdx_append_left _ _ _ _ (by omega), List.dropLast_concat]
      have e4 : (i.insertIdx a r ++ [c]).getLastD 0 = c := by simp [List.getLastD_eq_getLast?]
      rw [e4, List.getD_eq_getElem _ _ hca]

/-! ### equivariance -/

theorem actL_append (R : Matrix (Fin 3) (Fin 3) ℝ) {s t : List Irrep} {u w : List ℝ} (h : u.length = dimOf s) : actL R (s ++ t) (u ++ w) = actL R s u ++ actL R t w := by
  unfold actL
  rw [blocksOf_append, ← h, List.drop_left, List.map_append, List.flatten_append, ← blocksOf_take s (u ++ w) (dimOf s) (le_refl _), ← h, List.take_left]

theorem actL_flatMap (R : Matrix (Fin 3) (Fin 3) ℝ) {s : List Irrep} {β : Type} (L : List β) (f : β → List ℝ) (h : ∀ b ∈ L, (f b).length = dimOf s) :
    actL R (List.replicate L.length s).flatten (L.flatMap f) = L.flatMap fun b => actL R s (f b) := by
  induction L with
  | nil => rfl
  | cons b L ih =>
    rw [List.length_cons, List.replicate_succ, List.flatten_cons, List.flatMap_cons, List.flatMap_cons, actL_append R (h b (by simp)), ih fun b hb => h b (by simp [hb])]

/-- **C112 (reshape is equivariant).** -/
theorem C112_reshape_equivariant (R : Matrix (Fin 3) (Fin 3) ℝ) (x : NArr ℝ) (hx : x.val.Coherent) (shape : List Int) (y : NArr ℝ) (h : reshape x shape = .ok y)
    (v : IArr (Fin x.lead.prod → ℝ)) (hv : x.val.transformByMatrix R = .ok v) (y' : NArr ℝ) (h' : reshape ⟨x.lead, v⟩ shape = .ok y') (hd : expand x.val.irreps ≠ []) :
    y'.lead = y.lead ∧ ∀ i, IsIdx y.lead i → row y' i = actL R (expand y.val.irreps) (row y i) := by
  obtain ⟨w, w1, w2, w3, w4, w5⟩ := C112_transform_rows R x hx
  rw [hv] at w1
  cases Except.ok.inj w1
  obtain ⟨y1, y2, y3, y4, y5, y6, y7, y8⟩ := C112_reshape x hx shape y h
  obtain ⟨z1, z2, z3, z4, z5, z6, z7, z8⟩ := C112_reshape ⟨x.lead, v⟩ w2 shape y' h'
  have hd0 : 0 < dimOf (expand x.val.irreps) := by
    obtain ⟨ir, irs, e⟩ := List.exists_cons_of_ne_nil hd
    rw [e, dimOf_cons]
    have : 0 < ir.dim := by unfold Irrep.dim; omega
    omega
  have hp : y.lead.prod = x.lead.prod := Nat.eq_of_mul_eq_mul_right hd0 y7
  have hl : y'.lead = y.lead := by
    unfold reshape at h h'
    dsimp only at h'
    rw [w3] at h'
    cases hs : shape.getLast? with
    | none => rw [hs] at h; cases h
    | some l =>
      rw [hs] at h h'
      dsimp only at h h'
      split at h
      · cases h
      · rename_i hc
        rw [if_neg hc] at h'
        cases hr : resolve shape.dropLast x.val.irreps.dim x.lead.prod with
        | error e => rw [hr] at h; cases h
        | ok lead =>
          rw [hr] at h h'
          simp only [bind, Except.bind] at h h'
          split at h
          · cases h
          · split at h
            · cases h
            · split at h'
              · cases h'
              · split at h'
                · cases h'
                · rw [← Except.ok.inj h, ← Except.ok.inj h']
  refine ⟨hl, fun i hi => ?_⟩
  have hk : flat y.lead i < x.lead.prod := hp ▸ flat_lt hi
  rw [z8 i (unflat x.lead (flat y.lead i)) (by rw [hl]; exact hi) (unflat_idx hk) (by rw [hl]; exact (flat_unflat hk).symm), w5 _ (unflat_idx hk), y2,
    y8 i _ hi (unflat_idx hk) (flat_unflat hk).symm]

/-- **C112 (broadcast_to is equivariant).** -/
theorem C112_broadcast_equivariant (R : Matrix (Fin 3) (Fin 3) ℝ) (x : NArr ℝ) (hx : x.val.Coherent) (s : List ℕ) (l : Int)
    (hl : l = dimOf (expand x.val.irreps) ∨ l = -1) (hb : bcOk x.lead s = true) :
    ∃ v y y', x.val.transformByMatrix R = .ok v ∧ broadcastTo x (s.map Int.ofNat ++ [l]) = .ok y ∧ broadcastTo ⟨x.lead, v⟩ (s.map Int.ofNat ++ [l]) = .ok y' ∧
      y.lead = s ∧ y'.lead = s ∧ ∀ i, IsIdx s i → row y' i = actL R (expand y.val.irreps) (row y i) := by
  obtain ⟨v, v1, v2, v3, v4, v5⟩ := C112_transform_rows R x hx
  obtain ⟨y, y1, y2, y3, y4, y5, y6⟩ := (C112_broadcast x hx s l).1 hl hb
  obtain ⟨y', z1, z2, z3, z4, z5, z6⟩ := (C112_broadcast ⟨x.lead, v⟩ v2 s l).1 (by rw [v3]; exact hl) hb
  refine ⟨v, y, y', v1, y1, z1, y2, z2, fun i hi => ?_⟩
  rw [(z6 i hi).2, v5 _ (z6 i hi).1, (y6 i hi).2, y4]

/-- **C112 (axis_to_irreps is equivariant).** -/
theorem C112_axis_equivariant (R : Matrix (Fin 3) (Fin 3) ℝ) (x : NArr ℝ) (hx : x.val.Coherent) (axis : Int) (a : ℕ) (ha : a < x.lead.length)
    (haxis : axis = a ∨ axis = (a : Int) - (x.lead.length + 1)) (hs : x.lead.eraseIdx a = x.lead.dropLast) :
    ∃ v y y', x.val.transformByMatrix R = .ok v ∧ axisToIrreps x axis = .ok y ∧ axisToIrreps ⟨x.lead, v⟩ axis = .ok y' ∧ y'.lead = y.lead ∧ y'.val.irreps = y.val.irreps ∧
      ∀ i, IsIdx y.lead i → row y' i = actL R (expand y.val.irreps) (row y i) := by
  obtain ⟨v, v1, v2, v3, v4, v5⟩ := C112_transform_rows R x hx
  obtain ⟨y, y1, y2, y3, y4, y5, y6⟩ := C112_axis_to_irreps x hx axis a ha haxis hs
  obtain ⟨y', z1, z2, z3, z4, z5, z6⟩ := C112_axis_to_irreps ⟨x.lead, v⟩ v2 axis a ha haxis hs
  dsimp only at z3 z5 z6
  refine ⟨v, y, y', v1, y1, z1, by rw [z3, y3], ?_, fun i hi => ?_⟩
  · rw [← y4, ← z4, C05_simplify_canonical, y5, z5, v3]
  · rw [z6 i (by rw [z3, ← y3]; exact hi), y6 i hi, y5]
    have := actL_flatMap R (s := expand x.val.irreps) (List.range (x.lead.getD a 0)) (fun r => row x (i.insertIdx a r)) fun r _ => row_length hx _
    rw [List.length_range] at this
    rw [this, List.flatMap_def, List.flatMap_def]
    congr 1
    apply List.map_congr_left
    intro r hr
    rw [y3] at hi
    exact v5 _ (isIdx_insert ha hi (List.mem_range.mp hr))

/-- For another axis the code still reshapes with `shape[:-2]`, so that the result can have axes of the wrong lengths (here `(2, 3)` although the axes that
are left have lengths `(3, 2)`), and the last axis is accepted: there the components of the vectors are mixed with the index. -/
theorem C112_axis_witness :
    (let x : NArr ℤ := ⟨[2, 3, 2], ⟨[⟨1, ⟨0, .e⟩⟩], [fun k => k], none, none⟩⟩
     ∃ y, axisToIrreps x 0 = .ok y ∧ y.lead = [2, 3] ∧ x.lead.eraseIdx 0 = [3, 2] ∧ row y [0, 2] = [2, 8]) ∧
    (let x : NArr ℤ := ⟨[3], ⟨[⟨1, ⟨1, .o⟩⟩], [fun k => k, fun k => 10 + k, fun k => 20 + k], none, none⟩⟩
     ∃ y, axisToIrreps x (-1) = .ok y ∧ y.val.irreps = [⟨3, ⟨1, .o⟩⟩] ∧ row x [0] = [0, 10, 20] ∧ row y [] = [0, 1, 2, 10, 11, 12, 20, 21, 22]) :=
  ⟨⟨_, rfl, rfl, rfl, by decide⟩, ⟨_, rfl, by decide, by decide, by decide⟩⟩

/-- A concrete case: a `(2, 3)` array of `1x0e + 1x1o` reshaped to `(3, -1)` and to `(6,)`, broadcast to `(4, 2, 3)`, and its last leading axis moved into the irreps. -/
example : let x : NArr ℤ := ⟨[2, 3], ⟨[⟨1, ⟨0, .e⟩⟩, ⟨1, ⟨1, .o⟩⟩], [fun k => k, fun k => 10 + k, fun k => 20 + k, fun k => 30 + k], none, none⟩⟩
    (∃ y, reshape x [3, -1, 4] = .ok y ∧ y.lead = [3, 2] ∧ row y [1, 1] = row x [1, 0]) ∧ (∃ y, reshape x [6, -1] = .ok y ∧ row y [5] = row x [1, 2]) ∧
    (∃ y, broadcastTo x [4, 2, 3, -1] = .ok y ∧ row y [3, 1, 0] = row x [1, 0]) ∧ (∃ y, axisToIrreps x (-2) = .ok y ∧ y.lead = [2] ∧
      row y [1] = row x [1, 0] ++ row x [1, 1] ++ row x [1, 2]) :=
  ⟨⟨_, rfl, by decide, by decide⟩, ⟨_, rfl, by decide⟩, ⟨_, rfl, by decide⟩, ⟨_, rfl, rfl, by decide⟩⟩

end E3nn.Shp
