import Verif.Model.Normal
import Verif.Props.C22
import Verif.Props.C62_C63

/-! # C70: `where` -/

namespace E3nn.Basic

open E3nn.IArr

variable {ι : Type}

theorem comp_where (mask : ι → Bool) {ms : Irreps} {a b : List (ι → ℝ)} {zs ws : List Bool}
    (h1 : FlagsOk ms a zs) (h2 : FlagsOk ms b ws) :
    List.zipWith (whereChunk mask) (comp ms a zs) (comp ms b ws) =
      comp ms (List.zipWith (sel mask) a b) (List.zipWith (· && ·) zs ws) := by
  induction ms generalizing a b zs ws with
  | nil => simp [comp]
  | cons m ms ih =>
    cases zs with
    | nil => exact absurd h1 (by simp [FlagsOk])
    | cons z zs =>
      cases ws with
      | nil => exact absurd h2 (by simp [FlagsOk])
      | cons w ws =>
        simp only [FlagsOk] at h1 h2
        simp only [List.zipWith_cons_cons, comp, List.drop_zipWith, ih h1.2.2 h2.2.2]
        congr 1
        have key : rows m.mul m.ir.dim (List.zipWith (sel mask) a b) =
            rows m.mul m.ir.dim (List.zipWith (sel mask) (a.take m.dim) (b.take m.dim)) := by
          rw [← List.take_zipWith]; exact (rows_take_self _).symm
        have zl : ∀ (a b : List (ι → ℝ)), (∀ v ∈ a, v = 0) → b.length ≤ a.length → List.zipWith (sel mask) a b = b.map (sel mask 0) := by
          intro a b h hl
          induction b generalizing a with
          | nil => simp
          | cons v b ih =>
            cases a with
            | nil => simp at hl
            | cons w a =>
              rw [List.zipWith_cons_cons, List.map_cons, h w (by simp), ih a (fun v hv => h v (by simp [hv])) (by simpa using hl)]
        have zr : ∀ (a b : List (ι → ℝ)), (∀ v ∈ b, v = 0) → a.length ≤ b.length → List.zipWith (sel mask) a b = a.map (fun c => sel mask c 0) := by
          intro a b h hl
          induction a generalizing b with
          | nil => simp
          | cons v a ih =>
            cases b with
            | nil => simp at hl
            | cons w b =>
              rw [List.zipWith_cons_cons, List.map_cons, h w (by simp), ih b (fun v hv => h v (by simp [hv])) (by simpa using hl)]
        cases z <;> cases w <;> simp only [Bool.and_true, Bool.and_false, Bool.false_eq_true, if_false, if_true, whereChunk]
        · rw [rows_zipWith]
        · congr 1
          rw [key, zr _ _ (h2.2.1 rfl) (by simp; omega), rows_map]
          congr 1
          exact (rows_take_self _).symm
        · congr 1
          rw [key, zl _ _ (h1.2.1 rfl) (by simp; omega), rows_map]
          congr 1
          exact (rows_take_self _).symm

theorem where_spec (mask : ι → Bool) {x y : IArr (ι → ℝ)} (hx : Inv x) (hy : Inv y) (h : x.irreps = y.irreps) :
    ∃ z, where_ 1 mask x y = .ok z ∧ Inv z ∧ z.irreps = x.irreps ∧ z.array = List.zipWith (sel mask) x.array y.array ∧
      z.zeroFlags = List.zipWith (· && ·) x.zeroFlags y.zeroFlags := by
  have hyf := hy.flags
  rw [← h] at hyf
  have hf := zipFlags (f := sel mask) (by funext i; simp [sel]) hx.flags hyf
  unfold where_
  rw [if_neg (by simpa using h), if_neg (by simp), if_neg (by simp), hx.chunks_eq, hy.chunks_eq, ← h, comp_where mask hx.flags hyf]
  exact ⟨_, make_cache hf, inv_cache hf, rfl, rfl, rfl⟩

/-- **C70 (values).** `where(mask, x, y)` with arrays of the same irreps is, at the leading indices where the mask
holds, the array of `x`, and elsewhere the array of `y`; the irreps are kept, all views of the result agree, and a
term is flagged zero exactly when it is flagged in both. -/
theorem C70_where (mask : ι → Bool) (x y : IArr (ι → ℝ)) (hx : x.Coherent) (hy : y.Coherent) (h : x.irreps = y.irreps) :
    ∃ z, where_ 1 mask x y = .ok z ∧ z.Coherent ∧ z.irreps = x.irreps ∧
      (∀ i, mask i = true → z.array.map (fun c => c i) = x.array.map fun c => c i) ∧
      (∀ i, mask i = false → z.array.map (fun c => c i) = y.array.map fun c => c i) ∧
      (∀ k : ℕ, z.zeroFlags[k]? = some true ↔ x.zeroFlags[k]? = some true ∧ y.zeroFlags[k]? = some true) := by
  obtain ⟨z, h1, h2, h3, h4, h5⟩ := where_spec mask hx.inv hy.inv h
  have hl : x.array.length = y.array.length := by rw [hx.array_length, hy.array_length, h]
  refine ⟨z, h1, h2.coherent, h3, ?_, ?_, ?_⟩
  · intro i hi
    rw [h4]
    apply List.ext_getElem
    · simp [hl]
    · intro j _ _; simp [sel, hi]
  · intro i hi
    rw [h4]
    apply List.ext_getElem
    · simp [hl]
    · intro j _ _; simp [sel, hi]
  · intro k
    rw [h5, List.getElem?_zipWith]
    cases x.zeroFlags[k]? <;> cases y.zeroFlags[k]? <;> simp

/-- **C70 (refusals).** Different irreps, or a mask whose last dimension is neither 1 nor the number of irreps, are
a `ValueError`; a mask with one entry per irrep (documented) is a `NotImplementedError`; nothing else is refused. -/
theorem C70_refuses (d : ℕ) (mask : ι → Bool) (x y : IArr (ι → ℝ)) (hx : x.Coherent) (hy : y.Coherent) :
    (where_ d mask x y = .error .valueError ↔ x.irreps ≠ y.irreps ∨ (d ≠ 1 ∧ d ≠ (expand x.irreps).length)) ∧
    (where_ d mask x y = .error .notImplemented ↔ x.irreps = y.irreps ∧ d ≠ 1 ∧ d = (expand x.irreps).length) ∧
    ((∃ z, where_ d mask x y = .ok z) ↔ x.irreps = y.irreps ∧ d = 1) := by
  have hn : x.irreps.numIrreps = (expand x.irreps).length := by
    unfold Irreps.numIrreps expand
    simp [List.length_flatMap]
  by_cases h : x.irreps = y.irreps
  · by_cases hd : d = 1
    · subst hd
      obtain ⟨z, h1, -⟩ := where_spec mask hx.inv hy.inv h
      simp [h1, h]
    · by_cases hd' : d = (expand x.irreps).length
      · have e : where_ d mask x y = .error .notImplemented := by
          unfold where_
          rw [if_neg (by simpa using h), if_neg (by rw [hn]; tauto), if_pos hd]
        rw [e]
        simp [h, hd]
        rw [← h]; exact hd'
      · have e : where_ d mask x y = .error .valueError := by
          unfold where_
          rw [if_neg (by simpa using h), if_pos (by rw [hn]; tauto)]
        rw [e]
        rw [← h]
        simp [hd, hd']
  · have e : where_ d mask x y = .error .valueError := by
      unfold where_
      rw [if_pos h]
    rw [e]
    simp [h]

/-- **C70 (equivariance).** `where` commutes with every linear action on the irreps. -/
theorem C70_equivariant (M : Irrep → List (List ℝ)) (hM : MatFamily M) (mask : ι → Bool) (x y : IArr (ι → ℝ)) (hx : x.Coherent) (hy : y.Coherent)
    (hi : x.irreps = y.irreps) :
    ∃ z x' y' z' z'', where_ 1 mask x y = .ok z ∧ transform M x = .ok x' ∧ transform M y = .ok y' ∧ where_ 1 mask x' y' = .ok z' ∧
      transform M z = .ok z'' ∧ z'.Equal z'' := by
  have hD : Act (fun ir => matVec (α := ι → ℝ) (M ir)) := matVec_act fun ir => (hM ir).1
  obtain ⟨x', h1, h2⟩ := transformBy_spec hD hx.inv
  obtain ⟨y', k1, k2⟩ := transformBy_spec hD hy.inv
  obtain ⟨u, u1, u2, u3, u4, u5⟩ := where_spec mask hx.inv hy.inv hi
  obtain ⟨w, w1, w2, w3, w4, w5⟩ := where_spec mask h2.inv' k2.inv' (by rw [h2.irreps, k2.irreps, hi])
  have ht := tr_zip hD (f := sel mask) (fun ir a b ha hb => by
      have proj : ∀ (i : ι) (v : List (ι → ℝ)), (matVec (M ir) v).map (fun c => c i) = matVec (M ir) (v.map fun c => c i) :=
        fun i v => matVec_map (LinearMap.proj (R := ℝ) (φ := fun _ : ι => ℝ) i) (M ir) v
      have selL : ∀ (i : ι) (p q : List (ι → ℝ)), p.length = q.length →
          (List.zipWith (sel mask) p q).map (fun c => c i) = if mask i then p.map (fun c => c i) else q.map (fun c => c i) := by
        intro i p q hpq
        split
        · rename_i hm
          apply List.ext_getElem
          · simp [hpq]
          · intro j _ _; simp [sel, hm]
        · rename_i hm
          apply List.ext_getElem
          · simp [hpq]
          · intro j _ _; simp [sel, hm]
      have hlen : (matVec (M ir) a).length = (matVec (M ir) b).length := by simp [matVec]
      apply List.ext_getElem
      · simp [matVec]
      · intro j j1 j2
        funext i
        have e := congrArg (fun l : List ℝ => l[j]?) (proj i (List.zipWith (sel mask) a b))
        have e' := congrArg (fun l : List ℝ => l[j]?) (selL i _ _ hlen)
        rw [selL i a b (by rw [ha, hb])] at e
        simp only [List.getElem?_map, List.getElem?_eq_getElem j1, Option.map_some] at e
        simp only [List.getElem?_map, List.getElem?_eq_getElem j2, Option.map_some] at e'
        rw [← Option.some.injEq, e, e']
        split <;> rw [proj]) h2 k2 hi u2 w2 u3 w3 u4 w4
    (by rw [w5, u5, h2.flags, k2.flags])
  obtain ⟨z'', l1, l2⟩ := transformBy_spec hD u2
  exact ⟨u, x', y', w, z'', u1, h1, k1, w1, l1, ht.unique l2⟩

example : ∃ z, where_ (ι := Bool) 1 id ⟨[⟨1, ⟨1, .o⟩⟩], [1, 2, 3], none, none⟩ ⟨[⟨1, ⟨1, .o⟩⟩], [0, 0, 0], some [true], none⟩ = .ok z ∧
    z.array.map (fun c => c true) = [1, 2, 3] ∧ z.array.map (fun c => c false) = [0, 0, 0] := by
  obtain ⟨y, y1, y2, -⟩ := (C12_zeros_ones (α := Bool → ℝ) [⟨1, ⟨1, .o⟩⟩]).1
  have e : y = ⟨[⟨1, ⟨1, .o⟩⟩], [0, 0, 0], some [true], none⟩ := by
    have : zeros (α := Bool → ℝ) [⟨1, ⟨1, .o⟩⟩] = .ok ⟨[⟨1, ⟨1, .o⟩⟩], [0, 0, 0], some [true], none⟩ := rfl
    rw [this] at y1; exact (Except.ok.inj y1).symm
  subst e
  obtain ⟨z, h1, -, -, h4, h5, -⟩ := C70_where (ι := Bool) id _ _ (coherent_plain [⟨1, ⟨1, .o⟩⟩] [1, 2, 3] rfl) y2 rfl
  exact ⟨z, h1, h4 true rfl, h5 false rfl⟩

end E3nn.Basic
