import Verif.Model.Axis
import Verif.Lemmas.IArrSlice

/-! # `mul_to_axis`, `axis_to_mul`, `at` -/

namespace E3nn
namespace IArr

set_option linter.unusedSectionVars false

variable {α β : Type} [Zero α] [Zero β]

theorem splitRows_shape (f mul d : Nat) (c : List (List α)) :
    (splitRows f mul d c).length = mul ∧ ∀ r ∈ splitRows f mul d c, r.length = d := by
  refine ⟨by simp [splitRows], ?_⟩
  intro r hr
  simp only [splitRows, List.mem_map] at hr
  obtain ⟨j, _, rfl⟩ := hr
  simp

theorem joinRows_length {f : Nat} (c : List (List (Fin f → α))) :
    (joinRows c).length = f * c.length := by
  simp [joinRows, List.length_flatMap]

theorem joinRows_shape {f : Nat} {d : Nat} (c : List (List (Fin f → α))) (h : ∀ r ∈ c, r.length = d) :
    ∀ r ∈ joinRows c, r.length = d := by
  intro r hr
  simp only [joinRows, List.mem_flatMap, List.mem_map] at hr
  obtain ⟨k, _, r', hr', rfl⟩ := hr
  simp [h r' hr']

theorem range_map_getD {γ : Type} (l : List γ) (d : γ) (n : Nat) (h : l.length = n) :
    (List.range n).map (fun i => (l[i]?).getD d) = l := by
  apply List.ext_getElem
  · simp [h]
  · intro i h1 h2
    simp [List.getElem?_eq_getElem h2]

theorem finRange_chunks {γ : Type} (f mul : Nat) (l : List γ) (d : γ) (h : l.length = f * mul) :
    ((List.finRange f).flatMap fun k => (List.range mul).map fun j => (l[k.val * mul + j]?).getD d) = l := by
  induction f generalizing l with
  | zero =>
    have : l = [] := by apply List.eq_nil_of_length_eq_zero; simpa using h
    subst this; simp
  | succ f ih =>
    rw [List.finRange_succ, List.flatMap_cons, List.flatMap_map]
    have hl : mul ≤ l.length := by rw [h, Nat.succ_mul]; omega
    have h1 : (List.range mul).map (fun j => (l[(0 : Fin (f + 1)).val * mul + j]?).getD d) = l.take mul := by
      have := range_map_getD (l.take mul) d mul (by simp [hl])
      rw [← this]
      apply List.map_congr_left
      intro j hj
      have hj' := List.mem_range.mp hj
      simp [hj']
    have h2 := ih (l.drop mul) (by rw [List.length_drop, h, Nat.succ_mul]; omega)
    rw [h1]
    conv => rhs; rw [← List.take_append_drop mul l, ← h2]
    congr 1
    apply List.flatMap_congr
    intro k _
    apply List.map_congr_left
    intro j _
    rw [List.getElem?_drop]
    congr 2
    simp only [Fin.val_succ, Nat.succ_mul]
    omega

theorem join_split (f mul d : Nat) (c : List (List α)) (h1 : c.length = f * mul)
    (h2 : ∀ r ∈ c, r.length = d) : joinRows (splitRows f mul d c) = c := by
  have := finRange_chunks f mul c [] h1
  unfold joinRows splitRows
  conv => rhs; rw [← this]
  apply List.flatMap_congr
  intro k _
  rw [List.map_map]
  apply List.map_congr_left
  intro j hj
  simp only [Function.comp_apply, List.map_map]
  have hb : k.val * mul + j < c.length := by
    have hj' := List.mem_range.mp hj
    have hk := k.isLt
    rw [h1]
    calc k.val * mul + j < k.val * mul + mul := by omega
      _ = (k.val + 1) * mul := by rw [Nat.succ_mul]
      _ ≤ f * mul := Nat.mul_le_mul_right _ hk
  have e := List.getElem?_eq_getElem hb
  have := range_map_getD c[k.val * mul + j] 0 d (h2 _ (List.getElem_mem _))
  simp only [Function.comp_def, e, Option.getD_some]
  exact this

theorem splitRows_get {f mul d : Nat} {c : List (List α)} {k : Fin f} {j i : Nat} (hj : j < mul)
    (hi : i < d) : (((splitRows f mul d c)[j]?.getD [])[i]?).map (fun v => v k) =
      some (((c[k.val * mul + j]?.getD [])[i]?).getD 0) := by
  simp [splitRows, hj, hi]

theorem split_join (f mul d : Nat) (c : List (List (Fin f → α))) (h1 : c.length = mul)
    (h2 : ∀ r ∈ c, r.length = d) : splitRows f mul d (joinRows c) = c := by
  have hget : ∀ (k : Fin f) (j : Nat), j < mul →
      (joinRows c)[k.val * mul + j]? = (c[j]?).map fun r => r.map fun v => v k := by
    intro k j hj
    unfold joinRows
    clear h2
    induction f with
    | zero => exact k.elim0
    | succ f ih =>
      rw [List.finRange_succ, List.flatMap_cons, List.flatMap_map]
      refine Fin.cases ?_ ?_ k
      · simp only [Fin.val_zero, Nat.zero_mul, Nat.zero_add]
        rw [List.getElem?_append_left (by simp [h1, hj]), List.getElem?_map]
      · intro k
        rw [List.getElem?_append_right (by
          simp only [List.length_map, h1, Fin.val_succ, Nat.succ_mul]; omega)]
        have := ih (c.map fun r => r.map fun v => fun k : Fin f => v k.succ) (by simpa using h1) k
        simp only [List.length_map, h1, List.map_map, Function.comp_def, Fin.val_succ] at this ⊢
        have e : (k.val + 1) * mul + j - mul = k.val * mul + j := by rw [Nat.succ_mul]; omega
        rw [e, this]
        simp [List.getElem?_map, Function.comp_def]
  apply List.ext_getElem
  · simp [splitRows, h1]
  · intro j hj1 hj2
    have hj : j < mul := by omega
    apply List.ext_getElem
    · simp [splitRows, h2 _ (List.getElem_mem hj2)]
    · intro i hi1 hi2
      have hi : i < d := by rw [← h2 _ (List.getElem_mem hj2)]; exact hi2
      funext k
      have hs := splitRows_get (c := joinRows c) (k := k) hj hi
      rw [List.getElem?_eq_getElem hj1, Option.getD_some, List.getElem?_eq_getElem hi1,
        Option.map_some, hget k j hj, List.getElem?_eq_getElem hj2] at hs
      simpa [List.getElem?_eq_getElem hi2] using hs

theorem mulToAxis_spec {x : IArr α} (hx : Inv x) {f : Nat} (hf : 0 < f)
    (hdiv : ∀ m ∈ x.irreps, f ∣ m.mul) :
    ∃ y, x.mulToAxis f = .ok y ∧ Inv y ∧
      y.irreps = x.irreps.map (fun m => ⟨m.mul / f, m.ir⟩) ∧
      y.chunks = (x.irreps.zip x.chunks).map fun mc => mc.2.map (splitRows f (mc.1.mul / f) mc.1.ir.dim) := by
  obtain ⟨p1, p2, p3, p4, p5, p6⟩ := hx.pairs
  set ps := x.irreps.zip x.chunks with hps
  have hcl : x.chunks.length = x.irreps.length := by
    rw [hx.chunks_eq]; exact comp_length hx.flags.lengths.2
  let g : MulIrrep × Chunk α → MulIrrep × Chunk (Fin f → α) :=
    fun mc => (⟨mc.1.mul / f, mc.1.ir⟩, mc.2.map (splitRows f (mc.1.mul / f) mc.1.ir.dim))
  have hsh : Shaped (ps.map g) := by
    intro q hq
    obtain ⟨⟨m, c⟩, hp, rfl⟩ := List.mem_map.mp hq
    cases c with
    | none => rfl
    | some c =>
      have := splitRows_shape f (m.mul / f) m.ir.dim c
      simp only [g, Option.map_some, shapeOk, this.1, beq_self_eq_true, Bool.true_and,
        List.all_eq_true, beq_iff_eq]
      exact this.2
  obtain ⟨y, y1, y2, y3, y4, y5, y6, y7, y8⟩ := fromChunks_pairs _ hsh
  have e1 : (ps.map g).map Prod.fst = x.irreps.map fun m => ⟨m.mul / f, m.ir⟩ := by
    rw [← p2, List.map_map, List.map_map]; rfl
  have e2 : (ps.map g).map Prod.snd =
      ps.map fun mc => mc.2.map (splitRows f (mc.1.mul / f) mc.1.ir.dim) := by
    rw [List.map_map]; rfl
  refine ⟨y, ?_, y2, by rw [y3, e1], by rw [y7, e2]⟩
  unfold mulToAxis
  rw [if_neg (by omega), if_neg]
  · simp only
    rw [← y1, e1, e2]
    congr 1
    rw [List.zip_map_left, List.map_map, ← hps]
    rfl
  · simp only [Bool.not_eq_true', Bool.not_eq_false, List.all_eq_true, beq_iff_eq]
    intro m hm
    exact Nat.mod_eq_zero_of_dvd (hdiv m hm)

theorem axisToMul_spec {f : Nat} {x : IArr (Fin f → α)} (hx : Inv x) :
    ∃ y, x.axisToMul = .ok y ∧ Inv y ∧ y.irreps = x.irreps.map (fun m => ⟨f * m.mul, m.ir⟩) ∧
      y.chunks = x.chunks.map fun c => c.map joinRows := by
  obtain ⟨p1, p2, p3, p4, p5, p6⟩ := hx.pairs
  set ps := x.irreps.zip x.chunks with hps
  let g : MulIrrep × Chunk (Fin f → α) → MulIrrep × Chunk α :=
    fun mc => (⟨f * mc.1.mul, mc.1.ir⟩, mc.2.map joinRows)
  have hsh : Shaped (ps.map g) := by
    intro q hq
    obtain ⟨⟨m, c⟩, hp, rfl⟩ := List.mem_map.mp hq
    have := p1 _ hp
    cases c with
    | none => rfl
    | some c =>
      simp only [shapeOk, Bool.and_eq_true, beq_iff_eq, List.all_eq_true] at this
      simp only [g, Option.map_some, shapeOk, joinRows_length, this.1, beq_self_eq_true,
        Bool.true_and, List.all_eq_true, beq_iff_eq]
      exact joinRows_shape c this.2
  obtain ⟨y, y1, y2, y3, y4, y5, y6, y7, y8⟩ := fromChunks_pairs _ hsh
  have e1 : (ps.map g).map Prod.fst = x.irreps.map fun m => ⟨f * m.mul, m.ir⟩ := by
    rw [← p2, List.map_map, List.map_map]; rfl
  have e2 : (ps.map g).map Prod.snd = x.chunks.map fun c => c.map joinRows := by
    rw [← p3, List.map_map, List.map_map]; rfl
  refine ⟨y, ?_, y2, by rw [y3, e1], by rw [y7, e2]⟩
  unfold axisToMul
  rw [← y1, e1, e2]

/-- The array of an `IArr` is determined by its irreps and chunks. -/
theorem Inv.array_of_chunks {x y : IArr α} (hx : Inv x) (hy : Inv y) (h1 : x.irreps = y.irreps)
    (h2 : x.chunks = y.chunks) : x.array = y.array ∧ x.zeroFlags = y.zeroFlags := by
  have a := hx.pairs
  have b := hy.pairs
  rw [h1, h2] at a
  exact ⟨a.2.2.2.2.2.symm.trans b.2.2.2.2.2, a.2.2.2.2.1.symm.trans b.2.2.2.2.1⟩

theorem atSetZero_spec {f : α → α} (hf : f 0 = 0) {x : IArr α} (hx : Inv x) :
    ∃ y, atSetZero f x = .ok y ∧ Inv y ∧ y.irreps = x.irreps ∧ y.array = x.array.map f :=
  ⟨_, make_nocache (hx.flags.map hf), inv_nocache (hx.flags.map hf), rfl, rfl⟩

theorem atUpdate_spec {f : α → β → α} (hf : f 0 0 = 0) {x : IArr α} {v : IArr β} (hx : Inv x)
    (hv : Inv v) (h : expand v.irreps = expand x.irreps) :
    ∃ y, atUpdate f x v = .ok y ∧ Inv y ∧ y.irreps = x.irreps ∧
      y.array = List.zipWith f x.array v.array := by
  obtain ⟨w, w1, w2, w3, w4⟩ := rechunk_spec hv h
  unfold atUpdate
  rw [if_neg (by simpa using ((Irreps.simplify_eq_iff _ _).mpr h).symm)]
  have hwf := w2.flags
  rw [w3] at hwf
  have hz := zipFlags (f := f) hf hx.flags hwf
  have : (do
      let v ← v.rechunk x.irreps
      make x.irreps (List.zipWith f x.array v.array)
        (some (List.zipWith (· && ·) x.zeroFlags v.zeroFlags)) none) =
      make x.irreps (List.zipWith f x.array w.array)
        (some (List.zipWith (· && ·) x.zeroFlags w.zeroFlags)) none := by
    rw [w1]; rfl
  rw [this]
  exact ⟨_, make_nocache hz, inv_nocache hz, rfl, by rw [← w4]⟩

end IArr
end E3nn
